import Verif.Exec.Model
/-!
# Specification for C47 and C48: tasks as atomic operations
-/
namespace Arax.Exec

/-- A whole handler in one go, on buffers `m` and host area `h`. -/
def run (io : List Nat) : Prog → Mem → Host → Mem × Host
  | .done, m, h => (m, h)
  | .read k off cont, m, h => run io (cont (rd io m k off)) m h
  | .write k off b next, m, h => run io next (wr io m k off b) h
  | .out off b next, m, h => run io next m (upd h off b)

/-- The effect of a task on the buffers. -/
def effect (t : Task) (m : Mem) : Mem := (run t.io t.prog m (fun _ => 0)).1

/-- What a task leaves in its host area when it runs on buffers `m`. -/
def output (t : Task) (m : Mem) : Host := (run t.io t.prog m (fun _ => 0)).2

/-- The tasks of a list one after the other. -/
def seqRun (task : Nat → Task) : List Nat → Mem → Mem
  | [], m => m
  | t :: ts, m => seqRun task ts (effect (task t) m)

/-- The tasks of virtual accelerator `v` among `l`, in order. -/
def ofVac (task : Nat → Task) (v : Nat) (l : List Nat) : List Nat := l.filter (fun t => decide ((task t).vac = v))

/-- The tasks of physical accelerator `p` among `l`, in order. -/
def ofPhys (ph : Nat → Nat) (task : Nat → Task) (p : Nat) (l : List Nat) : List Nat := l.filter (fun t => decide (ph (task t).vac = p))

/-- No data object is used both by a task of `v` and by a task of another virtual accelerator. -/
def Exclusive (task : Nat → Task) (v : Nat) (l : List Nat) : Prop :=
  ∀ t ∈ l, ∀ u ∈ l, (task t).vac = v → (task u).vac ≠ v → ∀ d, d ∈ (task t).io → d ∉ (task u).io

end Arax.Exec
