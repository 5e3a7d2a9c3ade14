import Verif.Object.Model
/-!
# Specification vocabulary for C25–C27 and C50

`mentions k o`: how often an object of contents `k` refers to the object `o` (a physical accelerator to its own queue, a data to its
accelerator, a task to its arguments and its accelerator). `holders s o`: the number of such references in all live objects.
-/
namespace Arax.Object

def mentions (k : Kind) (o : Nat) : Nat :=
  match k with
  | .phys f => if f = some o then 1 else 0
  | .vaccel _ => 0
  | .proc _ => 0
  | .data a => if a = some o then 1 else 0
  | .task io a _ => io.count o + if a = some o then 1 else 0

/-- Sum of `f 0 … f (n-1)`. -/
def sumTo (f : Nat → Nat) : Nat → Nat
  | 0 => 0
  | n + 1 => sumTo f n + f n

def holders (s : St) (o : Nat) : Nat :=
  sumTo (fun j => match s.obj j with | none => 0 | some y => mentions y.kind o) s.next

/-- The sum of the sizes of the live objects. -/
def liveSize (s : St) : Nat := sumTo (fun j => match s.obj j with | none => 0 | some y => y.size) s.next

/-- The number of live objects. -/
def liveCount (s : St) : Nat := sumTo (fun j => match s.obj j with | none => 0 | some _ => 1) s.next

/-- `o` is a live object of type `t`. -/
def isTy (s : St) (o : Nat) (t : Ty) : Prop := ∃ x, s.obj o = some x ∧ x.kind.ty = t

/-- What a correct client does: it passes live objects of the right type and drops only references it holds. Three clauses exclude calls on which
the code itself goes wrong (each has its own counterexample theorem): destroying a physical accelerator while another queue is assigned to it or its own
queue is referenced elsewhere (`refDec`), and re-assigning a data with `arax_data_set_accel` (`setAccel`). -/
def Legal (s : St) : Op → Prop
  | .newPhys => True
  | .newVaccel none => True
  | .newVaccel (some a) => isTy s a .phys
  | .newProc _ => True
  | .newData _ _ => True
  | .issue v p ins outs _ => isTy s v .vaccel ∧ isTy s p .proc ∧ ∀ d ∈ ins ++ outs, (s.obj d).isSome
  | .refInc o => (s.obj o).isSome
  | .refDec o => 1 ≤ s.user o ∧ ∀ x f, s.obj o = some x → x.kind = .phys f → x.refs = 1 →
      (∀ v y, s.obj v = some y → y.kind = .vaccel (some o) → f = some v ∧ y.refs = 1)
  | .setAssign d v => isTy s d .data ∧ isTy s v .vaccel
  | .setAccel d v => isTy s v .vaccel ∧ ∃ x acc, s.obj d = some x ∧ x.kind = .data acc ∧ (acc = none ∨ acc = some v)
  | .assign v a => isTy s v .vaccel ∧ isTy s a .phys
  | .unassign v => ∃ x a, s.obj v = some x ∧ x.kind = .vaccel (some a)

/-- The states reached by legal histories of API calls. -/
inductive Reach (c : Conf) : St → Prop where
  | init : Reach c (init c)
  | step {s s' : St} {allocOk : Bool} {op : Op} : Reach c s → Legal s op → step c s allocOk op = .ok s' → Reach c s'

end Arax.Object
