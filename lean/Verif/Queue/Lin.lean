import Verif.Queue.ConcProps
/-!
# C84: programs cannot tell the concurrent queue from an atomic one

Any program (any number of threads, any shared and private state of their own) that uses one queue through `utils_queue_push`
and `utils_queue_pop`.  On the one side the queue of `/repo/src/utils/queue.c` at the level of single memory accesses
(`Conc.step`), on the other side an atomic bounded FIFO list.
-/
namespace Arax.Queue.Lin
open Conc

/-! ## Specification -/

/-- A program around one queue; `γ` is all of its state (shared and private, of all threads). -/
structure Client (γ : Type) where
  /-- the call that thread `i` is about to make, if it is about to make one -/
  want : γ → Nat → Option Cmd
  /-- the effect of making the call on the program (a history, a program counter) -/
  call : γ → Nat → Cmd → γ
  /-- the effect of the returned pointer (0 is NULL) on the program -/
  ret : γ → Nat → Nat → γ
  /-- everything else that the threads do -/
  own : γ → γ → Prop

/-- A thread and the atomic queue: not in a call; in a call that has not taken effect (`n` pops had succeeded when it was made);
in a call that has taken effect with this result. -/
inductive ATh where
  | out
  | called (c : Cmd) (n : Nat)
  | done (r : Nat)

/-- The program with an atomic queue: `q` holds the elements, oldest first; `pops` counts the successful pops. -/
structure ASt (γ : Type) where
  g : γ
  q : List Nat
  pops : Nat
  th : Nat → ATh

/-- Model bookkeeping: thread `i` goes to `p`. -/
def ASt.goto {γ : Type} (a : ASt γ) (i : Nat) (p : ATh) : ASt γ := { a with th := fun j => if j = i then p else a.th j }

/-- Steps of the program with an atomic queue of capacity `cap`.  A push takes effect if there is room and returns its argument, else it
returns NULL; a pop removes and returns the oldest element, or returns NULL if there is none.  A pop may also return NULL if
another pop has succeeded since it was called (`spurious`; only if `sp`). -/
inductive AStep {γ : Type} (C : Client γ) (cap : Nat) (sp : Bool) : ASt γ → ASt γ → Prop where
  | own {a g'} : C.own a.g g' → AStep C cap sp a { a with g := g' }
  | call {a : ASt γ} {i c} : a.th i = .out → C.want a.g i = some c →
      AStep C cap sp a ({ a with g := C.call a.g i c }.goto i (.called c a.pops))
  | push {a : ASt γ} {i v n} : a.th i = .called (.push v) n → a.q.length < cap →
      AStep C cap sp a ({ a with q := a.q ++ [v] }.goto i (.done v))
  | full {a : ASt γ} {i v n} : a.th i = .called (.push v) n → a.q.length = cap → AStep C cap sp a (a.goto i (.done 0))
  | pop {a : ASt γ} {i n v q} : a.th i = .called .pop n → a.q = v :: q →
      AStep C cap sp a ({ a with q := q, pops := a.pops + 1 }.goto i (.done v))
  | empty {a : ASt γ} {i n} : a.th i = .called .pop n → a.q = [] → AStep C cap sp a (a.goto i (.done 0))
  | spurious {a : ASt γ} {i n} : sp = true → a.th i = .called .pop n → n < a.pops → AStep C cap sp a (a.goto i (.done 0))
  | ret {a : ASt γ} {i r} : a.th i = .done r → AStep C cap sp a ({ a with g := C.ret a.g i r }.goto i .out)

/-- The program starts in `g0` with an empty queue. -/
def ainit {γ : Type} (g0 : γ) : ASt γ := { g := g0, q := [], pops := 0, th := fun _ => .out }

/-- What the program can reach with an atomic queue. -/
inductive AReach {γ : Type} (C : Client γ) (cap : Nat) (sp : Bool) (g0 : γ) : ASt γ → Prop where
  | init : AReach C cap sp g0 (ainit g0)
  | step {a b} : AReach C cap sp g0 a → AStep C cap sp a b → AReach C cap sp g0 b

/-! ## The program with the queue of queue.c -/

/-- The program, the queue, and for each thread the variable `data` of `utils_queue_push` (queue.c:89, 109, 123). -/
structure CSt (γ : Type) where
  g : γ
  s : St
  data : Nat → Nat

/-- What a call that is at its last instruction returns: 0 for an empty queue (queue.c:77), the entry or 0 (queue.c:81-83), or `data`
(queue.c:123). -/
def result {γ : Type} (c : CSt γ) (i : Nat) : Nat :=
  match c.s.pc i with
  | .popC t _ v => if c.s.top = t then v else 0
  | .pushU => c.data i
  | _ => 0

/-- The local variable `data` after the next instruction of thread `i`: set to 0 when the queue is full (queue.c:108-109). -/
def dataNext {γ : Type} (cap : Nat) (c : CSt γ) (i : Nat) : Nat :=
  match c.s.pc i with
  | .pushRT _ b => if diff16 b c.s.top = cap then 0 else c.data i
  | _ => c.data i

/-- The argument of a call. queue.c:63, 89. -/
def arg : Cmd → Nat
  | .push v => v
  | .pop => 0

/-- Steps of the program with the queue of queue.c: its own steps, calls (with the first instruction of the queue), and single
instructions of the queue (queue.c:63-124); the last one gives the result to the program.  If `win`, then, as in `Conc.ReachW`, no pop is
overtaken by 65536 others. -/
inductive CStep {γ : Type} (C : Client γ) (cap : Nat) (win : Bool) : CSt γ → CSt γ → Prop where
  | own {c g'} : C.own c.g g' → CStep C cap win c { c with g := g' }
  | call {c : CSt γ} {i x} : c.s.pc i = .idle → C.want c.g i = some x →
      CStep C cap win c { g := C.call c.g i x, s := Conc.step cap c.s i x, data := fun j => if j = i then arg x else c.data j }
  | instr {c : CSt γ} {i} : c.s.pc i ≠ .idle → (win = true → WindowAt c.s i) → (Conc.step cap c.s i .pop).pc i ≠ .idle →
      CStep C cap win c { c with s := Conc.step cap c.s i .pop, data := fun j => if j = i then dataNext cap c i else c.data j }
  | last {c : CSt γ} {i} : c.s.pc i ≠ .idle → (win = true → WindowAt c.s i) → (Conc.step cap c.s i .pop).pc i = .idle →
      CStep C cap win c { c with g := C.ret c.g i (result c i), s := Conc.step cap c.s i .pop }

/-- After `utils_queue_init` (queue.c:39-49). -/
def cinit {γ : Type} (g0 : γ) : CSt γ := { g := g0, s := Conc.init, data := fun _ => 0 }

/-- What the program can reach. (No code of its own.) -/
inductive CReach {γ : Type} (C : Client γ) (cap : Nat) (win : Bool) (g0 : γ) : CSt γ → Prop where
  | init : CReach C cap win g0 (cinit g0)
  | step {a b} : CReach C cap win g0 a → CStep C cap win a b → CReach C cap win g0 b

/-- Thread `i` is in `utils_queue_pop` (between its first and its last memory access). (No code of its own.) -/
def inPop : Pc → Bool
  | .popB _ _ | .popE _ _ | .popC _ _ _ => true
  | _ => false

/-- The program never lets two threads be in `utils_queue_pop` at once. (No code of its own.) -/
def OnePopper {γ : Type} (C : Client γ) (cap : Nat) (g0 : γ) : Prop :=
  ∀ c, CReach C cap false g0 c → ∀ i j, inPop (c.s.pc i) = true → inPop (c.s.pc j) = true → i = j

end Arax.Queue.Lin
