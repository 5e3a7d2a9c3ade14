import Verif.Stream.Model

/-!
# What device execution is compared with (C81): the tasks one after the other, nothing in flight

Contents of data objects instead of addresses: `c d off` is byte `off` of data object `d`.
-/
namespace Arax.Stream

/-- All a task does to the contents of its data objects and to its own host area, at once. Specification of an operation; the code: `Prog.step`. -/
def Prog.run (io : List Nat) : Prog → (Nat → Nat → Nat) → (Nat → Nat) → (Nat → Nat → Nat) × (Nat → Nat)
  | .done, c, h => (c, h)
  | .rd k off f, c, h => (f (c (arg io k) off)).run io c h
  | .wr k off b q, c, h => q.run io (upd c (arg io k) (upd (c (arg io k)) off b)) h
  | .hrd off f, c, h => (f (h off)).run io c h
  | .hwr off b q, c, h => q.run io c (upd h off b)

/-- Contents, and the host areas of the tasks that have run. (Specification.) -/
structure Seq where
  c : Nat → Nat → Nat
  h : Nat → Nat → Nat

/-- One task, from start to end. (Specification.) -/
def Seq.one (cf : Conf) (x : Seq) (task : Nat → Task) (t : Nat) : Seq :=
  let r := ((cf.prog (task t).req).getD .done).run (task t).req.io x.c (task t).req.host
  ⟨r.1, upd x.h t r.2⟩

/-- One task after the other. (Specification.) -/
def seq (cf : Conf) (task : Nat → Task) (l : List Nat) (ini : Nat → Nat → Nat) : Seq := l.foldl (fun x t => x.one cf task t) ⟨ini, fun _ _ => 0⟩

/-- On every path the program stays within its `len` buffers of sizes `sz`. (Specification.) -/
def Prog.Fits (len : Nat) (sz : Nat → Nat) : Prog → Prop
  | .done => True
  | .rd k off f => k < len ∧ off < sz k ∧ ∀ b, (f b).Fits len sz
  | .wr k off _ q => k < len ∧ off < sz k ∧ q.Fits len sz
  | .hrd _ f => ∀ b, (f b).Fits len sz
  | .hwr _ _ q => q.Fits len sz

/-- The program does not touch the host area. (Specification.) -/
def Prog.NoHost : Prog → Prop
  | .done => True
  | .rd _ _ f => ∀ b, (f b).NoHost
  | .wr _ _ _ q => q.NoHost
  | .hrd _ _ => False
  | .hwr _ _ _ => False

/-- A request the user may make: `memset` within the data object, `memcpy` from and to places in the data objects (how much is checked by the code), kernels that stay within their data objects and wait for the stream if they use the host area.
(Specification; AraxLibUtilsMemOps.h:5-21.) -/
def Req.Legal (cf : Conf) : Req → Prop
  | .set _ _ => True
  | .get _ => True
  | .memset d off _ n => off + n ≤ cf.size d
  | .memcpy a b so dof _ _ => so ≤ cf.size a ∧ dof ≤ cf.size b
  | .kernel io q _ w => q.Fits io.length (fun k => cf.dsz (arg io k)) ∧ (w = true ∨ q.NoHost)

/-- All requests of a history are legal. (Specification.) -/
def AllLegal (cf : Conf) (h : List Act) : Prop := ∀ v r, Act.issue v r ∈ h → r.Legal cf

/-- Sizes are values of `size_t`. (C.) -/
def Conf.Sane (cf : Conf) : Prop := ∀ d, cf.size d < 2 ^ 64

end Arax.Stream
