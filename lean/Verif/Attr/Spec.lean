import Verif.Attr.Model
/-!
# Specification of C87: objects with attributes

No memory and no layout, except for what the allocator and the compiler are trusted for: blocks of live objects do not overlap (C73), and a store of other code hits no attribute.
-/
namespace Arax.Attr
open Arax.Layout (Mem readLE writeLE)

/-- A physical accelerator: type, number of changes of its set of virtual accelerators.  A virtual one: type and the attributes; `phys` is 0 without physical accelerator. -/
inductive Obj where
  | phys (type rev : Nat)
  | virt (type ordering cid priority md phys : Nat)

/-- The live objects by address. -/
abbrev Abs := Nat → Option Obj

def Abs.set (s : Abs) (a : Nat) (o : Option Obj) : Abs := fun x => if x = a then o else s x

/-- Another change of the virtual accelerators of `p`. -/
def Abs.bump (s : Abs) (p : Nat) : Abs := fun x => if x = p then (match s p with | some (.phys t r) => some (.phys t (r + 1)) | y => y) else s x

/-- What the calls mean. -/
inductive Step : Abs → Op → Abs → Prop where
  | newPhys {s a t} : Step s (.newPhys a t) (s.set a (some (.phys t 0)))
  | orphan {s a t} : Step s (.newVirt a t 0) (s.set a (some (.virt t 0 (2 ^ 64 - 1) (2 ^ 64 - 1) 0 0)))
  | newVirt {s a t p} : p ≠ 0 → Step s (.newVirt a t p) ((s.set a (some (.virt t 0 (2 ^ 64 - 1) (2 ^ 64 - 1) 0 p))).bump p)
  | cid {s : Abs} {a v t o c q m p} : s a = some (.virt t o c q m p) → Step s (.cid a v) (s.set a (some (.virt t o v q m p)))
  | priority {s : Abs} {a v t o c q m p} : s a = some (.virt t o c q m p) → Step s (.priority a v) (s.set a (some (.virt t o c v m p)))
  | ordering {s : Abs} {a v t o c q m p} : s a = some (.virt t o c q m p) → Step s (.ordering a v) (s.set a (some (.virt t v c q m p)))
  | md {s : Abs} {a v t o c q m p} : s a = some (.virt t o c q m p) → Step s (.md a v) (s.set a (some (.virt t o c q v p)))
  | add {s : Abs} {v p t o c q m} : s v = some (.virt t o c q m 0) → Step s (.add p v) ((s.set v (some (.virt t o c q m p))).bump p)
  | again {s : Abs} {v p t o c q m} : s v = some (.virt t o c q m p) → Step s (.add p v) s
  | del {s : Abs} {v p t o c q m} : s v = some (.virt t o c q m p) → Step s (.del p v) ((s.set v (some (.virt t o c q m 0))).bump p)
  | free {s a} : Step s (.free a) (s.set a none)
  | other {s x b} : Step s (.other x b) s

/-- Bytes of the struct of an object. -/
def Obj.size (k : K) : Obj → Nat
  | .phys .. => Attr.size (af k)
  | .virt .. => Attr.size (vf k)

/-- The block at `a` of `n` bytes is fresh memory of the process. -/
def Fresh (k : K) (s : Abs) (a n : Nat) : Prop := 0 < a ∧ a + n ≤ 2 ^ 64 ∧ ∀ b o, s b = some o → a + n ≤ b ∨ b + o.size k ≤ a

/-- Byte `x` of object `o` belongs to an attribute: the object's type, or a member that the calls of this file set. -/
def IsAttr (k : K) (o : Obj) (x : Nat) : Prop :=
  (off of 3 0 ≤ x ∧ x < off of 3 0 + 4) ∨
  match o with
  | .phys .. => ∃ i ∈ [1, 2, 6], off (af k) i 0 ≤ x ∧ x < off (af k) i 0 + sz (af k) i
  | .virt .. => ∃ i ∈ [1, 2, 5, 6, 7, 8], off (vf k) i 0 ≤ x ∧ x < off (vf k) i 0 + sz (vf k) i

/-- Calls the library allows: on live objects of the right kind, with values of the C types; blocks are fresh; a physical accelerator goes after its virtual ones; other stores hit no attribute. -/
def Legal (k : K) (s : Abs) : Op → Prop
  | .newPhys a t => Fresh k s a (size (af k)) ∧ t < 2 ^ 32
  | .newVirt a t p => Fresh k s a (size (vf k)) ∧ t < 2 ^ 32 ∧ (p = 0 ∨ ∃ t r, s p = some (.phys t r))
  | .cid _ v => v < 2 ^ 64
  | .priority _ v => v < 2 ^ 64
  | .ordering _ v => v < 2 ^ 32
  | .md _ v => v < 2 ^ 64
  | .add p _ => ∃ t r, s p = some (.phys t r)
  | .del p _ => ∃ t r, s p = some (.phys t r)
  | .free a => ∀ t r, s a = some (.phys t r) → ∀ v t o c q m p, s v = some (.virt t o c q m p) → p ≠ a
  | .other x _ => ∀ a o, s a = some o → a ≤ x → ¬ IsAttr k o (x - a)

/-- Memory and objects after a history of legal calls. -/
inductive Reach (k : K) : Mem → Abs → Prop where
  | init {m} : Reach k m (fun _ => none)
  | step {m s op m' s'} : Reach k m s → Legal k s op → Step s op s' → run k m op = some m' → Reach k m' s'

/-- Sizes that occur. -/
structure K.Ok (k : K) : Prop where
  spin : 0 < k.spin
  al : 0 < k.condAl

end Arax.Attr
