import Verif.IList.Model
/-!
# Specification for C10/C11: lists as sequences of nodes

The abstract world: which addresses are lists, with which sequence of nodes; which addresses are
initialised nodes in no list; the owner of every node.
-/
namespace Arax.IList

structure World where
  /-- contents of the list at an address, first node first -/
  cont  : Nat → Option (List Nat)
  /-- initialised nodes that are in no list -/
  loose : Nat → Prop
  owner : Nat → Nat

def World.empty : World := { cont := fun _ => none, loose := fun _ => False, owner := fun _ => 0 }

/-- The address is not (part of) anything. -/
def World.Unused (w : World) (a : Nat) : Prop :=
  w.cont a = none ∧ ¬ w.loose a ∧ ∀ l ns, w.cont l = some ns → a ∉ ns

def World.setCont (w : World) (l : Nat) (ns : List Nat) : Nat → Option (List Nat) :=
  fun x => if x = l then some ns else w.cont x

/-- Legal calls and their effect: `SpecStep w op r w'` — in world `w` the call `op` is legal, returns
`r` and leads to `w'`. -/
inductive SpecStep (w : World) : Op → Nat → World → Prop where
  | initList (l) : l ≠ 0 → w.Unused l → SpecStep w (.initList l) 0
      { w with cont := w.setCont l [], owner := fun x => if x = l then l else w.owner x }
  | initNode (n o) : n ≠ 0 → w.Unused n → SpecStep w (.initNode n o) 0
      { w with loose := fun x => x = n ∨ w.loose x, owner := fun x => if x = n then o else w.owner x }
  | add (l n ns) : w.cont l = some ns → w.loose n → SpecStep w (.add l n) 0
      { w with cont := w.setCont l (n :: ns), loose := fun x => x ≠ n ∧ w.loose x }
  | del (l n xs ys) : w.cont l = some (xs ++ n :: ys) → SpecStep w (.del l n) n
      { w with cont := w.setCont l (xs ++ ys), loose := fun x => x = n ∨ w.loose x }
  | popHeadNil (l) : w.cont l = some [] → SpecStep w (.popHead l) 0 w
  | popHead (l n ns) : w.cont l = some (n :: ns) → SpecStep w (.popHead l) n
      { w with cont := w.setCont l ns, loose := fun x => x = n ∨ w.loose x }
  | popTailNil (l) : w.cont l = some [] → SpecStep w (.popTail l) 0 w
  | popTail (l n ns) : w.cont l = some (ns ++ [n]) → SpecStep w (.popTail l) n
      { w with cont := w.setCont l ns, loose := fun x => x = n ∨ w.loose x }

/-- A heap and a world reached together by the same legal calls, starting from any heap. Each call returned
the value the specification prescribes. -/
inductive Reach : Heap → World → Prop where
  | init (h0 : Heap) : Reach h0 World.empty
  | step {h w op r w'} : Reach h w → SpecStep w op r w' → Reach (step h op).1 w'

end Arax.IList
