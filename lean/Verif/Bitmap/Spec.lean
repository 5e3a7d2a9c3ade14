import Verif.Bitmap.Model
/-!
# Specification vocabulary for the page bitmap (C01–C06)

Only three notions are needed to read the property theorems: the value of one bit, which indices an
allocation owns, and which bitmaps (with which live allocations) a history of calls can produce.
-/
namespace Arax.Bitmap

/-- Bit `i` of the bitmap's memory (`true` = allocated), chunks of 64 bits, least significant bit
first (/repo/src/utils/bitmap.c:5-23).  Defined for *every* `i`, also beyond the bitmap's own chunks. -/
def bit (b : Bmp) (i : Nat) : Bool := (b.mem (i / 64)).getLsbD (i % 64)

/-- `Reach mem0 size b live`: bitmap `b` is reachable from `init mem0 size` by a history of calls in which
only live allocations of at least one bit are freed, and `live` lists the allocations (start, length)
returned and not yet freed. -/
inductive Reach (mem0 : Nat → BitVec 64) (size : Nat) : Bmp → List (Nat × Nat) → Prop where
  | init : Reach mem0 size (init mem0 size) []
  | allocOk {b b' live n s} : Reach mem0 size b live → alloc b n = (b', some s) →
      Reach mem0 size b' ((s, n) :: live)
  | allocFail {b b' live n} : Reach mem0 size b live → alloc b n = (b', none) → Reach mem0 size b' live
  | free {b b' live s n} : Reach mem0 size b live → (s, n) ∈ live → 0 < n → free b s n = .ok b' →
      Reach mem0 size b' (live.erase (s, n))

/-- Index `i` belongs to allocation `a`. -/
def Owns (a : Nat × Nat) (i : Nat) : Prop := a.1 ≤ i ∧ i < a.1 + a.2

end Arax.Bitmap
