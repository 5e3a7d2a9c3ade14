import Verif.Layout.Model
/-!
# Specification vocabulary for C38–C41
-/
namespace Arax.Layout

/-- A data object from the outside: where its block is, and the size and alignment it was created with. -/
structure Obj where
  addr : Nat
  size : Nat
  align : Nat
  deriving DecidableEq

/-- Memory plus the live data objects, in list order. -/
structure St where
  mem : Mem
  live : List Obj

/-- One past the last byte of the block requested from the allocator (no wrap-around). -/
def Obj.blockEnd (L : Lay) (o : Obj) : Nat := o.addr + (L.hdr + (o.size + o.align + 8))

/-- Byte `x` belongs to the block of `o`. -/
def Obj.Has (L : Lay) (o : Obj) (x : Nat) : Prop := o.addr ≤ x ∧ x < o.blockEnd L

/-- `Reach L s`: `s` is reachable by creating data (in blocks that the allocator hands out: inside the
segment and disjoint from every live block; the block's old contents are arbitrary), storing any byte through a
buffer pointer returned by `arax_data_deref`, storing any byte outside all live data blocks, and
freeing data. -/
inductive Reach (L : Lay) : St → Prop where
  | init (m : Mem) : Reach L ⟨m, []⟩
  | create {s : St} {m1 m2 : Mem} {a size align : Nat} : Reach L s →
      L.hdr + (size + align + 8) < 2 ^ 64 →
      L.base ≤ a → a + allocSize L size align ≤ L.base + L.len →
      (∀ o ∈ s.live, ∀ x, ¬ (o.Has L x ∧ (⟨a, size, align⟩ : Obj).Has L x)) →
      (∀ x, ¬ (⟨a, size, align⟩ : Obj).Has L x → m1 x = s.mem x) →
      initAligned L m1 a size align = .ok m2 →
      Reach L ⟨m2, s.live ++ [⟨a, size, align⟩]⟩
  | userWrite {s : St} {o : Obj} {p x : Nat} {v : BitVec 8} : Reach L s → o ∈ s.live →
      deref L s.mem o.addr = .ok p → p ≤ x → x < p + o.size →
      Reach L ⟨writeByte s.mem x v, s.live⟩
  | otherWrite {s : St} {x : Nat} {v : BitVec 8} : Reach L s → (∀ o ∈ s.live, ¬ o.Has L x) →
      Reach L ⟨writeByte s.mem x v, s.live⟩
  | free {s : St} {o : Obj} : Reach L s → o ∈ s.live → Reach L ⟨s.mem, s.live.erase o⟩

end Arax.Layout
