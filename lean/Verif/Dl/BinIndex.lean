import Verif.Dl.Links
/-!
# Bin indices and bit maps
-/
namespace Arax.Dl

theorem treeIndex_lt (n : Nat) : treeIndex n < 32 := by
  unfold treeIndex
  simp only
  split
  · omega
  · split
    · omega
    · rename_i h1 h2
      have : Nat.log2 (n / 256 % 2 ^ 32) < 16 := (Nat.log2_lt h1).mpr (by omega)
      omega

/-- The sizes of a bin: at least the least size of the bin, and below that of the next one. -/
theorem treeIndex_size {n : Nat} (h : 256 ≤ n) (h' : n < 2 ^ 40) :
    2 + treeIndex n % 2 ≤ n / 2 ^ (treeIndex n / 2 + 7) ∧ (treeIndex n ≠ 31 → n / 2 ^ (treeIndex n / 2 + 7) = 2 + treeIndex n % 2) := by
  have hx : n / 256 % 2 ^ 32 = n / 256 := Nat.mod_eq_of_lt (by omega)
  have hx0 : n / 256 ≠ 0 := by omega
  unfold treeIndex
  simp only [hx, hx0, if_false]
  by_cases hb : n / 256 > 65535
  · rw [if_pos hb]
    refine ⟨?_, fun e => absurd rfl e⟩
    have : 65536 * 256 ≤ n := by omega
    show 3 ≤ n / 2 ^ 22
    omega
  · rw [if_neg hb]
    have h1 := Nat.log2_self_le hx0
    have h2 := (Nat.log2_lt (k := Nat.log2 (n / 256) + 1) hx0).mp (by omega)
    generalize Nat.log2 (n / 256) = K at h1 h2
    have e1 : n / 2 ^ (K + 7) = 2 + n / 2 ^ (K + 7) % 2 := by
      have p7 : 2 ^ (K + 7) = 2 ^ K * 128 := by rw [Nat.pow_add]
      have p1 : 2 ^ (K + 1) = 2 ^ K * 2 := by rw [Nat.pow_add]
      have lo : 2 ≤ n / 2 ^ (K + 7) := by
        rw [Nat.le_div_iff_mul_le (Nat.pow_pos (by decide)), p7]; omega
      have hi : n / 2 ^ (K + 7) < 4 := by
        rw [Nat.div_lt_iff_lt_mul (Nat.pow_pos (by decide)), p7]; omega
      omega
    have e2 : (2 * K + n / 2 ^ (K + 7) % 2) / 2 = K := by omega
    have e3 : (2 * K + n / 2 ^ (K + 7) % 2) % 2 = n / 2 ^ (K + 7) % 2 := by omega
    rw [e2, e3]
    exact ⟨Nat.le_of_eq e1.symm, fun _ => e1⟩

/-- Larger bins have larger chunks. -/
theorem treeIndex_mono {n m : Nat} (hn : 256 ≤ n) (hn' : n < 2 ^ 40) (hm : 256 ≤ m) (hm' : m < 2 ^ 40) (h : treeIndex n < treeIndex m) : n < m := by
  have a := (treeIndex_size hn hn').2 (by have := treeIndex_lt m; omega)
  have b := (treeIndex_size hm hm').1
  generalize treeIndex n = i at *
  generalize treeIndex m = j at *
  rw [Nat.le_div_iff_mul_le (Nat.pow_pos (by decide))] at b
  have a' : n < (3 + i % 2) * 2 ^ (i / 2 + 7) := by
    rw [← Nat.div_lt_iff_lt_mul (Nat.pow_pos (by decide)), a]; omega
  by_cases e : i / 2 = j / 2
  · rw [e] at a'
    have : i % 2 = 0 ∧ j % 2 = 1 := by omega
    rw [this.1] at a'; rw [this.2] at b
    exact Nat.lt_of_lt_of_le a' b
  · have hp : 2 ^ (i / 2 + 7) * 2 ≤ 2 ^ (j / 2 + 7) := by
      rw [← Nat.pow_succ]; exact Nat.pow_le_pow_right (by decide) (by omega)
    have : (3 + i % 2) * 2 ^ (i / 2 + 7) ≤ 4 * 2 ^ (i / 2 + 7) := Nat.mul_le_mul_right _ (by omega)
    have : 2 * 2 ^ (j / 2 + 7) ≤ (2 + j % 2) * 2 ^ (j / 2 + 7) := Nat.mul_le_mul_right _ (by omega)
    omega

/-- The number of bits the tree of bin `i` tells apart. (No code of its own.) -/
def treeLevel (i : Nat) : Nat := if i = 31 then 64 else i / 2 + 7
/-- The bits above those. (No code of its own.) -/
def treeHigh (i : Nat) : Nat := if i = 31 then 0 else 2 + i % 2

theorem treeLevel_le (i : Nat) (h : i < 32) : treeLevel i ≤ 64 := by unfold treeLevel; split <;> omega

theorem tree_high {n : Nat} (h : 256 ≤ n) (h' : n < 2 ^ 40) : n / 2 ^ treeLevel (treeIndex n) = treeHigh (treeIndex n) := by
  unfold treeLevel treeHigh
  by_cases e : treeIndex n = 31
  · rw [if_pos e, if_pos e]
    exact Nat.div_eq_of_lt (by omega)
  · rw [if_neg e, if_neg e]
    exact (treeIndex_size h h').2 e

theorem sizeBits_eq (n : Nat) {i : Nat} (h : i < 32) : sizeBits n i = n * 2 ^ (64 - treeLevel i) % 2 ^ 64 := by
  unfold sizeBits treeShift treeLevel
  by_cases e : i = 31
  · simp [e]
  · simp only [e, if_false]
    congr 3
    omega

theorem idx2bit_get {i : Nat} (h : i < 32) (j : Nat) : (idx2bit i).getLsbD j = decide (j = i) := by
  unfold idx2bit
  rw [BitVec.getLsbD_shiftLeft, BitVec.getLsbD_one]
  by_cases e : j = i
  · subst e; simp [h]
  · simp only [e, decide_false]
    by_cases h1 : j < i
    · simp [h1]
    · have : j - i ≠ 0 := by omega
      simp [this]

theorem mark_get {m : BitVec 32} {i : Nat} (h : i < 32) (j : Nat) : (m ||| idx2bit i).getLsbD j = (m.getLsbD j || decide (j = i)) := by
  rw [BitVec.getLsbD_or, idx2bit_get h]

theorem clear_get {m : BitVec 32} {i : Nat} (h : i < 32) (j : Nat) : (m &&& ~~~idx2bit i).getLsbD j = (m.getLsbD j && !decide (j = i)) := by
  rw [BitVec.getLsbD_and, BitVec.getLsbD_not, idx2bit_get h]
  by_cases e : j < 32
  · simp [e]
  · rw [BitVec.getLsbD_of_ge m j (by omega)]; simp

theorem leastBit_get (x : BitVec 32) (i : Nat) : (leastBit x).getLsbD i = (x.getLsbD i && !decide (∃ j < i, x.getLsbD j = true)) := by
  unfold leastBit
  rw [BitVec.getLsbD_and, BitVec.getLsbD_neg]
  by_cases e : i < 32
  · cases h : x.getLsbD i <;> simp [e]
  · rw [BitVec.getLsbD_of_ge x i (by omega)]; simp

theorem exists_bit {x : BitVec 32} (h : x ≠ 0) : ∃ i, i < 32 ∧ x.getLsbD i = true := by
  by_cases hh : ∃ i, i < 32 ∧ x.getLsbD i = true
  · exact hh
  · exfalso
    apply h
    apply BitVec.eq_of_getLsbD_eq
    intro i hi
    rw [show (0 : BitVec 32).getLsbD i = false from BitVec.getLsbD_zero]
    cases e : x.getLsbD i with
    | false => rfl
    | true => exact absurd ⟨i, hi, e⟩ hh

/-- The index of the lowest bit of a map. -/
theorem bit2idx_least {x : BitVec 32} (h : x ≠ 0) : bit2idx (leastBit x) < 32 ∧ x.getLsbD (bit2idx (leastBit x)) = true ∧ ∀ j < bit2idx (leastBit x), x.getLsbD j = false := by
  obtain ⟨i0, hi0, hx0⟩ := exists_bit h
  -- the lowest one
  have hmin : ∀ k, k < 32 → x.getLsbD k = true → ∃ i, i ≤ k ∧ x.getLsbD i = true ∧ ∀ j < i, x.getLsbD j = false := by
    intro k
    induction k using Nat.strongRecOn with
    | ind k ih =>
      intro hk hx
      by_cases hh : ∃ j < k, x.getLsbD j = true
      · obtain ⟨j, hj, hxj⟩ := hh
        obtain ⟨i, h1, h2, h3⟩ := ih j hj (by omega) hxj
        exact ⟨i, by omega, h2, h3⟩
      · refine ⟨k, Nat.le_refl _, hx, fun j hj => ?_⟩
        cases e : x.getLsbD j with
        | false => rfl
        | true => exact absurd ⟨j, hj, e⟩ hh
  obtain ⟨i, h1, h2, h3⟩ := hmin i0 hi0 hx0
  have hib : bit2idx (leastBit x) = i := by
    unfold bit2idx
    cases hf : (List.range 32).find? fun i => (leastBit x).getLsbD i with
    | none =>
      rw [List.find?_eq_none] at hf
      have := hf i (List.mem_range.mpr (by omega))
      rw [leastBit_get, h2] at this
      exfalso
      apply this
      have : ¬ ∃ j < i, x.getLsbD j = true := fun ⟨j, hj, e⟩ => by rw [h3 j hj] at e; cases e
      simp [this]
    | some k =>
      have hk := List.find?_some hf
      rw [leastBit_get] at hk
      simp only [Bool.and_eq_true, Bool.not_eq_true', decide_eq_false_iff_not] at hk
      show k = i
      rcases Nat.lt_trichotomy k i with hlt | e | hgt
      · rw [h3 k hlt] at hk; cases hk.1
      · exact e
      · exact absurd ⟨i, hgt, h2⟩ hk.2
  rw [hib]
  exact ⟨by omega, h2, h3⟩

theorem leftBits_get {i : Nat} (hi : i < 32) (j : Nat) : (leftBits (idx2bit i)).getLsbD j = (decide (j < 32) && decide (i < j)) := by
  unfold leftBits
  have hy : ∀ k, (idx2bit i <<< 1).getLsbD k = (decide (k < 32) && decide (k = i + 1)) := by
    intro k
    rw [BitVec.getLsbD_shiftLeft, idx2bit_get hi]
    by_cases hk : k < 32
    · by_cases h0 : k = 0
      · subst h0; simp
      · have : (k - 1 = i) = (k = i + 1) := by apply propext; omega
        have h1 : ¬ k < 1 := by omega
        simp [hk, h1, this]
    · simp [hk]
  rw [BitVec.getLsbD_or, BitVec.getLsbD_neg, hy]
  by_cases hj : j < 32
  · simp only [hj, decide_true, Bool.true_and]
    have hex : (∃ k < j, (idx2bit i <<< 1).getLsbD k = true) ↔ i + 1 < j := by
      constructor
      · rintro ⟨k, hk, e⟩
        rw [hy] at e
        simp only [Bool.and_eq_true, decide_eq_true_eq] at e
        omega
      · intro h
        exact ⟨i + 1, h, by rw [hy]; simp; omega⟩
    simp only [hex]
    rcases Nat.lt_trichotomy j (i + 1) with h | h | h
    · have a1 : j ≠ i + 1 := by omega
      have a2 : ¬ i + 1 < j := by omega
      have a3 : ¬ i < j := by omega
      simp [a1, a2, a3]
    · have a3 : i < j := by omega
      simp [h]
    · have a1 : j ≠ i + 1 := by omega
      have a3 : i < j := by omega
      simp [h, a1, a3]
  · simp [hj]

/-- What `exactBin` finds. -/
theorem exactBin_eq (l : Links) {nb : Nat} (h : nb / 8 < 31) :
    l.exactBin nb = if l.smallmap.getLsbD (nb / 8) then some (nb / 8) else if l.smallmap.getLsbD (nb / 8 + 1) then some (nb / 8 + 1) else none := by
  unfold Links.exactBin
  simp only
  generalize hx : l.smallmap >>> (nb / 8) = x
  have h0 : x.getLsbD 0 = l.smallmap.getLsbD (nb / 8) := by rw [← hx, BitVec.getLsbD_ushiftRight, Nat.add_zero]
  have h1 : x.getLsbD 1 = l.smallmap.getLsbD (nb / 8 + 1) := by rw [← hx, BitVec.getLsbD_ushiftRight]
  rw [← h0, ← h1]
  have h3 : ∀ i, (3#32).getLsbD i = decide (i < 2) := by
    intro i
    by_cases hi : i < 32
    · revert i; decide
    · rw [BitVec.getLsbD_of_ge _ _ (by omega)]; simp; omega
  have hne : (x &&& 3#32 ≠ 0) ↔ x.getLsbD 0 = true ∨ x.getLsbD 1 = true := by
    constructor
    · intro hn
      obtain ⟨i, hi, e⟩ := exists_bit hn
      rw [BitVec.getLsbD_and, h3] at e
      simp only [Bool.and_eq_true, decide_eq_true_eq] at e
      have : i = 0 ∨ i = 1 := by omega
      rcases this with rfl | rfl
      · exact Or.inl e.1
      · exact Or.inr e.1
    · intro hh hz
      rcases hh with hh | hh
      · have := congrArg (fun y : BitVec 32 => y.getLsbD 0) hz
        simp only [BitVec.getLsbD_and, h3, hh] at this
        revert this; decide
      · have := congrArg (fun y : BitVec 32 => y.getLsbD 1) hz
        simp only [BitVec.getLsbD_and, h3, hh] at this
        revert this; decide
  have hval : (~~~x &&& 1#32).toNat = if x.getLsbD 0 then 0 else 1 := by
    have : (~~~x &&& 1#32) = if x.getLsbD 0 then 0#32 else 1#32 := by
      apply BitVec.eq_of_getLsbD_eq
      intro i hi
      rw [BitVec.getLsbD_and, BitVec.getLsbD_not, BitVec.getLsbD_one]
      by_cases e : i = 0
      · subst e; cases hx0 : x.getLsbD 0 <;> simp
      · cases hx0 : x.getLsbD 0 <;> simp [e, BitVec.getLsbD_one]
    rw [this]
    cases x.getLsbD 0 <;> rfl
  rw [hval]
  cases e0 : x.getLsbD 0 <;> cases e1 : x.getLsbD 1
  · rw [if_neg (by rw [hne, e0, e1]; decide)]; simp
  · rw [if_pos (by rw [hne, e1]; exact Or.inr rfl)]; simp
  · rw [if_pos (by rw [hne, e0]; exact Or.inl rfl)]; simp
  · rw [if_pos (by rw [hne, e0]; exact Or.inl rfl)]; simp

/-- What `nextBin` finds, when there is no remainderless fit. -/
theorem nextBin_eq (l : Links) {nb : Nat} (h : nb / 8 < 31) (h0 : l.exactBin nb = none) :
    match l.nextBin nb with
    | none => ∀ j, nb / 8 ≤ j → l.smallmap.getLsbD j = false
    | some i => nb / 8 + 1 < i ∧ i < 32 ∧ l.smallmap.getLsbD i = true ∧ ∀ j, nb / 8 ≤ j → j < i → l.smallmap.getLsbD j = false := by
  rw [exactBin_eq l h] at h0
  have e0 : l.smallmap.getLsbD (nb / 8) = false := by
    cases e : l.smallmap.getLsbD (nb / 8) with
    | false => rfl
    | true => rw [e] at h0; simp at h0
  have e1 : l.smallmap.getLsbD (nb / 8 + 1) = false := by
    cases e : l.smallmap.getLsbD (nb / 8 + 1) with
    | false => rfl
    | true => rw [e0, e] at h0; simp at h0
  unfold Links.nextBin
  simp only
  generalize nb / 8 = i0 at *
  have hsh : ∀ j, (l.smallmap >>> i0).getLsbD j = l.smallmap.getLsbD (i0 + j) := fun j => BitVec.getLsbD_ushiftRight ..
  by_cases hz : l.smallmap >>> i0 ≠ 0
  · rw [if_pos hz]
    simp only
    have hb : ∀ j, ((l.smallmap >>> i0) <<< i0 &&& leftBits (idx2bit i0)).getLsbD j = (l.smallmap.getLsbD j && decide (i0 < j)) := by
      intro j
      rw [BitVec.getLsbD_and, BitVec.getLsbD_shiftLeft, hsh, leftBits_get (by omega)]
      by_cases hj : j < 32
      · by_cases hlt : i0 < j
        · have : ¬ j < i0 := by omega
          have e : i0 + (j - i0) = j := by omega
          simp [hj, hlt, this, e]
        · simp [hlt]
      · rw [BitVec.getLsbD_of_ge l.smallmap j (by omega)]; simp [hj]
    have hbz : (l.smallmap >>> i0) <<< i0 &&& leftBits (idx2bit i0) ≠ 0 := by
      obtain ⟨k, hk, hk1⟩ := exists_bit hz
      rw [hsh] at hk1
      have hk0 : k ≠ 0 := by rintro rfl; rw [Nat.add_zero, e0] at hk1; cases hk1
      intro e
      have := congrArg (fun y : BitVec 32 => y.getLsbD (i0 + k)) e
      simp only [hb, hk1] at this
      rw [show (0 : BitVec 32).getLsbD (i0 + k) = false from BitVec.getLsbD_zero] at this
      have hlt : i0 < i0 + k := by omega
      simp [hlt] at this
    obtain ⟨g1, g2, g3⟩ := bit2idx_least hbz
    generalize bit2idx (leastBit ((l.smallmap >>> i0) <<< i0 &&& leftBits (idx2bit i0))) = i at *
    rw [hb] at g2
    simp only [Bool.and_eq_true, decide_eq_true_eq] at g2
    have hi1 : i ≠ i0 + 1 := by rintro rfl; rw [e1] at g2; cases g2.1
    refine ⟨by omega, g1, g2.1, fun j hj hji => ?_⟩
    by_cases e : j = i0
    · rw [e]; exact e0
    · have := g3 j hji
      rw [hb] at this
      have hlt : i0 < j := by omega
      simpa [hlt] using this
  · rw [if_neg hz]
    simp only
    intro j hj
    have hz : l.smallmap >>> i0 = 0 := by simpa using hz
    have := congrArg (fun y : BitVec 32 => y.getLsbD (j - i0)) hz
    simp only [hsh] at this
    rw [show (0 : BitVec 32).getLsbD (j - i0) = false from BitVec.getLsbD_zero, show i0 + (j - i0) = j by omega] at this
    exact this

end Arax.Dl
