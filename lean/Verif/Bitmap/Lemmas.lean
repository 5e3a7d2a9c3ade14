import Verif.Bitmap.Spec
namespace Arax.Bitmap

theorem bit_chunk (b : Bmp) (c j : Nat) (h : j < 64) : bit b (c * 64 + j) = (b.mem c).getLsbD j := by
  unfold bit
  rw [show (c * 64 + j) / 64 = c by omega, show (c * 64 + j) % 64 = j by omega]

theorem mem_store (b : Bmp) (c i : Nat) (v : BitVec 64) :
    (b.store c v).mem i = if i = c then v else b.mem i := rfl

@[simp] theorem store_used (b : Bmp) (c v) : (b.store c v).used = b.used := rfl
@[simp] theorem store_size (b : Bmp) (c v) : (b.store c v).size = b.size := rfl
@[simp] theorem store_endc (b : Bmp) (c v) : (b.store c v).endc = b.endc := rfl
@[simp] theorem store_freeP (b : Bmp) (c v) : (b.store c v).freeP = b.freeP := rfl

theorem getLsbD_ones (i : Nat) : ones.getLsbD i = decide (i < 64) := by
  unfold ones; exact BitVec.getLsbD_allOnes

theorem getLsbD_lowMask (n i : Nat) (hn : n < 64) : (lowMask n).getLsbD i = decide (i < n) := by
  have h : lowMask n = BitVec.ofNat 64 (2 ^ n - 1) := by
    apply BitVec.eq_of_toNat_eq
    have h1 : 2 ^ n < 2 ^ 64 := Nat.pow_lt_pow_right (by decide) hn
    have h2 : 0 < 2 ^ n := Nat.two_pow_pos n
    simp only [lowMask, BitVec.toNat_sub, BitVec.toNat_shiftLeft, BitVec.toNat_ofNat, Nat.shiftLeft_eq]
    simp
    omega
  rw [h, BitVec.getLsbD_ofNat, Nat.testBit_two_pow_sub_one]
  by_cases hi : i < n <;> simp [hi]; omega

theorem getLsbD_lowMask64 (n i : Nat) (hn : n ≤ 64) : (lowMask64 n).getLsbD i = decide (i < n) := by
  unfold lowMask64
  split
  · rw [getLsbD_lowMask _ _ (by omega)]
  · rw [getLsbD_ones, show n = 64 by omega]

theorem and_eq_zero_iff (x y : BitVec 64) :
    x &&& y = 0 ↔ ∀ i, i < 64 → ¬ (x.getLsbD i = true ∧ y.getLsbD i = true) := by
  constructor
  · intro h i hi
    have := congrArg (fun z => z.getLsbD i) h
    simp at this
    simpa using this
  · intro h
    apply BitVec.eq_of_getLsbD_eq
    intro i hi
    have := h i hi
    simp
    simpa using this

theorem eq_zero_iff (x : BitVec 64) : x = 0 ↔ ∀ i, i < 64 → x.getLsbD i = false := by
  constructor
  · intro h i _; simp [h]
  · intro h; apply BitVec.eq_of_getLsbD_eq; intro i hi; simp [h i hi]

theorem eq_ones_iff (x : BitVec 64) : x = ones ↔ ∀ i, i < 64 → x.getLsbD i = true := by
  constructor
  · intro h i hi; simp [h, getLsbD_ones, hi]
  · intro h; apply BitVec.eq_of_getLsbD_eq; intro i hi; rw [h i hi, getLsbD_ones]; simp [hi]

theorem getLsbD_ones_shl (s i : Nat) : (ones <<< s).getLsbD i = decide (s ≤ i ∧ i < 64) := by
  simp only [BitVec.getLsbD_shiftLeft, getLsbD_ones]
  by_cases h1 : i < 64 <;> by_cases h2 : i < s <;> simp [h1, h2] <;> omega

theorem getLsbD_ones_shr (s i : Nat) : (ones >>> s).getLsbD i = decide (s + i < 64) := by
  simp only [BitVec.getLsbD_ushiftRight, getLsbD_ones]

/-- `clz`: the top `clz x` bits are zero, and the one below (if any) is set. -/
theorem clzFrom_spec (x : BitVec 64) (k : Nat) :
    clzFrom x k ≤ k ∧ (∀ i, k - clzFrom x k ≤ i → i < k → x.getLsbD i = false) ∧
    (clzFrom x k < k → x.getLsbD (k - clzFrom x k - 1) = true) := by
  induction k with
  | zero => simp [clzFrom]
  | succ k ih =>
    unfold clzFrom
    split
    · rename_i h
      refine ⟨by omega, fun i h1 h2 => by omega, fun _ => by simpa using h⟩
    · rename_i h
      obtain ⟨h1, h2, h3⟩ := ih
      refine ⟨by omega, ?_, ?_⟩
      · intro i hi1 hi2
        by_cases hik : i = k
        · subst hik; simpa using h
        · exact h2 i (by omega) (by omega)
      · intro hlt
        have := h3 (by omega)
        rwa [show k + 1 - (clzFrom x k + 1) - 1 = k - clzFrom x k - 1 by omega]

theorem clz_le (x : BitVec 64) : clz x ≤ 64 := (clzFrom_spec x 64).1
theorem clz_zero_above (x : BitVec 64) (i : Nat) (h : 64 - clz x ≤ i) (h2 : i < 64) : x.getLsbD i = false :=
  (clzFrom_spec x 64).2.1 i h h2
theorem clz_top (x : BitVec 64) (h : clz x < 64) : x.getLsbD (63 - clz x) = true := by
  have := (clzFrom_spec x 64).2.2 h
  rwa [show 64 - clzFrom x 64 - 1 = 63 - clz x by unfold clz; omega] at this
theorem clz_lt (x : BitVec 64) (h : x ≠ 0) : clz x < 64 := by
  apply Nat.lt_of_le_of_ne (clz_le x)
  intro he
  apply h
  rw [eq_zero_iff]
  intro i hi
  exact clz_zero_above x i (by omega) hi

/-- Counting set bits of a range. -/
theorem countP_range_add (f : Nat → Bool) (a b : Nat) :
    (List.range (a + b)).countP f = (List.range a).countP f + (List.range b).countP (fun i => f (a + i)) := by
  rw [List.range_add, List.countP_append, List.countP_map]; rfl

theorem countP_range_le (f : Nat → Bool) (n : Nat) : (List.range n).countP f ≤ n := by
  have := List.countP_le_length (p := f) (l := List.range n); simpa using this

theorem countP_range_eq_zero (f : Nat → Bool) (n : Nat) (h : ∀ i, i < n → f i = false) :
    (List.range n).countP f = 0 := by
  rw [List.countP_eq_zero]; intro a ha; simp [h a (List.mem_range.mp ha)]

theorem popcount_add_zero_top (x : BitVec 64) (k : Nat) (hk : k ≤ 64)
    (h : ∀ i, 64 - k ≤ i → i < 64 → x.getLsbD i = false) : popcount x ≤ 64 - k := by
  unfold popcount
  rw [show List.range 64 = List.range ((64 - k) + k) by rw [show 64 - k + k = 64 by omega],
    countP_range_add, countP_range_eq_zero _ k (fun i hi => h _ (by omega) (by omega))]
  have := countP_range_le (fun i => x.getLsbD i) (64 - k)
  omega

/-- The effect of a successful search: `[s, s+n)` was free, is now set, nothing else changed. -/
structure Took (b b' : Bmp) (s n : Nat) : Prop where
  was_free : ∀ i, s ≤ i → i < s + n → bit b i = false
  now : ∀ i, bit b' i = (bit b i || decide (s ≤ i ∧ i < s + n))
  used : b'.used = b.used + n
  size : b'.size = b.size
  endc : b'.endc = b.endc

theorem bit_of_mem (b : Bmp) (i : Nat) : bit b i = (b.mem (i / 64)).getLsbD (i % 64) := rfl

theorem mask_shl (mask : BitVec 64) (sh n : Nat)
    (hm : ∀ i, mask.getLsbD i = decide (sh ≤ i ∧ i < sh + n ∧ i < 64)) (i : Nat) :
    (mask <<< 1).getLsbD i = decide (sh + 1 ≤ i ∧ i < sh + 1 + n ∧ i < 64) := by
  rw [BitVec.getLsbD_shiftLeft, hm (i - 1), Bool.eq_iff_iff]
  simp only [Bool.and_eq_true, decide_eq_true_eq, Bool.not_eq_true', decide_eq_false_iff_not]
  omega

theorem slide_spec (usable : BitVec 64) (n : Nat) :
    ∀ (left sh : Nat) (mask : BitVec 64), sh + left + n ≤ 65 →
      (∀ i, mask.getLsbD i = decide (sh ≤ i ∧ i < sh + n ∧ i < 64)) →
      ∀ r m, slide usable left sh mask = some (r, m) →
        sh ≤ r ∧ (n = 0 → r = sh) ∧ r + n ≤ 64 ∧ (∀ i, m.getLsbD i = decide (r ≤ i ∧ i < r + n)) ∧
        ∀ i, r ≤ i → i < r + n → usable.getLsbD i = false := by
  intro left
  induction left with
  | zero => intro sh mask _ _ r m h; simp [slide] at h
  | succ k ih =>
    intro sh mask hk hm r m h
    unfold slide at h
    split at h
    · rename_i hz
      simp only [Option.some.injEq, Prod.mk.injEq] at h
      obtain ⟨rfl, rfl⟩ := h
      refine ⟨Nat.le_refl _, fun _ => rfl, by omega, ?_, ?_⟩
      · intro i; rw [hm i]; congr 1; apply propext; omega
      · intro i h1 h2
        rw [and_eq_zero_iff] at hz
        have := hz i (by omega)
        rw [hm i] at this
        simp at this
        exact this h1 h2 (by omega)
    · rename_i hnz
      obtain ⟨h1, h0, h2, h3, h4⟩ := ih (sh + 1) (mask <<< 1) (by omega) (mask_shl _ _ _ hm) r m h
      refine ⟨by omega, ?_, h2, h3, h4⟩
      intro hn0
      exfalso; apply hnz
      rw [and_eq_zero_iff]
      intro i _ ⟨ha, _⟩
      rw [hm i] at ha
      simp at ha
      omega

/-- If a gap exists, the sliding search finds one. -/
theorem slide_complete (usable : BitVec 64) (n : Nat) :
    ∀ (left sh : Nat) (mask : BitVec 64), sh + left + n ≤ 65 →
      (∀ i, mask.getLsbD i = decide (sh ≤ i ∧ i < sh + n ∧ i < 64)) →
      (∃ r, sh ≤ r ∧ r < sh + left ∧ ∀ i, r ≤ i → i < r + n → usable.getLsbD i = false) →
      (slide usable left sh mask).isSome := by
  intro left
  induction left with
  | zero => intro sh mask _ _ ⟨r, h1, h2, _⟩; omega
  | succ k ih =>
    intro sh mask hk hm ⟨r, h1, h2, h3⟩
    unfold slide
    split
    · rfl
    · rename_i hz
      apply ih (sh + 1) (mask <<< 1) (by omega)
      · exact mask_shl _ _ _ hm
      · refine ⟨r, ?_, by omega, h3⟩
        apply Nat.lt_of_le_of_ne h1
        intro he
        subst he
        apply hz
        rw [and_eq_zero_iff]
        intro i hi ⟨ha, hb⟩
        rw [hm i] at ha
        simp at ha
        rw [h3 i ha.1 ha.2.1] at hb
        exact absurd hb (by simp)

theorem findEndSmall_spec (b b' : Bmp) (n c : Nat) (hn : n ≤ 64) (h : findEndSmall b n c = some b') :
    (∀ j, j < n → (b.mem c).getLsbD j = false) ∧
    b' = b.store c (b.mem c ||| lowMask64 n) := by
  simp only [findEndSmall] at h
  split at h
  · rename_i hz
    refine ⟨?_, by simpa using h.symm⟩
    intro j hj
    rw [and_eq_zero_iff] at hz
    have := hz j (by omega)
    rw [getLsbD_lowMask64 _ _ hn] at this
    simpa [hj] using this
  · simp at h

theorem took_one (b : Bmp) (c r n : Nat) (m : BitVec 64) (hr : r + n ≤ 64)
    (hm : ∀ i, m.getLsbD i = decide (r ≤ i ∧ i < r + n))
    (hf : ∀ j, r ≤ j → j < r + n → (b.mem c).getLsbD j = false) :
    Took b { b.store c (b.mem c ||| m) with used := b.used + n } (c * 64 + r) n := by
  refine ⟨?_, ?_, rfl, rfl, rfl⟩
  · intro i h1 h2
    rw [bit_of_mem, show i / 64 = c by omega]
    exact hf _ (by omega) (by omega)
  · intro i
    simp only [bit_of_mem, mem_store]
    by_cases hc : i / 64 = c
    · rw [if_pos hc, BitVec.getLsbD_or, hm, hc]
      congr 2; apply propext; omega
    · rw [if_neg hc, decide_eq_false (by omega)]; simp

theorem took_gen (b b' : Bmp) (c fe span lr n : Nat) (hfe : fe ≤ 64) (h1 : 1 ≤ fe) (hlr : lr ≤ 64)
    (hn : n = fe + 64 * span + lr)
    (hmem : ∀ i, b'.mem i = if i = c then b.mem c ||| ones <<< (64 - fe)
      else if c < i ∧ i ≤ c + span then ones
      else if i = c + span + 1 ∧ lr ≠ 0 then b.mem i ||| lowMask64 lr else b.mem i)
    (hu : b'.used = b.used + n) (hs : b'.size = b.size) (he : b'.endc = b.endc)
    (hf1 : ∀ j, 64 - fe ≤ j → j < 64 → (b.mem c).getLsbD j = false)
    (hf2 : ∀ i, c < i → i ≤ c + span → b.mem i = 0)
    (hf3 : lr ≠ 0 → ∀ j, j < lr → (b.mem (c + span + 1)).getLsbD j = false) :
    Took b b' (c * 64 + (64 - fe)) n := by
  refine ⟨?_, ?_, hu, hs, he⟩
  · intro i hi1 hi2
    rw [bit_of_mem]
    by_cases hc : i / 64 = c
    · rw [hc]; exact hf1 _ (by omega) (by omega)
    · by_cases hc2 : i / 64 ≤ c + span
      · rw [hf2 _ (by omega) hc2]; simp
      · rw [show i / 64 = c + span + 1 by omega]
        exact hf3 (by omega) _ (by omega)
  · intro i
    simp only [bit_of_mem, hmem]
    by_cases hc : i / 64 = c
    · rw [if_pos hc, BitVec.getLsbD_or, getLsbD_ones_shl, hc]
      congr 2; apply propext; omega
    · rw [if_neg hc]
      by_cases hc2 : c < i / 64 ∧ i / 64 ≤ c + span
      · rw [if_pos hc2, hf2 _ hc2.1 hc2.2, getLsbD_ones, decide_eq_true (by omega), decide_eq_true (by omega)]
        simp
      · rw [if_neg hc2]
        by_cases hc3 : i / 64 = c + span + 1 ∧ lr ≠ 0
        · rw [if_pos hc3, BitVec.getLsbD_or, getLsbD_lowMask64 _ _ hlr]
          congr 2; apply propext; omega
        · rw [if_neg hc3, decide_eq_false (by omega)]; simp

/-- What every search routine guarantees. -/
structure Found (b b' : Bmp) (s n c : Nat) : Prop where
  took : Took b b' s n
  chunk : s / 64 = c
  bound : s + n ≤ 64 * b.endc
  freeP : b'.freeP = b.freeP

theorem usableOf_le (b : Bmp) (c j : Nat) (h : (usableOf b c).getLsbD j = false) :
    (b.mem c).getLsbD j = false := by
  unfold usableOf at h
  split at h
  · dsimp only at h
    split at h
    · rw [BitVec.getLsbD_or] at h; simp at h; simpa using h.1
    · exact h
  · exact h

theorem lowMask64_spec (n : Nat) (hn : n ≤ 64) :
    ∀ i, (lowMask64 n).getLsbD i = decide (0 ≤ i ∧ i < 0 + n) := by
  intro i; rw [getLsbD_lowMask64 _ _ hn]; simp

theorem popcount_pos (x : BitVec 64) (h : x ≠ 0) : 0 < popcount x := by
  unfold popcount
  rw [List.countP_pos_iff]
  apply Classical.byContradiction
  intro hn
  apply h
  rw [eq_zero_iff]
  intro i hi
  cases hb : x.getLsbD i
  · rfl
  · exact absurd ⟨i, List.mem_range.mpr hi, hb⟩ hn

theorem findStartSmall_found (b b' : Bmp) (n c s : Nat) (hn : n ≤ 64) (hc : c < b.endc)
    (h : findStartSmall b n c = some (b', s)) : Found b b' s n c := by
  simp only [findStartSmall] at h
  generalize hfeq : (if b.mem c ≠ 0 then clz (b.mem c) else 64) = fe at h
  split at h
  · rename_i hz
    simp only [Option.some.injEq, Prod.mk.injEq] at h
    obtain ⟨rfl, rfl⟩ := h
    have hfree : ∀ j, (b.mem c).getLsbD j = false := fun j => usableOf_le b c j (by simp [hz])
    have hmc : b.mem c = 0 := (eq_zero_iff _).mpr (fun i _ => hfree i)
    have := took_one b c 0 n (lowMask64 n) (by omega) (lowMask64_spec n hn) (fun j _ _ => hfree j)
    rw [hmc] at this
    refine ⟨by simpa using this, by omega, by omega, rfl⟩
  · rename_i hnz
    split at h
    · simp at h
    · split at h
      · rename_i hfb
        have hpp := popcount_pos _ hnz
        split at h
        · simp at h
        · rename_i sh m hsl
          simp only [Option.some.injEq, Prod.mk.injEq] at h
          obtain ⟨rfl, rfl⟩ := h
          obtain ⟨h1, h0, h2, h3, h4⟩ := slide_spec (usableOf b c) n (64 - n + 1) 0 (lowMask n) (by omega) (by
            intro i; rw [getLsbD_lowMask _ _ (by omega)]; congr 1; apply propext; omega) sh m hsl
          refine ⟨took_one b c sh n m h2 h3 (fun j a b' => usableOf_le b c j (h4 j a b')), by omega, by omega, rfl⟩
      · rename_i hfb
        split at h
        · simp at h
        · rename_i hfe
          split at h
          · simp at h
          · rename_i hlast
            split at h
            · simp at h
            · rename_i b1 hfe1
              simp only [Option.some.injEq, Prod.mk.injEq] at h
              obtain ⟨rfl, rfl⟩ := h
              have hus : usableOf b c = b.mem c := by simp [usableOf, hlast]
              rw [hus] at hfb hnz
              rw [if_pos hnz] at hfeq
              subst hfeq
              have hle := clz_lt _ hnz
              have hpc := popcount_add_zero_top (b.mem c) (clz (b.mem c)) (by omega)
                (clz_zero_above (b.mem c))
              have hpp := popcount_pos _ hnz
              obtain ⟨g1, rfl⟩ := findEndSmall_spec b b1 _ _ (by omega) hfe1
              refine ⟨took_gen b _ c (clz (b.mem c)) 0 (n - clz (b.mem c)) n (by omega) (by omega) (by omega)
                (by omega) ?_ rfl rfl rfl (clz_zero_above _) (fun i h1 h2 => by omega) (fun _ => g1),
                by omega, by omega, rfl⟩
              intro i
              simp only [mem_store]
              by_cases e1 : i = c
              · subst e1; simp
              · by_cases e2 : i = c + 1
                · subst e2
                  rw [if_neg e1, if_pos rfl, if_neg e1, if_neg (by omega), if_pos (by omega)]
                · rw [if_neg e1, if_neg e2, if_neg e1, if_neg (by omega), if_neg (by omega)]

theorem spanFree_spec (b : Bmp) : ∀ (span c : Nat), spanFree b span c = true ↔
    ∀ i, c ≤ i → i < c + span → b.mem i = 0 := by
  intro span
  induction span with
  | zero => intro c; simp [spanFree]; omega
  | succ k ih =>
    intro c
    unfold spanFree
    split
    · rename_i hne
      simp only [Bool.false_eq_true, false_iff]
      intro h; exact hne (h c (by omega) (by omega))
    · rename_i hz
      rw [ih]
      constructor
      · intro h i h1 h2
        by_cases hic : i = c
        · subst hic; simpa using hz
        · exact h i (by omega) (by omega)
      · intro h i h1 h2; exact h i (by omega) (by omega)

theorem lowMask_eq_64 (n : Nat) (h : n < 64) : lowMask n = lowMask64 n := by
  unfold lowMask64; rw [if_pos (by omega)]

theorem findStartBig_eq (b : Bmp) (n c : Nat) : findStartBig b n c =
    if b.mem c = ones then none
    else if b.mem c = 0 then bigTail b n c ones (n - 64) 0
    else bigTail b n c (if clz (b.mem c) ≠ 0 then ones <<< (64 - clz (b.mem c)) else 0)
      (n - clz (b.mem c)) (64 - clz (b.mem c)) := rfl

theorem bigTail_found (b b' : Bmp) (n c s fe : Nat) (hn : 65 ≤ n) (hc : c < b.endc)
    (hfe : fe ≤ 64) (h1 : 1 ≤ fe)
    (hz : ∀ j, 64 - fe ≤ j → j < 64 → (b.mem c).getLsbD j = false)
    (h : bigTail b n c (ones <<< (64 - fe)) (n - fe) (64 - fe) = some (b', s)) : Found b b' s n c := by
  simp only [bigTail] at h
  split at h
  · simp at h
  · split at h
    · simp at h
    · rename_i hlast
      split at h
      · rename_i hrem
        split at h
        · simp at h
        · rename_i b1 hfe1
          simp only [Option.some.injEq, Prod.mk.injEq] at h
          obtain ⟨rfl, rfl⟩ := h
          obtain ⟨g1, rfl⟩ := findEndSmall_spec b b1 _ _ (by omega) hfe1
          refine ⟨took_gen b _ c fe 0 (n - fe) n hfe h1 (by omega)
            (by omega) ?_ rfl rfl rfl hz (fun i h1 h2 => by omega) (fun _ => g1),
            by omega, by omega, rfl⟩
          intro i
          simp only [mem_store]
          by_cases e1 : i = c
          · subst e1; simp
          · by_cases e2 : i = c + 1
            · subst e2
              rw [if_neg e1, if_pos rfl, if_neg e1, if_neg (by omega), if_pos (by omega)]
            · rw [if_neg e1, if_neg e2, if_neg e1, if_neg (by omega), if_neg (by omega)]
      · rename_i hrem
        generalize hone : (if (n - fe) % 64 ≠ 0 then 1 else 0) = one at h
        generalize hb1 : (if (n - fe) % 64 ≠ 0 then
          b.store (c + 1 + (n - fe) / 64) (b.mem (c + 1 + (n - fe) / 64) ||| lowMask ((n - fe) % 64))
          else b) = b1 at h
        split at h
        · simp at h
        · rename_i hend
          split at h
          · simp at h
          · rename_i hspan
            split at h
            · simp at h
            · rename_i hlm
              simp only [Option.some.injEq, Prod.mk.injEq] at h
              obtain ⟨rfl, rfl⟩ := h
              rw [Bool.not_eq_false, spanFree_spec] at hspan
              have hl3 : (n - fe) % 64 ≠ 0 → ∀ j, j < (n - fe) % 64 →
                  (b.mem (c + (n - fe) / 64 + 1)).getLsbD j = false := by
                intro hne j hj
                have : b.mem (c + 1 + (n - fe) / 64) &&& lowMask ((n - fe) % 64) = 0 := by
                  apply Classical.byContradiction; intro hh; exact hlm ⟨hne, hh⟩
                rw [and_eq_zero_iff] at this
                have := this j (by omega)
                rw [getLsbD_lowMask _ _ (by omega)] at this
                rw [show c + (n - fe) / 64 + 1 = c + 1 + (n - fe) / 64 by omega]
                simpa [hj] using this
              refine ⟨took_gen b _ c fe ((n - fe) / 64) ((n - fe) % 64) n hfe h1 (by omega)
                (by omega) ?_ ?_ ?_ ?_ hz (fun i h1 h2 => hspan i (by omega) (by omega)) hl3,
                by omega, ?_, ?_⟩
              · intro i
                subst hb1
                simp only [mem_store, fill]
                rw [← lowMask_eq_64 _ (by omega : (n - fe) % 64 < 64)]
                by_cases e1 : i = c
                · subst e1
                  rw [if_pos rfl, if_pos rfl, if_neg (by omega)]
                  split
                  · rw [mem_store, if_neg (by omega)]
                  · rfl
                · rw [if_neg e1, if_neg e1]
                  by_cases e2 : c < i ∧ i ≤ c + (n - fe) / 64
                  · rw [if_pos (by omega), if_pos e2]
                  · rw [if_neg (by omega), if_neg e2]
                    by_cases e3 : (n - fe) % 64 ≠ 0
                    · rw [if_pos e3, mem_store]
                      by_cases e4 : i = c + 1 + (n - fe) / 64
                      · rw [if_pos e4, if_pos (by omega), e4]
                      · rw [if_neg e4, if_neg (by omega)]
                    · rw [if_neg e3, if_neg (by omega)]
              · subst hb1; simp only [fill, store_used]; split <;> rfl
              · subst hb1; simp only [fill, store_size]; split <;> rfl
              · subst hb1; simp only [fill, store_endc]; split <;> rfl
              · split at hone <;> omega
              · subst hb1; simp only [fill, store_freeP]; split <;> rfl

theorem findStartBig_found (b b' : Bmp) (n c s : Nat) (hn : 65 ≤ n) (hc : c < b.endc)
    (h : findStartBig b n c = some (b', s)) : Found b b' s n c := by
  rw [findStartBig_eq] at h
  split at h
  · simp at h
  · split at h
    · rename_i hz
      apply bigTail_found b b' n c s 64 hn hc (by omega) (by omega)
      · intro j _ _; simp [hz]
      · simpa using h
    · rename_i hnz
      by_cases hcz : clz (b.mem c) = 0
      · rw [if_neg (by simpa using hcz)] at h
        simp [bigTail] at h
      · rw [if_pos hcz] at h
        exact bigTail_found b b' n c s _ hn hc (clz_le _) (by omega) (clz_zero_above _) h

theorem findStart_found (b b' : Bmp) (n c s : Nat) (hc : c < b.endc)
    (h : findStart b n c = some (b', s)) : Found b b' s n c := by
  unfold findStart at h
  split at h
  · exact findStartSmall_found b b' n c s (by omega) hc h
  · exact findStartBig_found b b' n c s (by omega) hc h

theorem scan_found (b b' : Bmp) (bits s : Nat) : ∀ (n c : Nat), c + n ≤ b.endc →
    scan b bits n c = some (b', s) → ∃ c', c' < b.endc ∧ Found b b' s bits c' := by
  intro n
  induction n with
  | zero => intro c _ h; simp [scan] at h
  | succ k ih =>
    intro c hc h
    unfold scan at h
    split at h
    · rename_i r hr
      simp only [Option.some.injEq] at h; subst h
      exact ⟨c, by omega, findStart_found b b' bits c s (by omega) hr⟩
    · exact ih (c + 1) (by omega) h

theorem scan_none (b : Bmp) (bits : Nat) : ∀ (n c : Nat),
    scan b bits n c = none ↔ ∀ i, c ≤ i → i < c + n → findStart b bits i = none := by
  intro n
  induction n with
  | zero => intro c; simp [scan]; omega
  | succ k ih =>
    intro c
    unfold scan
    cases hf : findStart b bits c with
    | some r =>
      simp only [reduceCtorEq, false_iff]
      intro h; have := h c (by omega) (by omega); simp [hf] at this
    | none =>
      simp only
      rw [ih]
      constructor
      · intro h i h1 h2
        by_cases hic : i = c
        · subst hic; exact hf
        · exact h i (by omega) (by omega)
      · intro h i h1 h2; exact h i (by omega) (by omega)

end Arax.Bitmap
