import Verif.Bitmap.Lemmas
namespace Arax.Bitmap

theorem subSz_eq (a b : Nat) (h : b ≤ a) (_ha : a < 2 ^ 64) : subSz a b = a - b := by
  unfold subSz; rw [if_pos h]

theorem and_not_congr (x : Bool) {p q : Prop} [Decidable p] [Decidable q] (h : p ↔ q) :
    (x && !decide p) = (x && !decide q) := by rw [decide_eq_decide.mpr h]

/-- The effect of a legal free. -/
structure Released (b b' : Bmp) (s n : Nat) : Prop where
  now : ∀ i, bit b' i = (bit b i && !decide (s ≤ i ∧ i < s + n))
  used : b'.used = b.used - n
  size : b'.size = b.size
  endc : b'.endc = b.endc
  freeP : b'.freeP = b.freeP

theorem and_eq_self_of (x m : BitVec 64) (h : ∀ j, j < 64 → m.getLsbD j = true → x.getLsbD j = true) :
    x &&& m = m := by
  apply BitVec.eq_of_getLsbD_eq
  intro j hj
  rw [BitVec.getLsbD_and]
  cases hm : m.getLsbD j
  · simp
  · simp [h j hj hm]

theorem getLsbD_and_not (x m : BitVec 64) (j : Nat) (hj : j < 64) :
    (x &&& ~~~m).getLsbD j = (x.getLsbD j && !m.getLsbD j) := by
  rw [BitVec.getLsbD_and, BitVec.getLsbD_not]; simp [hj]

theorem getLsbD_one_shl (s j : Nat) : ((1 : BitVec 64) <<< s).getLsbD j = decide (j = s ∧ j < 64) := by
  rw [BitVec.getLsbD_shiftLeft, Bool.eq_iff_iff]
  simp only [Bool.and_eq_true, decide_eq_true_eq, Bool.not_eq_true', decide_eq_false_iff_not]
  constructor
  · rintro ⟨⟨h1, h2⟩, h3⟩
    have : j - s = 0 := by
      apply Classical.byContradiction; intro hne
      have : (1#64).getLsbD (j - s) = false := by
        rw [BitVec.getLsbD_one]; simp [hne]
      rw [show (1 : BitVec 64) = 1#64 from rfl, this] at h3; simp at h3
    omega
  · rintro ⟨rfl, h⟩
    refine ⟨⟨h, by omega⟩, ?_⟩
    simp

theorem free_legal (b : Bmp) (s n : Nat) (hn : 0 < n) (hb : s + n ≤ 64 * b.endc) (h64 : 64 * b.endc < 2 ^ 64)
    (hu : n ≤ b.used) (hu2 : b.used < 2 ^ 64) (hset : ∀ i, s ≤ i → i < s + n → bit b i = true) :
    ∃ b', free b s n = .ok b' ∧ Released b b' s n := by
  unfold free
  by_cases h1 : n = 1
  · subst h1
    rw [if_pos rfl, if_neg (by omega)]
    refine ⟨_, rfl, ?_, by simp only [subSz_eq _ _ hu hu2], rfl, rfl, rfl⟩
    intro i
    simp only [bit_of_mem, mem_store]
    by_cases hc : i / 64 = s / 64
    · rw [if_pos hc, getLsbD_and_not _ _ _ (by omega), getLsbD_one_shl, hc]
      exact and_not_congr _ (by omega)
    · rw [if_neg hc, decide_eq_false (by omega)]; simp
  · rw [if_neg h1]
    have hend : subSz ((s + n) % 2 ^ 64) 1 = s + n - 1 := by
      rw [Nat.mod_eq_of_lt (by omega), subSz_eq _ _ (by omega) (by omega)]
    simp only [hend]
    rw [if_neg (by omega)]
    by_cases hsame : s / 64 = (s + n - 1) / 64
    · rw [if_pos hsame]
      have hm : ∀ j, j < 64 → (if n ≠ 64 then lowMask n <<< (s % 64) else ones).getLsbD j =
          decide (s % 64 ≤ j ∧ j < s % 64 + n) := by
        intro j hj
        by_cases hn64 : n = 64
        · rw [if_neg (by simpa using hn64), getLsbD_ones]; exact decide_eq_decide.mpr (by omega)
        · rw [if_pos hn64, BitVec.getLsbD_shiftLeft, getLsbD_lowMask _ _ (by omega), Bool.eq_iff_iff]
          simp only [Bool.and_eq_true, decide_eq_true_eq, Bool.not_eq_true', decide_eq_false_iff_not]
          omega
      generalize (if n ≠ 64 then lowMask n <<< (s % 64) else ones) = mask at hm
      rw [if_neg]
      · refine ⟨_, rfl, ?_, by simp only [subSz_eq _ _ hu hu2], rfl, rfl, rfl⟩
        intro i
        simp only [bit_of_mem, mem_store]
        by_cases hc : i / 64 = s / 64
        · rw [if_pos hc, getLsbD_and_not _ _ _ (by omega), hm _ (by omega), hc]
          exact and_not_congr _ (by omega)
        · rw [if_neg hc, decide_eq_false (by omega)]; simp
      · simp only [ne_eq, Decidable.not_not]
        apply and_eq_self_of
        intro j hj hmj
        rw [hm j hj] at hmj
        simp only [decide_eq_true_eq] at hmj
        rw [← bit_chunk b (s / 64) j hj]
        exact hset _ (by omega) (by omega)
    · rw [if_neg hsame]
      have hm1 : ∀ j, j < 64 → (ones <<< (s % 64)).getLsbD j = decide (s % 64 ≤ j) := by
        intro j hj; rw [getLsbD_ones_shl]; exact decide_eq_decide.mpr (by omega)
      have hm2 : ∀ j, j < 64 → (if (s + n) % 2 ^ 64 % 64 ≠ 0 then ones >>> (64 - (s + n) % 2 ^ 64 % 64) else ones).getLsbD j =
          decide (j ≤ (s + n - 1) % 64) := by
        intro j hj
        rw [Nat.mod_eq_of_lt (by omega : s + n < 2 ^ 64)]
        by_cases he : (s + n) % 64 = 0
        · rw [if_neg (by simpa using he), getLsbD_ones]; exact decide_eq_decide.mpr (by omega)
        · rw [if_pos he, getLsbD_ones_shr]; exact decide_eq_decide.mpr (by omega)
      generalize (if (s + n) % 2 ^ 64 % 64 ≠ 0 then ones >>> (64 - (s + n) % 2 ^ 64 % 64) else ones) = emask at hm2
      generalize (ones <<< (s % 64)) = smask at hm1
      rw [if_neg]
      · rw [if_neg (by omega), if_neg]
        · rw [if_neg (by omega)]
          refine ⟨_, rfl, ?_, by simp only [fill, store_used, subSz_eq _ _ hu hu2], rfl, rfl, rfl⟩
          intro i
          simp only [bit_of_mem, fill, mem_store]
          by_cases hc : s / 64 + 1 ≤ i / 64 ∧ i / 64 < s / 64 + 1 + ((s + n - 1) / 64 - s / 64 - 1)
          · rw [if_pos hc, decide_eq_true (by omega)]; simp
          · rw [if_neg hc]
            by_cases hc2 : i / 64 = (s + n - 1) / 64
            · rw [if_pos hc2, if_neg (by omega), getLsbD_and_not _ _ _ (by omega), hm2 _ (by omega), hc2]
              exact and_not_congr _ (by omega)
            · rw [if_neg hc2]
              by_cases hc3 : i / 64 = s / 64
              · rw [if_pos hc3, getLsbD_and_not _ _ _ (by omega), hm1 _ (by omega), hc3]
                exact and_not_congr _ (by omega)
              · rw [if_neg hc3, decide_eq_false (by omega)]; simp
        · simp only [ne_eq, Decidable.not_not]
          apply and_eq_self_of
          intro j hj hmj
          rw [hm2 j hj] at hmj
          simp only [decide_eq_true_eq] at hmj
          rw [← bit_chunk b _ j hj]
          exact hset _ (by omega) (by omega)
      · simp only [ne_eq, Decidable.not_not]
        apply and_eq_self_of
        intro j hj hmj
        rw [hm1 j hj] at hmj
        simp only [decide_eq_true_eq] at hmj
        rw [← bit_chunk b _ j hj]
        exact hset _ (by omega) (by omega)

/-! ## Allocation -/

theorem alloc_some (b b' : Bmp) (n s : Nat) (hf : b.freeP ≤ b.endc) (h : alloc b n = (b', some s)) :
    Took b b' s n ∧ n ≤ freeBits b ∧ s / 64 < b.endc ∧ s + n ≤ 64 * b.endc ∧ b'.freeP = s / 64 := by
  unfold alloc at h
  generalize hb1 : resetCursor b = b1 at h
  unfold allocFrom at h
  have e1 : b1.mem = b.mem ∧ b1.used = b.used ∧ b1.size = b.size ∧ b1.endc = b.endc ∧ b1.freeP ≤ b1.endc := by
    subst hb1; unfold resetCursor; split
    · exact ⟨rfl, rfl, rfl, rfl, Nat.zero_le _⟩
    · exact ⟨rfl, rfl, rfl, rfl, hf⟩
  obtain ⟨em, eu, es, ee, ef⟩ := e1
  have key : ∀ c n' b2, c + n' ≤ b1.endc → scan b1 n n' c = some (b2, s) →
      Took b b2 s n ∧ s / 64 < b.endc ∧ s + n ≤ 64 * b.endc := by
    intro c n' b2 hcn hs
    obtain ⟨c', hc', hF⟩ := scan_found b1 b2 n s n' c hcn hs
    obtain ⟨⟨t1, t2, t3, t4, t5⟩, k, bd, fp⟩ := hF
    refine ⟨⟨?_, ?_, by rw [t3, eu], by rw [t4, es], by rw [t5, ee]⟩, by rw [k, ← ee]; exact hc', by rw [← ee]; exact bd⟩
    · intro i h1 h2; have := t1 i h1 h2; simpa only [bit_of_mem, em] using this
    · intro i; have := t2 i; simpa only [bit_of_mem, em] using this
  split at h
  · simp at h
  · rename_i hfree
    have hfr : n ≤ freeBits b := by
      have : freeBits b1 = freeBits b := by unfold freeBits; rw [eu, es]
      omega
    split at h
    · rename_i b2 found hs
      simp only [Prod.mk.injEq, Option.some.injEq] at h
      obtain ⟨rfl, rfl⟩ := h
      obtain ⟨⟨t1, t2, t3, t4, t5⟩, k2, k3⟩ := key _ _ _ (by omega) hs
      exact ⟨⟨t1, t2, t3, t4, t5⟩, hfr, k2, k3, rfl⟩
    · split at h
      · rename_i b2 found hs
        simp only [Prod.mk.injEq, Option.some.injEq] at h
        obtain ⟨rfl, rfl⟩ := h
        obtain ⟨⟨t1, t2, t3, t4, t5⟩, k2, k3⟩ := key _ _ _ (by omega) hs
        exact ⟨⟨t1, t2, t3, t4, t5⟩, hfr, k2, k3, rfl⟩
      · simp at h

theorem alloc_none_unchanged (b b' : Bmp) (n : Nat) (h : alloc b n = (b', none)) :
    b'.mem = b.mem ∧ b'.used = b.used ∧ b'.size = b.size ∧
    b'.endc = b.endc ∧ (b'.freeP = b.freeP ∨ b'.freeP = 0) := by
  unfold alloc at h
  generalize hb1 : resetCursor b = b1 at h
  unfold allocFrom at h
  have e1 : b1.mem = b.mem ∧ b1.used = b.used ∧ b1.size = b.size ∧ b1.endc = b.endc ∧
      (b1.freeP = b.freeP ∨ b1.freeP = 0) := by
    subst hb1; unfold resetCursor; split
    · exact ⟨rfl, rfl, rfl, rfl, Or.inr rfl⟩
    · exact ⟨rfl, rfl, rfl, rfl, Or.inl rfl⟩
  split at h
  · simp only [Prod.mk.injEq, and_true] at h; subst h; exact e1
  · split at h
    · simp at h
    · split at h
      · simp at h
      · simp only [Prod.mk.injEq, and_true] at h; subst h; exact e1

theorem alloc_none_iff (b : Bmp) (n : Nat) (hf : b.freeP ≤ b.endc) : (alloc b n).2 = none ↔
    (freeBits b < n ∨ ∀ c, c < b.endc → findStart (resetCursor b) n c = none) := by
  unfold alloc
  have ef : (resetCursor b).freeP ≤ (resetCursor b).endc := by
    unfold resetCursor; split
    · exact Nat.zero_le _
    · exact hf
  have ee : (resetCursor b).endc = b.endc := by unfold resetCursor; split <;> rfl
  have efr : freeBits (resetCursor b) = freeBits b := by unfold resetCursor freeBits; split <;> rfl
  generalize resetCursor b = b1 at ef ee efr
  unfold allocFrom
  rw [efr]
  split
  · rename_i h; simp [h]
  · rename_i h
    simp only [h, false_or]
    cases hs1 : scan b1 n (b1.endc - b1.freeP) b1.freeP with
    | some r =>
      simp only [reduceCtorEq, false_iff]
      intro hall
      have : scan b1 n (b1.endc - b1.freeP) b1.freeP = none := by
        rw [scan_none]; intro i _ h2; exact hall i (by omega)
      rw [this] at hs1; simp at hs1
    | none =>
      simp only
      cases hs2 : scan b1 n b1.freeP 0 with
      | some r =>
        simp only [reduceCtorEq, false_iff]
        intro hall
        have : scan b1 n b1.freeP 0 = none := by
          rw [scan_none]; intro i _ h2; exact hall i (by omega)
        rw [this] at hs2; simp at hs2
      | none =>
        simp only [true_iff]
        rw [scan_none] at hs1 hs2
        intro c hc
        by_cases h3 : c < b1.freeP
        · exact hs2 c (by omega) (by omega)
        · exact hs1 c (by omega) (by omega)

/-! ## Completeness within a chunk -/

theorem popcount_free_run (x : BitVec 64) (r n : Nat) (hr : r + n ≤ 64)
    (h : ∀ j, r ≤ j → j < r + n → x.getLsbD j = false) : popcount x + n ≤ 64 := by
  unfold popcount
  rw [show List.range 64 = List.range ((r + n) + (64 - r - n)) by rw [show r + n + (64 - r - n) = 64 by omega],
    countP_range_add, countP_range_add,
    countP_range_eq_zero (fun i => x.getLsbD (r + i)) n (fun i hi => h _ (by omega) (by omega))]
  have h1 := countP_range_le (fun i => x.getLsbD i) r
  have h2 := countP_range_le (fun i => x.getLsbD (r + n + i)) (64 - r - n)
  omega

theorem findStart_complete (b : Bmp) (n c r : Nat) (hn : n ≤ 64) (hr : r + n ≤ 64) (h0 : 0 < n)
    (h : ∀ j, r ≤ j → j < r + n → (usableOf b c).getLsbD j = false) : findStart b n c ≠ none := by
  unfold findStart
  rw [if_pos (by omega)]
  simp only [findStartSmall]
  split
  · simp
  · rename_i hnz
    rw [if_neg]
    · rw [if_pos (by have := popcount_free_run _ r n hr h; omega)]
      have hn64 : n < 64 := by
        apply Nat.lt_of_le_of_ne hn
        intro he
        apply hnz
        rw [eq_zero_iff]; intro i hi; exact h i (by omega) (by omega)
      have := slide_complete (usableOf b c) n (64 - n + 1) 0 (lowMask n) (by omega) (by
        intro i; rw [getLsbD_lowMask _ _ (by omega)]; exact decide_eq_decide.mpr (by omega))
        ⟨r, by omega, by omega, h⟩
      cases hs : slide (usableOf b c) (64 - n + 1) 0 (lowMask n) with
      | none => simp [hs] at this
      | some p => simp
    · intro ho
      have := usableOf_le b c r (h r (by omega) (by omega))
      rw [ho, getLsbD_ones] at this
      simp at this; omega

/-! ## Counting -/

theorem countP_congr_range (f g : Nat → Bool) (n : Nat) (h : ∀ i, i < n → f i = g i) :
    (List.range n).countP f = (List.range n).countP g := by
  apply List.countP_congr
  intro i hi; rw [h i (List.mem_range.mp hi)]

theorem countP_range_true (f : Nat → Bool) (n : Nat) (h : ∀ i, i < n → f i = true) :
    (List.range n).countP f = n := by
  have := List.countP_eq_length (p := f) (l := List.range n) |>.mpr (fun i hi => h i (List.mem_range.mp hi))
  simpa using this

theorem count_took (f g : Nat → Bool) (s n N : Nat) (hN : s + n ≤ N)
    (hf : ∀ i, s ≤ i → i < s + n → f i = false)
    (hg : ∀ i, g i = (f i || decide (s ≤ i ∧ i < s + n))) :
    (List.range N).countP g = (List.range N).countP f + n := by
  rw [show List.range N = List.range ((s + n) + (N - s - n)) by rw [show s + n + (N - s - n) = N by omega]]
  simp only [countP_range_add]
  rw [countP_range_true (fun i => g (s + i)) n (by intro i hi; rw [hg]; simp; omega),
    countP_range_eq_zero (fun i => f (s + i)) n (by intro i hi; exact hf _ (by omega) (by omega)),
    countP_congr_range g f s (by intro i hi; rw [hg, decide_eq_false (by omega)]; simp),
    countP_congr_range (fun i => g (s + n + i)) (fun i => f (s + n + i)) _
      (by intro i hi; rw [hg, decide_eq_false (by omega)]; simp)]
  omega

theorem sum_popcount (b : Bmp) (n : Nat) :
    ((List.range n).map (fun i => if b.mem i ≠ 0 then popcount (b.mem i) else 0)).sum =
      (List.range (64 * n)).countP (bit b) := by
  induction n with
  | zero => simp
  | succ k ih =>
    rw [List.range_succ, List.map_append, List.sum_append, ih, show 64 * (k + 1) = 64 * k + 64 by omega,
      countP_range_add]
    congr 1
    have : (List.range 64).countP (fun i => bit b (64 * k + i)) = popcount (b.mem k) := by
      unfold popcount
      apply countP_congr_range
      intro i hi
      rw [show 64 * k + i = k * 64 + i by omega, bit_chunk _ _ _ hi]
    rw [this]
    simp only [List.map_cons, List.map_nil, List.sum_cons, List.sum_nil, Nat.add_zero]
    by_cases hz : b.mem k = 0
    · rw [if_neg (by simpa using hz), hz]
      unfold popcount
      rw [countP_range_eq_zero _ _ (by intro i _; simp)]
    · rw [if_pos hz]

/-! ## Histories -/

structure Inv (mem0 : Nat → BitVec 64) (sz : Nat) (b : Bmp) (live : List (Nat × Nat)) : Prop where
  size : b.size = sz
  endc : b.endc = (sz + 63) / 64
  freeP : b.freeP ≤ b.endc
  bits : ∀ i, i < 64 * b.endc → (bit b i = true ↔ ∃ a ∈ live, Owns a i)
  outside : ∀ i, 64 * b.endc ≤ i → bit b i = (mem0 (i / 64)).getLsbD (i % 64)
  disj : live.Pairwise (fun a c => ∀ i, ¬ (Owns a i ∧ Owns c i))
  bound : ∀ a ∈ live, a.1 + a.2 ≤ 64 * b.endc
  used : b.used = (live.map Prod.snd).sum
  count : (List.range (64 * b.endc)).countP (bit b) = b.used
  le : b.used ≤ sz

theorem sum_erase (l : List (Nat × Nat)) (a : Nat × Nat) (h : a ∈ l) :
    (l.map Prod.snd).sum = ((l.erase a).map Prod.snd).sum + a.2 := by
  induction l with
  | nil => simp at h
  | cons x xs ih =>
    by_cases hx : x = a
    · subst hx; simp; omega
    · rw [List.erase_cons_tail (by simpa using hx)]
      have : a ∈ xs := by simpa [Ne.symm hx] using h
      simp [ih this]; omega

theorem mem_erase_or (l : List (Nat × Nat)) (a x : Nat × Nat) (h : x ∈ l) : x = a ∨ x ∈ l.erase a := by
  by_cases hx : x = a
  · exact Or.inl hx
  · exact Or.inr ((List.mem_erase_of_ne hx).mpr h)

theorem pairwise_erase_disj (l : List (Nat × Nat)) (a : Nat × Nat)
    (hp : l.Pairwise (fun a c => ∀ i, ¬ (Owns a i ∧ Owns c i))) (ha : a ∈ l) (i : Nat) (hi : Owns a i) :
    ∀ x ∈ l.erase a, ¬ Owns x i := by
  induction l with
  | nil => simp at ha
  | cons y ys ih =>
    rw [List.pairwise_cons] at hp
    by_cases hy : y = a
    · subst hy
      intro x hx ho
      rw [List.erase_cons_head] at hx
      exact hp.1 x hx i ⟨hi, ho⟩
    · have ha' : a ∈ ys := by simpa [Ne.symm hy] using ha
      rw [List.erase_cons_tail (by simpa using hy)]
      intro x hx ho
      rcases List.mem_cons.mp hx with h | h
      · subst h; exact hp.1 a ha' i ⟨ho, hi⟩
      · exact ih hp.2 ha' x h ho

theorem inv_of_reach (mem0 : Nat → BitVec 64) (size : Nat) (hsz : size + 63 < 2 ^ 64) (b : Bmp) (live)
    (h : Reach mem0 size b live) : Inv mem0 size b live := by
  induction h with
  | init =>
    have hb : ∀ i, i < 64 * (init mem0 size).endc → bit (init mem0 size) i = false := by
      intro i hi
      simp only [bit_of_mem, init] at hi ⊢
      rw [if_pos (by omega)]; simp
    refine ⟨rfl, rfl, Nat.zero_le _, ?_, ?_, List.Pairwise.nil, by simp, rfl, ?_, Nat.zero_le _⟩
    · intro i hi; simp [hb i hi]
    · intro i hi
      simp only [bit_of_mem, init] at hi ⊢
      rw [if_neg (by omega)]
    · rw [countP_range_eq_zero _ _ hb]; rfl
  | @allocOk b b' live n s _ ha ih =>
    obtain ⟨t, hfree, hc, hbd, hfp⟩ := alloc_some b b' n s ih.freeP ha
    have hfe : freeBits b = b.size - b.used := by
      unfold freeBits; exact subSz_eq _ _ (by rw [ih.size]; exact ih.le) (by rw [ih.size]; omega)
    refine ⟨by rw [t.size, ih.size], by rw [t.endc, ih.endc], by rw [t.endc, hfp]; omega, ?_, ?_, ?_, ?_, ?_, ?_, ?_⟩
    · intro i hi
      rw [t.endc] at hi
      rw [t.now]
      simp only [Bool.or_eq_true, decide_eq_true_eq, List.mem_cons, exists_eq_or_imp, ih.bits i hi, Owns]
      constructor
      · rintro (h | h)
        · exact Or.inr h
        · exact Or.inl h
      · rintro (h | h)
        · exact Or.inr h
        · exact Or.inl h
    · intro i hi
      rw [t.endc] at hi
      rw [t.now, decide_eq_false (by omega)]; simp [ih.outside i hi]
    · rw [List.pairwise_cons]
      refine ⟨?_, ih.disj⟩
      intro a ha' i ⟨h1, h2⟩
      have := t.was_free i h1.1 h1.2
      have hb : bit b i = true := (ih.bits i (by have := h1.2; dsimp only at this; omega)).mpr ⟨a, ha', h2⟩
      rw [this] at hb; simp at hb
    · intro a ha'
      rw [t.endc]
      rcases List.mem_cons.mp ha' with h | h
      · subst h; exact hbd
      · exact ih.bound a h
    · rw [t.used, ih.used]; simp; omega
    · rw [t.endc, count_took (bit b) (bit b') s n _ hbd t.was_free t.now, ih.count, t.used]
    · rw [t.used]; have := ih.le; have := ih.size; omega
  | @allocFail b b' live n _ ha ih =>
    obtain ⟨em, eu, es, ee, ef⟩ := alloc_none_unchanged b b' n ha
    have eb : bit b' = bit b := by funext i; simp only [bit_of_mem, em]
    refine ⟨by rw [es, ih.size], by rw [ee, ih.endc], ?_, by rw [ee, eb]; exact ih.bits,
      by rw [ee, eb]; exact ih.outside, ih.disj, by rw [ee]; exact ih.bound, by rw [eu, ih.used],
      by rw [ee, eb, eu, ih.count], by rw [eu]; exact ih.le⟩
    rcases ef with e | e
    · rw [e, ee]; exact ih.freeP
    · rw [e]; exact Nat.zero_le _
  | @free b b' live s n _ hm hn hfr ih =>
    have hsum := sum_erase live (s, n) hm
    have hbd := ih.bound _ hm
    dsimp only at hsum hbd
    have hset : ∀ i, s ≤ i → i < s + n → bit b i = true := by
      intro i h1 h2; exact (ih.bits i (by omega)).mpr ⟨_, hm, h1, h2⟩
    obtain ⟨b2, hok, rel⟩ := free_legal b s n hn hbd (by have := ih.endc; omega)
      (by rw [ih.used]; omega) (by have := ih.le; omega) hset
    rw [hok] at hfr
    simp only [Res.ok.injEq] at hfr
    subst hfr
    refine ⟨by rw [rel.size, ih.size], by rw [rel.endc, ih.endc], by rw [rel.endc, rel.freeP]; exact ih.freeP,
      ?_, ?_, ih.disj.sublist (List.erase_sublist), ?_, ?_, ?_, ?_⟩
    · intro i hi
      rw [rel.endc] at hi
      rw [rel.now]
      simp only [Bool.and_eq_true, ih.bits i hi, Bool.not_eq_true', decide_eq_false_iff_not]
      constructor
      · rintro ⟨⟨a, ha, ho⟩, hnot⟩
        rcases mem_erase_or live (s, n) a ha with h | h
        · subst h; exact absurd ho hnot
        · exact ⟨a, h, ho⟩
      · rintro ⟨a, ha, ho⟩
        refine ⟨⟨a, List.mem_of_mem_erase ha, ho⟩, ?_⟩
        intro hin
        exact pairwise_erase_disj live (s, n) ih.disj hm i hin a ha ho
    · intro i hi
      rw [rel.endc] at hi
      rw [rel.now, decide_eq_false (by omega)]; simp [ih.outside i hi]
    · intro a ha; rw [rel.endc]; exact ih.bound a (List.mem_of_mem_erase ha)
    · rw [rel.used, ih.used, hsum]; omega
    · have := count_took (bit b2) (bit b) s n (64 * b.endc) hbd
        (by intro i h1 h2; rw [rel.now]; simp; omega)
        (by intro i
            rw [rel.now]
            by_cases h : s ≤ i ∧ i < s + n
            · simp [h, hset i h.1 h.2]
            · simp [h])
      rw [ih.count] at this
      rw [rel.endc, rel.used]; omega
    · rw [rel.used]; have := ih.le; omega

/-! ## Derived facts for the property file -/

theorem resetCursor_facts (b : Bmp) : (resetCursor b).mem = b.mem ∧ (resetCursor b).used = b.used ∧
    (resetCursor b).size = b.size ∧ (resetCursor b).endc = b.endc := by
  unfold resetCursor; split <;> exact ⟨rfl, rfl, rfl, rfl⟩

theorem usableOf_congr (b b' : Bmp) (c : Nat) (h1 : b'.mem = b.mem) (h2 : b'.size = b.size) (h3 : b'.endc = b.endc) :
    usableOf b' c = usableOf b c := by
  unfold usableOf; rw [h1, h2, h3]

/-- A usable bit of the bitmap: free and below `size`. -/
theorem usableOf_false (b : Bmp) (c j : Nat) (hj : j < 64) (he : b.endc = (b.size + 63) / 64)
    (hin : c * 64 + j < b.size) (hb : bit b (c * 64 + j) = false) : (usableOf b c).getLsbD j = false := by
  rw [bit_chunk _ _ _ hj] at hb
  unfold usableOf
  split
  · dsimp only
    split
    · rw [BitVec.getLsbD_or, hb, getLsbD_ones_shl, decide_eq_false (by omega)]; rfl
    · exact hb
  · exact hb

theorem usableOf_in (b : Bmp) (c j : Nat) (hj : j < 64) (he : b.endc = (b.size + 63) / 64) (hc : c < b.endc)
    (h : (usableOf b c).getLsbD j = false) : c * 64 + j < b.size := by
  unfold usableOf at h
  split at h
  · dsimp only at h
    split at h
    · rw [BitVec.getLsbD_or, getLsbD_ones_shl] at h
      simp at h
      omega
    · omega
  · omega

theorem alloc_complete_run (b : Bmp) (n i : Nat) (hf : b.freeP ≤ b.endc) (he : b.endc = (b.size + 63) / 64)
    (hn : 0 < n) (hgrp : i % 64 + n ≤ 64) (hin : i + n ≤ b.size) (hfree : n ≤ freeBits b)
    (hrun : ∀ j, i ≤ j → j < i + n → bit b j = false) (hi : i < i + n) :
    ∃ b' s, alloc b n = (b', some s) := by
  rcases hr : alloc b n with ⟨b', r⟩
  cases r with
  | some s => exact ⟨b', s, rfl⟩
  | none =>
    exfalso
    have := (alloc_none_iff b n hf).mp (by rw [hr])
    rcases this with h | h
    · omega
    · obtain ⟨f1, f2, f3, f4⟩ := resetCursor_facts b
      refine findStart_complete (resetCursor b) n (i / 64) (i % 64) (by omega) hgrp hn ?_ (h (i / 64) (by omega))
      intro j h1 h2
      rw [usableOf_congr b _ _ f1 f3 f4]
      exact usableOf_false b (i / 64) j (by omega) he (by omega) (hrun _ (by omega) (by omega))

theorem findStartSmall_single (b b' : Bmp) (n c s : Nat) (hn : n ≤ 64) (h0 : 0 < n) (hc : c < b.endc)
    (he : b.endc = (b.size + 63) / 64) (hone : (s + n - 1) / 64 = s / 64)
    (h : findStartSmall b n c = some (b', s)) : s + n ≤ b.size := by
  simp only [findStartSmall] at h
  generalize hfeq : (if b.mem c ≠ 0 then clz (b.mem c) else 64) = fe at h
  split at h
  · rename_i hz
    simp only [Option.some.injEq, Prod.mk.injEq] at h
    obtain ⟨rfl, rfl⟩ := h
    have := usableOf_in b c (n - 1) (by omega) he hc (by simp [hz])
    omega
  · rename_i hnz
    split at h
    · simp at h
    · split at h
      · rename_i hfb
        have hpp := popcount_pos _ hnz
        split at h
        · simp at h
        · rename_i sh m hsl
          simp only [Option.some.injEq, Prod.mk.injEq] at h
          obtain ⟨rfl, rfl⟩ := h
          obtain ⟨h1, h0', h2, h3, h4⟩ := slide_spec (usableOf b c) n (64 - n + 1) 0 (lowMask n) (by omega) (by
            intro i; rw [getLsbD_lowMask _ _ (by omega)]; congr 1; apply propext; omega) sh m hsl
          have := usableOf_in b c (sh + n - 1) (by omega) he hc (h4 _ (by omega) (by omega))
          omega
      · rename_i hfb
        split at h
        · simp at h
        · rename_i hfe
          split at h
          · simp at h
          · rename_i hlast
            split at h
            · simp at h
            · rename_i b1 hfe1
              simp only [Option.some.injEq, Prod.mk.injEq] at h
              obtain ⟨rfl, rfl⟩ := h
              have hus : usableOf b c = b.mem c := by simp [usableOf, hlast]
              rw [hus] at hfb hnz
              rw [if_pos hnz] at hfeq
              subst hfeq
              have hle := clz_lt _ hnz
              have hpc := popcount_add_zero_top (b.mem c) (clz (b.mem c)) (by omega)
                (clz_zero_above (b.mem c))
              have hpp := popcount_pos _ hnz
              omega

theorem findStart_single (b b' : Bmp) (n c s : Nat) (h0 : 0 < n) (hc : c < b.endc)
    (he : b.endc = (b.size + 63) / 64) (hone : (s + n - 1) / 64 = s / 64)
    (h : findStart b n c = some (b', s)) : s + n ≤ b.size := by
  unfold findStart at h
  split at h
  · exact findStartSmall_single b b' n c s (by omega) h0 hc he hone h
  · omega

theorem scan_single (b b' : Bmp) (bits s : Nat) (h0 : 0 < bits) (he : b.endc = (b.size + 63) / 64)
    (hone : (s + bits - 1) / 64 = s / 64) : ∀ (n c : Nat), c + n ≤ b.endc →
    scan b bits n c = some (b', s) → s + bits ≤ b.size := by
  intro n
  induction n with
  | zero => intro c _ h; simp [scan] at h
  | succ k ih =>
    intro c hc h
    unfold scan at h
    split at h
    · rename_i r hr
      simp only [Option.some.injEq] at h; subst h
      exact findStart_single b b' bits c s h0 (by omega) he hone hr
    · exact ih (c + 1) (by omega) h

theorem alloc_single_chunk (b b' : Bmp) (n s : Nat) (h0 : 0 < n) (hone : (s + n - 1) / 64 = s / 64)
    (hf : b.freeP ≤ b.endc) (he : b.endc = (b.size + 63) / 64) (h : alloc b n = (b', some s)) : s + n ≤ b.size := by
  unfold alloc at h
  obtain ⟨f1, f2, f3, f4⟩ := resetCursor_facts b
  have ef : (resetCursor b).freeP ≤ (resetCursor b).endc := by
    unfold resetCursor; split
    · exact Nat.zero_le _
    · exact hf
  generalize resetCursor b = b1 at *
  rw [← f3]
  rw [← f3, ← f4] at he
  unfold allocFrom at h
  split at h
  · simp at h
  · split at h
    · rename_i b2 found hs
      simp only [Prod.mk.injEq, Option.some.injEq] at h
      obtain ⟨rfl, rfl⟩ := h
      exact scan_single b1 _ n _ h0 he hone _ _ (by omega) hs
    · split at h
      · rename_i b2 found hs
        simp only [Prod.mk.injEq, Option.some.injEq] at h
        obtain ⟨rfl, rfl⟩ := h
        exact scan_single b1 _ n _ h0 he hone _ _ (by omega) hs
      · simp at h

theorem bigTail_fresh (b : Bmp) (n c : Nat) (hn : 65 ≤ n) (hz : ∀ i, i < b.endc → b.mem i = 0)
    (hb : c * 64 + n ≤ 64 * b.endc) : bigTail b n c ones (n - 64) 0 ≠ none := by
  unfold bigTail
  rw [if_neg (by decide), if_neg (by omega)]
  split
  · have : findEndSmall b (n - 64) (c + 1) = some (b.store (c + 1) (b.mem (c + 1) ||| lowMask64 (n - 64))) := by
      simp only [findEndSmall]
      rw [hz (c + 1) (by omega)]; simp
    rw [this]; simp
  · dsimp only
    rw [if_neg]
    · rw [if_neg]
      · rw [if_neg]
        · simp
        · rintro ⟨h1, h2⟩
          apply h2
          rw [hz _ (by omega)]; simp
      · rw [Bool.not_eq_false, spanFree_spec]
        intro i h1 h2; exact hz i (by omega)
    · split <;> omega

theorem alloc_fresh (mem0 : Nat → BitVec 64) (size n : Nat) (hsz : size + 63 < 2 ^ 64) (hn : 0 < n) (hle : n ≤ size) :
    ∃ b' s, alloc (init mem0 size) n = (b', some s) := by
  have he : (init mem0 size).endc = ((init mem0 size).size + 63) / 64 := rfl
  have hs : (init mem0 size).size = size := rfl
  have hu : (init mem0 size).used = 0 := rfl
  have hf : (init mem0 size).freeP = 0 := rfl
  have hz : ∀ i, i < (init mem0 size).endc → (init mem0 size).mem i = 0 := by
    intro i hi; simp only [init] at hi ⊢; rw [if_pos hi]
  generalize init mem0 size = b at *
  have hfb : freeBits b = size := by unfold freeBits; rw [hu, hs, subSz_eq _ _ (by omega) (by omega)]; rfl
  by_cases h64 : n ≤ 64
  · apply alloc_complete_run b n 0 (by omega) he hn (by omega) (by omega) (by omega) _ (by omega)
    intro j _ h2
    rw [bit_of_mem, hz _ (by omega)]; simp
  · rcases hr : alloc b n with ⟨b', r⟩
    cases r with
    | some s => exact ⟨b', s, rfl⟩
    | none =>
      exfalso
      have := (alloc_none_iff b n (by omega)).mp (by rw [hr])
      rcases this with h | h
      · omega
      · obtain ⟨f1, f2, f3, f4⟩ := resetCursor_facts b
        have h0 := h 0 (by omega)
        unfold findStart at h0
        rw [if_neg (by omega), findStartBig_eq, f1, hz 0 (by omega), if_neg (by decide), if_pos rfl] at h0
        exact bigTail_fresh (resetCursor b) n 0 (by omega) (by rw [f1, f4]; exact hz) (by rw [f4]; omega) h0

end Arax.Bitmap
