import Verif.Bitmap.Inv
/-!
# Properties C01–C06 of the page bitmap

All statements quantify over every bitmap reachable by a history of calls (`Reach`), every initial
memory contents and every size with `size + 63 < 2^64` (otherwise `size_bits += 63` in
`utils_bitmap_init` wraps).
-/
namespace Arax.Bitmap

section
variable {mem0 : Nat → BitVec 64} {size : Nat} (hsz : size + 63 < 2 ^ 64)
include hsz

/-- **C01** A successful allocation takes exactly one free contiguous run: every bit of `[s,s+n)` was
free, is now allocated, and *no other bit of memory* (inside or outside the bitmap) changed. -/
theorem C01_alloc_exact_run {b b' : Bmp} {live : List (Nat × Nat)} {n s : Nat}
    (hr : Reach mem0 size b live) (ha : alloc b n = (b', some s)) :
    ∀ i, (s ≤ i ∧ i < s + n → bit b i = false ∧ bit b' i = true) ∧
         (¬ (s ≤ i ∧ i < s + n) → bit b' i = bit b i) := by
  have inv := inv_of_reach mem0 size hsz b live hr
  obtain ⟨t, -⟩ := alloc_some b b' n s inv.freeP ha
  intro i
  refine ⟨fun h => ⟨t.was_free i h.1 h.2, ?_⟩, fun h => ?_⟩
  · rw [t.now, decide_eq_true h]; simp
  · rw [t.now, decide_eq_false h]; simp

/-- **C02** Two live allocations never overlap (at different positions of the list of live ones, so
also when the same range were handed out twice). -/
theorem C02_live_disjoint {b : Bmp} {live : List (Nat × Nat)} (hr : Reach mem0 size b live) :
    live.Pairwise (fun a c => ∀ i, ¬ (Owns a i ∧ Owns c i)) :=
  (inv_of_reach mem0 size hsz b live hr).disj

/-- C02, second part: a bit of the bitmap is set exactly when some live allocation owns it. -/
theorem C02_set_iff_live {b : Bmp} {live : List (Nat × Nat)} (hr : Reach mem0 size b live) (i : Nat)
    (hi : i < 64 * ((size + 63) / 64)) : bit b i = true ↔ ∃ a ∈ live, Owns a i := by
  have inv := inv_of_reach mem0 size hsz b live hr
  exact inv.bits i (by rw [inv.endc]; exact hi)

/-- **C03** Page accounting: the counter equals the population count, equals the sum of the sizes of
the live allocations; used + free = size, and size never changes. -/
theorem C03_accounting {b : Bmp} {live : List (Nat × Nat)} (hr : Reach mem0 size b live) :
    usedBits b = countAllocated b ∧ usedBits b = (live.map Prod.snd).sum ∧
    usedBits b + freeBits b = size ∧ sizeBits b = size := by
  have inv := inv_of_reach mem0 size hsz b live hr
  refine ⟨?_, inv.used, ?_, inv.size⟩
  · unfold usedBits countAllocated
    rw [sum_popcount, inv.size, ← inv.endc]; exact inv.count.symm
  · unfold usedBits freeBits
    have := inv.le
    rw [subSz_eq _ _ (by rw [inv.size]; exact this) (by rw [inv.size]; omega), inv.size]; omega

/-- **C04** (partial) With a size that is a multiple of 64, every allocation lies inside the bitmap.
Missing: sizes that are not multiples of 64, where the claim is false (`C04_violated`). -/
theorem C04_in_bounds_partial {b b' : Bmp} {live : List (Nat × Nat)} {n s : Nat} (h64 : size % 64 = 0)
    (hr : Reach mem0 size b live) (ha : alloc b n = (b', some s)) : s + n ≤ size := by
  have inv := inv_of_reach mem0 size hsz b live hr
  obtain ⟨-, -, -, h, -⟩ := alloc_some b b' n s inv.freeP ha
  rw [inv.endc] at h; omega

/-- C04 (partial, any size): an allocation always ends inside the last 64-bit chunk, so it never touches
memory outside the chunk array. -/
theorem C04_in_chunks_partial {b b' : Bmp} {live : List (Nat × Nat)} {n s : Nat}
    (hr : Reach mem0 size b live) (ha : alloc b n = (b', some s)) : s + n ≤ 64 * ((size + 63) / 64) := by
  have inv := inv_of_reach mem0 size hsz b live hr
  obtain ⟨-, -, -, h, -⟩ := alloc_some b b' n s inv.freeP ha
  rw [inv.endc] at h; exact h

/-- C04 (partial, any size): an allocation that does not cross a 64-bit chunk boundary (in particular
every single-page allocation) is inside the bitmap. -/
theorem C04_single_chunk_partial {b b' : Bmp} {live : List (Nat × Nat)} {n s : Nat} (hn : 0 < n)
    (hone : (s + n - 1) / 64 = s / 64)
    (hr : Reach mem0 size b live) (ha : alloc b n = (b', some s)) : s + n ≤ size := by
  have inv := inv_of_reach mem0 size hsz b live hr
  have := alloc_single_chunk b b' n s hn hone inv.freeP (by rw [inv.endc, inv.size]) ha
  rw [inv.size] at this; exact this

/-- **C05** Freeing a live allocation succeeds, clears exactly its bits (and no other bit of memory) and
lowers the counter by exactly its size. -/
theorem C05_free_exact {b : Bmp} {live : List (Nat × Nat)} {s n : Nat}
    (hr : Reach mem0 size b live) (hm : (s, n) ∈ live) (hn : 0 < n) :
    ∃ b', free b s n = .ok b' ∧
      (∀ i, (s ≤ i ∧ i < s + n → bit b i = true ∧ bit b' i = false) ∧
            (¬ (s ≤ i ∧ i < s + n) → bit b' i = bit b i)) ∧
      usedBits b' + n = usedBits b := by
  have inv := inv_of_reach mem0 size hsz b live hr
  have hsum := sum_erase live (s, n) hm
  have hbd := inv.bound _ hm
  dsimp only at hsum hbd
  have hset : ∀ i, s ≤ i → i < s + n → bit b i = true := by
    intro i h1 h2; exact (inv.bits i (by omega)).mpr ⟨_, hm, h1, h2⟩
  obtain ⟨b2, hok, rel⟩ := free_legal b s n hn hbd (by have := inv.endc; omega)
    (by rw [inv.used]; omega) (by have := inv.le; omega) hset
  refine ⟨b2, hok, ?_, ?_⟩
  · intro i
    refine ⟨fun h => ⟨hset i h.1 h.2, ?_⟩, fun h => ?_⟩
    · rw [rel.now, decide_eq_true h]; simp
    · rw [rel.now, decide_eq_false h]; simp
  · unfold usedBits; rw [rel.used, inv.used]; omega

/-- C05, second part: allocating and freeing the result restores every bit and every counter. -/
theorem C05_alloc_free_restores {b b' : Bmp} {live : List (Nat × Nat)} {n s : Nat} (hn : 0 < n)
    (hr : Reach mem0 size b live) (ha : alloc b n = (b', some s)) :
    ∃ b'', free b' s n = .ok b'' ∧ (∀ i, bit b'' i = bit b i) ∧ usedBits b'' = usedBits b ∧
      freeBits b'' = freeBits b := by
  have h1 := C01_alloc_exact_run hsz hr ha
  have hr' := Reach.allocOk hr ha
  obtain ⟨b'', hok, hb, hu⟩ := C05_free_exact hsz hr' (List.mem_cons_self) hn
  have hr'' := Reach.free hr' (List.mem_cons_self) hn hok
  have a1 := C03_accounting hsz hr
  have a2 := C03_accounting hsz hr'
  have a3 := C03_accounting hsz hr''
  have hs : usedBits b' = usedBits b + n := by
    rw [a2.2.1, a1.2.1]; simp; omega
  refine ⟨b'', hok, ?_, by omega, by omega⟩
  intro i
  by_cases h : s ≤ i ∧ i < s + n
  · rw [((hb i).1 h).2, ((h1 i).1 h).1]
  · rw [(hb i).2 h, (h1 i).2 h]

omit hsz in
/-- **C06** A failed allocation changes no bit and no counter. -/
theorem C06_fail_no_change {b b' : Bmp} {live : List (Nat × Nat)} {n : Nat}
    (_hr : Reach mem0 size b live) (ha : alloc b n = (b', none)) :
    (∀ i, bit b' i = bit b i) ∧ usedBits b' = usedBits b ∧ freeBits b' = freeBits b ∧ sizeBits b' = sizeBits b := by
  obtain ⟨em, eu, es, -, -⟩ := alloc_none_unchanged b b' n ha
  refine ⟨fun i => by simp only [bit, em], eu, ?_, es⟩
  unfold freeBits; rw [eu, es]

/-- C06: a request larger than the free count always fails. -/
theorem C06_too_large_fails {b : Bmp} {live : List (Nat × Nat)} {n : Nat}
    (hr : Reach mem0 size b live) (h : freeBits b < n) : (alloc b n).2 = none := by
  have inv := inv_of_reach mem0 size hsz b live hr
  rw [alloc_none_iff b n inv.freeP]; exact Or.inl h

/-- C06: a one-page request succeeds if and only if fewer than `size` pages are in use. -/
theorem C06_one_page_iff {b : Bmp} {live : List (Nat × Nat)} (hr : Reach mem0 size b live) :
    (∃ b' s, alloc b 1 = (b', some s)) ↔ usedBits b < size := by
  have inv := inv_of_reach mem0 size hsz b live hr
  have hacc := C03_accounting hsz hr
  constructor
  · rintro ⟨b', s, ha⟩
    obtain ⟨-, h, -⟩ := alloc_some b b' 1 s inv.freeP ha
    omega
  · intro hlt
    have hex : ∃ i, i < size ∧ bit b i = false := by
      apply Classical.byContradiction
      intro hno
      have hall : ∀ i, i < size → bit b i = true := by
        intro i hi
        cases hb : bit b i
        · exact absurd ⟨i, hi, hb⟩ hno
        · rfl
      have hc := inv.count
      have hle : size ≤ 64 * b.endc := by rw [inv.endc]; omega
      rw [show List.range (64 * b.endc) = List.range (size + (64 * b.endc - size)) by
        rw [show size + (64 * b.endc - size) = 64 * b.endc by omega], countP_range_add,
        countP_range_true _ _ hall] at hc
      unfold usedBits at hlt
      omega
    obtain ⟨i, hi, hb⟩ := hex
    exact alloc_complete_run b 1 i inv.freeP (by rw [inv.endc, inv.size]) (by omega) (by omega) (by rw [inv.size]; omega)
      (by omega) (by intro j h1 h2; rw [show j = i by omega]; exact hb) (by omega)

/-- C06: more generally a request of `n ≤ 64` pages succeeds whenever `n` are free by count and `n`
contiguous pages are free inside one 64-page group. -/
theorem C06_run_in_group_succeeds {b : Bmp} {live : List (Nat × Nat)} {n i : Nat} (hr : Reach mem0 size b live)
    (hn : 0 < n) (hfree : n ≤ freeBits b) (hin : i + n ≤ size) (hgrp : i % 64 + n ≤ 64)
    (hrun : ∀ j, i ≤ j → j < i + n → bit b j = false) : ∃ b' s, alloc b n = (b', some s) := by
  have inv := inv_of_reach mem0 size hsz b live hr
  exact alloc_complete_run b n i inv.freeP (by rw [inv.endc, inv.size]) hn hgrp (by rw [inv.size]; omega) hfree hrun
    (by omega)

end

theorem pair_of_snd {α β : Type} {p : α × β} {x : β} (h : p.2 = x) : p = (p.1, x) := by
  cases p; subst h; rfl

theorem Reach.alloc' {mem0 size b live n s} (hr : Reach mem0 size b live) (h : (alloc b n).2 = some s) :
    Reach mem0 size (alloc b n).1 ((s, n) :: live) := by
  exact Reach.allocOk hr (pair_of_snd h)

/-- The part of the witness after two allocations. -/
theorem C04_violated_aux (b2 : Bmp) (h2 : Reach (fun _ => 0) 100 b2 [(30, 30), (0, 30)])
    (hk : (match free b2 0 30 with | .ok b => (alloc b 64).2 | _ => none) = some 60) :
    ∃ b live s, Reach (fun _ => 0) 100 b live ∧ (alloc b 64).2 = some s ∧ 100 < s + 64 := by
  obtain ⟨b3, hok, -, -⟩ := C05_free_exact (by decide) h2 (s := 0) (n := 30) (by simp) (by decide)
  have h3 := Reach.free h2 (by simp) (by decide) hok
  rw [hok] at hk
  exact ⟨b3, _, 60, h3, hk, by decide⟩

/-- **C04 is violated by the code**: on a 100-page bitmap the history alloc 30, alloc 30, free the first,
alloc 64 returns the range [60,124), which ends beyond the bitmap (bitmap.c:128 and :164/:177 do not
apply the partial-chunk mask of bitmap.c:80-84 to the *next* chunk). -/
theorem C04_violated : ∃ b live s, Reach (fun _ => 0) 100 b live ∧ (alloc b 64).2 = some s ∧ 100 < s + 64 := by
  have h1 := (Reach.init (mem0 := fun _ => 0) (size := 100)).alloc' (n := 30) (s := 0) (by decide +kernel)
  have h2 := h1.alloc' (n := 30) (s := 30) (by decide +kernel)
  exact C04_violated_aux _ h2 (by decide +kernel)

/-- A fresh bitmap can satisfy every request up to its size. -/
theorem C06_fresh_complete (mem0 : Nat → BitVec 64) (size n : Nat) (hsz : size + 63 < 2 ^ 64) (hn : 0 < n) :
    (∃ b' s, alloc (init mem0 size) n = (b', some s)) ↔ n ≤ size := by
  constructor
  · rintro ⟨b', s, ha⟩
    have hr : Reach mem0 size (init mem0 size) [] := Reach.init
    obtain ⟨-, h, -⟩ := alloc_some _ b' n s (inv_of_reach mem0 size hsz _ _ hr).freeP ha
    have := (C03_accounting hsz hr).2.2.1
    omega
  · intro hle
    exact alloc_fresh mem0 size n hsz hn hle

/-! ## The hypotheses are satisfiable -/

/-- A reachable bitmap of 128 pages with two live allocations, one of which spans a chunk boundary,
and a further successful and a failing request. -/
example : ∃ b, Reach (fun _ => 0) 128 b [(40, 70), (0, 40)] ∧ (alloc b 18).2 = some 110 ∧
    (alloc b 19).2 = none ∧ (128 % 64 = 0) := by
  have h1 := (Reach.init (mem0 := fun _ => 0) (size := 128)).alloc' (n := 40) (s := 0) (by decide +kernel)
  have h2 := h1.alloc' (n := 70) (s := 40) (by decide +kernel)
  exact ⟨_, h2, by decide +kernel, by decide +kernel, by decide⟩

/-- A run of free pages inside one group, for `C06_run_in_group_succeeds`. -/
example : ∃ b, Reach (fun _ => 0) 100 b [(0, 30)] ∧ 20 ≤ freeBits b ∧ 70 + 20 ≤ 100 ∧ 70 % 64 + 20 ≤ 64 ∧
    (∀ j, 70 ≤ j → j < 70 + 20 → bit b j = false) := by
  have h1 := (Reach.init (mem0 := fun _ => 0) (size := 100)).alloc' (n := 30) (s := 0) (by decide +kernel)
  refine ⟨_, h1, by decide +kernel, by decide, by decide, ?_⟩
  intro j hj1 hj2
  have hb := C02_set_iff_live (by decide) h1 j (by omega)
  apply Bool.eq_false_iff.mpr
  intro ht
  have := hb.mp ht
  simp [Owns] at this; omega

end Arax.Bitmap
