import Verif.Json.Spec
/-!
# C85: the lexical part of the reader
-/
namespace Arax.Json

/-- The characters that are still to be read. (No code of its own.) -/
def At (i : In) (t : List Nat) : Prop := (if i.con then i.cur.tail else i.cur) = t

theorem getc_nil {i : In} (h : At i []) : ∃ j, getc i = (none, j) ∧ At j [] ∧ At (ungetc j) [] := by
  unfold At at h
  unfold getc
  by_cases hc : i.con = true
  · rw [if_pos hc] at h
    simp only [hc, if_true, h]
    exact ⟨_, rfl, rfl, rfl⟩
  · rw [if_neg hc] at h
    rw [if_neg hc]
    simp only [h]
    exact ⟨_, rfl, rfl, rfl⟩

theorem getc_cons {i : In} {c : Nat} {t : List Nat} (h : At i (c :: t)) : ∃ j, getc i = (some c, j) ∧ At j t ∧ At (ungetc j) (c :: t) := by
  unfold At at h
  unfold getc
  by_cases hc : i.con = true
  · rw [if_pos hc] at h
    simp only [hc, if_true, h]
    exact ⟨_, rfl, rfl, rfl⟩
  · rw [if_neg hc] at h
    rw [if_neg hc]
    simp only [h]
    exact ⟨_, rfl, rfl, rfl⟩

theorem at_len {i : In} {t : List Nat} (h : At i t) : t.length ≤ i.cur.length := by
  unfold At at h
  split at h
  · rw [← h, List.length_tail]; omega
  · rw [← h]; omega

theorem skipLoop_at (n : Nat) (i : In) (t : List Nat) (h : At i t) (hn : t.length < n) : At (skipLoop n i) (t.dropWhile isWs) := by
  induction n generalizing i t with
  | zero => omega
  | succ n ih =>
    rw [skipLoop]
    cases t with
    | nil =>
      obtain ⟨j, e, _, h2⟩ := getc_nil h
      rw [e]; exact h2
    | cons c t =>
      obtain ⟨j, e, h1, h2⟩ := getc_cons h
      rw [e]
      dsimp only
      by_cases hw : isWs c = true
      · rw [if_pos hw, List.dropWhile_cons_of_pos hw]
        exact ih j t h1 (by simp at hn; omega)
      · rw [if_neg hw, List.dropWhile_cons_of_neg hw]
        exact h2

theorem skipWs_at {i : In} {t : List Nat} (h : At i t) : At (skipWs i) (t.dropWhile isWs) :=
  skipLoop_at _ i t h (by have := at_len h; omega)

theorem expect_yes {i : In} {t r : List Nat} {c : Nat} (h : At i t) (hd : t.dropWhile isWs = c :: r) : ∃ j, expect i c = (true, j) ∧ At j r := by
  have h1 := skipWs_at h
  rw [hd] at h1
  obtain ⟨j, e, h2, _⟩ := getc_cons h1
  refine ⟨j, ?_, h2⟩
  unfold expect
  rw [e]
  dsimp only
  rw [if_pos rfl]

theorem expect_no {i : In} {t : List Nat} {c : Nat} (h : At i t) (hd : (t.dropWhile isWs).head? ≠ some c) :
    ∃ j, expect i c = (false, j) ∧ At j (t.dropWhile isWs) := by
  have h1 := skipWs_at h
  unfold expect
  cases ht : t.dropWhile isWs with
  | nil =>
    rw [ht] at h1
    obtain ⟨j, e, _, h2⟩ := getc_nil h1
    rw [e]
    exact ⟨_, rfl, h2⟩
  | cons d r =>
    rw [ht] at h1 hd
    obtain ⟨j, e, _, h2⟩ := getc_cons h1
    rw [e]
    dsimp only
    have : d ≠ c := by intro e; subst e; exact hd rfl
    rw [if_neg this]
    exact ⟨_, rfl, h2⟩

/-- What `expect` found. -/
theorem expect_cases {i : In} {t : List Nat} (c : Nat) (h : At i t) :
    (∃ j r, expect i c = (true, j) ∧ t.dropWhile isWs = c :: r ∧ At j r) ∨ (∃ j, expect i c = (false, j) ∧ At j (t.dropWhile isWs)) := by
  by_cases hd : (t.dropWhile isWs).head? = some c
  · obtain ⟨r, hr⟩ : ∃ r, t.dropWhile isWs = c :: r := by
      cases ht : t.dropWhile isWs with
      | nil => rw [ht] at hd; cases hd
      | cons d r => rw [ht] at hd; exact ⟨r, by rw [Option.some.inj hd]⟩
    obtain ⟨j, e, h1⟩ := expect_yes h hr
    exact .inl ⟨j, r, e, hr, h1⟩
  · exact .inr (expect_no h hd)

theorem matchP_yes (p r : List Nat) (i : In) (h : At i (p ++ r)) : ∃ j, matchP p i = (true, j) ∧ At j r := by
  induction p generalizing i with
  | nil => exact ⟨i, rfl, h⟩
  | cons c p ih =>
    obtain ⟨j, e, h1, _⟩ := getc_cons h
    rw [matchP, e]
    dsimp only
    rw [if_pos rfl]
    exact ih j h1

theorem matchP_sound (p : List Nat) (i j : In) (t : List Nat) (h : At i t) (e : matchP p i = (true, j)) : ∃ r, t = p ++ r ∧ At j r := by
  induction p generalizing i t with
  | nil =>
    rw [matchP] at e
    cases e
    exact ⟨t, rfl, h⟩
  | cons c p ih =>
    rw [matchP] at e
    cases t with
    | nil => obtain ⟨k, e1, _, _⟩ := getc_nil h; rw [e1] at e; cases e
    | cons d t =>
      obtain ⟨k, e1, h1, _⟩ := getc_cons h
      rw [e1] at e
      dsimp only at e
      by_cases hd : d = c
      · rw [if_pos hd] at e
        obtain ⟨r, hr, hj⟩ := ih k t h1 e
        exact ⟨r, by rw [hd, hr]; rfl, hj⟩
      · rw [if_neg hd] at e; cases e

theorem hexVal_iff (c d : Nat) : hexVal c = some d ↔ Hex c d := by
  unfold hexVal Hex
  split
  · simp only [Option.some.injEq]; omega
  · split
    · simp only [Option.some.injEq]; omega
    · split
      · simp only [Option.some.injEq]; omega
      · simp only [reduceCtorEq, false_iff]; omega

theorem quadhex_step {n u : Nat} {i : In} {c d : Nat} {t : List Nat} (h : At i (c :: t)) (hd : Hex c d) :
    ∃ j, quadhex (n + 1) u i = quadhex n (u * 16 + d) j ∧ At j t := by
  obtain ⟨j, e, h1, _⟩ := getc_cons h
  refine ⟨j, ?_, h1⟩
  rw [quadhex, e]
  dsimp only
  rw [(hexVal_iff c d).2 hd]

theorem quadhex_back {n u x : Nat} {i j : In} {t : List Nat} (h : At i t) (e : quadhex (n + 1) u i = (some x, j)) :
    ∃ c d t' k, t = c :: t' ∧ Hex c d ∧ At k t' ∧ quadhex n (u * 16 + d) k = (some x, j) := by
  rw [quadhex] at e
  cases t with
  | nil => obtain ⟨k, e1, _, _⟩ := getc_nil h; rw [e1] at e; cases e
  | cons c t =>
    obtain ⟨k, e1, h1, _⟩ := getc_cons h
    rw [e1] at e
    dsimp only at e
    cases hv : hexVal c with
    | none => rw [hv] at e; cases e
    | some d => rw [hv] at e; exact ⟨c, d, t, k, rfl, (hexVal_iff c d).1 hv, h1, e⟩

theorem quadhex_yes {i : In} {h4 r : List Nat} {u : Nat} (h : At i (h4 ++ r)) (hu : Hex4 h4 u) : ∃ j, quadhex 4 0 i = (some u, j) ∧ At j r := by
  cases hu with
  | @mk c1 c2 c3 c4 d1 d2 d3 d4 h1 h2 h3 h4 =>
    obtain ⟨i1, e1, a1⟩ := quadhex_step (n := 3) (u := 0) h h1
    obtain ⟨i2, e2, a2⟩ := quadhex_step (n := 2) (u := 0 * 16 + d1) a1 h2
    obtain ⟨i3, e3, a3⟩ := quadhex_step (n := 1) (u := (0 * 16 + d1) * 16 + d2) a2 h3
    obtain ⟨i4, e4, a4⟩ := quadhex_step (n := 0) (u := ((0 * 16 + d1) * 16 + d2) * 16 + d3) a3 h4
    refine ⟨i4, ?_, a4⟩
    rw [e1, e2, e3, e4, quadhex]
    congr 2
    omega

theorem quadhex_sound {i j : In} {t : List Nat} {u : Nat} (h : At i t) (e : quadhex 4 0 i = (some u, j)) : ∃ h4 r, t = h4 ++ r ∧ Hex4 h4 u ∧ At j r := by
  obtain ⟨c1, d1, t1, k1, rfl, x1, a1, e⟩ := quadhex_back h e
  obtain ⟨c2, d2, t2, k2, rfl, x2, a2, e⟩ := quadhex_back a1 e
  obtain ⟨c3, d3, t3, k3, rfl, x3, a3, e⟩ := quadhex_back a2 e
  obtain ⟨c4, d4, t4, k4, rfl, x4, a4, e⟩ := quadhex_back a3 e
  rw [quadhex] at e
  cases e
  refine ⟨[c1, c2, c3, c4], t4, rfl, ?_, a4⟩
  have := Hex4.mk x1 x2 x3 x4
  rwa [show 4096 * d1 + 256 * d2 + 16 * d3 + d4 = (((0 * 16 + d1) * 16 + d2) * 16 + d3) * 16 + d4 from by omega] at this

theorem hex4_lt {h : List Nat} {u : Nat} (e : Hex4 h u) : u < 65536 := by
  cases e with
  | mk h1 h2 h3 h4 => unfold Hex at h1 h2 h3 h4; omega

theorem or80 : ∀ a < 64, (0x80 ||| a : Nat) = 0x80 + a := by decide
theorem orc0 : ∀ a < 32, (0xc0 ||| a : Nat) = 0xc0 + a := by decide
theorem ore0 : ∀ a < 16, (0xe0 ||| a : Nat) = 0xe0 + a := by decide
theorem orf0 : ∀ a < 8, (0xf0 ||| a : Nat) = 0xf0 + a := by decide

theorem and3f (a : Nat) : a &&& 0x3f = a % 64 := Nat.and_two_pow_sub_one_eq_mod a 6

theorem encode_utf8 (u : Nat) (h : u < 0x200000) : encode u = utf8 u := by
  unfold encode utf8
  simp only [and3f, Nat.shiftRight_eq_div_pow]
  split
  · rfl
  · split
    · rw [or80 _ (by omega), orc0 _ (by omega)]; rfl
    · split
      · rw [or80 _ (by omega), or80 _ (by omega), ore0 _ (by omega)]; rfl
      · rw [or80 _ (by omega), or80 _ (by omega), or80 _ (by omega), orf0 _ (by omega)]; rfl

theorem pair_val (u w : Nat) (h1 : 0xd800 ≤ u) (h2 : u < 0xdc00) (h3 : 0xdc00 ≤ w) (h4 : w ≤ 0xdfff) :
    ((((u - 0xd800) <<< 10) ||| ((w - 0xdc00) &&& 0x3ff)) + 0x10000) = 0x10000 + (u - 0xd800) * 0x400 + (w - 0xdc00) := by
  rw [show (0x3ff : Nat) = 2 ^ 10 - 1 from rfl, Nat.and_two_pow_sub_one_eq_mod, Nat.mod_eq_of_lt (by omega),
    ← Nat.shiftLeft_add_eq_or_of_lt (by omega), Nat.shiftLeft_eq]
  omega

theorem codepoint_uni {i : In} {h r : List Nat} {u : Nat} (hi : At i (h ++ r)) (hu : Hex4 h u) (hs : ¬ (0xd800 ≤ u ∧ u ≤ 0xdfff)) :
    ∃ j, codepoint i = (some (utf8 u), j) ∧ At j r := by
  obtain ⟨j, e, a⟩ := quadhex_yes hi hu
  refine ⟨j, ?_, a⟩
  unfold codepoint
  rw [e]
  dsimp only
  rw [if_neg hs, encode_utf8 u (by have := hex4_lt hu; omega)]

theorem codepoint_pair {i : In} {h l r : List Nat} {u w : Nat} (hi : At i (h ++ ([92, 117] ++ l ++ r))) (hu : Hex4 h u) (h1 : 0xd800 ≤ u)
    (h2 : u < 0xdc00) (hw : Hex4 l w) (h3 : 0xdc00 ≤ w) (h4 : w ≤ 0xdfff) :
    ∃ j, codepoint i = (some (utf8 (0x10000 + (u - 0xd800) * 0x400 + (w - 0xdc00))), j) ∧ At j r := by
  obtain ⟨j1, e1, a1⟩ := quadhex_yes hi hu
  obtain ⟨j2, e2, a2, _⟩ := getc_cons (c := 92) (t := 117 :: (l ++ r)) a1
  obtain ⟨j3, e3, a3, _⟩ := getc_cons (c := 117) (t := l ++ r) a2
  obtain ⟨j4, e4, a4⟩ := quadhex_yes a3 hw
  refine ⟨j4, ?_, a4⟩
  unfold codepoint
  rw [e1]
  dsimp only
  rw [if_pos ⟨h1, by omega⟩, if_neg (by omega), e2]
  dsimp only
  rw [if_neg (by omega), e3]
  dsimp only
  rw [if_neg (by omega), e4]
  dsimp only
  rw [if_pos ⟨h3, h4⟩, pair_val u w h1 h2 h3 h4, encode_utf8 _ (by omega)]

/-- What follows `\u`: a code point outside the surrogates, or a pair. (No code of its own.) -/
def Code (p bs : List Nat) : Prop :=
  (∃ u, Hex4 p u ∧ ¬ (0xd800 ≤ u ∧ u ≤ 0xdfff) ∧ bs = utf8 u) ∨
  (∃ h u l w, Hex4 h u ∧ 0xd800 ≤ u ∧ u < 0xdc00 ∧ Hex4 l w ∧ 0xdc00 ≤ w ∧ w ≤ 0xdfff ∧ p = h ++ ([92, 117] ++ l) ∧
    bs = utf8 (0x10000 + (u - 0xd800) * 0x400 + (w - 0xdc00)))

theorem codepoint_sound {i j : In} {t bs : List Nat} (h : At i t) (e : codepoint i = (some bs, j)) : ∃ p r, t = p ++ r ∧ Code p bs ∧ At j r := by
  unfold codepoint at e
  cases hq : quadhex 4 0 i with
  | mk o i1 =>
    rw [hq] at e
    cases o with
    | none => cases e
    | some u =>
      obtain ⟨h4, r, rfl, hu, a1⟩ := quadhex_sound h hq
      dsimp only at e
      by_cases hs : 0xd800 ≤ u ∧ u ≤ 0xdfff
      · rw [if_pos hs] at e
        by_cases h2 : 0xdc00 ≤ u
        · rw [if_pos h2] at e; cases e
        · rw [if_neg h2] at e
          cases r with
          | nil => obtain ⟨k, e1, _, _⟩ := getc_nil a1; rw [e1] at e; cases e
          | cons c r =>
            obtain ⟨i2, e1, a2, _⟩ := getc_cons a1
            rw [e1] at e
            dsimp only at e
            by_cases hc : c = 92
            · rw [if_neg (by omega)] at e
              cases r with
              | nil => obtain ⟨k, e1, _, _⟩ := getc_nil a2; rw [e1] at e; cases e
              | cons d r =>
                obtain ⟨i3, e2, a3, _⟩ := getc_cons a2
                rw [e2] at e
                dsimp only at e
                by_cases hd : d = 117
                · rw [if_neg (by omega)] at e
                  cases hq2 : quadhex 4 0 i3 with
                  | mk o i4 =>
                    rw [hq2] at e
                    cases o with
                    | none => cases e
                    | some w =>
                      obtain ⟨l, r', rfl, hw, a4⟩ := quadhex_sound a3 hq2
                      dsimp only at e
                      by_cases hl : 0xdc00 ≤ w ∧ w ≤ 0xdfff
                      · rw [if_pos hl, pair_val u w hs.1 (by omega) hl.1 hl.2, encode_utf8 _ (by omega)] at e
                        have eb := Option.some.inj (Prod.mk.inj e).1
                        have ej := (Prod.mk.inj e).2
                        rw [← ej]
                        refine ⟨h4 ++ ([92, 117] ++ l), r', by rw [hc, hd]; simp only [List.append_assoc, List.cons_append, List.nil_append], .inr ⟨h4, u, l, w, hu, hs.1, by omega, hw, hl.1, hl.2, rfl, eb.symm⟩, a4⟩
                      · rw [if_neg hl] at e; cases e
                · rw [if_pos hd] at e; cases e
            · rw [if_pos hc] at e; cases e
      · rw [if_neg hs, encode_utf8 u (by have := hex4_lt hu; omega)] at e
        cases e
        exact ⟨h4, r, rfl, .inl ⟨u, hu, hs, rfl⟩, a1⟩

theorem escChar_iff (c x : Nat) : escChar c = some x ↔ (c, x) ∈ escapes := by
  unfold escChar escapes
  simp only [List.mem_cons, Prod.mk.injEq, List.not_mem_nil, or_false]
  constructor
  · intro h
    repeat' split at h
    all_goals first
      | (cases h; done)
      | (have := Option.some.inj h; omega)
  · rintro (h | h | h | h | h | h | h | h) <;> (obtain ⟨rfl, rfl⟩ := h; rfl)

theorem strLoop_yes {t s : List Nat} (h : Chars t s) : ∀ (n : Nat) (out r : List Nat) (i : In), t.length < n → At i (t ++ 34 :: r) →
    ∃ j, strLoop n out i = (some (out ++ s), j) ∧ At j r := by
  induction h with
  | nil =>
    intro n out r i hn hi
    obtain ⟨n, rfl⟩ : ∃ m, n = m + 1 := ⟨n - 1, by omega⟩
    obtain ⟨j, e, a, _⟩ := getc_cons hi
    refine ⟨j, ?_, a⟩
    rw [strLoop, e]
    dsimp only
    rw [if_neg (by omega), if_pos rfl, List.append_nil]
  | @raw c t s h1 h2 h3 _ ih =>
    intro n out r i hn hi
    obtain ⟨n, rfl⟩ : ∃ m, n = m + 1 := ⟨n - 1, by omega⟩
    obtain ⟨j, e, a, _⟩ := getc_cons hi
    rw [strLoop, e]
    dsimp only
    rw [if_neg (by omega), if_neg h2, if_neg h3]
    obtain ⟨k, e', a'⟩ := ih n (out ++ [c]) r j (by simp at hn; omega) a
    exact ⟨k, by rw [e']; simp, a'⟩
  | @esc c x t s hx _ ih =>
    intro n out r i hn hi
    obtain ⟨n, rfl⟩ : ∃ m, n = m + 1 := ⟨n - 1, by omega⟩
    obtain ⟨j, e, a, _⟩ := getc_cons hi
    obtain ⟨j2, e2, a2, _⟩ := getc_cons a
    rw [strLoop, e]
    dsimp only
    rw [if_neg (by omega), if_neg (by omega), if_pos rfl, e2]
    dsimp only
    rw [(escChar_iff c x).2 hx]
    dsimp only
    obtain ⟨k, e', a'⟩ := ih n (out ++ [x]) r j2 (by simp at hn; omega) a2
    exact ⟨k, by rw [e']; simp, a'⟩
  | @uni h u t s hu hs _ ih =>
    intro n out r i hn hi
    obtain ⟨n, rfl⟩ : ∃ m, n = m + 1 := ⟨n - 1, by omega⟩
    have hi' : At i (92 :: 117 :: (h ++ (t ++ 34 :: r))) := by
      have : [92, 117] ++ h ++ t ++ 34 :: r = 92 :: 117 :: (h ++ (t ++ 34 :: r)) := by simp
      rwa [this] at hi
    obtain ⟨j, e, a, _⟩ := getc_cons hi'
    obtain ⟨j2, e2, a2, _⟩ := getc_cons a
    obtain ⟨j3, e3, a3⟩ := codepoint_uni a2 hu hs
    rw [strLoop, e]
    dsimp only
    rw [if_neg (by omega), if_neg (by omega), if_pos rfl, e2]
    dsimp only
    rw [show escChar 117 = none from rfl]
    dsimp only
    rw [if_pos rfl, e3]
    dsimp only
    obtain ⟨k, e', a'⟩ := ih n (out ++ utf8 u) r j3 (by simp at hn; omega) a3
    exact ⟨k, by rw [e']; simp, a'⟩
  | @pair h u l w t s hu h1 h2 hw h3 h4 _ ih =>
    intro n out r i hn hi
    obtain ⟨n, rfl⟩ : ∃ m, n = m + 1 := ⟨n - 1, by omega⟩
    have hi' : At i (92 :: 117 :: (h ++ ([92, 117] ++ l ++ (t ++ 34 :: r)))) := by
      have : [92, 117] ++ h ++ ([92, 117] ++ l ++ t) ++ 34 :: r = 92 :: 117 :: (h ++ ([92, 117] ++ l ++ (t ++ 34 :: r))) := by simp
      rwa [this] at hi
    obtain ⟨j, e, a, _⟩ := getc_cons hi'
    obtain ⟨j2, e2, a2, _⟩ := getc_cons a
    obtain ⟨j3, e3, a3⟩ := codepoint_pair a2 hu h1 h2 hw h3 h4
    rw [strLoop, e]
    dsimp only
    rw [if_neg (by omega), if_neg (by omega), if_pos rfl, e2]
    dsimp only
    rw [show escChar 117 = none from rfl]
    dsimp only
    rw [if_pos rfl, e3]
    dsimp only
    obtain ⟨k, e', a'⟩ := ih n (out ++ utf8 (0x10000 + (u - 0xd800) * 0x400 + (w - 0xdc00))) r j3 (by simp at hn; omega) a3
    exact ⟨k, by rw [e']; simp, a'⟩

theorem chars_code {p bs t s : List Nat} (h : Code p bs) (ht : Chars t s) : Chars ([92, 117] ++ p ++ t) (bs ++ s) := by
  rcases h with ⟨u, hu, hs, rfl⟩ | ⟨h, u, l, w, hu, h1, h2, hw, h3, h4, ep, eb⟩
  · exact .uni hu hs ht
  · rw [ep, eb, List.append_assoc, List.append_assoc]
    have := Chars.pair hu h1 h2 hw h3 h4 ht
    rwa [List.append_assoc, List.append_assoc] at this

theorem strLoop_sound : ∀ (n : Nat) (out x t : List Nat) (i j : In), At i t → strLoop n out i = (some x, j) →
    ∃ p r s, t = p ++ 34 :: r ∧ x = out ++ s ∧ Chars p s ∧ At j r := by
  intro n
  induction n with
  | zero => intro out x t i j _ e; rw [strLoop] at e; cases e
  | succ n ih =>
    intro out x t i j h e
    rw [strLoop] at e
    cases t with
    | nil => obtain ⟨k, e1, _, _⟩ := getc_nil h; rw [e1] at e; cases e
    | cons c t =>
      obtain ⟨i1, e1, a1, _⟩ := getc_cons h
      rw [e1] at e
      dsimp only at e
      by_cases hc : c < 32
      · rw [if_pos hc] at e; cases e
      · rw [if_neg hc] at e
        by_cases hq : c = 34
        · rw [if_pos hq] at e
          cases e
          exact ⟨[], t, [], by rw [hq]; rfl, by simp, .nil, a1⟩
        · rw [if_neg hq] at e
          by_cases hb : c = 92
          · rw [if_pos hb] at e
            cases t with
            | nil => obtain ⟨k, e1, _, _⟩ := getc_nil a1; rw [e1] at e; cases e
            | cons d t =>
              obtain ⟨i2, e2, a2, _⟩ := getc_cons a1
              rw [e2] at e
              dsimp only at e
              cases hx : escChar d with
              | some y =>
                rw [hx] at e
                dsimp only at e
                obtain ⟨p, r, s, rfl, rfl, hp, a⟩ := ih _ _ _ _ _ a2 e
                exact ⟨92 :: d :: p, r, y :: s, by rw [hb]; rfl, by simp, .esc ((escChar_iff d y).1 hx) hp, a⟩
              | none =>
                rw [hx] at e
                dsimp only at e
                by_cases hu : d = 117
                · rw [if_pos hu] at e
                  cases hk : codepoint i2 with
                  | mk o i3 =>
                    rw [hk] at e
                    cases o with
                    | none => cases e
                    | some bs =>
                      dsimp only at e
                      obtain ⟨q, t', rfl, hq', a3⟩ := codepoint_sound a2 hk
                      obtain ⟨p, r, s, rfl, rfl, hp, a⟩ := ih _ _ _ _ _ a3 e
                      exact ⟨[92, 117] ++ q ++ p, r, bs ++ s, by rw [hb, hu]; simp only [List.append_assoc, List.cons_append, List.nil_append], by simp, chars_code hq' hp, a⟩
                · rw [if_neg hu] at e; cases e
          · rw [if_neg hb] at e
            obtain ⟨p, r, s, rfl, rfl, hp, a⟩ := ih _ _ _ _ _ a1 e
            exact ⟨c :: p, r, c :: s, rfl, by simp, .raw (by omega) hq hb hp, a⟩

theorem parseStr_yes {t s r : List Nat} {i : In} (h : Chars t s) (hi : At i (t ++ 34 :: r)) : ∃ j, parseStr i = (some s, j) ∧ At j r :=
  strLoop_yes h _ [] r i (by have := at_len hi; simp at this; omega) hi

theorem parseStr_sound {i j : In} {t x : List Nat} (h : At i t) (e : parseStr i = (some x, j)) : ∃ p r, t = p ++ 34 :: r ∧ Chars p x ∧ At j r := by
  obtain ⟨p, r, s, h1, h2, h3, h4⟩ := strLoop_sound _ _ _ _ _ _ h e
  exact ⟨p, r, h1, by rw [h2]; exact h3, h4⟩

theorem numLoop_at (n : Nat) (s t : List Nat) (i : In) (h : At i t) (hn : t.length < n) :
    ∃ j, numLoop n s i = (s ++ t.takeWhile isNum, j) ∧ At j (t.dropWhile isNum) := by
  induction n generalizing s t i with
  | zero => omega
  | succ n ih =>
    rw [numLoop]
    cases t with
    | nil =>
      obtain ⟨j, e, _, h2⟩ := getc_nil h
      rw [e]
      exact ⟨_, by simp, h2⟩
    | cons c t =>
      obtain ⟨j, e, h1, h2⟩ := getc_cons h
      rw [e]
      dsimp only
      by_cases hc : isNum c = true
      · rw [if_pos hc, List.takeWhile_cons_of_pos hc, List.dropWhile_cons_of_pos hc]
        obtain ⟨k, e', a'⟩ := ih (s ++ [c]) t j h1 (by simp at hn; omega)
        exact ⟨k, by rw [e']; simp, a'⟩
      · rw [if_neg hc, List.takeWhile_cons_of_neg hc, List.dropWhile_cons_of_neg hc]
        exact ⟨_, by simp, h2⟩

end Arax.Json
