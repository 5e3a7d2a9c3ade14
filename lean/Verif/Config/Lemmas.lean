import Verif.Config.Spec
namespace Arax.Config

theorem dropWhile_blank (w s : Str) (h : Blank w) : (w ++ s).dropWhile isSpace = s.dropWhile isSpace := by
  induction w with
  | nil => rfl
  | cons c w ih =>
    have hc : isSpace c = true := h c (by simp)
    simp only [List.cons_append, List.dropWhile_cons, hc, if_true]
    exact ih (fun x hx => h x (by simp [hx]))

theorem dropWhile_word (n : Nat) (k s : Str) (h : Word n k) : (k ++ s).dropWhile isSpace = k ++ s := by
  obtain ⟨h1, _, h3, _⟩ := h
  cases k with
  | nil => exact absurd rfl h1
  | cons c k => simp [h3 c (by simp)]

theorem takeWhile_word (k s : Str) (c : Char) (h : ∀ x ∈ k, isSpace x = false) (hc : isSpace c = true) :
    (k ++ c :: s).takeWhile (fun c => !isSpace c) = k := by
  induction k with
  | nil => simp [hc]
  | cons x k ih =>
    simp only [List.cons_append, List.takeWhile_cons, h x (by simp), Bool.not_false, if_true]
    rw [ih (fun y hy => h y (by simp [hy]))]

theorem scanTok_word (n : Nat) (lead k s : Str) (c : Char) (hl : Blank lead) (hk : Word n k) (hc : isSpace c = true) :
    scanTok n (lead ++ (k ++ c :: s)) = some (k, c :: s) := by
  unfold scanTok
  simp only
  rw [dropWhile_blank _ _ hl, dropWhile_word n k _ hk, takeWhile_word k s c hk.noSpace hc,
    List.take_of_length_le hk.short, if_neg hk.nonempty]
  simp

theorem scanTok_blank (n : Nat) (w : Str) (h : Blank w) : scanTok n w = none := by
  unfold scanTok
  simp only
  have : w.dropWhile isSpace = [] := by
    have := dropWhile_blank w [] h
    simpa using this
  rw [this]; simp

theorem scanPair_entry (lead key sep val : Str) (c : Char) (rest : Str) (hl : Blank lead) (hk : Word 127 key)
    (hs : sep ≠ []) (hsb : Blank sep) (hv : Word 895 val) (hc : isSpace c = true) :
    scanPair (lead ++ (key ++ (sep ++ (val ++ c :: rest)))) = some (key, val, c :: rest) := by
  unfold scanPair
  obtain ⟨s0, sep', rfl⟩ := List.exists_cons_of_ne_nil hs
  have h1 := scanTok_word 127 lead key (sep' ++ (val ++ c :: rest)) s0 hl hk (hsb s0 (by simp))
  have h2 := scanTok_word 895 (s0 :: sep') val rest c hsb hv hc
  simp only [List.cons_append] at h1 h2 ⊢
  simp [h1, h2]

theorem scanPair_blank (w : Str) (h : Blank w) : scanPair w = none := by
  unfold scanPair; simp [scanTok_blank 127 w h]

theorem nul_inj (a b : Str) (ha : ∀ c ∈ a, c ≠ NUL) (hb : ∀ c ∈ b, c ≠ NUL) : ∀ n, a.length < n →
    (a ++ [NUL]).take n = (b ++ [NUL]).take n → a = b := by
  induction a generalizing b with
  | nil =>
    intro n hn h
    cases n with
    | zero => simp at hn
    | succ n =>
      cases b with
      | nil => rfl
      | cons x b =>
        simp only [List.nil_append, List.take_succ_cons, List.cons_append, List.cons.injEq] at h
        exact absurd h.1.symm (hb x (by simp))
  | cons y a ih =>
    intro n hn h
    cases n with
    | zero => simp at hn
    | succ n =>
      cases b with
      | nil =>
        simp only [List.cons_append, List.take_succ_cons, List.nil_append, List.cons.injEq] at h
        exact absurd h.1 (ha y (by simp))
      | cons x b =>
        simp only [List.cons_append, List.take_succ_cons, List.cons.injEq] at h
        rw [h.1, ih b (fun c hc => ha c (by simp [hc])) (fun c hc => hb c (by simp [hc])) n
          (by simp only [List.length_cons] at hn; omega) h.2]

theorem strncmpEq_iff (a b : Str) (ha : ∀ c ∈ a, c ≠ NUL) (hb : ∀ c ∈ b, c ≠ NUL) (hl : a.length ≤ 127) :
    strncmpEq a b 128 = true ↔ a = b := by
  unfold strncmpEq
  constructor
  · intro h; exact nul_inj a b ha hb 128 (by omega) (by simpa using h)
  · rintro rfl; simp

/-- The reader returns the first entry with the key. -/
theorem getLoop_text (conf : Str) (ps : List (Str × Str)) (ht : Text conf ps) (key : Str) (hk : ∀ c ∈ key, c ≠ NUL) :
    ∀ fuel, conf.length < fuel → getLoop fuel conf key = valueOf ps key := by
  induction ht with
  | blank w hw =>
    intro fuel hf
    cases fuel with
    | zero => rfl
    | succ f => simp [getLoop, scanPair_blank w hw, valueOf]
  | entry lead k sep val c rest ps h1 h2 h3 h4 h5 h6 _ ih =>
    intro fuel hf
    cases fuel with
    | zero => simp at hf
    | succ f =>
      rw [getLoop, scanPair_entry lead k sep val c rest h1 h2 h3 h4 h5 h6]
      simp only
      by_cases e : k = key
      · rw [if_pos ((strncmpEq_iff k key h2.noNul hk h2.short).mpr e)]
        simp [valueOf, e]
      · rw [if_neg (fun h => e ((strncmpEq_iff k key h2.noNul hk h2.short).mp h))]
        rw [ih f (by
          have : 0 < k.length := List.length_pos_iff.mpr h2.nonempty
          simp only [List.length_append, List.length_cons] at hf ⊢; omega)]
        simp [valueOf, e]

/-- Writing a valid entry to a well-formed text adds it at the end. -/
theorem text_write (conf : Str) (ps : List (Str × Str)) (ht : Text conf ps) (k v : Str) (hk : Word 127 k) (hv : Word 895 v) :
    Text (writeStr conf k v) (ps ++ [(k, v)]) := by
  unfold writeStr
  induction ht with
  | blank w hw =>
    have := Text.entry w k [' '] v '\n' [] [] hw hk (by simp) (by simp [Blank, isSpace]) hv (by decide)
      (Text.blank ['\n'] (by simp [Blank, isSpace]))
    simpa using this
  | entry lead key sep val c rest ps h1 h2 h3 h4 h5 h6 _ ih =>
    have := Text.entry lead key sep val c (rest ++ (k ++ ' ' :: (v ++ ['\n']))) (ps ++ [(k, v)]) h1 h2 h3 h4 h5 h6
      (by simpa using ih)
    simpa using this

theorem text_vals (conf : Str) (ps : List (Str × Str)) (ht : Text conf ps) : ∀ p ∈ ps, Word 127 p.1 ∧ Word 895 p.2 := by
  induction ht with
  | blank => simp
  | entry lead key sep val c rest ps h1 h2 h3 h4 h5 h6 _ ih =>
    intro p hp
    rcases List.mem_cons.mp hp with e | e
    · rw [e]; exact ⟨h2, h5⟩
    · exact ih p e

theorem valueOf_word (conf : Str) (ps : List (Str × Str)) (ht : Text conf ps) (key v : Str) (h : valueOf ps key = some v) :
    Word 895 v := by
  unfold valueOf at h
  rw [Option.map_eq_some_iff] at h
  obtain ⟨p, hp, rfl⟩ := h
  exact (text_vals conf ps ht p (List.mem_of_find?_eq_some hp)).2

theorem valueOf_append (ps qs : List (Str × Str)) (key : Str) :
    valueOf (ps ++ qs) key = (valueOf ps key).or (valueOf qs key) := by
  unfold valueOf
  rw [List.find?_append]
  cases ps.find? (fun p => p.1 = key) <;> simp

theorem getRaw_text (conf : Str) (ps : List (Str × Str)) (ht : Text conf ps) (key : Str) (hk : ∀ c ∈ key, c ≠ NUL) (n : Nat) :
    getRaw conf key n = match valueOf ps key with
      | none => (0, none)
      | some v => (v.length, some (strncpy v n)) := by
  unfold getRaw
  rw [getLoop_text conf ps ht key hk (conf.length + 1) (by omega)]
  cases valueOf ps key <;> rfl

theorem strncpy_fits (v : Str) (n : Nat) (h : v.length ≤ n) : strncpy v n = stored v n := by
  unfold strncpy stored; rw [List.take_of_length_le h]

/-! ### Integers -/

theorem toDigits_val_step (n : Nat) (h : 10 ≤ n) :
    Nat.toDigits 10 n = Nat.toDigits 10 (n / 10) ++ [Nat.digitChar (n % 10)] := by
  have h1 := Nat.toDigits_append_toDigits (b := 10) (n := n / 10) (d := n % 10) (by omega) (by omega) (by omega)
  rw [Nat.toDigits_of_lt_base (by omega : n % 10 < 10)] at h1
  rw [h1]; congr 1; omega

theorem digitChar_digit (d : Nat) (h : d < 10) : digitIn 10 (Nat.digitChar d) = some d ∧
    isSpace (Nat.digitChar d) = false ∧ Nat.digitChar d ≠ NUL ∧ Nat.digitChar d ≠ '-' ∧ Nat.digitChar d ≠ '+' ∧
    (Nat.digitChar d = '0' → d = 0) := by
  have : d = 0 ∨ d = 1 ∨ d = 2 ∨ d = 3 ∨ d = 4 ∨ d = 5 ∨ d = 6 ∨ d = 7 ∨ d = 8 ∨ d = 9 := by omega
  rcases this with h | h | h | h | h | h | h | h | h | h <;> subst h <;> decide

/-- Every character of a decimal numeral is a digit character. -/
theorem toDigits_chars (n : Nat) : ∀ c ∈ Nat.toDigits 10 n, ∃ d, d < 10 ∧ c = Nat.digitChar d := by
  induction n using Nat.strongRecOn with
  | _ n ih =>
    by_cases h : n < 10
    · rw [Nat.toDigits_of_lt_base h]; intro c hc; exact ⟨n, h, by simpa using hc⟩
    · rw [toDigits_val_step n (by omega)]
      intro c hc
      rcases List.mem_append.mp hc with hc | hc
      · exact ih (n / 10) (by omega) c hc
      · exact ⟨n % 10, by omega, by simpa using hc⟩

theorem digits_append (s : Str) (t : Str) (acc : Nat) (any : Bool) (hs : ∀ c ∈ s, ∃ d, digitIn 10 c = some d) :
    digits 10 (s ++ t) acc any =
      digits 10 t (s.foldl (fun a c => a * 10 + (digitIn 10 c).getD 0) acc) (any || !s.isEmpty) := by
  induction s generalizing acc any with
  | nil => simp
  | cons c s ih =>
    obtain ⟨d, hd⟩ := hs c (by simp)
    simp only [List.cons_append, digits, hd, List.foldl_cons, Option.getD_some]
    rw [ih _ _ (fun x hx => hs x (by simp [hx]))]
    simp

theorem toDigits_foldl (n : Nat) :
    (Nat.toDigits 10 n).foldl (fun a c => a * 10 + (digitIn 10 c).getD 0) 0 = n := by
  induction n using Nat.strongRecOn with
  | _ n ih =>
    by_cases h : n < 10
    · rw [Nat.toDigits_of_lt_base h]; simp [(digitChar_digit n h).1]
    · rw [toDigits_val_step n (by omega), List.foldl_append, ih (n / 10) (by omega)]
      simp [(digitChar_digit (n % 10) (by omega)).1]; omega

theorem toDigits_ne_nil (n : Nat) : Nat.toDigits 10 n ≠ [] := by
  by_cases h : n < 10
  · rw [Nat.toDigits_of_lt_base h]; simp
  · rw [toDigits_val_step n (by omega)]; simp

/-- The first character of a decimal numeral is `0` only for zero. -/
theorem toDigits_head (n : Nat) : ∃ d s, d < 10 ∧ Nat.toDigits 10 n = Nat.digitChar d :: s ∧ (d = 0 → n = 0) := by
  induction n using Nat.strongRecOn with
  | _ n ih =>
    by_cases h : n < 10
    · exact ⟨n, [], h, Nat.toDigits_of_lt_base h, fun e => e⟩
    · obtain ⟨d, s, h1, h2, h3⟩ := ih (n / 10) (by omega)
      refine ⟨d, s ++ [Nat.digitChar (n % 10)], h1, ?_, fun e => by have := h3 e; omega⟩
      rw [toDigits_val_step n (by omega), h2]; rfl

theorem toDigits_length (n k : Nat) (h : n < 10 ^ k) (hk : 0 < k) : (Nat.toDigits 10 n).length ≤ k := by
  induction k generalizing n with
  | zero => omega
  | succ k ih =>
    by_cases hn : n < 10
    · rw [Nat.toDigits_of_lt_base hn]; simp
    · rw [toDigits_val_step n (by omega)]
      have : 0 < k := by
        apply Nat.pos_of_ne_zero; intro e; subst e; simp at h; omega
      have := ih (n / 10) (by rw [Nat.pow_succ] at h; omega) this
      simp; omega

theorem magnitude_toDigits (n : Nat) (t : Str) :
    magnitude (Nat.toDigits 10 n ++ NUL :: t) = .ok (n, true) := by
  have hdig : digits 10 (Nat.toDigits 10 n ++ NUL :: t) 0 false = .ok (n, true) := by
    rw [digits_append]
    · rw [toDigits_foldl]
      have hn : digitIn 10 NUL = none := by decide
      simp [digits, hn]
    · intro c hc
      obtain ⟨d, hd, rfl⟩ := toDigits_chars n c hc
      exact ⟨d, (digitChar_digit d hd).1⟩
  obtain ⟨d, s, h1, h2, h3⟩ := toDigits_head n
  by_cases hz : d = 0
  · have := h3 hz
    subst this
    show magnitude ('0' :: NUL :: t) = _
    have hn : digitIn 8 NUL = none := by decide
    have h0 : digitIn 8 '0' = some 0 := by decide
    have e : magnitude ('0' :: NUL :: t) = digits 8 ('0' :: NUL :: t) 0 false := by
      simp [magnitude, NUL]
    rw [e]
    simp only [digits, h0, hn]
  · rw [← hdig, h2]
    have hne : Nat.digitChar d ≠ '0' := fun e => hz ((digitChar_digit d h1).2.2.2.2.2 e)
    simp only [List.cons_append]
    unfold magnitude
    split
    · rename_i e; simp at e
    · rename_i e; simp at e
    · rename_i e; simp only [List.cons.injEq] at e; exact absurd e.1 hne
    · rfl

/-- Reading a decimal integer of any size: its value, or the saturated value and `errno = ERANGE`. -/
theorem strtol_fmt_all (n : Int) (t : Str) :
    strtol0 (fmtLong n ++ NUL :: t) =
      .ok (if n ≥ longLim then (longLim - 1, true, true)
        else if n < -longLim then (-longLim, true, true) else (n, false, true)) := by
  obtain ⟨d, s, hd, hs, -⟩ := toDigits_head n.natAbs
  obtain ⟨-, p2, -, p4, p5, -⟩ := digitChar_digit d hd
  unfold strtol0 fmtLong
  by_cases hn : n < 0
  · rw [if_pos hn]
    have e1 : skipSpace ('-' :: Nat.toDigits 10 n.natAbs ++ NUL :: t) = .ok ('-' :: Nat.toDigits 10 n.natAbs ++ NUL :: t) := by
      simp [skipSpace, isSpace]
    rw [e1]
    simp only [Res.bind_ok, List.cons_append, sign]
    rw [magnitude_toDigits]
    simp only [Res.bind_ok, if_true]
    have e2 : -(n.natAbs : Int) = n := by omega
    rw [e2]
    split
    · rfl
    · split <;> rfl
  · rw [if_neg hn]
    have e1 : skipSpace (Nat.toDigits 10 n.natAbs ++ NUL :: t) = .ok (Nat.toDigits 10 n.natAbs ++ NUL :: t) := by
      rw [hs]; simp [skipSpace, p2]
    have e3 : sign (Nat.toDigits 10 n.natAbs ++ NUL :: t) = (false, Nat.toDigits 10 n.natAbs ++ NUL :: t) := by
      rw [hs]; simp only [List.cons_append]; unfold sign
      split
      · rename_i e; simp only [List.cons.injEq] at e; exact absurd e.1 p4
      · rename_i e; simp only [List.cons.injEq] at e; exact absurd e.1 p5
      · rfl
    rw [e1]
    simp only [Res.bind_ok, e3]
    rw [magnitude_toDigits]
    have e2 : (n.natAbs : Int) = n := by omega
    simp only [Res.bind_ok, e2, Bool.false_eq_true, if_false]
    split
    · rfl
    · split <;> rfl

/-- Reading back a printed `long`. -/
theorem strtol_fmt (n : Int) (h1 : -longLim ≤ n) (h2 : n < longLim) (t : Str) :
    strtol0 (fmtLong n ++ NUL :: t) = .ok (n, false, true) := by
  rw [strtol_fmt_all, if_neg (by omega), if_neg (by omega)]

theorem fmtLong_len (n : Int) (h1 : -longLim ≤ n) (h2 : n < longLim) : (fmtLong n).length ≤ 20 := by
  have : n.natAbs < 10 ^ 19 := by unfold longLim at *; omega
  have := toDigits_length n.natAbs 19 this (by omega)
  unfold fmtLong
  split <;> simp <;> omega

theorem fmtLong_word (n : Int) (h1 : -longLim ≤ n) (h2 : n < longLim) : Word 895 (fmtLong n) := by
  have hl := fmtLong_len n h1 h2
  have hc : ∀ c ∈ fmtLong n, isSpace c = false ∧ c ≠ NUL := by
    have hd : ∀ c ∈ Nat.toDigits 10 n.natAbs, isSpace c = false ∧ c ≠ NUL := by
      intro c hc
      obtain ⟨d, hd, rfl⟩ := toDigits_chars _ c hc
      have := digitChar_digit d hd
      exact ⟨this.2.1, this.2.2.1⟩
    unfold fmtLong
    split
    · intro c hc
      rcases List.mem_cons.mp hc with e | e
      · subst e; decide
      · exact hd c e
    · exact hd
  refine ⟨?_, by omega, fun c h => (hc c h).1, fun c h => (hc c h).2⟩
  unfold fmtLong; split
  · simp
  · exact toDigits_ne_nil _

end Arax.Config
