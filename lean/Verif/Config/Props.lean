import Verif.Config.Lemmas
/-!
# C13–C15: configuration reads and writes
-/
namespace Arax.Config

/-- What the string getter answers on a well-formed text (specification-level reading of
`utils_config_get_str` for a buffer large enough for every value). -/
theorem get_str_text {conf : Str} {ps : List (Str × Str)} (ht : Text conf ps) {key : Str} (hk : Word 127 key)
    {n : Nat} (hn : 895 < n) (dflt : Option Str) :
    getStr conf key n dflt = match valueOf ps key, dflt with
      | some v, _ => { ret := 1, value := some (stored v n), conf := conf }
      | none, some d => { ret := 0, value := some (strncpy d n), conf := writeStr conf key d }
      | none, none => { ret := 0, value := none, conf := conf } := by
  unfold getStr
  rw [getRaw_text conf ps ht key hk.noNul n]
  cases e : valueOf ps key with
  | none => cases dflt <;> rfl
  | some v =>
    have hw := valueOf_word conf ps ht key v e
    obtain ⟨c, v', rfl⟩ := List.exists_cons_of_ne_nil hw.nonempty
    simp only [List.length_cons]
    rw [strncpy_fits _ _ (by have := hw.short; omega)]

/-- **C13 (partial)** Round trip for keys the text does not define yet: for every well-formed text,
every key without an entry and every valid value, `write_str` followed by `get_str` succeeds and returns the value
(NUL terminated), and the text stays well formed. Missing: keys that already have an entry, for which the property
is false (`C13_violated`). -/
theorem C13_write_read_partial {conf : Str} {ps : List (Str × Str)} (ht : Text conf ps) {key v : Str}
    (hk : Word 127 key) (hv : Word 895 v) (hnew : valueOf ps key = none) {n : Nat} (hn : 895 < n) (dflt : Option Str) :
    getStr (writeStr conf key v) key n dflt =
      { ret := 1, value := some (stored v n), conf := writeStr conf key v } ∧
    Text (writeStr conf key v) (ps ++ [(key, v)]) := by
  have ht' := text_write conf ps ht key v hk hv
  refine ⟨?_, ht'⟩
  rw [get_str_text ht' hk hn, valueOf_append, hnew]
  simp [valueOf]

/-- C13: a getter that falls back to its default records it: the next read of the key succeeds with the default. -/
theorem C13_default_recorded {conf : Str} {ps : List (Str × Str)} (ht : Text conf ps) {key d : Str}
    (hk : Word 127 key) (hd : Word 895 d) (hnew : valueOf ps key = none) {n : Nat} (hn : 895 < n) (dflt : Option Str) :
    (getStr conf key n (some d)).ret = 0 ∧ (getStr conf key n (some d)).value = some (stored d n) ∧
    getStr (getStr conf key n (some d)).conf key n dflt =
      { ret := 1, value := some (stored d n), conf := (getStr conf key n (some d)).conf } := by
  have := get_str_text ht hk hn (some d)
  rw [hnew] at this
  rw [this]
  refine ⟨rfl, ?_, (C13_write_read_partial ht hk hd hnew hn dflt).1⟩
  simp only; rw [strncpy_fits _ _ (by have := hd.short; omega)]

/-- **C13 is violated**: for every well-formed text that already defines the key, a write of a different value is
invisible: reading still returns the old value. -/
theorem C13_violated {conf : Str} {ps : List (Str × Str)} (ht : Text conf ps) {key old v : Str}
    (hk : Word 127 key) (hv : Word 895 v) (hold : valueOf ps key = some old) {n : Nat} (hn : 895 < n) (dflt : Option Str) :
    getStr (writeStr conf key v) key n dflt =
      { ret := 1, value := some (stored old n), conf := writeStr conf key v } := by
  have ht' := text_write conf ps ht key v hk hv
  rw [get_str_text ht' hk hn, valueOf_append, hold]
  simp

/-- **C14** For every well-formed text and valid key and value, the write leaves the answer of `get_str`
(return code and buffer) for every other key unchanged, for every buffer size. -/
theorem C14_other_keys {conf : Str} {ps : List (Str × Str)} (ht : Text conf ps) {key v : Str}
    (hk : Word 127 key) (hv : Word 895 v) {other : Str} (ho : Word 127 other) (hne : other ≠ key) (n : Nat)
    (dflt : Option Str) :
    (getStr (writeStr conf key v) other n dflt).ret = (getStr conf other n dflt).ret ∧
    (getStr (writeStr conf key v) other n dflt).value = (getStr conf other n dflt).value := by
  have ht' := text_write conf ps ht key v hk hv
  have : getRaw (writeStr conf key v) other n = getRaw conf other n := by
    rw [getRaw_text _ _ ht' other ho.noNul n, getRaw_text _ _ ht other ho.noNul n, valueOf_append]
    have : valueOf [(key, v)] other = none := by simp [valueOf, hne.symm]
    rw [this, Option.or_none]
  unfold getStr
  rw [this]
  generalize getRaw conf other n = g
  obtain ⟨l, b⟩ := g
  cases l <;> cases dflt <;> exact ⟨rfl, rfl⟩

/-- C14 holds for integer reads as well. -/
theorem C14_other_keys_long {conf : Str} {ps : List (Str × Str)} (ht : Text conf ps) {key v : Str}
    (hk : Word 127 key) (hv : Word 895 v) {other : Str} (ho : Word 127 other) (hne : other ≠ key) (d : Int) :
    (getLong (writeStr conf key v) other d).map (fun g => (g.ret, g.value)) =
    (getLong conf other d).map (fun g => (g.ret, g.value)) := by
  have ht' := text_write conf ps ht key v hk hv
  have : getRaw (writeStr conf key v) other 22 = getRaw conf other 22 := by
    rw [getRaw_text _ _ ht' other ho.noNul 22, getRaw_text _ _ ht other ho.noNul 22, valueOf_append]
    have : valueOf [(key, v)] other = none := by simp [valueOf, hne.symm]
    rw [this, Option.or_none]
  unfold getLong
  rw [this]
  generalize getRaw conf other 22 = g
  obtain ⟨l, b⟩ := g
  cases l with
  | zero => rfl
  | succ l =>
    cases b with
    | none => rfl
    | some b =>
      simp only
      cases strtol0 b with
      | ok r =>
        obtain ⟨v, err, moved⟩ := r
        simp only [Res.bind_ok, Res.pure_eq]
        split <;> rfl
      | abort => rfl
      | ub => rfl

/-- A text whose last line lacks the newline is not protected: the write merges with it and destroys the other
key's value (C14's well-formedness hypothesis is needed; such a file is easily produced with an editor). -/
theorem C14_needs_newline :
    let conf := "a 1".toList
    (getStr conf "a".toList 900 none).ret = 1 ∧
    getLoop 100 conf "a".toList = some ['1'] ∧
    getLoop 100 (writeStr conf "b".toList "2".toList) "a".toList = some "1b".toList := by
  refine ⟨by decide +kernel, by decide +kernel, by decide +kernel⟩

/-- **C15 (partial)** Round trip of every 64-bit integer through `write_long`/`get_long` for a key the text does not
define yet. Missing: already defined keys (`C13_violated`). -/
theorem C15_long_roundtrip_partial {conf : Str} {ps : List (Str × Str)} (ht : Text conf ps) {key : Str}
    (hk : Word 127 key) (hnew : valueOf ps key = none) (m : Int) (h1 : -longLim ≤ m) (h2 : m < longLim) (d : Int) :
    getLong (writeLong conf key m) key d = .ok { ret := 1, value := some m, conf := writeLong conf key m } := by
  have hw := fmtLong_word m h1 h2
  have hlen := fmtLong_len m h1 h2
  have ht' := text_write conf ps ht key (fmtLong m) hk hw
  unfold getLong
  rw [writeLong, getRaw_text _ _ ht' key hk.noNul 22, valueOf_append, hnew]
  have e : valueOf [(key, fmtLong m)] key = some (fmtLong m) := by simp [valueOf]
  rw [e]
  simp only [Option.none_or]
  have e2 : strncpy (fmtLong m) 22 = fmtLong m ++ NUL :: List.replicate (22 - (fmtLong m).length - 1) NUL := by
    rw [strncpy_fits _ _ (by omega)]
    unfold stored
    have : 22 - (fmtLong m).length = (22 - (fmtLong m).length - 1) + 1 := by omega
    rw [this, List.replicate_succ]; rfl
  rw [e2]
  obtain ⟨l, hl⟩ : ∃ l, (fmtLong m).length = l + 1 :=
    ⟨(fmtLong m).length - 1, by have := List.length_pos_iff.mpr hw.nonempty; omega⟩
  rw [hl]
  simp only
  rw [strtol_fmt m h1 h2]
  simp

/-- C15: what an integer read delivers, for every well-formed text and every integer `m` (of any size) whose decimal
numeral, of at most 21 characters, is the text's value for the key: `m` itself when it fits a `long`, and otherwise the
default together with failure (an out-of-range number is never clamped into a value). -/
theorem C15_long_decimal {conf : Str} {ps : List (Str × Str)} (ht : Text conf ps) {key : Str} (hk : Word 127 key)
    (m : Int) (hv : valueOf ps key = some (fmtLong m)) (hlen : (fmtLong m).length ≤ 21) (d : Int) :
    (getLong conf key d).map (fun g => (g.ret, g.value)) =
      .ok (if -longLim ≤ m ∧ m < longLim then (1, some m) else (0, some d)) := by
  have hw := valueOf_word conf ps ht key _ hv
  unfold getLong
  rw [getRaw_text _ _ ht key hk.noNul 22, hv]
  have e2 : strncpy (fmtLong m) 22 = fmtLong m ++ NUL :: List.replicate (22 - (fmtLong m).length - 1) NUL := by
    rw [strncpy_fits _ _ (by omega)]
    unfold stored
    have : 22 - (fmtLong m).length = (22 - (fmtLong m).length - 1) + 1 := by omega
    rw [this, List.replicate_succ]; rfl
  simp only
  rw [e2]
  obtain ⟨l, hl⟩ : ∃ l, (fmtLong m).length = l + 1 :=
    ⟨(fmtLong m).length - 1, by have := List.length_pos_iff.mpr hw.nonempty; omega⟩
  rw [hl]
  simp only
  rw [strtol_fmt_all, Res.bind_ok]
  by_cases h1 : m ≥ longLim
  · have hn : ¬ (-longLim ≤ m ∧ m < longLim) := by omega
    rw [if_pos h1, if_neg hn]; rfl
  · rw [if_neg h1]
    by_cases h2 : m < -longLim
    · have hn : ¬ (-longLim ≤ m ∧ m < longLim) := by omega
      rw [if_pos h2, if_neg hn]; rfl
    · have hn : -longLim ≤ m ∧ m < longLim := by omega
      rw [if_neg h2, if_pos hn]; rfl

/-- C15: `get_int` succeeds only with a value of `int` range that `get_long` reads, otherwise delivers the default;
and it does succeed whenever `get_long` reads an `int`. Any text. -/
theorem C15_get_int (conf key : Str) (d : Int) (g : Got Int) (h : getInt conf key d = .ok g) :
    ∃ gl, getLong conf key d = .ok gl ∧
    ((g.ret = 1 ∧ ∃ v, g.value = some v ∧ gl.ret = 1 ∧ gl.value = some v ∧ -2147483648 ≤ v ∧ v ≤ 2147483647) ∨
     (g.ret = 0 ∧ g.value = some d ∧ ¬ (gl.ret = 1 ∧ ∃ v, gl.value = some v ∧ -2147483648 ≤ v ∧ v ≤ 2147483647))) := by
  unfold getInt at h
  cases e : getLong conf key d with
  | abort => rw [e] at h; simp at h
  | ub => rw [e] at h; simp at h
  | ok gl =>
    rw [e, Res.bind_ok] at h
    refine ⟨gl, rfl, ?_⟩
    split at h
    · rename_i cval hr hv
      split at h
      · rename_i hc
        simp only [Res.pure_eq, Res.ok.injEq] at h; subst h
        exact Or.inl ⟨rfl, cval, hv, hr, hv, hc.2, hc.1⟩
      · rename_i hc
        simp only [Res.pure_eq, Res.ok.injEq] at h; subst h
        refine Or.inr ⟨rfl, rfl, ?_⟩
        rintro ⟨_, v, hv2, h3, h4⟩
        rw [hv] at hv2; simp only [Option.some.injEq] at hv2; subst hv2
        exact hc ⟨h4, h3⟩
    · rename_i hn
      simp only [Res.pure_eq, Res.ok.injEq] at h; subst h
      refine Or.inr ⟨rfl, rfl, ?_⟩
      rintro ⟨hr, v, hv, _⟩
      exact hn v hr hv

/-- C15: `get_bool` succeeds exactly for the values 0 and 1 and otherwise delivers the default. -/
theorem C15_get_bool (conf key : Str) (d : Int) (g : Got Int) (h : getBool conf key d = .ok g) :
    ∃ gl, getLong conf key d = .ok gl ∧
    ((g.ret = 1 ∧ ∃ v, g.value = some v ∧ gl.ret = 1 ∧ gl.value = some v ∧ (v = 0 ∨ v = 1)) ∨
     (g.ret = 0 ∧ g.value = some d ∧ ¬ (gl.ret = 1 ∧ ∃ v, gl.value = some v ∧ (v = 0 ∨ v = 1)))) := by
  unfold getBool at h
  cases e : getInt conf key d with
  | abort => rw [e] at h; simp at h
  | ub => rw [e] at h; simp at h
  | ok gi =>
    obtain ⟨gl, hl, hgi⟩ := C15_get_int conf key d gi e
    rw [e, Res.bind_ok] at h
    refine ⟨gl, hl, ?_⟩
    split at h
    · rename_i v hr hv
      have hgl : gl.ret = 1 ∧ gl.value = some v := by
        rcases hgi with ⟨_, v2, a, b, c, _⟩ | ⟨a, _⟩
        · rw [hv] at a; simp only [Option.some.injEq] at a; subst a; exact ⟨b, c⟩
        · rw [hr] at a; simp at a
      split at h
      · rename_i hc
        simp only [Res.pure_eq, Res.ok.injEq] at h; subst h
        exact Or.inl ⟨rfl, v, hv, hgl.1, hgl.2, hc⟩
      · rename_i hc
        simp only [Res.pure_eq, Res.ok.injEq] at h; subst h
        refine Or.inr ⟨rfl, rfl, ?_⟩
        rintro ⟨_, v2, hv2, h3⟩
        rw [hgl.2] at hv2; simp only [Option.some.injEq] at hv2; subst hv2
        exact hc h3
    · rename_i hn
      simp only [Res.pure_eq, Res.ok.injEq] at h; subst h
      refine Or.inr ⟨rfl, rfl, ?_⟩
      rintro ⟨hr, v, hv, h3⟩
      rcases hgi with ⟨r1, v2, a, b, c, _⟩ | ⟨_, _, hno⟩
      · exact hn v2 r1 a
      · exact hno ⟨hr, v, hv, by rcases h3 with h | h <;> omega, by rcases h3 with h | h <;> omega⟩

/-- C15: `get_size` succeeds exactly for non-negative values and otherwise delivers the default. -/
theorem C15_get_size (conf key : Str) (d : Nat) (g : Got Int) (h : getSize conf key d = .ok g) :
    ∃ gl, getLong conf key (sizeToLong d) = .ok gl ∧
    ((g.ret = 1 ∧ ∃ v, g.value = some v ∧ gl.ret = 1 ∧ gl.value = some v ∧ 0 ≤ v) ∨
     (g.ret = 0 ∧ g.value = some (d : Int) ∧ ¬ (gl.ret = 1 ∧ ∃ v, gl.value = some v ∧ 0 ≤ v))) := by
  unfold getSize at h
  cases e : getLong conf key (sizeToLong d) with
  | abort => rw [e] at h; simp at h
  | ub => rw [e] at h; simp at h
  | ok gl =>
    rw [e, Res.bind_ok] at h
    refine ⟨gl, rfl, ?_⟩
    split at h
    · rename_i cval hr hv
      split at h
      · rename_i hc
        simp only [Res.pure_eq, Res.ok.injEq] at h; subst h
        exact Or.inl ⟨rfl, cval, hv, hr, hv, hc⟩
      · rename_i hc
        simp only [Res.pure_eq, Res.ok.injEq] at h; subst h
        refine Or.inr ⟨rfl, rfl, ?_⟩
        rintro ⟨_, v, hv2, h3⟩
        rw [hv] at hv2; simp only [Option.some.injEq] at hv2; subst hv2
        exact hc h3
    · rename_i hn
      simp only [Res.pure_eq, Res.ok.injEq] at h; subst h
      refine Or.inr ⟨rfl, rfl, ?_⟩
      rintro ⟨hr, v, hv, _⟩
      exact hn v hr hv

/-- C15: a long read that fails delivers the default and returns 0; one that succeeds leaves the text alone. -/
theorem C15_get_long_default (conf key : Str) (d : Int) (g : Got Int) (h : getLong conf key d = .ok g) :
    (g.ret = 0 ∧ g.value = some d) ∨ (g.ret = 1 ∧ g.conf = conf) := by
  unfold getLong at h
  split at h
  · rename_i buf _
    cases e : strtol0 buf with
    | abort => rw [e] at h; simp at h
    | ub => rw [e] at h; simp at h
    | ok r =>
      rw [e, Res.bind_ok] at h
      obtain ⟨v, err, moved⟩ := r
      simp only at h
      split at h
      · simp only [Res.pure_eq, Res.ok.injEq] at h; subst h; exact Or.inl ⟨rfl, rfl⟩
      · simp only [Res.pure_eq, Res.ok.injEq] at h; subst h; exact Or.inr ⟨rfl, rfl⟩
  · simp only [Res.ok.injEq] at h; subst h; exact Or.inl ⟨rfl, rfl⟩

theorem digits_nul (base : Nat) (s t : Str) : ∀ acc any,
    ∃ r, digits base (s ++ NUL :: t) acc any = .ok r := by
  have hn : digitIn base NUL = none := by
    have : digitVal NUL = none := by decide
    simp [digitIn, this]
  induction s with
  | nil => intro acc any; exact ⟨_, by simp [digits, hn]; rfl⟩
  | cons c s ih =>
    intro acc any
    simp only [List.cons_append, digits]
    cases digitIn base c with
    | none => exact ⟨_, rfl⟩
    | some d => exact ih _ _

/-- `strtol` on a NUL-terminated array stays inside it. -/
theorem strtol_terminated (s t : Str) : ∃ r, strtol0 (s ++ NUL :: t) = .ok r := by
  have hsk : ∃ s', skipSpace (s ++ NUL :: t) = .ok (s' ++ NUL :: t) := by
    induction s with
    | nil => exact ⟨[], by simp [skipSpace, NUL, isSpace]⟩
    | cons c s ih =>
      simp only [List.cons_append, skipSpace]
      split
      · exact ih
      · exact ⟨c :: s, rfl⟩
  obtain ⟨s1, h1⟩ := hsk
  have hsg : ∃ neg s', sign (s1 ++ NUL :: t) = (neg, s' ++ NUL :: t) := by
    cases s1 with
    | nil => exact ⟨false, [], by simp [sign, NUL]⟩
    | cons c s1 =>
      simp only [List.cons_append]
      unfold sign
      split
      · rename_i e; simp only [List.cons.injEq] at e; exact ⟨true, s1, by rw [e.2]⟩
      · rename_i e; simp only [List.cons.injEq] at e; exact ⟨false, s1, by rw [e.2]⟩
      · exact ⟨false, c :: s1, rfl⟩
  obtain ⟨neg, s2, h2⟩ := hsg
  have hm : ∃ r, magnitude (s2 ++ NUL :: t) = .ok r := by
    cases s2 with
    | nil =>
      have := digits_nul 10 [] t 0 false
      simp only [List.nil_append] at this ⊢
      unfold magnitude
      split
      · rename_i e; simp at e
      · rename_i e; simp [NUL] at e
      · rename_i e; simp [NUL] at e
      · exact this
    | cons c s3 =>
      by_cases hc : c = '0'
      · subst hc
        cases s3 with
        | nil =>
          have := digits_nul 8 ['0'] t 0 false
          simpa [magnitude, NUL] using this
        | cons x s4 =>
          by_cases hx : x = 'x' ∨ x = 'X'
          · cases s4 with
            | nil => simp [magnitude, hx, NUL, digitIn, digitVal]
            | cons y s5 =>
              have := digits_nul 16 (y :: s5) t 0 false
              simp only [List.cons_append] at this
              simp only [List.cons_append, magnitude, hx, if_true]
              split
              · exact this
              · exact ⟨_, rfl⟩
          · have := digits_nul 8 ('0' :: x :: s4) t 0 false
            simp only [List.cons_append] at this
            simpa [magnitude, hx] using this
      · have := digits_nul 10 (c :: s3) t 0 false
        simp only [List.cons_append] at this ⊢
        unfold magnitude
        split
        · rename_i e; simp at e
        · rename_i e; simp at e
        · rename_i e; simp only [List.cons.injEq] at e; exact absurd e.1 hc
        · exact this
  obtain ⟨⟨m, any⟩, h3⟩ := hm
  unfold strtol0
  rw [h1]; simp only [Res.bind_ok, h2]; rw [h3]; simp only [Res.bind_ok]
  split
  · split
    · exact ⟨_, rfl⟩
    · split <;> exact ⟨_, rfl⟩
  · split
    · exact ⟨_, rfl⟩
    · split <;> exact ⟨_, rfl⟩

/-- C15: reading an integer is memory safe (neither undefined behaviour nor abort) on every well-formed text whose
value for the key has at most 21 characters. -/
theorem C15_long_safe_partial {conf : Str} {ps : List (Str × Str)} (ht : Text conf ps) {key : Str} (hk : Word 127 key)
    (hv : ∀ v, valueOf ps key = some v → v.length ≤ 21) (d : Int) : ∃ g, getLong conf key d = .ok g := by
  unfold getLong
  rw [getRaw_text _ _ ht key hk.noNul 22]
  cases e : valueOf ps key with
  | none => exact ⟨_, rfl⟩
  | some v =>
    have hl := hv v e
    have hw := valueOf_word conf ps ht key v e
    obtain ⟨l, hl2⟩ : ∃ l, v.length = l + 1 := ⟨v.length - 1, by have := List.length_pos_iff.mpr hw.nonempty; omega⟩
    simp only [hl2]
    have e2 : strncpy v 22 = v ++ NUL :: List.replicate (22 - v.length - 1) NUL := by
      rw [strncpy_fits _ _ (by omega)]
      unfold stored
      have : 22 - v.length = (22 - v.length - 1) + 1 := by omega
      rw [this, List.replicate_succ]; rfl
    rw [e2]
    obtain ⟨⟨a, b, c⟩, hr⟩ := strtol_terminated v (List.replicate (22 - v.length - 1) NUL)
    rw [hr]
    simp only [Res.bind_ok]
    split <;> exact ⟨_, rfl⟩

/-- **C15 is violated** without that limit: a 22 digit value fills `char cval[22]` without a terminator and `strtol`
runs past its end. -/
theorem C15_violated : getLong "size 0000000000000000000001\n".toList "size".toList 7 = .ub := by
  decide +kernel

/-- C15: a malformed integer is never repaired: the default appended by the failed read stays invisible, so every read
fails again and appends one more line. -/
theorem C15_malformed_grows :
    let c0 := "n abc\n".toList
    getLong c0 "n".toList 7 = .ok { ret := 0, value := some 7, conf := c0 ++ "n 7\n".toList } ∧
    getLong (c0 ++ "n 7\n".toList) "n".toList 7 =
      .ok { ret := 0, value := some 7, conf := c0 ++ "n 7\nn 7\n".toList } := by
  refine ⟨by decide +kernel, by decide +kernel⟩

/-- C15: after a malformed value a read of a size writes its default as a `long`: one of 2^63 or more goes into the file as a
negative number, though the caller gets it as it is. -/
theorem C15_size_default_written :
    getSize "n abc\n".toList "n".toList 9223372036854775807 =
      .ok { ret := 0, value := some 9223372036854775807, conf := "n abc\nn 9223372036854775807\n".toList } ∧
    getSize "n abc\n".toList "n".toList 9223372036854775808 =
      .ok { ret := 0, value := some 9223372036854775808, conf := "n abc\nn -9223372036854775808\n".toList } ∧
    getSize "n abc\n".toList "n".toList 18446744073709551615 =
      .ok { ret := 0, value := some 18446744073709551615, conf := "n abc\nn -1\n".toList } := by
  refine ⟨by decide +kernel, by decide +kernel, by decide +kernel⟩

/-! ### Non-vacuity -/

instance (s : Str) : Decidable (Blank s) := by unfold Blank; infer_instance

/-- A two-entry text with irregular white space. -/
theorem sample_text : Text " shm_size\t100\n\nuse 1 ".toList [("shm_size".toList, "100".toList), ("use".toList, "1".toList)] :=
  Text.entry [' '] "shm_size".toList ['\t'] "100".toList '\n' "\nuse 1 ".toList _ (by decide)
    ⟨by decide, by decide, by decide, by decide⟩ (by decide) (by decide) ⟨by decide, by decide, by decide, by decide⟩ (by decide)
    (Text.entry "\n\n".toList "use".toList [' '] "1".toList ' ' [] _ (by decide)
      ⟨by decide, by decide, by decide, by decide⟩ (by decide) (by decide) ⟨by decide, by decide, by decide, by decide⟩ (by decide)
      (Text.blank [' '] (by decide)))

example : valueOf [("shm_size".toList, "100".toList), ("use".toList, "1".toList)] "path".toList = none ∧
    Word 127 "path".toList ∧ Word 895 "/tmp/x".toList :=
  ⟨by decide, ⟨by decide, by decide, by decide, by decide⟩, ⟨by decide, by decide, by decide, by decide⟩⟩

example : getLong " shm_size\t100\n\nuse 1 ".toList "shm_size".toList 5 =
    .ok { ret := 1, value := some 100, conf := " shm_size\t100\n\nuse 1 ".toList } := by decide +kernel
example : Text "a 9223372036854775808\n".toList [("a".toList, fmtLong longLim)] ∧ (fmtLong longLim).length ≤ 21 :=
  ⟨Text.entry [] "a".toList [' '] (fmtLong longLim) '\n' [] _ (by decide) ⟨by decide, by decide, by decide, by decide⟩
    (by decide) (by decide) ⟨by decide +kernel, by decide +kernel, by decide +kernel, by decide +kernel⟩ (by decide)
    (Text.blank ['\n'] (by decide)), by decide +kernel⟩
example : getLong "a 0x1F\n".toList "a".toList 5 = .ok { ret := 1, value := some 31, conf := "a 0x1F\n".toList } := by
  decide +kernel
example : getBool "a 2\n".toList "a".toList 0 = .ok { ret := 0, value := some 0, conf := "a 2\n".toList } := by
  decide +kernel

end Arax.Config
