import Verif.Ctrl.Strings
/-!
# C59: CPU affinity strings (`cpu_core`, `/repo/controller/src/Core/Config.cpp`)

`hw` is `std::thread::hardware_concurrency()`, at most `CPU_SETSIZE`. A `cpu_set_t` is the set of its cores; a thrown exception is `none`.
-/
namespace Arax.Ctrl.Cpu

open Arax.Ctrl (isSpace)

/-- `CpuSet::set` (/repo/controller/src/Core/Config.cpp:173-182, with `setAll` :162-169). -/
def setCore (hw : Nat) (set : Nat → Bool) (core : Int) : Option (Nat → Bool) :=
  if 0 ≤ core then
    if (hw : Int) ≤ core then none else some (fun k => if k = core.toNat then true else set k)
  else some (fun k => if k < hw then true else set k)

/-- The digits at the front, as a number continuing `acc`, and the rest. (`operator >>` of an int, /repo/controller/src/Core/Config.cpp:422.) -/
def digits : List Char → Nat → Nat × List Char
  | [], acc => (acc, [])
  | c :: cs, acc => if c.isDigit then digits cs (acc * 10 + (c.toNat - 48)) else (acc, c :: cs)

/-- `strtol`-like conversion of the digits: `none` (failbit) if there is no digit or the value is not an `int`. (/repo/controller/src/Core/Config.cpp:422.) -/
def number (neg : Bool) (s : List Char) : Option (Int × List Char) :=
  match s with
  | [] => none
  | c :: cs =>
    if c.isDigit then
      let r := digits (c :: cs) 0
      let v : Int := if neg then -(r.1 : Int) else r.1
      if -2147483648 ≤ v ∧ v ≤ 2147483647 then some (v, r.2) else none
    else none

/-- `iss >> core` (/repo/controller/src/Core/Config.cpp:422): skips white space, an optional sign, digits. `none` is failure, after which the loop ends. -/
def readInt (s : List Char) : Option (Int × List Char) :=
  match s.dropWhile isSpace with
  | '-' :: cs => number true cs
  | '+' :: cs => number false cs
  | cs => number false cs

/-- The loop of `operator >>` (/repo/controller/src/Core/Config.cpp:421-425), at most `n` iterations. -/
def loop (hw : Nat) : Nat → List Char → (Nat → Bool) → Option (Nat → Bool)
  | 0, _, set => some set
  | n + 1, s, set =>
    match readInt s with
    | none => some set
    | some (core, rest) =>
      match setCore hw set core with
      | none => none
      | some set' => loop hw n rest set'

/-- `operator >> (istream &, CpuSet &)` (/repo/controller/src/Core/Config.cpp:411-428) on a fresh set: `is >> fmt` takes the first word only, commas become blanks. Every iteration
that goes on consumes a character, so the bound on the iterations is not reached. -/
def parse (hw : Nat) (s : List Char) : Option (Nat → Bool) :=
  let fmt := ((s.dropWhile isSpace).takeWhile (fun c => !isSpace c)).map (fun c => if c = ',' then ' ' else c)
  loop hw (fmt.length + 1) fmt (fun _ => false)

/-! ### Specification -/

/-- A number as one writes it. -/
def decimal (c : Int) : List Char := if c < 0 then '-' :: Nat.toDigits 10 c.natAbs else Nat.toDigits 10 c.natAbs

/-- `c1,c2,…` -/
def written : List Int → List Char
  | [] => []
  | [c] => decimal c
  | c :: d :: cs => decimal c ++ ',' :: written (d :: cs)

theorem digits_append (s t : List Char) (hs : ∀ c ∈ s, c.isDigit = true) : ∀ acc, digits (s ++ t) acc = digits t (Nat.ofDigitChars 10 s acc) := by
  induction s with
  | nil => intro acc; simp
  | cons c s ih =>
    intro acc
    rw [List.cons_append, digits, if_pos (hs c List.mem_cons_self), ih (fun x hx => hs x (List.mem_cons_of_mem _ hx)), Nat.ofDigitChars_cons]
    congr 2
    rw [Nat.mul_comm]; rfl

theorem isDigit_facts {c : Char} (h : c.isDigit = true) : isSpace c = false ∧ c ≠ ',' ∧ c ≠ '-' ∧ c ≠ '+' := by
  have hn : c ≠ ' ' ∧ c ≠ '\t' ∧ c ≠ '\n' ∧ c ≠ '\x0b' ∧ c ≠ '\x0c' ∧ c ≠ '\r' ∧ c ≠ ',' ∧ c ≠ '-' ∧ c ≠ '+' := by
    refine ⟨?_, ?_, ?_, ?_, ?_, ?_, ?_, ?_, ?_⟩ <;> (intro e; subst e; revert h; decide)
  obtain ⟨h1, h2, h3, h4, h5, h6, h7, h8, h9⟩ := hn
  refine ⟨?_, h7, h8, h9⟩
  simp [isSpace, h1, h2, h3, h4, h5, h6]

theorem number_decimal (neg : Bool) (n : Nat) (t : List Char) (ht : ∀ c, t.head? = some c → c.isDigit = false)
    (hr : -2147483648 ≤ (if neg then -(n : Int) else n) ∧ (if neg then -(n : Int) else n) ≤ 2147483647) :
    number neg (Nat.toDigits 10 n ++ t) = some (if neg then -(n : Int) else n, t) := by
  have hd : ∀ c ∈ Nat.toDigits 10 n, c.isDigit = true := fun c hc => Nat.isDigit_of_mem_toDigits (by omega) (by omega) hc
  have hdig : digits (Nat.toDigits 10 n ++ t) 0 = (n, t) := by
    rw [digits_append _ _ hd, Nat.ofDigitChars_ten_toDigits]
    cases t with
    | nil => rfl
    | cons c t => rw [digits, if_neg (by rw [ht c rfl]; simp)]
  cases hs : Nat.toDigits 10 n with
  | nil => exact absurd hs Nat.toDigits_ne_nil
  | cons c cs =>
    rw [hs] at hd hdig
    rw [List.cons_append] at hdig ⊢
    simp only [number, hd c List.mem_cons_self, if_true, hdig]
    rw [if_pos hr]

theorem readInt_decimal (c : Int) (hr : -2147483648 ≤ c ∧ c ≤ 2147483647) (t pre : List Char) (hp : ∀ x ∈ pre, isSpace x = true)
    (ht : ∀ x, t.head? = some x → x.isDigit = false) : readInt (pre ++ (decimal c ++ t)) = some (c, t) := by
  have hdrop : ∀ s : List Char, (∀ x, s.head? = some x → isSpace x = false) → (pre ++ s).dropWhile isSpace = s := by
    intro s hs
    induction pre with
    | nil =>
      cases s with
      | nil => rfl
      | cons x s => rw [List.nil_append, List.dropWhile_cons, if_neg (by rw [hs x rfl]; simp)]
    | cons y pre ih => rw [List.cons_append, List.dropWhile_cons, if_pos (hp y List.mem_cons_self), ih (fun x hx => hp x (List.mem_cons_of_mem _ hx))]
  unfold readInt decimal
  by_cases h : c < 0
  · rw [if_pos h, List.cons_append, hdrop _ (by intro x hx; rw [List.head?_cons] at hx; injection hx with hx; rw [← hx]; decide)]
    show number true (Nat.toDigits 10 c.natAbs ++ t) = _
    rw [number_decimal true c.natAbs t ht (by simp; omega)]
    simp only [if_true, Option.some.injEq, Prod.mk.injEq, and_true]
    omega
  · rw [if_neg h]
    have hd : ∀ x ∈ Nat.toDigits 10 c.natAbs, x.isDigit = true := fun x hx => Nat.isDigit_of_mem_toDigits (by omega) (by omega) hx
    have hnum := number_decimal false c.natAbs t ht (by simp; omega)
    cases hs : Nat.toDigits 10 c.natAbs with
    | nil => exact absurd hs Nat.toDigits_ne_nil
    | cons x xs =>
      rw [hs] at hd hnum
      have hx := isDigit_facts (hd x List.mem_cons_self)
      rw [hdrop _ (by intro y hy; rw [List.cons_append, List.head?_cons] at hy; injection hy with hy; rw [← hy]; exact hx.1)]
      rw [List.cons_append] at hnum ⊢
      split
      · rename_i e; injection e with e; exact absurd e hx.2.2.1
      · rename_i e; injection e with e; exact absurd e hx.2.2.2
      · rw [hnum]
        simp only [Bool.false_eq_true, if_false, Option.some.injEq, Prod.mk.injEq, and_true]
        omega

/-- Commas replaced by blanks. -/
def sp (s : List Char) : List Char := s.map (fun c => if c = ',' then ' ' else c)

theorem decimal_chars (c : Int) : ∀ x ∈ decimal c, x.isDigit = true ∨ x = '-' := by
  intro x hx
  unfold decimal at hx
  split at hx
  · rcases List.mem_cons.mp hx with rfl | hx
    · exact Or.inr rfl
    · exact Or.inl (Nat.isDigit_of_mem_toDigits (by omega) (by omega) hx)
  · exact Or.inl (Nat.isDigit_of_mem_toDigits (by omega) (by omega) hx)

theorem sp_decimal (c : Int) : sp (decimal c) = decimal c := by
  unfold sp
  conv => rhs; rw [← List.map_id (decimal c)]
  refine List.map_congr_left ?_
  intro x hx
  have : x ≠ ',' := by
    rcases decimal_chars c x hx with h | h
    · exact (isDigit_facts h).2.1
    · rw [h]; decide
  rw [if_neg this]; rfl

theorem sp_append (a b : List Char) : sp (a ++ b) = sp a ++ sp b := List.map_append

theorem decimal_pos (c : Int) : 0 < (decimal c).length := by
  unfold decimal
  have : 0 < (Nat.toDigits 10 c.natAbs).length := Nat.length_toDigits_pos
  split
  · simp
  · exact this

/-- The set the loop ends with for a list of cores. -/
def cores (hw : Nat) : List Int → (Nat → Bool) → Option (Nat → Bool)
  | [], set => some set
  | c :: cs, set => match setCore hw set c with
    | none => none
    | some s => cores hw cs s

theorem loop_written (hw : Nat) : ∀ (cs : List Int) (n : Nat) (set : Nat → Bool) (pre : List Char), (∀ c ∈ cs, -2147483648 ≤ c ∧ c ≤ 2147483647) →
    (∀ x ∈ pre, isSpace x = true) → cs.length < n → loop hw n (pre ++ sp (written cs)) set = cores hw cs set := by
  intro cs
  induction cs with
  | nil =>
    intro n set pre _ hp hn
    obtain ⟨n, rfl⟩ : ∃ k, n = k + 1 := ⟨n - 1, by simp at hn; omega⟩
    clear hn
    have : (pre ++ sp (written [])).dropWhile isSpace = [] := by
      simp only [written, sp, List.map_nil, List.append_nil]
      induction pre with
      | nil => rfl
      | cons x pre ih => rw [List.dropWhile_cons, if_pos (hp x List.mem_cons_self)]; exact ih (fun y hy => hp y (List.mem_cons_of_mem _ hy))
    simp [loop, readInt, this, number, cores]
  | cons c cs ih =>
    intro n set pre hr hp hn
    obtain ⟨n, rfl⟩ : ∃ k, n = k + 1 := ⟨n - 1, by omega⟩
    cases cs with
    | nil =>
      have h1 := readInt_decimal c (hr c List.mem_cons_self) [] pre hp (by simp)
      rw [List.append_nil] at h1
      simp only [written, sp_decimal, loop, h1, cores]
      cases setCore hw set c with
      | none => rfl
      | some s =>
        have := ih n s [] (by simp) (by simp) (by simp at hn ⊢; omega)
        simpa [written, sp, cores] using this
    | cons d ds =>
      have h1 := readInt_decimal c (hr c List.mem_cons_self) (' ' :: sp (written (d :: ds))) pre hp (by
        intro x hx; rw [List.head?_cons] at hx; injection hx with hx; rw [← hx]; decide)
      have e : sp (written (c :: d :: ds)) = decimal c ++ ' ' :: sp (written (d :: ds)) := by
        rw [written, sp_append, sp_decimal]
        rfl
      rw [e]
      simp only [loop, h1]
      rw [show cores hw (c :: d :: ds) set = (match setCore hw set c with | none => none | some s => cores hw (d :: ds) s) from rfl]
      cases setCore hw set c with
      | none => rfl
      | some s =>
        exact ih n s [' '] (fun x hx => hr x (List.mem_cons_of_mem _ hx)) (by intro x hx; rw [List.mem_singleton.mp hx]; decide)
          (by simp at hn ⊢; omega)

theorem written_chars : ∀ cs : List Int, ∀ x ∈ written cs, isSpace x = false := by
  have hdec : ∀ c : Int, ∀ x ∈ decimal c, isSpace x = false := by
    intro c x hx
    rcases decimal_chars c x hx with h | h
    · exact (isDigit_facts h).1
    · rw [h]; decide
  intro cs
  induction cs with
  | nil => intro x hx; cases hx
  | cons c cs ih =>
    cases cs with
    | nil => exact hdec c
    | cons d ds =>
      intro x hx
      rw [written] at hx
      rcases List.mem_append.mp hx with hx | hx
      · exact hdec c x hx
      · rcases List.mem_cons.mp hx with rfl | hx
        · decide
        · exact ih x hx

theorem written_len : ∀ cs : List Int, cs.length ≤ (written cs).length := by
  intro cs
  induction cs with
  | nil => simp
  | cons c cs ih =>
    have := decimal_pos c
    cases cs with
    | nil => simp [written]; omega
    | cons d ds => simp only [written, List.length_append, List.length_cons] at ih ⊢; omega

theorem cores_spec (hw : Nat) : ∀ (cs : List Int) (set : Nat → Bool),
    if ∃ c ∈ cs, (hw : Int) ≤ c then cores hw cs set = none
    else ∃ s, cores hw cs set = some s ∧ ∀ k, s k = true ↔ set k = true ∨ (k : Int) ∈ cs ∨ (k < hw ∧ ∃ c ∈ cs, c < 0) := by
  intro cs
  induction cs with
  | nil => intro set; simp [cores]
  | cons c cs ih =>
    intro set
    simp only [cores, setCore]
    by_cases h0 : 0 ≤ c
    · rw [if_pos h0]
      by_cases h1 : (hw : Int) ≤ c
      · rw [if_pos h1, if_pos ⟨c, List.mem_cons_self, h1⟩]
      · rw [if_neg h1]
        dsimp only
        have := ih (fun k => if k = c.toNat then true else set k)
        by_cases h2 : ∃ d ∈ cs, (hw : Int) ≤ d
        · rw [if_pos h2] at this
          obtain ⟨d, hd, hd2⟩ := h2
          rw [if_pos ⟨d, List.mem_cons_of_mem _ hd, hd2⟩]
          exact this
        · rw [if_neg h2] at this
          rw [if_neg (fun ⟨d, hd, hd2⟩ => (List.mem_cons.mp hd).elim (fun e => h1 (e ▸ hd2)) (fun hd => h2 ⟨d, hd, hd2⟩))]
          obtain ⟨s, e, hs⟩ := this
          refine ⟨s, e, fun k => ?_⟩
          rw [hs k]
          have hk : (if k = c.toNat then true else set k) = true ↔ set k = true ∨ (k : Int) = c := by
            by_cases hkc : k = c.toNat
            · rw [if_pos hkc]; simp; right; omega
            · rw [if_neg hkc]
              constructor
              · exact Or.inl
              · rintro (h | h)
                · exact h
                · omega
          rw [hk]
          simp only [List.mem_cons]
          constructor
          · rintro ((h | h) | h | ⟨h, d, hd, hd0⟩)
            · exact Or.inl h
            · exact Or.inr (Or.inl (Or.inl h))
            · exact Or.inr (Or.inl (Or.inr h))
            · exact Or.inr (Or.inr ⟨h, d, Or.inr hd, hd0⟩)
          · rintro (h | (h | h) | ⟨h, d, hd | hd, hd0⟩)
            · exact Or.inl (Or.inl h)
            · exact Or.inl (Or.inr h)
            · exact Or.inr (Or.inl h)
            · omega
            · exact Or.inr (Or.inr ⟨h, d, hd, hd0⟩)
    · rw [if_neg h0]
      dsimp only
      have := ih (fun k => if k < hw then true else set k)
      by_cases h2 : ∃ d ∈ cs, (hw : Int) ≤ d
      · rw [if_pos h2] at this
        obtain ⟨d, hd, hd2⟩ := h2
        rw [if_pos ⟨d, List.mem_cons_of_mem _ hd, hd2⟩]
        exact this
      · rw [if_neg h2] at this
        rw [if_neg (fun ⟨d, hd, hd2⟩ => (List.mem_cons.mp hd).elim (fun e => by omega) (fun hd => h2 ⟨d, hd, hd2⟩))]
        obtain ⟨s, e, hs⟩ := this
        refine ⟨s, e, fun k => ?_⟩
        rw [hs k]
        have hk : (if k < hw then true else set k) = true ↔ set k = true ∨ k < hw := by
          by_cases hkc : k < hw
          · rw [if_pos hkc]; simp [hkc]
          · rw [if_neg hkc]; simp [hkc]
        rw [hk]
        simp only [List.mem_cons]
        constructor
        · rintro ((h | h) | h | ⟨h, d, hd, hd0⟩)
          · exact Or.inl h
          · exact Or.inr (Or.inr ⟨h, c, Or.inl rfl, by omega⟩)
          · exact Or.inr (Or.inl (Or.inr h))
          · exact Or.inr (Or.inr ⟨h, d, Or.inr hd, hd0⟩)
        · rintro (h | (h | h) | ⟨h, d, hd, hd0⟩)
          · exact Or.inl (Or.inl h)
          · omega
          · exact Or.inr (Or.inl h)
          · exact Or.inl (Or.inr h)

/-- **C59.** For every machine and every list of `int` core numbers written with commas between them (and no blanks): if one of them is not an existing core the string is
rejected; otherwise the affinity is exactly the listed cores, or every core of the machine if a negative number is listed. -/
theorem C59_affinity (hw : Nat) (cs : List Int) (hr : ∀ c ∈ cs, -2147483648 ≤ c ∧ c ≤ 2147483647) :
    if ∃ c ∈ cs, (hw : Int) ≤ c then parse hw (written cs) = none
    else ∃ s, parse hw (written cs) = some s ∧ ∀ k, s k = true ↔ (k : Int) ∈ cs ∨ (k < hw ∧ ∃ c ∈ cs, c < 0) := by
  have hw1 : (written cs).dropWhile isSpace = written cs := by
    cases hc : written cs with
    | nil => rfl
    | cons x s => rw [List.dropWhile_cons, if_neg (by rw [written_chars cs x (by rw [hc]; exact List.mem_cons_self)]; simp)]
  have hw2 : (written cs).takeWhile (fun c => !isSpace c) = written cs := by
    have := takeWhile_append_of (p := fun c => !isSpace c) (a := written cs) (l := []) (fun x hx => by rw [written_chars cs x hx]; rfl) (by simp)
    rwa [List.append_nil] at this
  have e : parse hw (written cs) = cores hw cs (fun _ => false) := by
    unfold parse
    rw [hw1, hw2]
    have := loop_written hw cs ((sp (written cs)).length + 1) (fun _ => false) [] hr (by simp) (by
      have := written_len cs
      simp [sp]; omega)
    exact this
  rw [e]
  have := cores_spec hw cs (fun _ => false)
  simpa using this

/-- Non-vacuity: cores 0 and 2 of four; all of four; a core that does not exist. -/
example : (parse 4 ['0', ',', '2']).map (fun s => (List.range 6).map s) = some [true, false, true, false, false, false] ∧
    (parse 4 ['-', '1']).map (fun s => (List.range 6).map s) = some [true, true, true, true, false, false] ∧
    ((parse 4 ['0', ',', '4']).map (fun s => (List.range 6).map s)) = none := by decide +kernel

/-- What is not accepted as a list is misread silently: after a blank everything is ignored (`"0, 2"` is core 0 only), and a range is read as a negative number, that is as all
cores (`"0-1"`). -/
theorem C59_misread : (parse 4 ['0', ',', ' ', '2']).map (fun s => (List.range 4).map s) = some [true, false, false, false] ∧
    (parse 4 ['0', '-', '1']).map (fun s => (List.range 4).map s) = some [true, true, true, true] := by decide +kernel

end Arax.Ctrl.Cpu
