import Verif.Grind.Model
/-!
# Model of the command line of `araxgrind` (C91)
-/
namespace Arax.Grind

/-- `struct Flag` (/repo/araxgrind/Args.cpp:9-15): the letter of `sflag`, and `lflag`. -/
structure Flag where
  letter : Nat
  long : List Nat
  deriving DecidableEq

/-- `flags` (/repo/araxgrind/Args.cpp:40-51); `track`: built with `ARAX_DATA_TRACK`. -/
def flags (track : Bool) : List Flag :=
  [⟨104, [45, 45, 104, 101, 108, 112]⟩, ⟨97, [45, 45, 97, 108, 108]⟩, ⟨112, [45, 45, 112, 116, 114]⟩,
   ⟨105, [45, 45, 105, 110, 115, 112, 101, 99, 116]⟩, ⟨108, [45, 45, 108, 105, 115, 116]⟩] ++
  (if track then [⟨116, [45, 45, 116, 114, 97, 99, 107]⟩] else []) ++
  [⟨114, [45, 45, 114, 101, 102, 114, 101, 115, 104]⟩]

/-- `operator ==` (/repo/araxgrind/Args.cpp:17-26). -/
def Flag.eq (f : Flag) (arg : List Nat) : Bool :=
  if arg.count 45 = 1 then decide (arg.count f.letter ≠ 0) else decide (f.long = arg)

/-- Value of a digit (`_M_extract_int` of libstdc++; both cases). (C++ library.) -/
def digit (c : Nat) : Option Nat :=
  if 48 ≤ c ∧ c ≤ 57 then some (c - 48)
  else if 97 ≤ c ∧ c ≤ 102 then some (c - 87)
  else if 65 ≤ c ∧ c ≤ 70 then some (c - 55)
  else none

/-- The leading digits of a base, accumulated. (C++ library.) -/
def digits (base acc : Nat) : List Nat → Nat
  | [] => acc
  | c :: l =>
    match digit c with
    | some d => if d < base then digits base (acc * base + d) l else acc
    | none => acc

/-- White space. (C++ library.) -/
def space (c : Nat) : Bool := c == 32 || (9 ≤ c && c ≤ 13)

/-- Number without sign, base by prefix. (C++ library.) -/
def unsigned : List Nat → Nat
  | 48 :: 120 :: l => digits 16 0 l
  | 48 :: 88 :: l => digits 16 0 l
  | 48 :: l => digits 8 0 l
  | l => digits 10 0 l

/-- `ss >> ptr_val` with no base set, 0 at failure, the maximum at overflow (/repo/araxgrind/Args.cpp:77-80). -/
def readPtr (s : List Nat) : Nat :=
  let fit (v : Nat) (neg : Bool) : Nat := if 2 ^ 64 ≤ v then 2 ^ 64 - 1 else if neg then (2 ^ 64 - v) % 2 ^ 64 else v
  match s.dropWhile space with
  | 45 :: l => fit (unsigned l) true
  | 43 :: l => fit (unsigned l) false
  | l => fit (unsigned l) false

/-- The loops of `parseArgs` (/repo/araxgrind/Args.cpp:57-85): values of the flags (by letter) and the set of pointers (newest first); `none`: `false` is returned and the program ends. -/
def parse (fs : List Flag) (v : Nat → Bool) (ps : List Nat) : List (List Nat) → Option ((Nat → Bool) × List Nat)
  | [] => some (v, ps)
  | a :: rest =>
    let v' := fun c => if fs.any (fun f => f.letter == c && f.eq a) then !v c else v c
    if fs.any (fun f => f.eq a) = false then none
    else if v' 105 then
      match rest with
      | [] => none
      | p :: rest' => parse fs (fun c => if c = 105 then false else v' c) (readPtr p :: ps) rest'
    else parse fs v' ps rest

/-- `parseArgs` (/repo/araxgrind/Args.cpp:53-86): all flags are false at first. -/
def parseArgs (track : Bool) (args : List (List Nat)) : Option ((Nat → Bool) × List Nat) := parse (flags track) (fun _ => false) [] args

/-! ## Specification -/

/-- A word of the command line as documented by `--help` (/repo/araxgrind/Args.cpp:88-103): its text, the options it stands for, and the operand after it. -/
structure Word where
  text : List Nat
  opts : List Nat
  operand : Option (List Nat)

/-- A documented word: `-` and letters of options, or the long form of one; the operand is there exactly if `i` is among them. -/
def Word.Ok (fs : List Flag) (w : Word) : Prop :=
  ((w.text = 45 :: w.opts ∧ w.opts ≠ [] ∧ ∀ c ∈ w.opts, ∃ f ∈ fs, f.letter = c) ∨ (∃ f ∈ fs, w.text = f.long ∧ w.opts = [f.letter])) ∧
  (w.operand.isSome = true ↔ 105 ∈ w.opts)

/-- The command line. -/
def line : List Word → List (List Nat)
  | [] => []
  | w :: l => w.text :: (w.operand.toList ++ line l)

/-- Hexadecimal numeral, as `operator<<` prints the digits of a pointer. -/
def hex (n : Nat) : List Nat := if h : n < 16 then [if n < 10 then 48 + n else 87 + n] else hex (n / 16) ++ hex (n % 16)
  termination_by n
  decreasing_by all_goals omega

/-- A pointer as the tool prints it (/repo/araxgrind/main.cpp:125). -/
def showPtr (n : Nat) : List Nat := 48 :: 120 :: hex n

/-! ## Proofs -/

theorem flags_letters (track : Bool) : ∀ f ∈ flags track, f.letter ≠ 45 ∧ f.long.count 45 = 2 := by cases track <;> decide

theorem flags_distinct (track : Bool) : ∀ f ∈ flags track, ∀ f' ∈ flags track, (f.letter = f'.letter ∨ f.long = f'.long) → f = f' := by cases track <;> decide

theorem word_matches {track : Bool} {w : Word} (hw : w.Ok (flags track)) {f : Flag} (hf : f ∈ flags track) : f.eq w.text = decide (f.letter ∈ w.opts) := by
  rcases hw.1 with ⟨e, hne, hl⟩ | ⟨f', hf', e, eo⟩
  · have hno : (45 : Nat) ∉ w.opts := by
      intro h
      obtain ⟨g, hg, e⟩ := hl 45 h
      exact (flags_letters track g hg).1 e
    have hc : w.text.count 45 = 1 := by rw [e, List.count_cons_self, List.count_eq_zero_of_not_mem hno]
    unfold Flag.eq
    rw [if_pos hc, e, List.count_cons_of_ne (Ne.symm (flags_letters track f hf).1)]
    by_cases hm : f.letter ∈ w.opts
    · have := List.count_pos_iff.mpr hm
      simp [hm]; omega
    · rw [List.count_eq_zero_of_not_mem hm]; simp [hm]
  · unfold Flag.eq
    rw [if_neg (by rw [e, (flags_letters track f' hf').2]; decide), e, eo]
    by_cases h : f = f'
    · subst h; simp
    · have h1 : f.long ≠ f'.long := fun h' => h (flags_distinct track f hf f' hf' (.inr h'))
      have h2 : f.letter ≠ f'.letter := fun h' => h (flags_distinct track f hf f' hf' (.inl h'))
      simp [h1, h2]

theorem word_any {track : Bool} {w : Word} (hw : w.Ok (flags track)) : (flags track).any (fun f => f.eq w.text) = true := by
  rw [List.any_eq_true]
  rcases hw.1 with ⟨e, hne, hl⟩ | ⟨f', hf', e, eo⟩
  · obtain ⟨c, hc⟩ := List.exists_mem_of_ne_nil _ hne
    obtain ⟨f, hf, ef⟩ := hl c hc
    exact ⟨f, hf, by rw [word_matches hw hf, ef]; simpa using hc⟩
  · exact ⟨f', hf', by rw [word_matches hw hf', eo]; simp⟩

theorem word_letter {track : Bool} {w : Word} (hw : w.Ok (flags track)) (c : Nat) :
    (flags track).any (fun f => f.letter == c && f.eq w.text) = decide (c ∈ w.opts) := by
  by_cases hc : c ∈ w.opts
  · simp only [hc, decide_true]
    rw [List.any_eq_true]
    rcases hw.1 with ⟨e, hne, hl⟩ | ⟨f', hf', e, eo⟩
    · obtain ⟨f, hf, ef⟩ := hl c hc
      exact ⟨f, hf, by rw [word_matches hw hf, ef]; simp [hc]⟩
    · rw [eo] at hc
      have ec : c = f'.letter := by simpa using hc
      exact ⟨f', hf', by rw [word_matches hw hf', eo, ec]; simp⟩
  · simp only [hc, decide_false]
    rw [List.any_eq_false]
    intro f hf
    rw [word_matches hw hf]
    simp
    intro e
    rw [e]; exact hc

/-- Parity of the words that have the option. -/
def odd (c : Nat) (ws : List Word) : Bool := (ws.filter (fun w => c ∈ w.opts)).length % 2 = 1

theorem odd_cons (c : Nat) (w : Word) (ws : List Word) : odd c (w :: ws) = if c ∈ w.opts then !odd c ws else odd c ws := by
  unfold odd
  rw [List.filter_cons]
  by_cases h : c ∈ w.opts
  · simp only [h, decide_true, if_true, List.length_cons]
    by_cases h2 : (ws.filter (fun w => c ∈ w.opts)).length % 2 = 1
    · simp [h2]; omega
    · simp [h2]; omega
  · simp [h]

theorem parse_words (track : Bool) (ws : List Word) (hw : ∀ w ∈ ws, w.Ok (flags track)) (v : Nat → Bool) (ps : List Nat) (hv : v 105 = false) :
    ∃ v', parse (flags track) v ps (line ws) = some (v', (ws.filterMap (·.operand)).reverse.map readPtr ++ ps) ∧
      v' 105 = false ∧ ∀ c, c ≠ 105 → v' c = (v c).xor (odd c ws) := by
  induction ws generalizing v ps with
  | nil => exact ⟨v, rfl, hv, fun c _ => by simp [odd]⟩
  | cons w ws ih =>
    have hok := hw w List.mem_cons_self
    have hws := fun w' h' => hw w' (List.mem_cons_of_mem w h')
    rw [line, parse.eq_def]
    simp only [word_any hok, word_letter hok]
    rw [if_neg (by decide)]
    cases hop : w.operand with
    | none =>
      have hi : 105 ∉ w.opts := fun h => by have := hok.2.mpr h; rw [hop] at this; cases this
      rw [if_neg (by simp [hi, hv])]
      obtain ⟨v', h1, h2, h3⟩ := ih hws (fun c => if decide (c ∈ w.opts) = true then !v c else v c) ps (by simp [hi, hv])
      refine ⟨v', ?_, h2, ?_⟩
      · show parse _ _ _ (line ws) = _
        rw [h1, List.filterMap_cons_none hop]
      · intro c hc
        rw [h3 c hc, odd_cons]
        by_cases h : c ∈ w.opts
        · simp only [h, decide_true, if_true]; cases v c <;> cases odd c ws <;> rfl
        · simp only [h, decide_false, if_false]; rfl
    | some p =>
      have hi : 105 ∈ w.opts := hok.2.mp (by rw [hop]; rfl)
      rw [if_pos (by simp [hi, hv])]
      obtain ⟨v', h1, h2, h3⟩ := ih hws (fun c => if c = 105 then false else (if decide (c ∈ w.opts) = true then !v c else v c)) (readPtr p :: ps) (by simp)
      refine ⟨v', ?_, h2, ?_⟩
      · show parse _ _ _ (line ws) = _
        rw [h1, List.filterMap_cons_some hop]
        simp
      · intro c hc
        rw [h3 c hc, odd_cons, if_neg hc]
        by_cases h : c ∈ w.opts
        · simp only [h, decide_true, if_true]; cases v c <;> cases odd c ws <;> rfl
        · simp only [h, decide_false, if_false]; rfl

/-- **C91** A documented command line is accepted; every pointer operand is inspected, and nothing else; an option other than `-i` is in force exactly if an odd number of words has it. -/
theorem C91_parity (track : Bool) (ws : List Word) (hw : ∀ w ∈ ws, w.Ok (flags track)) :
    ∃ v ps, parseArgs track (line ws) = some (v, ps) ∧ (∀ x, x ∈ ps ↔ ∃ w ∈ ws, ∃ p, w.operand = some p ∧ x = readPtr p) ∧
      ∀ c, c ≠ 105 → (v c = true ↔ (ws.filter (fun w => c ∈ w.opts)).length % 2 = 1) := by
  obtain ⟨v, h1, h2, h3⟩ := parse_words track ws hw (fun _ => false) [] rfl
  refine ⟨v, _, h1, ?_, ?_⟩
  · intro x
    simp only [List.append_nil, List.mem_map, List.mem_reverse, List.mem_filterMap]
    constructor
    · rintro ⟨p, ⟨w, hw, hp⟩, e⟩; exact ⟨w, hw, p, hp, e.symm⟩
    · rintro ⟨w, hw, p, hp, e⟩; exact ⟨p, ⟨w, hw, hp⟩, e.symm⟩
  · intro c hc
    rw [h3 c hc]
    unfold odd
    simp

/-- **C91** (partial) ... so if no option is in two words, the options given are in force and no other.  Missing: options given twice (`C91_violated_twice`). -/
theorem C91_options_partial (track : Bool) (ws : List Word) (hw : ∀ w ∈ ws, w.Ok (flags track))
    (honce : ∀ c, c ≠ 105 → (ws.filter (fun w => c ∈ w.opts)).length ≤ 1) :
    ∃ v ps, parseArgs track (line ws) = some (v, ps) ∧ ∀ c, c ≠ 105 → (v c = true ↔ ∃ w ∈ ws, c ∈ w.opts) := by
  obtain ⟨v, ps, h1, -, h3⟩ := C91_parity track ws hw
  refine ⟨v, ps, h1, ?_⟩
  intro c hc
  rw [h3 c hc]
  have h1 := honce c hc
  constructor
  · intro h
    obtain ⟨w, hw⟩ := List.exists_mem_of_length_pos (l := ws.filter (fun w => c ∈ w.opts)) (by omega)
    exact ⟨w, (List.mem_filter.mp hw).1, by simpa using (List.mem_filter.mp hw).2⟩
  · rintro ⟨w, hw, hc⟩
    have := List.length_pos_of_mem (List.mem_filter.mpr ⟨hw, by simpa using hc⟩ : w ∈ ws.filter (fun w => c ∈ w.opts))
    omega

/-- `-ap`, `--inspect 0x10`, `-i 0x20`. -/
def exW : List Word := [⟨[45, 97, 112], [97, 112], none⟩, ⟨[45, 45, 105, 110, 115, 112, 101, 99, 116], [105], some [48, 120, 49, 48]⟩, ⟨[45, 105], [105], some [48, 120, 50, 48]⟩]

theorem exW_ok : ∀ w ∈ exW, w.Ok (flags false) := by
  intro w hw
  simp only [exW, List.mem_cons, List.not_mem_nil, or_false] at hw
  rcases hw with e | e | e <;> subst e
  · exact ⟨.inl (by decide), by decide⟩
  · exact ⟨.inr (by decide), by decide⟩
  · exact ⟨.inl (by decide), by decide⟩

/-- Non-vacuity. -/
example : (∀ w ∈ exW, w.Ok (flags false)) ∧ (parseArgs false (line exW)).map (fun r => (r.1 97, r.1 112, r.1 114, r.2)) = some (true, true, false, [32, 16]) :=
  ⟨exW_ok, by decide⟩

/-- **C91 is violated by the code**: an option given twice is not in force (Args.cpp:61: the value is inverted). -/
theorem C91_violated_twice (track : Bool) (c : Nat) (hc : ∃ f ∈ flags track, f.letter = c) (hi : c ≠ 105) :
    ∃ v ps, parseArgs track [[45, c], [45, c]] = some (v, ps) ∧ v c = false := by
  have hok : ∀ w ∈ [(⟨[45, c], [c], none⟩ : Word), ⟨[45, c], [c], none⟩], w.Ok (flags track) := by
    intro w hw
    have e : w = ⟨[45, c], [c], none⟩ := by simpa using hw
    rw [e]
    exact ⟨.inl ⟨rfl, by simp, by simpa using hc⟩, by simp; omega⟩
  obtain ⟨v, ps, h1, -, h3⟩ := C91_parity track _ hok
  refine ⟨v, ps, h1, ?_⟩
  have := h3 c hi
  cases hv : v c with
  | false => rfl
  | true => have := this.mp hv; simp at this

/-- **C91 is violated by the code**: a word with exactly one `-` in any place and any letters is accepted if one of the letters is that of an option (Args.cpp:19-21): `-hz`, `x-h`, and `heap-dump.txt` is taken for `-h -a -p`. -/
theorem C91_violated_junk (track : Bool) (arg : List Nat) (h1 : arg.count 45 = 1) (hf : ∃ f ∈ flags track, f.letter ∈ arg) (hi : 105 ∉ arg) :
    ∃ v, parseArgs track [arg] = some (v, []) ∧ ∀ f ∈ flags track, (v f.letter = true ↔ f.letter ∈ arg) := by
  have heq : ∀ f : Flag, f.eq arg = decide (f.letter ∈ arg) := by
    intro f
    unfold Flag.eq
    rw [if_pos h1]
    by_cases hm : f.letter ∈ arg
    · have := List.count_pos_iff.mpr hm
      simp [hm]; omega
    · rw [List.count_eq_zero_of_not_mem hm]; simp [hm]
  have hany : (flags track).any (fun f => f.eq arg) = true := by
    obtain ⟨f, hf, hm⟩ := hf
    exact List.any_eq_true.mpr ⟨f, hf, by rw [heq]; simpa using hm⟩
  have h105 : (flags track).any (fun f => f.letter == 105 && f.eq arg) = false := by
    rw [List.any_eq_false]
    intro f hf
    rw [heq]
    simp
    intro e; rw [e]; exact hi
  refine ⟨fun c => if (flags track).any (fun f => f.letter == c && f.eq arg) then !false else false, ?_, ?_⟩
  · unfold parseArgs
    rw [parse.eq_def]
    simp only [hany, h105]
    rfl
  · intro f hf
    by_cases hm : f.letter ∈ arg
    · have : (flags track).any (fun f' => f'.letter == f.letter && f'.eq arg) = true := List.any_eq_true.mpr ⟨f, hf, by rw [heq]; simpa using hm⟩
      simp [this, hm]
    · have : (flags track).any (fun f' => f'.letter == f.letter && f'.eq arg) = false := by
        rw [List.any_eq_false]
        intro f' hf'
        rw [heq]
        simp
        intro e; rw [e]; exact hm
      simp [this, hm]

/-- Non-vacuity: `x-h`. -/
example : ([120, 45, 104] : List Nat).count 45 = 1 ∧ (∃ f ∈ flags true, f.letter ∈ ([120, 45, 104] : List Nat)) := by decide

/-- **C91** A word that has no `-`, several `-` without being the long form of an option, or one `-` and no letter of an option, is rejected, whatever was accepted before it. -/
theorem C91_reject (track : Bool) (ws : List Word) (hw : ∀ w ∈ ws, w.Ok (flags track)) (arg : List Nat) (rest : List (List Nat))
    (hl : ∀ f ∈ flags track, arg ≠ f.long) (hs : arg.count 45 = 1 → ∀ f ∈ flags track, f.letter ∉ arg) :
    parseArgs track (line ws ++ arg :: rest) = none := by
  have hbad : (flags track).any (fun f => f.eq arg) = false := by
    rw [List.any_eq_false]
    intro f hf
    unfold Flag.eq
    split
    · rename_i h
      rw [List.count_eq_zero_of_not_mem (hs h f hf)]; decide
    · simp; exact fun e => hl f hf e.symm
  unfold parseArgs
  suffices H : ∀ (v : Nat → Bool) (ps : List Nat), v 105 = false → parse (flags track) v ps (line ws ++ arg :: rest) = none from H _ _ rfl
  induction ws with
  | nil =>
    intro v ps hv
    show parse _ _ _ (arg :: rest) = none
    rw [parse.eq_def]
    simp only [hbad, if_true]
  | cons w ws ih =>
    intro v ps hv
    have hok := hw w List.mem_cons_self
    have ih := ih (fun w' h' => hw w' (List.mem_cons_of_mem w h'))
    show parse _ _ _ (w.text :: ((w.operand.toList ++ line ws) ++ arg :: rest)) = none
    rw [parse.eq_def]
    simp only [word_any hok, word_letter hok]
    rw [if_neg (by decide)]
    cases hop : w.operand with
    | none =>
      have hi : 105 ∉ w.opts := fun h => by have := hok.2.mpr h; rw [hop] at this; cases this
      rw [if_neg (by simp [hi, hv])]
      exact ih _ _ (by simp [hi, hv])
    | some p =>
      have hi : 105 ∈ w.opts := hok.2.mp (by rw [hop]; rfl)
      rw [if_pos (by simp [hi, hv])]
      exact ih _ _ (by simp)

/-- Non-vacuity: `-ap … all`. -/
example : (∀ f ∈ flags true, ([97, 108, 108] : List Nat) ≠ f.long) ∧ (([97, 108, 108] : List Nat).count 45 = 1 → ∀ f ∈ flags true, f.letter ∉ ([97, 108, 108] : List Nat)) := by decide

/-- **C91** `-i` at the end of the line is rejected. -/
theorem C91_operand_missing (track : Bool) (ws : List Word) (hw : ∀ w ∈ ws, w.Ok (flags track)) : parseArgs track (line ws ++ [[45, 105]]) = none := by
  unfold parseArgs
  suffices H : ∀ (v : Nat → Bool) (ps : List Nat), v 105 = false → parse (flags track) v ps (line ws ++ [[45, 105]]) = none from H _ _ rfl
  induction ws with
  | nil =>
    intro v ps hv
    show parse _ _ _ [[45, 105]] = none
    rw [parse.eq_def]
    have h1 : (flags track).any (fun f => f.eq [45, 105]) = true := by cases track <;> decide
    have h2 : (flags track).any (fun f => f.letter == 105 && f.eq [45, 105]) = true := by cases track <;> decide
    simp only [h1, h2, hv]
    rfl
  | cons w ws ih =>
    intro v ps hv
    have hok := hw w List.mem_cons_self
    have ih := ih (fun w' h' => hw w' (List.mem_cons_of_mem w h'))
    show parse _ _ _ (w.text :: ((w.operand.toList ++ line ws) ++ [[45, 105]])) = none
    rw [parse.eq_def]
    simp only [word_any hok, word_letter hok]
    rw [if_neg (by decide)]
    cases hop : w.operand with
    | none =>
      have hi : 105 ∉ w.opts := fun h => by have := hok.2.mpr h; rw [hop] at this; cases this
      rw [if_neg (by simp [hi, hv])]
      exact ih _ _ (by simp [hi, hv])
    | some p =>
      have hi : 105 ∈ w.opts := hok.2.mp (by rw [hop]; rfl)
      rw [if_pos (by simp [hi, hv])]
      exact ih _ _ (by simp)

theorem hex_digits (n : Nat) : ∀ acc l, digits 16 acc (hex n ++ l) = digits 16 (acc * 16 ^ (hex n).length + n) l := by
  induction n using Nat.strongRecOn with
  | _ n ih =>
    intro acc l
    rw [hex]
    split
    · rename_i h
      rw [List.cons_append, List.nil_append, digits]
      have hd : digit (if n < 10 then 48 + n else 87 + n) = some n := by
        unfold digit
        split
        · rw [if_pos (by omega)]; congr 1; omega
        · rw [if_neg (by omega), if_pos (by omega)]; congr 1; omega
      rw [hd]
      simp only
      rw [if_pos h]
      simp
    · rename_i h
      rw [List.append_assoc, ih _ (by omega), ih _ (by omega), List.length_append, Nat.pow_add]
      have : (hex (n % 16)).length = 1 := by rw [hex, dif_pos (by omega)]; rfl
      rw [this]
      congr 1
      rw [Nat.add_mul, Nat.mul_assoc]
      omega

/-- **C91** An address that the tool printed is read back as the same address. -/
theorem C91_round_trip (a : Nat) (h : a < 2 ^ 64) : readPtr (showPtr a) = a := by
  have hd := hex_digits a 0 []
  rw [List.append_nil] at hd
  have e : unsigned (showPtr a) = a := by
    unfold showPtr
    show digits 16 0 (hex a) = a
    rw [hd]
    simp [digits]
  have e2 : readPtr (showPtr a) = if 2 ^ 64 ≤ unsigned (showPtr a) then 2 ^ 64 - 1 else if false then _ else unsigned (showPtr a) := rfl
  rw [e2, e, if_neg (by omega)]
  rfl

/-- **C91** A minus sign is taken: the number is subtracted from 2^64, so no address is ever out of range. -/
theorem C91_negative (l : List Nat) (h : unsigned l < 2 ^ 64) (h0 : 0 < unsigned l) : readPtr (45 :: l) + unsigned l = 2 ^ 64 := by
  have e : readPtr (45 :: l) = if 2 ^ 64 ≤ unsigned l then 2 ^ 64 - 1 else if true then (2 ^ 64 - unsigned l) % 2 ^ 64 else unsigned l := rfl
  rw [e, if_neg (by omega), if_pos rfl, Nat.mod_eq_of_lt (by omega)]
  omega

/-- Non-vacuity: `-1` and `-010`. -/
example : readPtr [45, 49] = 2 ^ 64 - 1 ∧ readPtr [45, 48, 49, 48] = 2 ^ 64 - 8 := by decide +kernel

/-- Non-vacuity: 0x7f00 is printed as such. -/
example : showPtr 32512 = [48, 120, 55, 102, 48, 48] := by decide +kernel

/-- **C91 is violated by the code**: an operand that is no number is read as 0 and inspected (Args.cpp:79-81: the state of the stream is not looked at); so is the next option, if the operand is forgotten: `-i -a` inspects 0 and `-a` is lost. -/
theorem C91_violated_operand : (parseArgs false [[45, 105], [102, 111, 111]]).map (fun r => (r.1 105, r.2)) = some (false, [0]) := by decide

theorem C91_violated_operand_option : (parseArgs false [[45, 105], [45, 97]]).map (fun r => (r.1 97, r.2)) = some (false, [0]) := by decide

end Arax.Grind
