import Verif.Proc.Functor
/-!
# Controller string utilities: `trim`, `decodeArgs`, `join` (C52) and handler symbols (C53)
-/
namespace Arax.Ctrl

/-! ## `trim` -/

/-- `std::isspace` in the C locale. /repo/controller/src/Core/Utilities.cpp:60, 63. -/
def isSpace (c : Char) : Bool := c == ' ' || c == '\t' || c == '\n' || c == '\x0b' || c == '\x0c' || c == '\r'

/-- `trim(const std::string &)` (/repo/controller/src/Core/Utilities.cpp:56-67): `wsfront` is the position of the first non-space,
`wsback` one after the position of the last. -/
def trim (s : List Char) : List Char :=
  let wsfront := (s.takeWhile isSpace).length
  let wsback := s.length - (s.reverse.takeWhile isSpace).length
  if wsback ≤ wsfront then [] else (s.drop wsfront).take (wsback - wsfront)

/-- White space of the C locale (specification): character codes 9 to 13 (tab, newline, vertical tab, form feed, carriage return) and 32 (blank). -/
def White (c : Char) : Prop := (9 ≤ c.toNat ∧ c.toNat ≤ 13) ∨ c.toNat = 32

theorem isSpace_iff (c : Char) : isSpace c = true ↔ White c := by
  have e : ∀ d : Char, c = d ↔ c.toNat = d.toNat := fun d => ⟨fun h => by rw [h], fun h => Char.toNat_inj.mp h⟩
  simp only [isSpace, Bool.or_eq_true, beq_iff_eq, e, White]
  have h1 : (' ' : Char).toNat = 32 := rfl
  have h2 : ('\t' : Char).toNat = 9 := rfl
  have h3 : ('\n' : Char).toNat = 10 := rfl
  have h4 : ('\x0b' : Char).toNat = 11 := rfl
  have h5 : ('\x0c' : Char).toNat = 12 := rfl
  have h6 : ('\r' : Char).toNat = 13 := rfl
  rw [h1, h2, h3, h4, h5, h6]
  omega

theorem isSpace_false (c : Char) : isSpace c = false ↔ ¬ White c := by rw [← isSpace_iff]; simp

/-- `t` is `s` without the surrounding white space. (No code of its own.) -/
def Trimmed (s t : List Char) : Prop :=
  ∃ a b, s = a ++ t ++ b ∧ (∀ c ∈ a, White c) ∧ (∀ c ∈ b, White c) ∧
    (∀ c, t.head? = some c → ¬ White c) ∧ (∀ c, t.getLast? = some c → ¬ White c)

theorem takeWhile_append_of {p : Char → Bool} {a : List Char} (ha : ∀ c ∈ a, p c = true) : ∀ {l : List Char}, (∀ c, l.head? = some c → p c = false) →
    (a ++ l).takeWhile p = a := by
  induction a with
  | nil =>
    intro l hl
    cases l with
    | nil => rfl
    | cons x l => simp [List.takeWhile_cons, hl x rfl]
  | cons x a ih =>
    intro l hl
    rw [List.cons_append, List.takeWhile_cons, if_pos (ha x (List.mem_cons_self)), ih (fun c hc => ha c (List.mem_cons_of_mem _ hc)) hl]

theorem trim_of_trimmed {s t : List Char} (h : Trimmed s t) : trim s = t := by
  obtain ⟨a, b, rfl, ha, hb, hh, hl⟩ := h
  simp only [← isSpace_iff, Bool.not_eq_true] at ha hb hh hl
  unfold trim
  cases ht : t with
  | nil =>
    have h1 : (a ++ b).takeWhile isSpace = a ++ b := by
      have := takeWhile_append_of (p := isSpace) (a := a ++ b) (l := [])
        (fun c hc => (List.mem_append.mp hc).elim (ha c) (hb c)) (fun c hc => by simp at hc)
      simpa using this
    simp only [List.append_nil, h1]
    rw [if_pos (by omega)]
  | cons x t' =>
    have h1 : (a ++ (x :: t') ++ b).takeWhile isSpace = a := by
      rw [List.append_assoc]
      refine takeWhile_append_of ha ?_
      intro c hc
      rw [List.cons_append, List.head?_cons] at hc
      exact hh c (by rw [ht, List.head?_cons]; exact hc)
    have h2 : (a ++ (x :: t') ++ b).reverse.takeWhile isSpace = b.reverse := by
      rw [List.reverse_append]
      refine takeWhile_append_of (fun c hc => hb c (List.mem_reverse.mp hc)) ?_
      intro c hc
      rw [List.reverse_append, List.head?_append] at hc
      have hne : (x :: t').reverse.head? = (x :: t').getLast? := List.head?_reverse
      rw [hne] at hc
      cases hg : (x :: t').getLast? with
      | none => simp at hg
      | some y =>
        rw [hg] at hc
        simp only [Option.some_or, Option.some.injEq] at hc
        subst hc
        exact hl y (by rw [ht]; exact hg)
    simp only [h1, h2, List.length_append, List.length_reverse, List.length_cons]
    rw [if_neg (by omega)]
    have h3 : (a ++ x :: t' ++ b).drop a.length = x :: t' ++ b := by rw [List.append_assoc]; exact List.drop_left
    rw [h3, show a.length + (t'.length + 1) + b.length - b.length - a.length = (x :: t').length by simp]
    exact List.take_left

theorem exists_trimmed (s : List Char) : ∃ t, Trimmed s t := by
  -- strip the front, then the back
  have hfront : ∃ a u, s = a ++ u ∧ (∀ c ∈ a, isSpace c = true) ∧ ∀ c, u.head? = some c → isSpace c = false := by
    induction s with
    | nil => exact ⟨[], [], rfl, by simp, by simp⟩
    | cons x s ih =>
      cases hx : isSpace x with
      | true =>
        obtain ⟨a, u, h1, h2, h3⟩ := ih
        refine ⟨x :: a, u, by rw [h1]; rfl, ?_, h3⟩
        intro c hc
        rcases List.mem_cons.mp hc with rfl | hc
        · exact hx
        · exact h2 c hc
      | false => exact ⟨[], x :: s, rfl, by simp, fun c hc => by rw [List.head?_cons] at hc; injection hc with hc; rw [← hc]; exact hx⟩
  obtain ⟨a, u, h1, h2, h3⟩ := hfront
  have hback : ∀ l : List Char, ∃ t b, l.reverse = t ++ b ∧ (∀ c ∈ b, isSpace c = true) ∧ ∀ c, t.getLast? = some c → isSpace c = false := by
    intro l
    induction l with
    | nil => exact ⟨[], [], rfl, by simp, by simp⟩
    | cons x l ih =>
      rw [List.reverse_cons]
      cases hx : isSpace x with
      | true =>
        obtain ⟨t, b, e1, e2, e3⟩ := ih
        refine ⟨t, b ++ [x], by rw [e1, List.append_assoc], ?_, e3⟩
        intro c hc
        rcases List.mem_append.mp hc with hc | hc
        · exact e2 c hc
        · rw [List.mem_singleton.mp hc]; exact hx
      | false =>
        refine ⟨l.reverse ++ [x], [], by simp, by simp, ?_⟩
        intro c hc
        rw [List.getLast?_append] at hc
        simp at hc
        rw [← hc]; exact hx
  obtain ⟨t, b, e1, e2, e3⟩ := hback u.reverse
  rw [List.reverse_reverse] at e1
  refine ⟨t, a, b, by rw [h1, e1, List.append_assoc], fun c hc => (isSpace_iff c).mp (h2 c hc), fun c hc => (isSpace_iff c).mp (e2 c hc), ?_,
    fun c hc => (isSpace_false c).mp (e3 c hc)⟩
  intro c hc
  refine (isSpace_false c).mp ?_
  refine h3 c ?_
  rw [e1, List.head?_append, hc]; rfl

/-- **C52** (`trim`) For every string, `trim` removes exactly the surrounding white space: the result is the only string that is `s` without a leading and a
trailing run of white space and that neither starts nor ends with white space. -/
theorem C52_trim (s : List Char) : Trimmed s (trim s) ∧ ∀ t, Trimmed s t → t = trim s := by
  obtain ⟨t, ht⟩ := exists_trimmed s
  exact ⟨by rw [trim_of_trimmed ht]; exact ht, fun u hu => (trim_of_trimmed hu).symm⟩

/-- Non-vacuity. -/
example : trim [' ', '\t', 'a', ' ', 'b', '\n'] = ['a', ' ', 'b'] := by decide

/-- The other `trim` of the controller (/repo/controller/src/Core/Config.cpp:14-24, not called anywhere): `substr(start, end)` takes `end` as a length. -/
def trimCfg (s : List Char) : List Char :=
  let start := (s.takeWhile (fun c => c == '\t' || c == ' ')).length
  let last := (s.reverse.takeWhile (fun c => c == '\t' || c == ' ')).length
  if start = s.length then s else (s.drop start).take (s.length - last)

/-- It leaves white space behind: `" a "` becomes `"a "`, and a string of blanks is not changed at all. -/
theorem trimCfg_wrong : (∀ s : List Char, (∀ c ∈ s, c = ' ' ∨ c = '\t') → trimCfg s = s) ∧
    trimCfg [' ', 'a', ' '] = ['a', ' '] ∧ ¬ Trimmed [' ', 'a', ' '] (trimCfg [' ', 'a', ' ']) := by
  refine ⟨?_, by decide, ?_⟩
  · intro s hs
    have e : s.takeWhile (fun c => c == '\t' || c == ' ') = s := by
      have := List.takeWhile_append_of_pos (p := fun c => c == '\t' || c == ' ') (l₁ := s) (l₂ := []) (by
        intro c hc; rcases hs c hc with h | h <;> simp [h])
      simpa using this
    simp [trimCfg, e]
  intro h
  have := trim_of_trimmed h
  revert this; decide

/-! ## `decodeArgs` -/

/-- A `std::istringstream`: characters left, `eofbit`, `failbit`. /repo/controller/src/Core/Utilities.cpp:27. -/
structure Stream where
  rest : List Char
  eof : Bool
  fail : Bool

/-- Up to the delimiter: the characters before it, and what follows it if it was found. (`std::getline`, Utilities.cpp:31-32.) -/
def scanTo (d : Char) : List Char → List Char × Option (List Char)
  | [] => ([], none)
  | c :: cs => if c = d then ([], some cs) else ((c :: (scanTo d cs).1), (scanTo d cs).2)

/-- `std::getline(iss, str, d)`: does nothing but fail on a stream that is not good; sets `eofbit` if the end is reached before a delimiter, and also `failbit`
if nothing was extracted. `old` is the previous value of `str`. Utilities.cpp:31-32. -/
def getline (d : Char) (st : Stream) (old : List Char) : List Char × Stream :=
  if st.eof || st.fail then (old, { st with fail := true })
  else
    match scanTo d st.rest with
    | (tok, some r) => (tok, { rest := r, eof := false, fail := false })
    | (tok, none) => (tok, { rest := [], eof := true, fail := tok.isEmpty })

/-- `std::map<std::string, std::string>` (Utilities.cpp:28). -/
abbrev Map := List Char → Option (List Char)

/-- `kv[k] = v`. Utilities.cpp:37. -/
def insert (m : Map) (k v : List Char) : Map := fun x => if x = k then some v else m x

/-- `std::transform(…, ::tolower)`. Utilities.cpp:35. -/
def lower (s : List Char) : List Char := s.map Char.toLower

/-- The loop of `decodeArgs` (/repo/controller/src/Core/Utilities.cpp:30-39), at most `n` iterations. -/
def loop : Nat → Stream → List Char → List Char → Map → Map
  | 0, _, _, _, m => m
  | n + 1, st, k, v, m =>
    let r1 := getline ':' st k
    let r2 := getline ',' r1.2 v
    if r2.2.fail then m
    else loop n r2.2 (lower (trim r1.1)) (trim r2.1) (insert m (lower (trim r1.1)) (trim r2.1))

/-- `decodeArgs` (/repo/controller/src/Core/Utilities.cpp:24-42): every iteration that does not end the loop consumes a character or sets `eofbit`, so the bound is never
reached (`loop_enough`). -/
def decodeArgs (args : List Char) : Map := loop (args.length + 2) { rest := args, eof := false, fail := false } [] [] (fun _ => none)

theorem scanTo_len (d : Char) : ∀ l, ((scanTo d l).2 = none ∧ (scanTo d l).1 = l) ∨ ∃ r, (scanTo d l).2 = some r ∧ r.length < l.length := by
  intro l
  induction l with
  | nil => exact Or.inl ⟨rfl, rfl⟩
  | cons c cs ih =>
    simp only [scanTo]
    split
    · exact Or.inr ⟨cs, rfl, by simp⟩
    · rcases ih with ⟨h1, h2⟩ | ⟨r, h1, h2⟩
      · exact Or.inl ⟨h1, by rw [h2]⟩
      · exact Or.inr ⟨r, h1, by simp; omega⟩

/-- Characters still to be read, plus one if the end has not been noticed. (No code of its own.) -/
def measure (st : Stream) : Nat := st.rest.length + if st.eof then 0 else 1

theorem getline_measure (d : Char) (st : Stream) (old : List Char) (h : (getline d st old).2.fail = false) :
    measure (getline d st old).2 < measure st := by
  unfold getline at *
  split at h
  · simp at h
  · rename_i hg
    simp only [Bool.or_eq_true, not_or, Bool.not_eq_true] at hg
    rw [if_neg (by simp [hg])]
    rcases scanTo_len d st.rest with ⟨h1, h2⟩ | ⟨r, h1, h2⟩
    · rw [show scanTo d st.rest = ((scanTo d st.rest).1, (scanTo d st.rest).2) from rfl, h1]
      simp [measure, hg.1]
    · rw [show scanTo d st.rest = ((scanTo d st.rest).1, (scanTo d st.rest).2) from rfl, h1]
      simp [measure, hg.1]; omega

theorem getline_fail (d : Char) (st : Stream) (old : List Char) (h : st.fail = true) : (getline d st old).2.fail = true := by
  unfold getline
  rw [if_pos (by simp [h])]

/-- The bound on the number of iterations is immaterial. -/
theorem loop_enough : ∀ n n' st k v m, measure st < n → measure st < n' → loop n st k v m = loop n' st k v m := by
  intro n
  induction n with
  | zero => intro n' st k v m h; omega
  | succ n ih =>
    intro n' st k v m h h'
    obtain ⟨n', rfl⟩ : ∃ k, n' = k + 1 := ⟨n' - 1, by omega⟩
    simp only [loop]
    split
    · rfl
    · rename_i hf
      have hf2 : (getline ',' (getline ':' st k).2 v).2.fail = false := by simpa using hf
      have hf1 : (getline ':' st k).2.fail = false := by
        cases hc : (getline ':' st k).2.fail with
        | false => rfl
        | true => rw [getline_fail _ _ _ hc] at hf2; simp at hf2
      have h1 := getline_measure ':' st k hf1
      have h2 := getline_measure ',' _ v hf2
      exact ih n' _ _ _ _ (by omega) (by omega)

/-! ### Specification -/

/-- `k1:v1,k2:v2,…` -/
def encode : List (List Char × List Char) → List Char
  | [] => []
  | [(k, v)] => k ++ ':' :: v
  | (k, v) :: p :: ps => k ++ ':' :: (v ++ ',' :: encode (p :: ps))

/-- The map in which every trimmed lower-case key has its trimmed value, later pairs winning over `m` and over earlier pairs. -/
def build (m : Map) : List (List Char × List Char) → Map
  | [] => m
  | (k, v) :: ps => build (fun x => if x = lower (trim k) then some (trim v) else m x) ps

theorem scanTo_found {d : Char} {a b : List Char} (h : d ∉ a) : scanTo d (a ++ d :: b) = (a, some b) := by
  induction a with
  | nil => simp [scanTo]
  | cons c a ih =>
    simp only [List.mem_cons, not_or] at h
    rw [List.cons_append, scanTo, if_neg (Ne.symm h.1), ih h.2]

theorem scanTo_none {d : Char} {a : List Char} (h : d ∉ a) : scanTo d a = (a, none) := by
  induction a with
  | nil => rfl
  | cons c a ih =>
    simp only [List.mem_cons, not_or] at h
    rw [scanTo, if_neg (Ne.symm h.1), ih h.2]

theorem loop_eof (n : Nat) (k v : List Char) (m : Map) : loop n { rest := [], eof := true, fail := false } k v m = m := by
  cases n with
  | zero => rfl
  | succ n => simp [loop, getline]

theorem loop_build : ∀ (ps : List (List Char × List Char)) (n : Nat) (k v : List Char) (m : Map), (∀ p ∈ ps, ':' ∉ p.1 ∧ ',' ∉ p.2) →
    (∀ p, ps.getLast? = some p → p.2 ≠ []) → ps.length ≤ n →
    loop (n + 1) { rest := encode ps, eof := false, fail := false } k v m = build m ps := by
  intro ps
  induction ps with
  | nil => intro n k v m _ _ _; simp [loop, getline, encode, scanTo, build]
  | cons p ps ih =>
    intro n k v m h hlast hn
    obtain ⟨pk, pv⟩ := p
    obtain ⟨h1, h2⟩ := h (pk, pv) (List.mem_cons_self)
    cases ps with
    | nil =>
      have hne : pv ≠ [] := hlast (pk, pv) rfl
      simp only [loop, getline, encode, Bool.or_self, Bool.false_eq_true, if_false, scanTo_found h1, scanTo_none h2, build]
      rw [if_neg (by simpa using hne)]
      rw [show ({ rest := [], eof := true, fail := pv.isEmpty } : Stream) = { rest := [], eof := true, fail := false } by simp [hne]]
      rw [loop_eof]
      rfl
    | cons q qs =>
      obtain ⟨n, rfl⟩ : ∃ j, n = j + 1 := ⟨n - 1, by simp at hn; omega⟩
      have key : loop (n + 1 + 1) { rest := encode ((pk, pv) :: q :: qs), eof := false, fail := false } k v m =
          loop (n + 1) { rest := encode (q :: qs), eof := false, fail := false } (lower (trim pk)) (trim pv) (insert m (lower (trim pk)) (trim pv)) := by
        rw [show loop (n + 1 + 1) { rest := encode ((pk, pv) :: q :: qs), eof := false, fail := false } k v m =
          (let r1 := getline ':' { rest := encode ((pk, pv) :: q :: qs), eof := false, fail := false } k
           let r2 := getline ',' r1.2 v
           if r2.2.fail then m
           else loop (n + 1) r2.2 (lower (trim r1.1)) (trim r2.1) (insert m (lower (trim r1.1)) (trim r2.1))) from rfl]
        simp only [getline, encode, Bool.or_self, Bool.false_eq_true, if_false, scanTo_found h1, scanTo_found h2]
      rw [key, ih n _ _ _ (fun x hx => h x (List.mem_cons_of_mem _ hx)) (fun x hx => hlast x (by rw [List.getLast?_cons_cons]; exact hx))
        (by simp at hn ⊢; omega)]
      rfl

theorem encode_len : ∀ ps : List (List Char × List Char), ps.length ≤ (encode ps).length := by
  intro ps
  induction ps with
  | nil => simp
  | cons p ps ih =>
    obtain ⟨k, v⟩ := p
    cases ps with
    | nil => simp [encode]; omega
    | cons q qs => simp only [encode, List.length_append, List.length_cons] at ih ⊢; omega

/-- **C52** (`decodeArgs`, partial) For every list of key/value pairs whose keys contain no `:` and whose values contain no `,`: decoding `k1:v1,k2:v2,…` yields every trimmed
lower-case key with its trimmed value, later duplicates winning - provided the last value is not the empty string. Missing: an empty last value
(`C52_violated`). -/
theorem C52_decode_partial (ps : List (List Char × List Char)) (h : ∀ p ∈ ps, ':' ∉ p.1 ∧ ',' ∉ p.2) (hlast : ∀ p, ps.getLast? = some p → p.2 ≠ []) :
    decodeArgs (encode ps) = build (fun _ => none) ps := by
  unfold decodeArgs
  exact loop_build ps _ [] [] _ h hlast (by have := encode_len ps; omega)

/-- **C52 is violated by the code**: `"a:"` decodes to nothing at all, although `"a:,b:x"` maps `a` to the empty string. -/
theorem C52_violated : decodeArgs (encode [(['a'], [])]) ['a'] = none ∧ build (fun _ => none) [(['a'], [])] ['a'] = some [] ∧
    decodeArgs (encode [(['a'], []), (['b'], ['x'])]) ['a'] = some [] := by decide

/-- The header promises values in lower case too (/repo/controller/include/Utilities.h:13); they keep their case. -/
theorem C52_values_keep_case : decodeArgs (encode [(['K'], ['V'])]) ['k'] = some ['V'] := by decide

/-- Non-vacuity of `C52_decode_partial`: a repeated key, white space and upper case. -/
example : decodeArgs (encode [([' ', 'K'], ['1']), (['x'], []), (['k', ' '], [' ', 'v', ':', ' '])]) ['k'] = some ['v', ':'] := by decide

/-! ## `join` -/

/-- `join` (/repo/controller/src/Core/Utilities.cpp:44-54): state of the loop is the separator and the result. -/
def join (strs : List (List Char)) : List Char :=
  (strs.foldl (fun (acc : List Char × List Char) s => ([',', ' '], acc.2 ++ (acc.1 ++ s))) ([], [])).2

/-- **C52** (`join`) The strings in order, `", "` between neighbours and nowhere else. -/
theorem C52_join (strs : List (List Char)) : join strs = List.intercalate [',', ' '] strs := by
  have key : ∀ (l : List (List Char)) (acc : List Char), (l.foldl (fun (acc : List Char × List Char) s => ([',', ' '], acc.2 ++ (acc.1 ++ s))) ([',', ' '], acc)).2 =
      acc ++ (l.map (fun s => [',', ' '] ++ s)).flatten := by
    intro l
    induction l with
    | nil => intro acc; simp
    | cons s l ih => intro acc; rw [List.foldl_cons, ih]; simp
  cases strs with
  | nil => rfl
  | cons s l =>
    unfold join
    rw [List.foldl_cons, key]
    simp only [List.nil_append, List.intercalate]
    clear key
    induction l generalizing s with
    | nil => simp
    | cons t l ih =>
      rw [List.intersperse_cons_cons, List.flatten_cons, List.flatten_cons, ← ih t]
      simp

end Arax.Ctrl
