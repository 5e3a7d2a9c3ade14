/-
C114. vdf's command line.

Modelled: how `main` of vdf reads its arguments, on which port the server
listens, and which parts a page has. Simplified: words that begin with `-` are
also looked at by Poco, which may refuse them; numbers are such that `atoi` is
defined (at most `INT_MAX`).
-/
namespace Arax.VdfOpts

/-- Texts. `std::string`, `char *`. -/
abbrev Text := List Char

/-- A text of the program. (Literals of /repo/vdf/WebUI.cpp:29-77.) -/
def S (s : String) : Text := s.toList

/-- The digits at the beginning. (`atoi` of the C library.) -/
def digits : Text → Nat → Nat
  | [], acc => acc
  | c :: cs, acc => if '0' ≤ c ∧ c ≤ '9' then digits cs (acc * 10 + (c.toNat - 48)) else acc

/-- `isspace` in the C locale. (C library.) -/
def isSpace (c : Char) : Bool := c == ' ' || (9 ≤ c.toNat && c.toNat ≤ 13)

/-- `atoi` (C library; called at /repo/vdf/vdf.cpp:81-82). -/
def atoi (t : Text) : Int :=
  match t.dropWhile isSpace with
  | '-' :: cs => - (digits cs 0 : Int)
  | '+' :: cs => digits cs 0
  | cs => digits cs 0

/-- What `main` of vdf has read: `port` and `args`, the latter as the list of its keys, all of which map to true. -/
structure Opts where
  port : Int
  args : List Text

/-- One argument (/repo/vdf/vdf.cpp:81-84). -/
def arg (o : Opts) (a : Text) : Opts := if atoi a ≠ 0 then { o with port := atoi a } else { o with args := a :: o.args }

/-- The loop over all arguments, from the name of the program on (/repo/vdf/vdf.cpp:78-85). -/
def parse (argv : List Text) : Opts := argv.foldl arg ⟨8888, []⟩

/-- The port the server listens at: Poco takes an unsigned number of 16 bits. (/repo/vdf/vdf.cpp:47, 67, 70, 87.) -/
def listens (argv : List Text) : Int := (parse argv).port % 65536

/-- The parts of a page (/repo/vdf/WebUI.cpp:29-82). `top` and `bottom`: the frame of an HTML document; `head`: style, script, version and logo. -/
inductive Part where
  | top | head | config | sizes | throttles | allocations | objects | bottom
deriving DecidableEq, Repr

/-- `args[…]` of a handler, which has a copy of the arguments (/repo/vdf/vdf.cpp:38, /repo/vdf/WebUI.cpp:86-87, /repo/vdf/WebUI.h). A look adds the key with false, to the copy. -/
def given (o : Opts) (k : String) : Bool := o.args.contains (S k)

/-- `handleRequest`: the parts, in order. (/repo/vdf/WebUI.cpp:17-84.) -/
def page (o : Opts) : List Part :=
  (if given o "embed" then [] else [.top]) ++ [.head] ++
  (if given o "noconf" then [] else [.config]) ++ (if given o "nosizes" then [] else [.sizes]) ++
  (if given o "nothrot" then [] else [.throttles]) ++ (if given o "noalloc" then [] else [.allocations]) ++
  (if given o "noobj" then [] else [.objects]) ++ (if given o "embed" then [] else [.bottom])

/-! ### Specification -/

/-- The word that turns a part off. -/
def off : Part → Option String
  | .top | .bottom => some "embed"
  | .head => none
  | .config => some "noconf"
  | .sizes => some "nosizes"
  | .throttles => some "nothrot"
  | .allocations => some "noalloc"
  | .objects => some "noobj"

/-- The parts of a full page in order. -/
def full : List Part := [.top, .head, .config, .sizes, .throttles, .allocations, .objects, .bottom]

/-- No word of the command line turns the part off. -/
def wanted (argv : List Text) (p : Part) : Bool :=
  match off p with
  | none => true
  | some k => !(argv.contains (S k))

/-- A word that is a port: between one and five decimal digits for a number from 1 to 65535. -/
def IsPort (a : Text) (n : Nat) : Prop := 0 < n ∧ n < 65536 ∧ a = (Nat.toDigits 10 n)

/-- Blanks, tabs, ends of lines. -/
def Blank (c : Char) : Prop := c ∈ [' ', '\t', '\n', '\r', Char.ofNat 11, Char.ofNat 12]

instance (c : Char) : Decidable (Blank c) := by unfold Blank; infer_instance

/-- A word that begins neither with a digit, a sign nor a blank. -/
def IsWord (a : Text) : Prop :=
  match a with
  | [] => True
  | c :: _ => ¬ ('0' ≤ c ∧ c ≤ '9') ∧ c ≠ '-' ∧ c ≠ '+' ∧ ¬ Blank c

instance (a : Text) : Decidable (IsWord a) := by cases a <;> (unfold IsWord; infer_instance)

/-! ### Proofs -/

theorem isSpace_iff (c : Char) : isSpace c = true ↔ Blank c := by
  have key : ∀ d : Char, c = d ↔ c.toNat = d.toNat := fun d => ⟨fun h => by rw [h], fun h => Char.toNat_inj.1 h⟩
  simp only [isSpace, Blank, List.mem_cons, List.not_mem_nil, or_false, Bool.or_eq_true, beq_iff_eq, Bool.and_eq_true, decide_eq_true_eq, key]
  have e1 : ' '.toNat = 32 := rfl
  have e2 : '\t'.toNat = 9 := rfl
  have e3 : '\n'.toNat = 10 := rfl
  have e4 : '\r'.toNat = 13 := rfl
  have e5 : (Char.ofNat 11).toNat = 11 := rfl
  have e6 : (Char.ofNat 12).toNat = 12 := rfl
  rw [e1, e2, e3, e4, e5, e6]
  omega

theorem atoi_word {a : Text} (h : IsWord a) : atoi a = 0 := by
  cases a with
  | nil => simp [atoi, digits]
  | cons c cs =>
    obtain ⟨h1, h2, h3, h4⟩ := h
    unfold atoi
    rw [List.dropWhile_cons_of_neg (by rw [isSpace_iff]; exact h4)]
    split
    · rename_i e; injection e with e _; exact absurd e h2
    · rename_i e; injection e with e _; exact absurd e h3
    · rename_i hx _
      simp [digits, h1]

theorem parse_args_go (argv : List Text) (o : Opts) (k : Text) (hk : atoi k = 0) :
    k ∈ (argv.foldl arg o).args ↔ k ∈ o.args ∨ k ∈ argv := by
  induction argv generalizing o with
  | nil => simp
  | cons a as ih =>
    rw [List.foldl_cons, ih]
    by_cases ha : atoi a ≠ 0
    · rw [arg, if_pos ha]
      have : k ≠ a := fun e => ha (by rw [← e]; exact hk)
      simp [this]
    · rw [arg, if_neg ha]
      simp only [List.mem_cons]
      grind

theorem given_iff (argv : List Text) (k : String) (hk : IsWord (S k)) : given (parse argv) k = argv.contains (S k) := by
  rw [Bool.eq_iff_iff]
  simp only [given, List.contains_iff_mem]
  rw [parse, parse_args_go argv _ _ (atoi_word hk)]
  simp

/-- **C114 (parts).** For every command line, a page has exactly the parts that no word of the command line turns off, in their order. -/
theorem C114_parts (argv : List Text) : page (parse argv) = full.filter (wanted argv) := by
  have h1 := given_iff argv "embed" (by decide)
  have h2 := given_iff argv "noconf" (by decide)
  have h3 := given_iff argv "nosizes" (by decide)
  have h4 := given_iff argv "nothrot" (by decide)
  have h5 := given_iff argv "noalloc" (by decide)
  have h6 := given_iff argv "noobj" (by decide)
  unfold page full
  rw [h1, h2, h3, h4, h5, h6]
  cases e1 : argv.contains (S "embed") <;> cases e2 : argv.contains (S "noconf") <;> cases e3 : argv.contains (S "nosizes") <;>
    cases e4 : argv.contains (S "nothrot") <;> cases e5 : argv.contains (S "noalloc") <;> cases e6 : argv.contains (S "noobj") <;>
    simp only [List.filter_cons, List.filter_nil, wanted, off, e1, e2, e3, e4, e5, e6] <;> rfl

/-- Non-vacuity: two parts off. -/
example : page (parse [S "./vdf", S "noobj", S "9000", S "noconf"]) = [.top, .head, .sizes, .throttles, .allocations, .bottom] := by decide

/-- Words without meaning, and their order, do not matter: pages of command lines with the same six words are equal. -/
theorem C114_unknown (argv argv' : List Text) (h : ∀ k ∈ ["embed", "noconf", "nosizes", "nothrot", "noalloc", "noobj"], S k ∈ argv ↔ S k ∈ argv') :
    page (parse argv) = page (parse argv') := by
  rw [C114_parts, C114_parts]
  congr 1
  funext p
  have hc : ∀ k ∈ ["embed", "noconf", "nosizes", "nothrot", "noalloc", "noobj"], argv.contains (S k) = argv'.contains (S k) := by
    intro k hk
    rw [Bool.eq_iff_iff]
    simp only [List.contains_iff_mem]
    exact h k hk
  simp only [List.mem_cons, List.not_mem_nil, or_false, forall_eq_or_imp, forall_eq] at hc
  obtain ⟨h1, h2, h3, h4, h5, h6⟩ := hc
  cases p <;> simp only [wanted, off, h1, h2, h3, h4, h5, h6]
example : page (parse [S "./vdf", S "noobjs"]) = full := by decide

theorem parse_port_words (argv : List Text) (o : Opts) (h : ∀ a ∈ argv, IsWord a) : (argv.foldl arg o).port = o.port := by
  induction argv generalizing o with
  | nil => rfl
  | cons a as ih =>
    rw [List.foldl_cons, ih _ (fun b hb => h b (List.mem_cons_of_mem _ hb))]
    have := atoi_word (h a List.mem_cons_self)
    simp [arg, this]

/-- Digits of a number, one by one. -/
theorem digits_append (a b : Text) (acc : Nat) (h : ∀ c ∈ a, '0' ≤ c ∧ c ≤ '9') : digits (a ++ b) acc = digits b (digits a acc) := by
  induction a generalizing acc with
  | nil => rfl
  | cons c cs ih =>
    have hc := h c List.mem_cons_self
    simp only [List.cons_append, digits, if_pos hc]
    exact ih _ (fun d hd => h d (List.mem_cons_of_mem _ hd))

theorem digitChar_ok (d : Nat) (h : d < 10) : ('0' ≤ Nat.digitChar d ∧ Nat.digitChar d ≤ '9') ∧ (Nat.digitChar d).toNat - 48 = d := by
  have : ∀ d : Fin 10, ('0' ≤ Nat.digitChar d.1 ∧ Nat.digitChar d.1 ≤ '9') ∧ (Nat.digitChar d.1).toNat - 48 = d.1 := by decide
  exact this ⟨d, h⟩

theorem toDigits_spec (n : Nat) : (∀ c ∈ Nat.toDigits 10 n, '0' ≤ c ∧ c ≤ '9') ∧ digits (Nat.toDigits 10 n) 0 = n := by
  induction n using Nat.strongRecOn with
  | _ n ih =>
    by_cases hn : n < 10
    · rw [Nat.toDigits_of_lt_base hn]
      have := digitChar_ok n hn
      refine ⟨fun c hc => ?_, ?_⟩
      · simp only [List.mem_singleton] at hc; subst hc; exact this.1
      · simp only [digits, if_pos this.1, this.2]; omega
    · have hd := Nat.toDigits_of_base_le (b := 10) (n := n) (by omega) (by omega)
      have h1 := ih (n / 10) (by omega)
      have := digitChar_ok (n % 10) (by omega)
      rw [hd]
      refine ⟨fun c hc => ?_, ?_⟩
      · rcases List.mem_append.1 hc with hc | hc
        · exact h1.1 c hc
        · simp only [List.mem_singleton] at hc; subst hc; exact this.1
      · rw [digits_append _ _ _ h1.1, h1.2]
        simp only [digits, if_pos this.1, this.2]; omega

theorem atoi_port {a : Text} {n : Nat} (h : IsPort a n) : atoi a = n := by
  obtain ⟨h0, _, rfl⟩ := h
  have hs := toDigits_spec n
  cases hd : Nat.toDigits 10 n with
  | nil => rw [hd] at hs; have := hs.2; simp [digits] at this; omega
  | cons c cs =>
    rw [hd] at hs
    have hc := hs.1 c List.mem_cons_self
    have hsp : isSpace c = false := by
      have h1 : 48 ≤ c.toNat := hc.1
      simp only [isSpace, Bool.or_eq_false_iff, beq_eq_false_iff_ne, Bool.and_eq_false_iff, decide_eq_false_iff_not]
      refine ⟨?_, Or.inr (by omega)⟩
      intro e; subst e; simp at h1
    unfold atoi
    rw [List.dropWhile_cons_of_neg (by simp [hsp])]
    split
    · rename_i e; injection e with e _; subst e; exact absurd hc (by decide)
    · rename_i e; injection e with e _; subst e; exact absurd hc (by decide)
    · rw [hs.2]

/-- **C114 (port).** If the program has a name that is no number and its arguments are words and, possibly, one port, then the server listens at that port, and else at 8888, wherever among the arguments the port is.
Missing: other numbers, and names that begin with one (`C114_violated_big`, `C114_violated_name`). -/
theorem C114_port_partial (pre post : List Text) (hpre : ∀ a ∈ pre, IsWord a) (hpost : ∀ a ∈ post, IsWord a) :
    listens (pre ++ post) = 8888 ∧ ∀ a n, IsPort a n → listens (pre ++ a :: post) = n := by
  constructor
  · rw [listens, parse, parse_port_words]
    · rfl
    · intro a ha; rcases List.mem_append.1 ha with h | h; exact hpre a h; exact hpost a h
  · intro a n h
    have ha := atoi_port h
    rw [listens, parse, List.foldl_append, List.foldl_cons, parse_port_words _ _ hpost]
    have h0 : atoi a ≠ 0 := by rw [ha]; have := h.1; omega
    rw [arg, if_pos h0]
    dsimp only
    rw [ha]
    have := h.2.1
    omega

/-- Non-vacuity. -/
example : IsPort (S "9000") 9000 ∧ IsWord (S "./vdf") ∧ IsWord (S "noobj") := by
  refine ⟨⟨by omega, by omega, by decide⟩, by decide, by decide⟩
example : listens [S "./vdf", S "noobj", S "9000"] = 9000 := by decide

/-- **C114 (blanks).** Blanks before an argument do not change the port. -/
theorem C114_blanks (pre post : List Text) (b a : Text) (hb : ∀ c ∈ b, Blank c) : listens (pre ++ (b ++ a) :: post) = listens (pre ++ a :: post) := by
  have hd : ∀ b : Text, (∀ c ∈ b, Blank c) → (b ++ a).dropWhile isSpace = a.dropWhile isSpace := by
    intro b
    induction b with
    | nil => intro _; rfl
    | cons c cs ih =>
      intro h
      rw [List.cons_append, List.dropWhile_cons_of_pos ((isSpace_iff c).2 (h c List.mem_cons_self))]
      exact ih (fun x hx => h x (List.mem_cons_of_mem _ hx))
  have ha : atoi (b ++ a) = atoi a := by unfold atoi; rw [hd b hb]
  have go : ∀ (l : List Text) (o o' : Opts), o.port = o'.port → (l.foldl arg o).port = (l.foldl arg o').port := by
    intro l
    induction l with
    | nil => intro o o' h; exact h
    | cons x xs ih =>
      intro o o' h
      refine ih _ _ ?_
      unfold arg
      split
      · rfl
      · exact h
  simp only [listens, parse, List.foldl_append, List.foldl_cons]
  rw [go post (arg _ (b ++ a)) (arg (pre.foldl arg ⟨8888, []⟩) a)]
  unfold arg
  rw [ha]
  split <;> rfl

/-- Non-vacuity. -/
example : listens [S "./vdf", S "\r\t 9000"] = 9000 := by decide

/-- Port 70000 is 4464, -1 is 65535; 0 is not a port at all, and the server listens at 8888. -/
theorem C114_violated_big : listens [S "./vdf", S "70000"] = 4464 ∧ listens [S "./vdf", S "-1"] = 65535 ∧ listens [S "./vdf", S "0"] = 8888 := by decide

/-- The name of the program is read too: a copy called `2vdf` listens at port 2 unless told otherwise. -/
theorem C114_violated_name : listens [S "2vdf"] = 2 := by decide

end Arax.VdfOpts
