import Verif.Outcome
/-!
# C96: a broken assumption is reported and ends the process

*Property.* If the condition of an `arax_assert` is false, one report is printed, with the call stack, the text of the condition, the file (relative to the source tree) and the line, and the process
aborts; if it is true nothing happens. A call with something that is not an object of the expected type (null, an address outside the segment, an object of another type) is reported this way
before any of its memory is interpreted.
-/
namespace Arax.Assert

/-- Texts. C strings. -/
abbrev Str := List Char

/-- What a call does: go on without a trace, print a report and abort, or run into undefined behaviour. (/repo/src/utils/arax_assert.c:12-19.) -/
inductive Outcome where
  | goesOn
  | aborts (report : Str)
  | ub
  deriving Repr, DecidableEq

/-- `system_backtrace` (/repo/src/utils/system.c:154-187). `stack` is what `backtrace_symbols` would return, outermost last; `backtrace` fills at most 128 entries (:156-163). The test of the size
is the wrong way round (:165): every non-empty stack is replaced by an excuse, and for an empty one the loop starts at index -1 (:172-173), outside the array. -/
def backtrace (stack : List Str) : Option Str :=
  let size := min 128 stack.length
  if 0 < size then some "Could not generate backtrace\n".toList else none

/-- `ARAX_FILE_PREFIX_LEN` (/repo/src/utils/arax_assert.c:10): `strlen(__FILE__) - 23` for the name under which arax_assert.c was compiled. As an integer, `file + n` with a negative number
behind the `size_t` arithmetic being in front of the array. -/
def prefixLen (self : Str) : Int := (self.length : Int) - 23

/-- `file + n` (/repo/src/utils/arax_assert.c:15) for `%s`: outside the array of the string (with its terminating zero) there is no meaning. -/
def skip (file : Str) (n : Int) : Option Str := if 0 ≤ n ∧ n ≤ file.length then some (file.drop n.toNat) else none

/-- `_arax_assert` (/repo/src/utils/arax_assert.c:12-19), `self` the name under which arax_assert.c was compiled. -/
def assertFn (self : Str) (stack : List Str) (fail : Bool) (expr file : Str) (line : Nat) : Outcome :=
  if fail then
    match backtrace stack, skip file (prefixLen self) with
    | some bt, some f => .aborts (bt ++ " <<\n\narax_assert(".toList ++ expr ++ ") @ ".toList ++ f ++ ":".toList ++ Nat.toDigits 10 line ++ "\n\n".toList)
    | _, _ => .ub
  else .goesOn

/-- The macro `arax_assert` (/repo/src/utils/arax_assert.h:7-8): the condition is negated and spelt out. -/
def assertMacro (self : Str) (stack : List Str) (cond : Bool) (expr file : Str) (line : Nat) : Outcome := assertFn self stack (!cond) expr file line

/-- The shared segment as the checks see it: its first address, its size, and the type field of whatever lies at an address. (/repo/src/core/arax_ptr.c:4-18, arax_object.h:40-48.) -/
structure Seg where
  base : Nat
  size : Nat
  typeAt : Nat → Nat

/-- `arax_ptr_valid` (/repo/src/core/arax_ptr.c:4-18). -/
def ptrValid (s : Seg) (p : Nat) : Bool := if p < s.base then false else if p < s.base + s.size then true else false

/-- Going on after an assertion that held. (Sequence of statements, /repo/src/utils/arax_assert.c:21-29.) -/
def Outcome.andThen (a b : Outcome) : Outcome := match a with | .goesOn => b | x => x

/-- The function `_arax_assert_obj` (/repo/src/utils/arax_assert.c:21-29); nothing calls it. -/
def assertObjFn (self : Str) (stack : List Str) (s : Seg) (p type : Nat) : Outcome :=
  (assertMacro self stack (p != 0) "obj && !\"Object was null\"".toList self 23).andThen <|
  (assertMacro self stack (ptrValid s p) "arax_ptr_valid(obj) && !\"Object was not valid  ptr\"".toList self 24).andThen <|
  (assertMacro self stack (ptrValid s p) "arax_ptr_valid(obj) && !\"Object was not valid  ptr\"".toList self 25).andThen <|
  assertMacro self stack (s.typeAt p == type) "(vo->type == type) && !\"Object type was not the expected\"".toList self 28

/-- The macro `arax_assert_obj` (/repo/src/utils/arax_assert.h:12-13): it expands to a declaration of the function; no call is made. -/
def assertObjMacro (_self : Str) (_stack : List Str) (_s : Seg) (_p _type : Nat) : Outcome := .goesOn

/-! ## Specification -/

/-- The wanted report. `root` is the directory of the source tree, `rel` the path of the file in it. -/
def Reports (stack : List Str) (expr rel : Str) (line : Nat) (report : Str) : Prop :=
  ∃ shown sep : Str, report = shown ++ sep ++ "arax_assert(".toList ++ expr ++ ") @ ".toList ++ rel ++ ":".toList ++ Nat.toDigits 10 line ++ "\n\n".toList ∧ ∀ f ∈ stack, f <:+: shown

/-- The same without the stack. -/
def ReportsPlace (expr rel : Str) (line : Nat) (report : Str) : Prop :=
  ∃ before : Str, report = before ++ "arax_assert(".toList ++ expr ++ ") @ ".toList ++ rel ++ ":".toList ++ Nat.toDigits 10 line ++ "\n\n".toList

/-- An object of a type, as the checks should see it. -/
def IsObject (s : Seg) (p type : Nat) : Prop := p ≠ 0 ∧ s.base ≤ p ∧ p < s.base + s.size ∧ s.typeAt p = type

/-! ## Theorems -/

/-- The file name is shown relative to the root of the tree, if both files were compiled under names with that root. -/
theorem skip_root (root rel : Str) : skip (root ++ rel) (prefixLen (root ++ "src/utils/arax_assert.c".toList)) = some rel := by
  have h : prefixLen (root ++ "src/utils/arax_assert.c".toList) = (root.length : Int) := by
    unfold prefixLen; rw [List.length_append, show "src/utils/arax_assert.c".toList.length = 23 from by decide +kernel]; omega
  rw [h]; unfold skip
  rw [if_pos (by rw [List.length_append]; omega)]
  simp

/-- **C96 (conditions).** For every source tree, every file in it, condition, line and non-empty stack: a condition that holds has no effect; one that does not hold prints its text and place, relative to the tree, and
aborts. Missing: the stack, which is never shown (`C96_violated_stack`); files outside the tree (`C96_violated_outside`). -/
theorem C96_assert_partial (root rel expr : Str) (line : Nat) (stack : List Str) (hst : stack ≠ []) :
    assertMacro (root ++ "src/utils/arax_assert.c".toList) stack true expr (root ++ rel) line = .goesOn ∧
    ∃ r, assertMacro (root ++ "src/utils/arax_assert.c".toList) stack false expr (root ++ rel) line = .aborts r ∧ ReportsPlace expr rel line r := by
  refine ⟨rfl, ?_⟩
  have hb : backtrace stack = some "Could not generate backtrace\n".toList := by
    unfold backtrace
    have : 0 < min 128 stack.length := by have := List.length_pos_iff.2 hst; omega
    simp only [this, if_true]
  unfold assertMacro assertFn
  rw [if_pos (by rfl), hb, skip_root]
  refine ⟨_, rfl, "Could not generate backtrace\n".toList ++ " <<\n\n".toList, ?_⟩
  have : " <<\n\narax_assert(".toList = " <<\n\n".toList ++ "arax_assert(".toList := by decide +kernel
  rw [this]; simp only [List.append_assoc]

/-- Non-vacuity: an assertion of arax_data.c, compiled in /home/u/arax. -/
example : assertMacro ("/home/u/arax/".toList ++ "src/utils/arax_assert.c".toList) ["main".toList] false "accel".toList "/home/u/arax/src/core/arax_data.c".toList 80 =
    .aborts "Could not generate backtrace\n <<\n\narax_assert(accel) @ src/core/arax_data.c:80\n\n".toList := by decide +kernel

/-- **C96 (objects), for the function.** `_arax_assert_obj` lets exactly the objects of the expected type in the segment pass; everything else is reported. -/
theorem C96_objects_partial (root : Str) (stack : List Str) (hst : stack ≠ []) (s : Seg) (p type : Nat) :
    let self := root ++ "src/utils/arax_assert.c".toList
    (IsObject s p type → assertObjFn self stack s p type = .goesOn) ∧ (¬ IsObject s p type → ∃ r, assertObjFn self stack s p type = .aborts r) := by
  intro self
  have ha : ∀ (e : Str) (l : Nat), ∃ r, assertMacro self stack false e self l = .aborts r := fun e l =>
    let ⟨r, h, _⟩ := (C96_assert_partial root "src/utils/arax_assert.c".toList e l stack hst).2; ⟨r, h⟩
  have ht : ∀ (e : Str) (l : Nat), assertMacro self stack true e self l = .goesOn := fun _ _ => rfl
  have hv : ptrValid s p = true ↔ s.base ≤ p ∧ p < s.base + s.size := by
    unfold ptrValid; by_cases h1 : p < s.base <;> by_cases h2 : p < s.base + s.size <;> simp [h1, h2] <;> omega
  constructor
  · rintro ⟨h0, h1, h2, h3⟩
    unfold assertObjFn
    rw [hv.2 ⟨h1, h2⟩, h3, show (p != 0) = true by simpa using h0, show (type == type) = true by simp]
    simp only [ht, Outcome.andThen]
  · intro h
    unfold assertObjFn
    by_cases h0 : p = 0
    · obtain ⟨r, e⟩ := ha "obj && !\"Object was null\"".toList 23
      rw [show (p != 0) = false by simp [h0], e]
      exact ⟨r, rfl⟩
    · rw [show (p != 0) = true by simpa using h0, ht]
      by_cases hpv : ptrValid s p = true
      · rw [hpv, ht, ht]
        have h3 : s.typeAt p ≠ type := fun h3 => h ⟨h0, (hv.1 hpv).1, (hv.1 hpv).2, h3⟩
        rw [show (s.typeAt p == type) = false by simpa using h3]
        obtain ⟨r, e⟩ := ha "(vo->type == type) && !\"Object type was not the expected\"".toList 28
        rw [e]
        exact ⟨r, rfl⟩
      · rw [show ptrValid s p = false by simpa using hpv]
        obtain ⟨r, e⟩ := ha "arax_ptr_valid(obj) && !\"Object was not valid  ptr\"".toList 24
        rw [e]
        exact ⟨r, rfl⟩

/-- Non-vacuity: a data object in the segment; a null pointer. -/
example : IsObject ⟨4096, 65536, fun _ => 3⟩ 5000 3 ∧ ¬ IsObject ⟨4096, 65536, fun _ => 3⟩ 0 3 := by simp [IsObject]

/-- **C96 fails (stack).** No report of a failing assertion ever shows the stack: whatever the stack, the text in front of the place is the same excuse, and an empty stack is undefined behaviour. -/
theorem C96_violated_stack : (∀ stack : List Str, backtrace stack = some "Could not generate backtrace\n".toList ∨ backtrace stack = none) ∧
    ¬ (∀ (root rel expr : Str) (line : Nat) (stack : List Str), ∃ r, assertMacro (root ++ "src/utils/arax_assert.c".toList) stack false expr (root ++ rel) line = .aborts r ∧ Reports stack expr rel line r) := by
  refine ⟨fun stack => ?_, fun h => ?_⟩
  · unfold backtrace; dsimp only; split
    · exact .inl rfl
    · exact .inr rfl
  · obtain ⟨r, e, -⟩ := h [] [] [] 1 []
    have : assertMacro ([] ++ "src/utils/arax_assert.c".toList) [] false [] ([] ++ []) 1 = .ub := by decide +kernel
    rw [this] at e; cases e

/-- **C96 fails (stack), with a stack of one function.** The name of the function is in none of the report. -/
theorem C96_violated_stack_lost : ∃ (stack : List Str) (r : Str), stack ≠ [] ∧
    assertMacro "src/utils/arax_assert.c".toList stack false "x".toList "src/a.c".toList 1 = .aborts r ∧ ¬ Reports stack "x".toList "src/a.c".toList 1 r := by
  refine ⟨["QQ".toList], _, by simp, rfl, ?_⟩
  rintro ⟨shown, sep, e, hs⟩
  obtain ⟨a, b, hab⟩ := hs _ List.mem_cons_self
  have hq : 'Q' ∈ shown := by rw [← hab]; simp
  have : 'Q' ∈ "Could not generate backtrace\n".toList ++ " <<\n\narax_assert(".toList ++ "x".toList ++ ") @ ".toList ++ "src/a.c".toList ++ ":".toList ++ Nat.toDigits 10 1 ++ "\n\n".toList := by
    have e' : _ = _ := e
    have : 'Q' ∈ shown ++ sep ++ "arax_assert(".toList ++ "x".toList ++ ") @ ".toList ++ "src/a.c".toList ++ ":".toList ++ Nat.toDigits 10 1 ++ "\n\n".toList := by
      simp only [List.append_assoc]; exact List.mem_append_left _ hq
    rw [← e'] at this
    exact this
  revert this
  decide +kernel

/-- **C96 fails (outside the tree).** An assertion in a file with a shorter name than the prefix of the tree reads outside the name. -/
theorem C96_violated_outside : assertMacro ("/home/u/arax/".toList ++ "src/utils/arax_assert.c".toList) ["main".toList] false "x".toList "main.c".toList 3 = .ub := by decide +kernel

/-- **C96 fails (objects).** The macro that all functions of the API use lets everything pass: null, addresses outside the segment, objects of another type. -/
theorem C96_violated_objects : (∀ self stack s p type, assertObjMacro self stack s p type = .goesOn) ∧
    ∃ (s : Seg) (p type : Nat), ¬ IsObject s p type ∧ assertObjMacro "src/utils/arax_assert.c".toList ["main".toList] s p type = .goesOn := by
  refine ⟨fun _ _ _ _ _ => rfl, ⟨4096, 65536, fun _ => 3⟩, 0, 3, fun h => h.1 rfl, rfl⟩

end Arax.Assert
