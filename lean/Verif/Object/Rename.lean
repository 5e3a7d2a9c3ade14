import Verif.Outcome
/-!
# C61: renaming objects (`arax_object_rename`, `/repo/src/core/arax_object.c:128-143`)

Names are strings without NUL. The allocation of the name is assumed to succeed. A `va_list` that has been handed to a `v…printf` function has an indeterminate value (C11 7.16p3): fetching an argument from it
is undefined behaviour.
-/
namespace Arax.Rename

/-- A piece of a format: a literal character, or a conversion (`%s`, `%d`, …) that consumes one argument. (Third argument of /repo/src/core/arax_object.c:128.) -/
inductive Piece
  | lit (c : Char)
  | conv

/-- A `va_list`: the arguments to come, or indeterminate. /repo/src/core/arax_object.c:130-141. -/
inductive VaList
  | args (l : List (List Char))
  | indeterminate

/-- The output of a `v…printf` call; an argument is represented by its printed form. Missing arguments are undefined behaviour. /repo/src/core/arax_object.c:134, 141. -/
def format : List Piece → VaList → Res (List Char)
  | [], _ => .ok []
  | .lit c :: r, a => (format r a).map (c :: ·)
  | .conv :: r, .args (x :: l) => (format r (.args l)).map (x ++ ·)
  | .conv :: _, _ => .ub

/-- The name of an object: contents and size of its memory block. `obj.name` (/repo/src/core/arax_object.h:40-48). -/
structure Name where
  str : List Char
  cap : Nat

/-- `arax_object_register` (/repo/src/core/arax_object.c:109-110). -/
def register (s : List Char) : Name := { str := s, cap := s.length + 1 }

/-- `arax_object_rename` (/repo/src/core/arax_object.c:128-143). `vsprintf` writing past the block is undefined behaviour. -/
def rename (n : Name) (fmt : List Piece) (args : List (List Char)) : Res Name := do
  let first ← format fmt (.args args)
  let newSize := first.length
  let oldSize := n.str.length
  let cap := if oldSize < newSize then newSize + 1 else n.cap
  let out ← format fmt .indeterminate
  if out.length + 1 ≤ cap then .ok { str := out, cap := cap } else .ub

/-! ### Specification -/

/-- What `printf` prints. -/
def printed (fmt : List Piece) (args : List (List Char)) : Res (List Char) := format fmt (.args args)

def noConv (fmt : List Piece) : Prop := ∀ p ∈ fmt, ∃ c, p = .lit c

/-- The text of a format without conversions. -/
def text : List Piece → List Char
  | [] => []
  | .lit c :: r => c :: text r
  | .conv :: r => text r

theorem format_noConv : ∀ (fmt : List Piece) (a : VaList), noConv fmt → format fmt a = .ok (text fmt)
  | [], _, _ => rfl
  | .lit c :: r, a, h => by
    rw [format, format_noConv r a (fun p hp => h p (List.mem_cons_of_mem _ hp))]
    rfl
  | .conv :: _, _, h => by obtain ⟨c, hc⟩ := h .conv List.mem_cons_self; cases hc

theorem format_indeterminate : ∀ (fmt : List Piece), ¬ noConv fmt → format fmt .indeterminate = .ub
  | [], h => absurd (by intro p hp; cases hp) h
  | .lit c :: r, h => by
    rw [format, format_indeterminate r (fun h' => h (by
      intro p hp
      rcases List.mem_cons.mp hp with rfl | hp
      · exact ⟨c, rfl⟩
      · exact h' p hp))]
    rfl
  | .conv :: _, _ => rfl

/-- A history of renames. -/
def renames : Name → List (List Piece × List (List Char)) → Res Name
  | n, [] => .ok n
  | n, (f, a) :: r => do
    let n' ← rename n f a
    renames n' r

theorem rename_noConv {n : Name} {fmt : List Piece} {args : List (List Char)} (h : noConv fmt) (hc : n.str.length < n.cap) :
    ∃ n', rename n fmt args = .ok n' ∧ n'.str = text fmt ∧ n'.str.length < n'.cap := by
  simp only [rename, format_noConv fmt _ h, Res.bind_ok]
  by_cases hs : n.str.length < (text fmt).length
  · rw [if_pos hs, if_pos (by omega)]
    exact ⟨_, rfl, rfl, by dsimp only; omega⟩
  · rw [if_neg hs, if_pos (by omega)]
    exact ⟨_, rfl, rfl, by dsimp only; omega⟩

/-- **C61** (partial) For every object and every history of renames with formats without conversions, of any lengths: no write leaves the memory of the name, and the name is the text of
the last format. Missing: formats with conversions, for which every call is undefined behaviour (`C61_violated`). -/
theorem C61_rename_partial (s : List Char) (h : List (List Piece × List (List Char))) (hn : ∀ c ∈ h, noConv c.1) :
    ∃ n, renames (register s) h = .ok n ∧ n.str = (match h.getLast? with | none => s | some c => text c.1) ∧ n.str.length < n.cap := by
  have key : ∀ (h : List (List Piece × List (List Char))) (n : Name), (∀ c ∈ h, noConv c.1) → n.str.length < n.cap →
      ∃ n', renames n h = .ok n' ∧ n'.str = (match h.getLast? with | none => n.str | some c => text c.1) ∧ n'.str.length < n'.cap := by
    intro h
    induction h with
    | nil => intro n _ hc; exact ⟨n, rfl, rfl, hc⟩
    | cons c r ih =>
      intro n hn hc
      obtain ⟨n1, e1, e2, e3⟩ := rename_noConv (args := c.2) (hn c List.mem_cons_self) hc
      obtain ⟨n2, e4, e5, e6⟩ := ih n1 (fun x hx => hn x (List.mem_cons_of_mem _ hx)) e3
      refine ⟨n2, by obtain ⟨f, a⟩ := c; simp only [renames, e1, Res.bind_ok, e4], ?_, e6⟩
      rw [e5]
      cases r with
      | nil => simpa using e2
      | cons d r =>
        rw [List.getLast?_cons_cons]
        cases hl : (d :: r).getLast? with
        | none => simp at hl
        | some x => rfl
  exact key h (register s) hn (by simp [register])

/-- **C61 is violated by the code** for every format with a conversion, whatever the object and the arguments - also when `printf` of the same arguments is fine: the argument list is used twice. With
`ARAX_DATA_ANNOTATE` every task with data does this (/repo/src/core/arax_task.c:39,45). -/
theorem C61_violated (n : Name) (fmt : List Piece) (args : List (List Char)) (h : ¬ noConv fmt) : rename n fmt args = .ub := by
  unfold rename
  cases hf : format fmt (.args args) with
  | abort =>
    have : ∀ (f : List Piece) (a : VaList), format f a ≠ .abort := by
      intro f
      induction f with
      | nil => intro a; simp [format]
      | cons p f ih =>
        intro a
        cases p with
        | lit c =>
          rw [format]
          cases hx : format f a with
          | ok y => simp [Res.map]
          | abort => exact absurd hx (ih a)
          | ub => simp [Res.map]
        | conv =>
          cases a with
          | indeterminate => simp [format]
          | args l =>
            cases l with
            | nil => simp [format]
            | cons x l =>
              rw [format]
              cases hx : format f (.args l) with
              | ok y => simp [Res.map]
              | abort => exact absurd hx (ih _)
              | ub => simp [Res.map]
    exact absurd hf (this fmt _)
  | ub => rfl
  | ok s => simp only [Res.bind_ok, format_indeterminate fmt h, Res.bind_ub]

/-- Non-vacuity of `C61_violated`: `"%s:in[%d]"` with two arguments prints fine but cannot be used to rename. -/
example : printed [.conv, .lit ':', .lit 'i', .lit 'n', .lit '[', .conv, .lit ']'] [['p'], ['0']] = .ok ['p', ':', 'i', 'n', '[', '0', ']'] ∧
    ¬ noConv [.conv, .lit ':', .lit 'i', .lit 'n', .lit '[', .conv, .lit ']'] := by
  refine ⟨by decide +kernel, ?_⟩
  intro h
  obtain ⟨c, hc⟩ := h .conv List.mem_cons_self
  cases hc

/-- Non-vacuity of `C61_rename_partial`: longer, then shorter, then longer again. -/
example : ∃ n, renames (register ['a']) [([.lit 'x', .lit 'y', .lit 'z'], []), ([.lit 'b'], []), ([.lit 'u', .lit 'v'], [])] = .ok n ∧ n.str = ['u', 'v'] ∧ n.cap = 3 :=
  ⟨_, rfl, rfl, rfl⟩

/-- A name that does not fit its memory is undefined behaviour in the model (it would be, if the block were one byte short). -/
example : rename { str := ['a', 'b', 'c'], cap := 3 } [.lit 'x', .lit 'y', .lit 'z'] [] = .ub := rfl

end Arax.Rename
