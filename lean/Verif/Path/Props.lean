import Verif.Outcome
/-!
# C16: `utils_config_alloc_path`

Model, specification and theorems. Strings are lists of characters without NUL.
-/
namespace Arax.Path

/-- `size - home_len` in `size_t`. -/
def sub64 (a b : Nat) : Nat := if b ≤ a then a - b else a + 18446744073709551616 - b

/-- /repo/src/utils/config.c:103-125: the `do … while` loop. The path is scanned with its terminator: `[]` is the
final round on `'\0'`. `out` is what has been written to `temp[0 .. tp)`; the rest of `temp` is zero and
`size` is the counter of the code. `strncat` writes the home string and a NUL at `tp`, so it leaves the 4096 byte array
when `4096 ≤ out.length + home.length`. `home = none` is a NULL from `system_home_path` (system.c:21-30), whose
`strlen` is undefined. -/
def loop (home : Option (List Char)) : List Char → List Char → Nat → Res (Option (List Char))
  | [], out, size => if size = 0 then .ok none else .ok (some out)
  | c :: path, out, size =>
    if size = 0 then .ok none
    else if c = '~' then
      match home with
      | none => .ub
      | some h =>
        if 4096 < sub64 size h.length then .abort
        else if 4096 ≤ out.length + h.length then .ub
        else loop home path (out ++ h) (sub64 size h.length)
    else if 4096 ≤ out.length then .ub
    else loop home path (out ++ [c]) (size - 1)

/-- /repo/src/utils/config.c:94-126 `utils_config_alloc_path`; argument `none` = NULL, result `none` = NULL. -/
def allocPath (home : Option (List Char)) (path : Option (List Char)) : Res (Option (List Char)) :=
  match path with
  | none => .ok none
  | some p => loop home p [] 4096

/-- Specification: every `~` replaced by the home directory. -/
def expand (h : List Char) (p : List Char) : List Char := p.flatMap (fun c => if c = '~' then h else [c])

theorem expand_cons (h : List Char) (c : Char) (p : List Char) :
    expand h (c :: p) = (if c = '~' then h else [c]) ++ expand h p := by simp [expand]

theorem loop_spec (h : List Char) (hh : h.length < 9223372036854775808) (p : List Char) : ∀ (out : List Char) (size : Nat),
    out.length + size = 4096 →
    (out.length + (expand h p).length ≤ 4095 → loop (some h) p out size = .ok (some (out ++ expand h p))) ∧
    (4096 ≤ out.length + (expand h p).length →
      loop (some h) p out size = .ok none ∨ loop (some h) p out size = .abort ∨
      (∃ pre post, p = pre ++ '~' :: post ∧ out.length + (expand h (pre ++ ['~'])).length = 4096)) := by
  induction p with
  | nil =>
    intro out size hs
    refine ⟨fun hl => ?_, fun hl => Or.inl ?_⟩
    · simp only [expand, List.flatMap_nil, List.length_nil] at hl
      simp only [loop]; rw [if_neg (by omega)]; simp [expand]
    · simp only [expand, List.flatMap_nil, List.length_nil] at hl
      simp only [loop]; rw [if_pos (by omega)]
  | cons c p ih =>
    intro out size hs
    rw [expand_cons]
    by_cases hz : size = 0
    · refine ⟨fun hl => by omega, fun _ => Or.inl ?_⟩
      simp [loop, hz]
    · by_cases hc : c = '~'
      · subst hc
        simp only [loop, if_neg hz, if_true, List.length_append]
        by_cases hgt : size < h.length
        · refine ⟨fun hl => by omega, fun _ => Or.inr (Or.inl ?_)⟩
          rw [if_pos]
          unfold sub64; rw [if_neg (by omega)]; omega
        · have hsub : sub64 size h.length = size - h.length := by unfold sub64; rw [if_pos (by omega)]
          rw [hsub, if_neg (by omega)]
          by_cases heq : size = h.length
          · refine ⟨fun hl => by omega, fun _ => Or.inr (Or.inr ⟨[], p, rfl, ?_⟩)⟩
            simp [expand]; omega
          · rw [if_neg (by omega)]
            have := ih (out ++ h) (size - h.length) (by rw [List.length_append]; omega)
            rw [List.length_append] at this
            refine ⟨fun hl => ?_, fun hl => ?_⟩
            · rw [this.1 (by omega)]; simp
            · rcases this.2 (by omega) with e | e | ⟨pre, post, e1, e2⟩
              · exact Or.inl e
              · exact Or.inr (Or.inl e)
              · refine Or.inr (Or.inr ⟨'~' :: pre, post, by rw [e1]; rfl, ?_⟩)
                rw [List.cons_append, expand_cons, List.length_append]; simp; omega
      · simp only [loop, if_neg hz, if_neg hc, List.length_append, List.length_singleton]
        rw [if_neg (by omega)]
        have := ih (out ++ [c]) (size - 1) (by simp; omega)
        simp only [List.length_append, List.length_singleton] at this
        refine ⟨fun hl => ?_, fun hl => ?_⟩
        · rw [this.1 (by omega)]; simp
        · rcases this.2 (by omega) with e | e | ⟨pre, post, e1, e2⟩
          · exact Or.inl e
          · exact Or.inr (Or.inl e)
          · refine Or.inr (Or.inr ⟨c :: pre, post, by rw [e1]; rfl, ?_⟩)
            rw [List.cons_append, expand_cons, if_neg hc, List.length_append]; simp; omega

/-- **C16, results that fit**: for every path and home directory whose expansion has at most 4095 characters, the
result is exactly the expansion. -/
theorem C16_expands (h p : List Char) (hh : h.length < 9223372036854775808) (hf : (expand h p).length ≤ 4095) :
    allocPath (some h) (some p) = .ok (some (expand h p)) := by
  have := (loop_spec h hh p [] 4096 rfl).1 (by simpa using hf)
  simpa [allocPath] using this

/-- **C16 (partial), results that do not fit**: NULL or abort, without a write outside the buffer, provided no `~`
ends its expansion exactly at offset 4096. Missing: that single offset, where the property is false (`C16_violated`). -/
theorem C16_too_long_partial (h p : List Char) (hh : h.length < 9223372036854775808) (hf : 4096 ≤ (expand h p).length)
    (hx : ∀ pre post, p = pre ++ '~' :: post → (expand h (pre ++ ['~'])).length ≠ 4096) :
    allocPath (some h) (some p) = .ok none ∨ allocPath (some h) (some p) = .abort := by
  rcases (loop_spec h hh p [] 4096 rfl).2 (by simpa using hf) with e | e | ⟨pre, post, e1, e2⟩
  · exact Or.inl e
  · exact Or.inr e
  · exact absurd (by simpa using e2) (hx pre post e1)

theorem loop_plain (h : Option (List Char)) (p q : List Char) (hp : ∀ c ∈ p, c ≠ '~') : ∀ out size,
    out.length + size = 4096 → p.length < size →
    loop h (p ++ q) out size = loop h q (out ++ p) (size - p.length) := by
  induction p with
  | nil => intro out size _ _; simp
  | cons c p ih =>
    intro out size hs hl
    simp only [List.length_cons] at hl
    simp only [List.cons_append, loop]
    rw [if_neg (by omega), if_neg (hp c (by simp)), if_neg (by omega)]
    rw [ih (fun x hx => hp x (by simp [hx])) (out ++ [c]) (size - 1) (by simp; omega) (by omega)]
    simp only [List.append_assoc, List.cons_append, List.nil_append, List.length_cons]
    congr 1; omega

/-- **C16 is violated** at the exact fit: for every home directory of 1 to 4096 characters there is a path for which
the terminating NUL of the expanded home directory is written one byte past the end of the buffer. -/
theorem C16_violated (h : List Char) (h1 : 0 < h.length) (h2 : h.length ≤ 4096) (pre post : List Char)
    (hp : ∀ c ∈ pre, c ≠ '~') (hl : pre.length + h.length = 4096) :
    allocPath (some h) (some (pre ++ '~' :: post)) = .ub := by
  unfold allocPath
  simp only
  rw [loop_plain (some h) pre ('~' :: post) hp [] 4096 rfl (by omega)]
  simp only [loop, List.nil_append]
  rw [if_neg (by omega), if_pos trivial, if_neg (by unfold sub64; rw [if_pos (by omega)]; omega), if_pos (by omega)]

/-- Witness: the home directory `/root` and 4091 characters before the `~`. -/
example : allocPath (some "/root".toList) (some (List.replicate 4091 'a' ++ "~".toList)) = .ub :=
  C16_violated "/root".toList (by decide) (by decide) (List.replicate 4091 'a') []
    (by intro c hc; rw [List.eq_of_mem_replicate hc]; decide) (by rw [List.length_replicate]; rfl)

/-- C16: NULL in, NULL out. -/
theorem C16_null (home : Option (List Char)) : allocPath home none = .ok none := rfl

/-- Non-vacuity. -/
example : allocPath (some "/home/u".toList) (some "~/.arax".toList) = .ok (some "/home/u/.arax".toList) := by decide +kernel

example : (∀ pre post, List.replicate 5000 'a' = pre ++ '~' :: post → (expand [] (pre ++ ['~'])).length ≠ 4096) ∧
    4096 ≤ (expand [] (List.replicate 5000 'a')).length := by
  constructor
  · intro pre post e
    have : '~' ∈ List.replicate 5000 'a' := by rw [e]; simp
    exact absurd (List.eq_of_mem_replicate this) (by decide)
  · have : expand [] (List.replicate 5000 'a') = List.replicate 5000 'a' := by
      have key : ∀ n, expand [] (List.replicate n 'a') = List.replicate n 'a' := by
        intro n; induction n with
        | zero => rfl
        | succ n ih => rw [List.replicate_succ, expand_cons, ih]; rfl
      exact key 5000
    rw [this, List.length_replicate]; decide

end Arax.Path
