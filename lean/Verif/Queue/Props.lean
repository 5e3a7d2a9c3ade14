import Verif.Queue.Model
/-!
# C07: the task queue is a bounded FIFO
-/
namespace Arax.Queue

/-- The specification: a list, oldest item first, holding at most `cap` items. -/
def specStep (cap : Nat) (l : List Nat) : Op → Res (List Nat × Nat)
  | .push d => if d = 0 then .abort else if l.length = cap then .ok (l, 0) else .ok (l ++ [d], d)
  | .pop => match l with
    | [] => .ok ([], 0)
    | x :: xs => .ok (xs, x)
  | .peek => match l with
    | [] => .ok ([], 0)
    | x :: xs => .ok (x :: xs, x)
  | .used => .ok (l, l.length)

/-- The outputs of a sequence of calls on the bounded FIFO. -/
def specRun (cap : Nat) (l : List Nat) : List Op → Res (List Nat)
  | [] => .ok []
  | o :: os => do
    let (l', r) ← specStep cap l o
    let rs ← specRun cap l' os
    pure (r :: rs)

/-- Representation invariant: the items are in the ring slots from `top` on. -/
structure Rel (cap : Nat) (q : Q) (l : List Nat) : Prop where
  top : q.top < 65536
  bot : q.bottom = (q.top + l.length) % 65536
  len : l.length ≤ cap
  item : ∀ j (h : j < l.length), q.entries ((q.top + j) % cap) = l[j]

theorem mod_mod_cap (k x : Nat) (hk : k ≤ 15) : x % 65536 % 2 ^ k = x % 2 ^ k := by
  have : (65536 : Nat) = 2 ^ k * 2 ^ (16 - k) := by
    rw [← Nat.pow_add, show k + (16 - k) = 16 by omega]
  rw [this, Nat.mod_mul_right_mod]

theorem pow_le (k : Nat) (hk : k ≤ 15) : 2 ^ k ≤ 32768 := by
  have := Nat.pow_le_pow_right (show 0 < 2 by decide) hk
  simpa using this

theorem diff16_eq (top n : Nat) (ht : top < 65536) (hn : n < 65536) : diff16 ((top + n) % 65536) top = n := by
  unfold diff16; dsimp only; split <;> omega

/-- Distinct positions less than `c` apart have distinct slots. -/
theorem slot_ne (c x y : Nat) (h1 : x < y) (h2 : y < x + c) : x % c ≠ y % c := by
  intro he
  have hd : (y - x) % c = 0 := by
    have := Nat.sub_mod_eq_zero_of_mod_eq (m := y) (n := x) (k := c) he.symm
    exact this
  rw [Nat.mod_eq_of_lt (by omega)] at hd
  omega

theorem step_refines (k : Nat) (hk : k ≤ 15) (q : Q) (l : List Nat) (h : Rel (2 ^ k) q l) (o : Op) :
    (step (2 ^ k) q o = .abort ∧ specStep (2 ^ k) l o = .abort) ∨
    ∃ q' l' r, step (2 ^ k) q o = .ok (q', r) ∧ specStep (2 ^ k) l o = .ok (l', r) ∧ Rel (2 ^ k) q' l' := by
  have hc := pow_le k hk
  have hpos : 0 < 2 ^ k := Nat.two_pow_pos k
  obtain ⟨ht, hb, hl, hi⟩ := h
  have hempty : (q.bottom = q.top) ↔ l = [] := by
    rw [hb, ← List.length_eq_zero_iff]; omega
  have hmask : ∀ x, x &&& (2 ^ k - 1) = x % 2 ^ k := fun x => Nat.and_two_pow_sub_one_eq_mod x k
  cases o with
  | push d =>
    simp only [step, specStep, push]
    by_cases hd : d = 0
    · left; simp [hd]
    · right
      rw [if_neg hd, if_neg hd, hb, diff16_eq _ _ ht (by omega)]
      by_cases hfull : l.length = 2 ^ k
      · rw [if_pos hfull, if_pos hfull]
        exact ⟨_, _, _, rfl, rfl, ht, hb, hl, hi⟩
      · rw [if_neg hfull, if_neg hfull]
        refine ⟨_, _, _, rfl, rfl, ht, ?_, ?_, ?_⟩
        · simp only [List.length_append, List.length_singleton]; omega
        · simp only [List.length_append, List.length_singleton]; omega
        · intro j hj
          simp only [List.length_append, List.length_singleton] at hj
          simp only [hmask, mod_mod_cap _ _ hk]
          by_cases hjl : j < l.length
          · rw [if_neg (slot_ne _ _ _ (by omega) (by omega)), List.getElem_append_left hjl]
            exact hi j hjl
          · have : j = l.length := by omega
            subst this
            rw [if_pos rfl]; simp
  | pop =>
    right
    simp only [step, specStep, pop]
    cases l with
    | nil => rw [if_pos (hempty.mpr rfl)]; exact ⟨_, _, _, rfl, rfl, ht, hb, hl, hi⟩
    | cons x xs =>
      rw [if_neg (fun h => by simpa using hempty.mp h)]
      refine ⟨_, xs, _, rfl, ?_, ?_, ?_, ?_, ?_⟩
      · have := hi 0 (by simp)
        simp only [Nat.add_zero, List.getElem_cons_zero] at this
        simp only [hmask, this]
      · dsimp only; omega
      · dsimp only; rw [hb]; simp only [List.length_cons]; omega
      · simp only [List.length_cons] at hl; omega
      · intro j hj
        have := hi (j + 1) (by simpa using hj)
        simp only [List.getElem_cons_succ] at this
        rw [← this]
        dsimp only
        have e : ((q.top + 1) % 65536 + j) % 2 ^ k = (q.top + (j + 1)) % 2 ^ k := by
          rw [Nat.add_mod, mod_mod_cap _ _ hk, ← Nat.add_mod]; congr 1; omega
        rw [e]
  | peek =>
    right
    simp only [step, specStep, peek]
    cases l with
    | nil => rw [if_pos (hempty.mpr rfl)]; exact ⟨_, _, _, rfl, rfl, ht, hb, hl, hi⟩
    | cons x xs =>
      rw [if_neg (fun h => by simpa using hempty.mp h)]
      have := hi 0 (by simp)
      simp only [Nat.add_zero, List.getElem_cons_zero] at this
      simp only [hmask, this]
      exact ⟨_, _, _, rfl, rfl, ht, hb, hl, hi⟩
  | used =>
    right
    simp only [step, specStep, usedSlots]
    rw [hb, diff16_eq _ _ ht (by omega)]
    exact ⟨_, _, _, rfl, rfl, ht, hb, hl, hi⟩

theorem run_refines (k : Nat) (hk : k ≤ 15) (ops : List Op) : ∀ (q : Q) (l : List Nat), Rel (2 ^ k) q l →
    run (2 ^ k) q ops = specRun (2 ^ k) l ops := by
  induction ops with
  | nil => intro q l _; rfl
  | cons o os ih =>
    intro q l h
    rcases step_refines k hk q l h o with ⟨h1, h2⟩ | ⟨q', l', r, h1, h2, h3⟩
    · simp [run, specRun, h1, h2]
    · simp [run, specRun, h1, h2, ih q' l' h3]

/-- **C07** For every power-of-two capacity up to 32768 and every sequence of calls on a freshly
initialised queue, the returned values are exactly those of a FIFO list bounded by the capacity (and a
push of NULL aborts in both) — the cursors wrap around any number of times.
(Missing: capacity 65536, which the build option also allows and for which the claim is false.) -/
theorem C07_bounded_fifo_partial (k : Nat) (hk : k ≤ 15) (ops : List Op) :
    ∃ q, init (2 ^ k) = .ok q ∧ run (2 ^ k) q ops = specRun (2 ^ k) [] ops := by
  refine ⟨{ entries := fun _ => 0, bottom := 0, top := 0 }, ?_, ?_⟩
  · unfold init
    rw [if_neg]
    simp [Nat.and_two_pow_sub_one_eq_mod]
  · exact run_refines k hk ops _ _ ⟨by simp, by simp, by simp, by intro j h; simp at h⟩

/-- The default capacity (256, Options.cmake:45) is covered. -/
theorem C07_default_capacity (ops : List Op) :
    ∃ q, init 256 = .ok q ∧ run 256 q ops = specRun 256 [] ops :=
  C07_bounded_fifo_partial 8 (by decide) ops

theorem init_accepts (k : Nat) : init (2 ^ k) = .ok { entries := fun _ => 0, bottom := 0, top := 0 } := by
  unfold init
  rw [if_neg]
  simp [Nat.and_two_pow_sub_one_eq_mod]

/-- State after `n` pushes with capacity 65536. -/
def pushN (cap : Nat) : Nat → Q → Q
  | 0, q => q
  | n + 1, q => match push cap (pushN cap n q) 1 with
    | .ok (q', _) => q'
    | _ => q

theorem pushN_cursors (q0 : Q) (h1 : q0.bottom = 0) (h2 : q0.top = 0) (n : Nat) :
    (pushN 65536 n q0).bottom = n % 65536 ∧ (pushN 65536 n q0).top = 0 ∧
    ∃ q', push 65536 (pushN 65536 n q0) 1 = .ok (q', 1) := by
  have aux : ∀ m (q : Q), q.bottom = m % 65536 → q.top = 0 → ∃ q', push 65536 q 1 = .ok (q', 1) ∧
      q'.bottom = (m + 1) % 65536 ∧ q'.top = 0 := by
    intro m q hb ht
    unfold push
    rw [if_neg (by decide)]
    dsimp only
    have hne : diff16 q.bottom q.top ≠ 65536 := by
      rw [hb, ht]; unfold diff16; dsimp only; split <;> omega
    rw [if_neg hne]
    exact ⟨_, rfl, by dsimp only; rw [hb]; omega, ht⟩
  induction n with
  | zero =>
    obtain ⟨q', h, -⟩ := aux 0 q0 (by simpa using h1) h2
    exact ⟨by simpa [pushN] using h1, by simpa [pushN] using h2, q', by simpa [pushN] using h⟩
  | succ n ih =>
    obtain ⟨hb, ht, -⟩ := ih
    obtain ⟨q', h, h3, h4⟩ := aux n _ hb ht
    have e : pushN 65536 (n + 1) q0 = q' := by
      show (match push 65536 (pushN 65536 n q0) 1 with | .ok (q', _) => q' | _ => q0) = q'
      rw [h]
    rw [e]
    obtain ⟨q'', h5, -⟩ := aux (n + 1) q' h3 h4
    exact ⟨h3, h4, q'', h5⟩

/-- **C07 is violated for capacity 65536** (allowed by the option's documentation): every push is
accepted, and after `n = 65536` pushes (or any multiple) the queue reports 0 used slots and pop returns
NULL: all tasks are lost. -/
theorem C07_violated_capacity_65536 : ∃ q0, init 65536 = .ok q0 ∧
    (∀ n, ∃ q', push 65536 (pushN 65536 n q0) 1 = .ok (q', 1)) ∧
    ∀ n, n % 65536 = 0 → usedSlots (pushN 65536 n q0) = 0 ∧ (pop 65536 (pushN 65536 n q0)).2 = 0 := by
  refine ⟨_, init_accepts 16, fun n => (pushN_cursors _ rfl rfl n).2.2, ?_⟩
  intro n hn
  have h := pushN_cursors { entries := fun _ => 0, bottom := 0, top := 0 } rfl rfl n
  generalize pushN 65536 n { entries := fun _ => 0, bottom := 0, top := 0 } = q at h
  obtain ⟨h1, h2, -⟩ := h
  rw [hn] at h1
  constructor
  · unfold usedSlots; rw [h1, h2]; rfl
  · unfold pop; rw [h1, h2]; rfl

/-- Non-vacuity: a run on capacity 2 that fills, overflows, drains and reports. -/
example : ∃ q, init 2 = .ok q ∧
    run 2 q [.push 7, .push 8, .push 9, .used, .peek, .pop, .push 9, .pop, .pop, .pop] =
      .ok [7, 8, 0, 2, 7, 7, 9, 8, 9, 0] := by
  obtain ⟨q, h1, h2⟩ := C07_bounded_fifo_partial 1 (by decide)
    [.push 7, .push 8, .push 9, .used, .peek, .pop, .push 9, .pop, .pop, .pop]
  exact ⟨q, h1, h2⟩

end Arax.Queue
