import Verif.Outcome
/-!
# Fair schedules and progress measures (proof library, models nothing)

A transition function `step`, labels with `ok` (possible labels) and `cls` (which of the `N` threads a label belongs to). If every step either changes
nothing or lowers a measure, then under every fair schedule the system comes to rest: from some moment on no step of any thread changes anything.
-/
namespace Arax.Live

variable {σ L : Type}

/-- The state after the first `t` steps of the infinite schedule `f`. -/
def run (step : σ → L → σ) (s : σ) (f : Nat → L) : Nat → σ
  | 0 => s
  | t + 1 => step (run step s f t) (f t)

/-- Every scheduled label is possible, and each of the `N` threads is scheduled again and again. -/
def Fair (ok : L → Prop) (cls : L → Nat) (N : Nat) (f : Nat → L) : Prop :=
  (∀ t, ok (f t)) ∧ ∀ c, c < N → ∀ t, ∃ t', t ≤ t' ∧ cls (f t') = c

/-- What makes a system come to rest. -/
structure Progress (step : σ → L → σ) (ok : L → Prop) (cls : L → Nat) (N : Nat) (I : σ → Prop) (phi : σ → Nat) : Prop where
  cls_lt : ∀ l, ok l → cls l < N
  keeps  : ∀ s l, ok l → I s → I (step s l)
  lower  : ∀ s l, ok l → I s → step s l = s ∨ phi (step s l) < phi s
  same   : ∀ s l l', ok l → ok l' → cls l = cls l' → I s → step s l ≠ s → step s l' ≠ s

theorem run_shift (step : σ → L → σ) (s : σ) (f : Nat → L) (a : Nat) : ∀ b, run step (run step s f a) (fun x => f (a + x)) b = run step s f (a + b)
  | 0 => rfl
  | b + 1 => by
    show step (run step (run step s f a) (fun x => f (a + x)) b) (f (a + b)) = _
    rw [run_shift step s f a b]; rfl

theorem fair_shift {ok : L → Prop} {cls : L → Nat} {N : Nat} {f : Nat → L} (hf : Fair ok cls N f) (a : Nat) : Fair ok cls N (fun x => f (a + x)) := by
  refine ⟨fun t => hf.1 _, fun c hc t => ?_⟩
  obtain ⟨t', h1, h2⟩ := hf.2 c hc (a + t)
  exact ⟨t' - a, by omega, by show cls (f (a + (t' - a))) = c; rw [show a + (t' - a) = t' by omega, h2]⟩

section
variable {step : σ → L → σ} {ok : L → Prop} {cls : L → Nat} {N : Nat} {I : σ → Prop} {phi : σ → Nat}

theorem run_inv (hp : Progress step ok cls N I phi) {f : Nat → L} (hf : ∀ t, ok (f t)) {s : σ} (hs : I s) : ∀ t, I (run step s f t)
  | 0 => hs
  | t + 1 => hp.keeps _ _ (hf t) (run_inv hp hf hs t)

/-- As long as nothing changes, the state is the first one. -/
theorem changes_by (hp : Progress step ok cls N I phi) {f : Nat → L} (hf : Fair ok cls N f) {s : σ} (hs : I s) {l : L} (hl : ok l) (hm : step s l ≠ s) :
    ∃ t, phi (run step s f t) < phi s := by
  obtain ⟨t', -, ht'⟩ := hf.2 (cls l) (hp.cls_lt l hl) 0
  have key : ∀ t, (∃ u, phi (run step s f u) < phi s) ∨ run step s f t = s := by
    intro t
    induction t with
    | zero => exact Or.inr rfl
    | succ t ih =>
      rcases ih with h | h
      · exact Or.inl h
      · rcases hp.lower s (f t) (hf.1 t) hs with h' | h'
        · exact Or.inr (by show step (run step s f t) (f t) = s; rw [h, h'])
        · exact Or.inl ⟨t + 1, by show phi (step (run step s f t) (f t)) < _; rw [h]; exact h'⟩
  rcases key t' with h | h
  · exact h
  · rcases hp.lower s (f t') (hf.1 t') hs with h' | h'
    · exact absurd h' (hp.same s l (f t') hl (hf.1 t') ht'.symm hs hm)
    · exact ⟨t' + 1, by show phi (step (run step s f t') (f t')) < _; rw [h]; exact h'⟩

/-- The system comes to rest. -/
theorem comes_to_rest (hp : Progress step ok cls N I phi) : ∀ (m : Nat) (f : Nat → L) (s : σ), phi s ≤ m → Fair ok cls N f → I s →
    ∃ t0, (∀ l, ok l → step (run step s f t0) l = run step s f t0) ∧ ∀ t, t0 ≤ t → run step s f t = run step s f t0 := by
  intro m
  induction m with
  | zero =>
    intro f s hm hf hs
    have hrest : ∀ l, ok l → step s l = s := by
      intro l hl
      rcases hp.lower s l hl hs with h | h
      · exact h
      · omega
    refine ⟨0, hrest, fun t _ => ?_⟩
    induction t with
    | zero => rfl
    | succ t ih => show step (run step s f t) (f t) = s; rw [ih (Nat.zero_le _)]; exact hrest _ (hf.1 t)
  | succ m ih =>
    intro f s hm hf hs
    by_cases hr : ∀ l, ok l → step s l = s
    · refine ⟨0, hr, fun t _ => ?_⟩
      induction t with
      | zero => rfl
      | succ t ih => show step (run step s f t) (f t) = s; rw [ih (Nat.zero_le _)]; exact hr _ (hf.1 t)
    · have : ∃ l, ok l ∧ step s l ≠ s := by
        apply Classical.byContradiction
        intro hn
        exact hr fun l hl => Classical.byContradiction fun h => hn ⟨l, hl, h⟩
      obtain ⟨l, hl, hne⟩ := this
      obtain ⟨t, ht⟩ := changes_by hp hf hs hl hne
      obtain ⟨t0, h1, h2⟩ := ih (fun x => f (t + x)) (run step s f t) (by omega) (fair_shift hf t) (run_inv hp hf.1 hs t)
      rw [run_shift] at h1 h2
      refine ⟨t + t0, h1, fun u hu => ?_⟩
      have := h2 (u - t) (by omega)
      rw [run_shift, show t + (u - t) = u by omega] at this
      exact this

end

/-! ### Sums over an initial segment -/

def sum (f : Nat → Nat) : Nat → Nat
  | 0 => 0
  | n + 1 => sum f n + f n

theorem sum_congr {f g : Nat → Nat} : ∀ {n}, (∀ i, i < n → f i = g i) → sum f n = sum g n
  | 0, _ => rfl
  | n + 1, h => by simp only [sum]; rw [sum_congr (fun i hi => h i (by omega)), h n (by omega)]

/-- Two summands that differ in one place. -/
theorem sum_at {f g : Nat → Nat} (i : Nat) : ∀ {n}, i < n → (∀ j, j ≠ i → f j = g j) → sum f n + g i = sum g n + f i
  | 0, h, _ => by omega
  | n + 1, h, he => by
    simp only [sum]
    by_cases e : n = i
    · subst e
      have := sum_congr (n := n) (f := f) (g := g) (fun j hj => he j (by omega))
      omega
    · have := sum_at (n := n) i (by omega) he
      have := he n e
      omega

theorem sum_pos {f : Nat → Nat} : ∀ {n}, 1 ≤ sum f n → ∃ i, i < n ∧ 1 ≤ f i
  | 0, h => by simp [sum] at h
  | n + 1, h => by
    simp only [sum] at h
    by_cases e : 1 ≤ f n
    · exact ⟨n, by omega, e⟩
    · obtain ⟨i, hi, h'⟩ := sum_pos (f := f) (n := n) (by omega)
      exact ⟨i, by omega, h'⟩

theorem sum_ge {f : Nat → Nat} : ∀ {n} (i : Nat), i < n → f i ≤ sum f n
  | 0, i, h => by omega
  | n + 1, i, h => by
    simp only [sum]
    by_cases e : i = n
    · subst e; omega
    · have := sum_ge (f := f) (n := n) i (by omega); omega

theorem sum_zero {f : Nat → Nat} : ∀ {n}, (∀ i, i < n → f i = 0) → sum f n = 0
  | 0, _ => rfl
  | n + 1, h => by simp only [sum]; rw [sum_zero (fun i hi => h i (by omega)), h n (by omega)]

end Arax.Live
