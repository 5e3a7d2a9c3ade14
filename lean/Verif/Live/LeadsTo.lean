import Verif.Live.Fair
/-!
# Progress with an environment (proof library, models nothing)

`Progress` of `Live/Fair.lean` needs every step to lower a measure. Here other steps may happen without end (new calls, for example), as long as they do not raise the
rank and do not change which thread is the helpful one, whose next step lowers the rank or reaches the goal.
-/
namespace Arax.Live

variable {σ L α : Type}

/-- A goal `Q` that every fair schedule reaches, by a rank in a well-founded order and a helpful thread per state. (No code of its own.) -/
structure LeadsTo (step : σ → L → σ) (ok : L → Prop) (cls : L → Nat) (N : Nat) (I Q : σ → Prop) (r : α → α → Prop) (rank : σ → α) (help : σ → Nat) : Prop where
  wf    : WellFounded r
  keeps : ∀ s l, ok l → I s → ¬ Q s → Q (step s l) ∨ I (step s l)
  help_lt : ∀ s, I s → ¬ Q s → help s < N
  other : ∀ s l, ok l → I s → ¬ Q s → Q (step s l) ∨ r (rank (step s l)) (rank s) ∨ (rank (step s l) = rank s ∧ help (step s l) = help s)
  helps : ∀ s l, ok l → I s → ¬ Q s → cls l = help s → Q (step s l) ∨ r (rank (step s l)) (rank s)

theorem LeadsTo.reaches {step : σ → L → σ} {ok : L → Prop} {cls : L → Nat} {N : Nat} {I Q : σ → Prop} {r : α → α → Prop} {rank : σ → α} {help : σ → Nat}
    (hl : LeadsTo step ok cls N I Q r rank help) (s : σ) (f : Nat → L) (hf : Fair ok cls N f) (hs : I s) : ∃ t, Q (run step s f t) := by
  have main : ∀ a : α, ∀ (s : σ) (f : Nat → L), rank s = a → Fair ok cls N f → I s → ∃ t, Q (run step s f t) := by
    intro a
    induction a using hl.wf.induction with
    | _ a ih =>
      intro s f ha hf hs
      by_cases hq : Q s
      · exact ⟨0, hq⟩
      obtain ⟨t', -, ht'⟩ := hf.2 (help s) (hl.help_lt s hs hq) 0
      have key : ∀ t, (∃ u, Q (run step s f u)) ∨ (∃ u, I (run step s f u) ∧ r (rank (run step s f u)) (rank s)) ∨
          (I (run step s f t) ∧ ¬ Q (run step s f t) ∧ rank (run step s f t) = rank s ∧ help (run step s f t) = help s) := by
        intro t
        induction t with
        | zero => exact Or.inr (Or.inr ⟨hs, hq, rfl, rfl⟩)
        | succ t iht =>
          rcases iht with h | h | ⟨hi, hnq, hr, hh⟩
          · exact Or.inl h
          · exact Or.inr (Or.inl h)
          · by_cases hq' : Q (run step s f (t + 1))
            · exact Or.inl ⟨_, hq'⟩
            have hi' : I (run step s f (t + 1)) := (hl.keeps _ _ (hf.1 t) hi hnq).resolve_left hq'
            rcases (hl.other _ _ (hf.1 t) hi hnq).resolve_left hq' with h | ⟨h1, h2⟩
            · exact Or.inr (Or.inl ⟨t + 1, hi', by show r (rank (step _ _)) _; rw [← hr]; exact h⟩)
            · exact Or.inr (Or.inr ⟨hi', hq', h1.trans hr, h2.trans hh⟩)
      have fin : (∃ u, Q (run step s f u)) ∨ ∃ u, I (run step s f u) ∧ r (rank (run step s f u)) (rank s) := by
        rcases key t' with h | h | ⟨hi, hnq, hr, hh⟩
        · exact Or.inl h
        · exact Or.inr h
        · by_cases hq' : Q (run step s f (t' + 1))
          · exact Or.inl ⟨_, hq'⟩
          have hi' : I (run step s f (t' + 1)) := (hl.keeps _ _ (hf.1 t') hi hnq).resolve_left hq'
          have := (hl.helps _ _ (hf.1 t') hi hnq (ht'.trans hh.symm)).resolve_left hq'
          exact Or.inr ⟨t' + 1, hi', by show r (rank (step _ _)) _; rw [← hr]; exact this⟩
      rcases fin with h | ⟨u, hi, hr⟩
      · exact h
      · obtain ⟨v, hv⟩ := ih _ (by rw [← ha]; exact hr) (run step s f u) (fun x => f (u + x)) rfl (fair_shift hf u) hi
        exact ⟨u + v, by rw [run_shift] at hv; exact hv⟩
  exact main (rank s) s f rfl hf hs

/-- What holds along every schedule of possible steps. -/
theorem run_keeps {step : σ → L → σ} {ok : L → Prop} {I : σ → Prop} (hk : ∀ s l, ok l → I s → I (step s l)) {s : σ} {f : Nat → L} (hf : ∀ t, ok (f t)) (hs : I s) :
    ∀ t, I (run step s f t)
  | 0 => hs
  | t + 1 => hk _ _ (hf t) (run_keeps hk hf hs t)

end Arax.Live
