import Verif.Throttle.Props
/-!
# C19 with the spin back-end: one decrementing thread

With two waiting threads the property is false (`C19_violated_spin`). It holds when a single thread decrements the throttle (one allocating client).
-/
namespace Arax.Throttle

/-- Only thread `w` calls `arax_throttle_size_dec`. -/
def OneDecrementer (w : Nat) (sched : List (Nat × Cmd)) : Prop := ∀ i sz, (i, Cmd.call (.dec sz)) ∈ sched → i = w

/-- Inside `arax_throttle_size_dec`. -/
def Pc.inDec : Pc → Bool
  | .lock (.dec _) | .test _ | .sleep _ | .rel _ | .semRd _ | .semCas _ _ | .relock _ | .read (.dec _) | .store (.dec _) _ | .check (.dec _)
  | .notify (.dec _) | .unl1 (.dec _) | .unl2 (.dec _) => true
  | _ => false

structure Inv3 (w : Nat) (s : St) : Prop where
  only  : ∀ i, (s.pc i).inDec = true → i = w
  relLt : ∀ sz, s.pc w = .rel sz → s.avail < sz
  casLe : ∀ sz v, s.pc w = .semCas sz v → 1 ≤ v ∧ v ≤ s.sem
  store : ∀ sz, (s.pc w = .semRd sz ∨ ∃ v, s.pc w = .semCas sz v) → sz ≤ s.avail →
    1 ≤ s.sem ∨ ∃ j n, s.pc j = .check (.inc n) ∨ s.pc j = .notify (.inc n)
  noSl  : ∀ i sz, s.pc i ≠ .sleep sz

/-- A step of `i` that touches neither the available size nor lowers the semaphore. -/
theorem inv3_goto (w : Nat) (s s' : St) (i : Nat) (p : Pc) (h : Inv3 w s) (e : s'.pc = (s.goto i p).pc) (ha : s'.avail = s.avail) (hs : s.sem ≤ s'.sem)
    (h1 : p.inDec = true → i = w) (h2 : ∀ sz, p = .rel sz → s.avail < sz) (h3 : ∀ sz v, p = .semCas sz v → 1 ≤ v ∧ v ≤ s'.sem)
    (h4 : ∀ sz, p = .semRd sz → (∃ v, s.pc i = .semCas sz v) ∨ s.pc i = .rel sz)
    (h5 : ∀ sz, p ≠ .sleep sz) (h6 : ∀ n, (s.pc i = .check (.inc n) → p = .notify (.inc n)) ∧ (s.pc i = .notify (.inc n) → 1 ≤ s'.sem)) : Inv3 w s' := by
  have pcj : ∀ j, s'.pc j = if j = i then p else s.pc j := fun j => by rw [e]; rfl
  obtain ⟨a1, a2, a3, a4, a5⟩ := h
  refine ⟨?_, ?_, ?_, ?_, ?_⟩
  · intro j hj; rw [pcj] at hj; split at hj
    · rename_i e'; rw [e']; exact h1 hj
    · exact a1 j hj
  · intro sz hj; rw [pcj] at hj; rw [ha]; split at hj
    · exact h2 sz hj
    · exact a2 sz hj
  · intro sz v hj; rw [pcj] at hj; split at hj
    · exact h3 sz v hj
    · have := a3 sz v hj; omega
  · intro sz hj hle
    rw [ha] at hle
    by_cases hcas : w = i ∧ ∃ v, p = .semCas sz v
    · obtain ⟨-, v, hv⟩ := hcas
      have := h3 sz v hv
      exact Or.inl (by omega)
    have old : 1 ≤ s.sem ∨ ∃ j n, s.pc j = .check (.inc n) ∨ s.pc j = .notify (.inc n) := by
      by_cases hw : w = i
      · subst hw
        rw [pcj, if_pos rfl] at hj
        rcases hj with hj | hj
        · rcases h4 sz hj with ⟨v, h'⟩ | h'
          · exact a4 sz (Or.inr ⟨v, h'⟩) hle
          · have := a2 sz h'; omega
        · exact absurd ⟨rfl, hj⟩ hcas
      · rw [pcj, if_neg hw] at hj
        exact a4 sz hj hle
    rcases old with h' | ⟨j, n, hj'⟩
    · left; omega
    · by_cases hji : j = i
      · subst hji
        rcases hj' with hj' | hj'
        · exact Or.inr ⟨j, n, Or.inr (by rw [pcj, if_pos rfl]; exact (h6 n).1 hj')⟩
        · exact Or.inl ((h6 n).2 hj')
      · exact Or.inr ⟨j, n, by rw [pcj, if_neg hji]; exact hj'⟩
  · intro j sz hj; rw [pcj] at hj; split at hj
    · exact h5 sz hj
    · exact a5 j sz hj

theorem inv3_step (cf : Conf) (a w : Nat) (s : St) (o : Option Nat) (i : Nat) (cmd : Cmd) (hsp : cf.backend = .spin)
    (hc : ∀ sz, cmd = .call (.dec sz) → i = w) (hinv : Inv a s o) (h : Inv3 w s) : Inv3 w (step cf s i cmd) := by
  have only := h.only
  unfold step
  split
  · exact h
  split
  · -- idle, call
    rename_i c hp
    split
    · exact ⟨h.only, h.relLt, h.casLe, h.store, h.noSl⟩
    · refine inv3_goto w s _ i (.lock c) h rfl rfl (Nat.le_refl _) ?_ (by simp) (by simp) (by simp) (by simp) (by simp [hp])
      cases c with
      | inc n => simp [Pc.inDec]
      | dec n => intro _; exact hc n rfl
  · exact h
  · rename_i c hp
    split
    · exact h
    · cases c with
      | inc n => exact inv3_goto w s _ i (.read (.inc n)) h rfl rfl (Nat.le_refl _) (by simp [Pc.inDec]) (by simp) (by simp) (by simp) (by simp) (by simp [hp])
      | dec n =>
        have hw := only i (by rw [hp]; rfl)
        simp only
        split
        · exact inv3_goto w s _ i (.test n) h rfl rfl (Nat.le_refl _) (fun _ => hw) (by simp) (by simp) (by simp) (by simp) (by simp [hp])
        · exact inv3_goto w s _ i (.read (.dec n)) h rfl rfl (Nat.le_refl _) (fun _ => hw) (by simp) (by simp) (by simp) (by simp) (by simp [hp])
  · rename_i sz hp
    have hw := only i (by rw [hp]; rfl)
    split
    · rename_i hlt
      rw [hsp]
      exact inv3_goto w s _ i (.rel sz) h rfl rfl (Nat.le_refl _) (fun _ => hw) (by intro z hz; simp only [Pc.rel.injEq] at hz; omega) (by simp) (by simp) (by simp) (by simp [hp])
    · exact inv3_goto w s _ i (.read (.dec sz)) h rfl rfl (Nat.le_refl _) (fun _ => hw) (by simp) (by simp) (by simp) (by simp) (by simp [hp])
  · rename_i sz hp; exact absurd hp (h.noSl i sz)
  · rename_i sz hp
    have hw := only i (by rw [hp]; rfl)
    exact inv3_goto w s _ i (.semRd sz) h rfl rfl (Nat.le_refl _) (fun _ => hw) (by simp) (by simp)
      (by intro z hz; simp only [Pc.semRd.injEq] at hz; subst hz; exact Or.inr hp) (by simp) (by simp [hp])
  · rename_i sz hp
    have hw := only i (by rw [hp]; rfl)
    split
    · rename_i h1
      exact inv3_goto w s _ i (.semCas sz s.sem) h rfl rfl (Nat.le_refl _) (fun _ => hw) (by simp)
        (by intro z v hz; simp only [Pc.semCas.injEq] at hz; rw [← hz.2]; exact ⟨h1, Nat.le_refl _⟩) (by simp) (by simp) (by simp [hp])
    · exact h
  · rename_i sz v hp
    have hw := only i (by rw [hp]; rfl)
    split
    · -- the only waiter leaves
      subst hw
      refine ⟨?_, ?_, ?_, ?_, ?_⟩
      · intro j hj; rw [goto_pc] at hj; split at hj
        · assumption
        · exact only j hj
      · intro z hz; simp [goto_pc] at hz
      · intro z v hz; simp [goto_pc] at hz
      · intro z hz; simp [goto_pc] at hz
      · intro j z hz; rw [goto_pc] at hz; split at hz
        · simp at hz
        · exact h.noSl j z hz
    · exact inv3_goto w s _ i (.semRd sz) h rfl rfl (Nat.le_refl _) (fun _ => hw) (by simp) (by simp)
        (by intro z hz; simp only [Pc.semRd.injEq] at hz; subst hz; exact Or.inl ⟨v, hp⟩) (by simp) (by simp [hp])
  · rename_i sz hp
    have hw := only i (by rw [hp]; rfl)
    split
    · exact h
    · exact inv3_goto w s _ i (.test sz) h rfl rfl (Nat.le_refl _) (fun _ => hw) (by simp) (by simp) (by simp) (by simp) (by simp [hp])
  · rename_i c hp
    refine inv3_goto w s _ i (.store c s.avail) h rfl rfl (Nat.le_refl _) ?_ (by simp) (by simp) (by simp) (by simp) (by simp [hp])
    cases c with
    | inc n => simp [Pc.inDec]
    | dec n => intro _; exact only i (by rw [hp]; rfl)
  · -- the store
    rename_i c v hp
    have hh : (s.pc i).holds = true := by rw [hp]; rfl
    refine ⟨?_, ?_, ?_, ?_, ?_⟩
    · intro j hj; rw [goto_pc] at hj; split at hj
      · rename_i e; rw [e]
        cases c with
        | inc n => simp [Pc.inDec] at hj
        | dec n => exact only i (by rw [hp]; rfl)
      · exact only j hj
    · intro z hz; rw [goto_pc] at hz; split at hz
      · simp at hz
      · rename_i hne
        have e1 := (hinv.own w).mp (by rw [show s.pc w = _ from hz]; rfl)
        have e2 := (hinv.own i).mp hh
        rw [e1] at e2; simp only [Option.some.injEq] at e2; exact absurd e2 hne
    · intro z v hz; rw [goto_pc] at hz; split at hz
      · simp at hz
      · exact h.casLe z v hz
    · intro z hz _
      cases c with
      | inc n => exact Or.inr ⟨i, n, Or.inl (by simp [goto_pc])⟩
      | dec n =>
        have hw := only i (by rw [hp]; rfl)
        subst hw
        simp [goto_pc] at hz
    · intro j z hz; rw [goto_pc] at hz; split at hz
      · simp at hz
      · exact h.noSl j z hz
  · rename_i c hp
    split
    · exact ⟨h.only, h.relLt, h.casLe, h.store, h.noSl⟩
    · cases c with
      | inc n => exact inv3_goto w s _ i (.notify (.inc n)) h rfl rfl (Nat.le_refl _) (by simp [Pc.inDec]) (by simp) (by simp) (by simp) (by simp) (by simp [hp])
      | dec n =>
        have hw := only i (by rw [hp]; rfl)
        exact inv3_goto w s _ i (.unl1 (.dec n)) h rfl rfl (Nat.le_refl _) (fun _ => hw) (by simp) (by simp) (by simp) (by simp) (by simp [hp])
  · rename_i c hp
    rw [hsp]
    refine inv3_goto w s _ i (.unl1 c) h rfl rfl (Nat.le_succ _) ?_ (by simp) (by simp) (by simp) (by simp) (by simp [hp, St.goto])
    cases c with
    | inc n => simp [Pc.inDec]
    | dec n => intro _; exact only i (by rw [hp]; rfl)
  · rename_i c hp
    rw [hsp]
    refine inv3_goto w s _ i (.unl2 c) h rfl rfl (Nat.le_refl _) ?_ (by simp) (by simp) (by simp) (by simp) (by simp [hp])
    cases c with
    | inc n => simp [Pc.inDec]
    | dec n => intro _; exact only i (by rw [hp]; rfl)
  · rename_i c hp
    exact inv3_goto w s _ i .idle h rfl rfl (Nat.le_refl _) (by simp [Pc.inDec]) (by simp) (by simp) (by simp) (by simp) (by simp [hp])
  · exact h

theorem inv3_exec (cf : Conf) (a w : Nat) (hsp : cf.backend = .spin) (sched : List (Nat × Cmd)) (hw : OneDecrementer w sched) : ∀ s o, Inv a s o → Inv3 w s →
    Inv3 w (exec cf s sched) := by
  induction sched with
  | nil => intro s o _ h; exact h
  | cons x r ih =>
    intro s o hi h
    obtain ⟨o', hi'⟩ := inv_step cf a s o x.1 x.2 hi
    exact ih (fun i sz hm => hw i sz (List.mem_cons_of_mem _ hm)) (step cf s x.1 x.2) o' hi'
      (inv3_step cf a w s o x.1 x.2 hsp (fun sz e => hw x.1 sz (by rw [← e]; exact List.mem_cons_self)) hi h)

/-- **C19 (partial: spin back-end, one decrementing thread)** With enforcement and the spin back-end, for every interleaving in which a single thread calls
`arax_throttle_size_dec`: whenever the lock is free and that thread waits although its request fits, it finishes its call by running alone. Missing:
several decrementing threads, where the property is false (`C19_violated_spin`). -/
theorem C19_spin_partial (cf : Conf) (a w : Nat) (hi : InitOk cf a) (he : cf.enforce = true) (hsp : cf.backend = .spin) (sched : List (Nat × Cmd))
    (hw : OneDecrementer w sched) :
    let s := exec cf (init a) sched
    s.locked = false → s.aborted = false → ∀ sz, (s.pc w).waiting = some sz → sz ≤ s.avail →
      (exec cf s (List.replicate 10 (w, .go))).pc w = .idle ∧
      (exec cf s (List.replicate 10 (w, .go))).returned = s.returned ++ [.dec sz] ∧
      (exec cf s (List.replicate 10 (w, .go))).avail = s.avail - sz := by
  obtain ⟨o, h, h2⟩ := inv2_reach cf a hi he sched
  have h3 : Inv3 w (exec cf (init a) sched) := by
    refine inv3_exec cf a w hsp sched hw (init a) none (inv_init a (by unfold InitOk at hi; omega)) ⟨?_, ?_, ?_, ?_, ?_⟩ <;> simp [init, Pc.inDec]
  intro s hl hab sz hwt hle
  change Inv a s o at h
  change Inv2 cf s.avail s.pc at h2
  change Inv3 w s at h3
  have hnone : ∀ j, (s.pc j).holds = false := by
    intro j
    cases e : (s.pc j).holds
    · rfl
    · have e2 := (h.own j).mp e
      have := h.lock; rw [hl, e2] at this; simp at this
  have hb : s.avail ≤ cf.cap := by
    rcases h2.bound with hb | ⟨j, n, hj⟩
    · exact hb
    · have := hnone j; rw [hj] at this; simp [Pc.holds] at this
  have hlt := h.lt
  have hsem : (s.pc w = .semRd sz ∨ ∃ v, s.pc w = .semCas sz v) → 1 ≤ s.sem := by
    intro hp
    rcases h3.store sz hp hle with h' | ⟨j, n, hj⟩
    · exact h'
    · have := hnone j; rcases hj with hj | hj <;> rw [hj] at this <;> simp [Pc.holds] at this
  have hadd : add64 s.avail (Call.delta (.dec sz)) = s.avail - sz := by simp only [add64, Call.delta]; omega
  have hck : ¬ (cf.cap < s.avail - sz) := by omega
  have hnl : ¬ (s.avail < sz) := by omega
  have hno := hnone w
  cases e : s.pc w with
  | lock c =>
    cases c with
    | inc n => rw [e] at hwt; simp [Pc.waiting] at hwt
    | dec n =>
      rw [e] at hwt; simp only [Pc.waiting, Option.some.injEq] at hwt; subst hwt
      simp [exec, List.replicate_succ, step, hab, e, hl, he, St.goto, hnl, hadd, hck, hsp]
  | relock n =>
    rw [e] at hwt; simp only [Pc.waiting, Option.some.injEq] at hwt; subst hwt
    simp [exec, List.replicate_succ, step, hab, e, hl, he, St.goto, hnl, hadd, hck, hsp]
  | semRd n =>
    rw [e] at hwt; simp only [Pc.waiting, Option.some.injEq] at hwt; subst hwt
    have hs := hsem (Or.inl e)
    simp [exec, List.replicate_succ, step, hab, e, hl, he, St.goto, hnl, hadd, hck, hsp, hs]
  | semCas n v =>
    rw [e] at hwt; simp only [Pc.waiting, Option.some.injEq] at hwt; subst hwt
    have hs := hsem (Or.inr ⟨v, e⟩)
    by_cases hv : s.sem = v
    · subst hv
      simp [exec, List.replicate_succ, step, hab, e, hl, he, St.goto, hnl, hadd, hck, hsp]
    · simp [exec, List.replicate_succ, step, hab, e, hl, he, St.goto, hnl, hadd, hck, hsp, hs, hv]
  | sleep n => exact absurd e (h3.noSl w n)
  | test n => rw [e] at hno; simp [Pc.holds] at hno
  | rel n => rw [e] at hno; simp [Pc.holds] at hno
  | _ => rw [e] at hwt; simp [Pc.waiting] at hwt

/-- Non-vacuity: thread 1 sleeps for 10 units, thread 2 returns 9 to the one available; thread 1 is then at the semaphore, with the lock free. -/
example :
    let cf : Conf := { backend := .spin, enforce := true, cap := 200 }
    let sched : List (Nat × Cmd) := [(1, .call (.dec 10)), (2, .call (.inc 9))] ++ List.replicate 3 (1, .go) ++ List.replicate 7 (2, .go)
    let s := exec cf (init 1) sched
    InitOk cf 1 ∧ OneDecrementer 1 sched ∧ s.locked = false ∧ s.aborted = false ∧ s.pc 1 = .semRd 10 ∧ s.avail = 10 := by
  refine ⟨by simp [InitOk], ?_, by decide +kernel, by decide +kernel, by decide +kernel, by decide +kernel⟩
  intro i sz h
  simp [List.replicate_succ] at h
  exact h.1

end Arax.Throttle
