import Verif.Accel.CountProps
/-! # C58: the worker looks only at live virtual accelerators

The worker copies the list of assigned virtual accelerators and takes no reference on them (accelThread.cpp:477-490, arax_accel.c:143-154), then
reads their queues (RoundRobinScheduler.cpp:40-50). -/
namespace Arax.Accel.Count

/-- No virtual accelerator is destroyed while the worker is between taking the snapshot and having looked at it. (No code of its own.) -/
def NoReleaseInScan (s : St) : Ev → Prop
  | .release _ => ∀ l, s.wk ≠ .scan l
  | _ => True

theorem del_dead (s : St) (v : Nat) : (del s v).dead = s.dead := rfl

/-- C58 when no virtual accelerator is destroyed during a scan: every virtual accelerator still to be looked at is live. Missing: destruction during a
scan, for which it is false (`C58_violated`). -/
theorem C58_looks_at_live_partial {n : Nat} {s : St} (h : Reach n NoReleaseInScan s) :
    (∀ v, s.dead v = true → s.on v = false) ∧ ∀ l, s.wk = .scan l → ∀ v ∈ l, s.dead v = false := by
  induction h with
  | init => exact ⟨fun _ _ => rfl, fun l hl => by cases hl⟩
  | @step s s' ev hr hp e ih =>
    obtain ⟨ih1, ih2⟩ := ih
    cases ev with
    | push v => obtain ⟨_, _, _, hs, _, _⟩ := eff_push e; subst hs; exact ⟨ih1, ih2⟩
    | count v => obtain ⟨_, _, hs, _, _⟩ := eff_count e; subst hs; exact ⟨ih1, ih2⟩
    | assign v =>
      obtain ⟨_, _, hd, _, hs, _, _⟩ := eff_assign e; subst hs
      refine ⟨?_, ih2⟩
      intro w hw
      have hw' : s.dead w = true := hw
      have hne : w ≠ v := by intro hc; rw [hc, hd] at hw'; cases hw'
      show upd s.on v true w = false
      rw [upd_ne _ _ _ _ hne]; exact ih1 w hw'
    | wait =>
      simp only [step] at e; split at e
      · cases e; exact ⟨ih1, fun l hl => by cases hl⟩
      · cases e
    | snapshot l =>
      simp only [step] at e; split at e
      · rename_i g
        cases e
        refine ⟨ih1, ?_⟩
        intro l' hl' v hv
        cases hl'
        cases hd : s.dead v with
        | false => rfl
        | true => have := ih1 v hd; rw [(g.2.2.1 v hv).2] at this; cases this
      · cases e
    | look =>
      simp only [step] at e; split at e
      · rename_i v r hw
        split at e
        · cases e; refine ⟨ih1, ?_⟩; intro l hl w hm; cases hl; exact ih2 _ hw w (List.mem_cons_of_mem _ hm)
        · cases e; exact ⟨ih1, fun l hl => by cases hl⟩
      · cases e
    | done =>
      simp only [step] at e; split at e
      · cases e; exact ⟨ih1, fun l hl => by cases hl⟩
      · cases e
    | delSelf =>
      simp only [step] at e; split at e
      · rename_i v r hw
        split at e
        · cases e
          refine ⟨?_, ?_⟩
          · intro w hd
            show upd s.on v false w = false
            by_cases hc : w = v
            · subst hc; rw [upd_same]
            · rw [upd_ne _ _ _ _ hc]; exact ih1 w hd
          · intro l hl w hm; cases hl; exact ih2 _ hw w (List.mem_cons_of_mem _ hm)
        · cases e
      · cases e
    | release v =>
      have hns : ∀ l, s.wk ≠ .scan l := hp
      simp only [step] at e; split at e
      · split at e
        · cases e
          refine ⟨?_, fun l hl => absurd hl (hns l)⟩
          intro w hd
          show upd s.on v false w = false
          by_cases hc : w = v
          · subst hc; rw [upd_same]
          · have hd' : upd s.dead v true w = true := hd
            rw [upd_ne _ _ _ _ hc] at hd' ⊢; exact ih1 w hd'
        · rename_i ho
          cases e
          refine ⟨?_, fun l hl => absurd hl (hns l)⟩
          intro w hd
          by_cases hc : w = v
          · subst hc; simpa using ho
          · have hd' : upd s.dead v true w = true := hd
            rw [upd_ne _ _ _ _ hc] at hd'; exact ih1 w hd'
      · cases e
    | delExt v =>
      simp only [step] at e; split at e
      · cases e
        refine ⟨?_, ih2⟩
        intro w hd
        show upd s.on v false w = false
        by_cases hc : w = v
        · subst hc; rw [upd_same]
        · rw [upd_ne _ _ _ _ hc]; exact ih1 w hd
      · cases e
    | envPop v =>
      simp only [step] at e; split at e
      · cases e; exact ⟨ih1, ih2⟩
      · cases e

/-- For statements and proofs; no code of its own. -/
def uafRun : List Ev := [.assign 0, .assign 1, .push 1, .count 1, .wait, .snapshot [0, 1], .release 0]

/-- For statements and proofs; no code of its own. -/
def rrB (s : St) : Ev → Bool
  | .delExt _ => false
  | .delSelf => false
  | .envPop v => !s.on v
  | .release v => s.q v == 0
  | _ => true

theorem rrB_rr : ∀ (s : St) (e : Ev), rrB s e = true → RoundRobin s e := by
  intro s e h
  cases e <;> simp_all [rrB, RoundRobin]

/-- C58 as stated is false: a client drops the last reference of an (empty, idle) virtual accelerator that the worker has in its snapshot; the worker then
reads the queue of freed memory. -/
theorem C58_violated : ∃ s v r, Reach 2 RoundRobin s ∧ s.wk = .scan (v :: r) ∧ s.dead v = true := by
  have hr : (runIf 2 rrB init uafRun).map (fun s => (s.wk, s.dead 0)) = some (.scan [0, 1], true) := by decide +kernel
  cases hs : runIf 2 rrB init uafRun with
  | none => rw [hs] at hr; cases hr
  | some s =>
    rw [hs] at hr
    simp only [Option.map_some, Option.some.injEq, Prod.mk.injEq] at hr
    exact ⟨s, 0, [1], reach_runIf rrB_rr .init hs, hr.1, hr.2⟩

/-- Non-vacuity: a release before the scan, and a virtual accelerator still to be looked at. (No code of its own.) -/
def okRun : List Ev := [.assign 0, .assign 1, .push 1, .count 1, .release 0, .wait, .snapshot [1]]

/-- For statements and proofs; no code of its own. -/
def scanB (s : St) : Ev → Bool
  | .release _ => match s.wk with | .scan _ => false | _ => true
  | _ => true

example : ∃ s, Reach 2 NoReleaseInScan s ∧ s.wk = .scan [1] ∧ s.dead 0 = true := by
  have hr : (runIf 2 scanB init okRun).map (fun s => (s.wk, s.dead 0)) = some (.scan [1], true) := by decide +kernel
  cases hs : runIf 2 scanB init okRun with
  | none => rw [hs] at hr; cases hr
  | some s =>
    rw [hs] at hr
    simp only [Option.map_some, Option.some.injEq, Prod.mk.injEq] at hr
    refine ⟨s, reach_runIf ?_ .init hs, hr.1, hr.2⟩
    intro s e h
    cases e <;> simp only [NoReleaseInScan] <;> try trivial
    intro l hl; rw [scanB, hl] at h; cases h

end Arax.Accel.Count
