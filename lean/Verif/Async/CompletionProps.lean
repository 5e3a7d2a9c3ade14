import Verif.Async.Completion
/-!
# C20–C22: waiting for and checking a task
-/
namespace Arax.Completion

/-- Specification: the completion is completed and not consumed by a wait: the last event is a complete. -/
def completedNow (ev : List Ev) : Bool := ev.getLast? == some .complete

theorem goto_pc (s : St) (i j : Nat) (p : Pc) : (s.goto i p).pc j = if j = i then p else s.pc j := rfl

/-- Lift of a step invariant to all schedules. -/
theorem inv_exec {P : St → Prop} (b : Backend) (hstep : ∀ s i cmd, P s → P (step b s i cmd)) (sched : List (Nat × Cmd)) :
    ∀ s, P s → P (exec b s sched) := by
  induction sched with
  | nil => intro s h; exact h
  | cons x r ih => intro s h; exact ih _ (hstep s x.1 x.2 h)

/-! ### C20 -/

structure Inv (s : St) : Prop where
  none  : .complete ∉ s.events → s.free = false ∧ s.events = [] ∧ s.waits = [] ∧ ∀ j, s.pc j ≠ .wRead ∧ s.pc j ≠ .kRel
  pend  : ∀ j, s.pc j = .cTry ∨ s.pc j = .cRel → s.marked ≠ []
  some  : .complete ∈ s.events → s.marked ≠ []
  last  : s.tstate = s.marked.getLast?.getD .issued
  ret   : ∀ x ∈ s.waits, x.2 ∈ s.marked

theorem last_mem (l : List TState) (h : l ≠ []) (d : TState) : l.getLast?.getD d ∈ l := by
  rw [List.getLast?_eq_some_getLast h]; exact List.getLast_mem h

theorem inv_step (b : Backend) (s : St) (i : Nat) (cmd : Cmd) (h : Inv s) : Inv (step b s i cmd) := by
  obtain ⟨h1, h2, h3, h4, h5⟩ := h
  -- generic move of thread `i` outside the critical program points
  have move : ∀ (p : Pc) (f : St → St), (f s).events = s.events → (f s).marked = s.marked → (f s).free = s.free →
      (f s).waits = s.waits → (f s).pc = s.pc → (f s).tstate = s.tstate →
      p ≠ .wRead → p ≠ .kRel → (p = .cTry ∨ p = .cRel → s.marked ≠ []) → Inv ((f s).goto i p) := by
    intro p f e1 e2 e3 e4 e5 e6 hp1 hp2 hp3
    refine ⟨?_, ?_, ?_, ?_, ?_⟩
    · show .complete ∉ (f s).events → (f s).free = false ∧ (f s).events = [] ∧ (f s).waits = [] ∧ _
      rw [e1, e3, e4]
      intro hc
      obtain ⟨a, b, c, d⟩ := h1 hc
      refine ⟨a, b, c, fun j => ?_⟩
      rw [goto_pc, e5]; split
      · exact ⟨hp1, hp2⟩
      · exact d j
    · intro j; rw [goto_pc, e5]; show _ → (f s).marked ≠ []; rw [e2]; split
      · exact hp3
      · exact h2 j
    · show .complete ∈ (f s).events → (f s).marked ≠ []; rw [e1, e2]; exact h3
    · show (f s).tstate = (f s).marked.getLast?.getD .issued; rw [e2, e6]; exact h4
    · show ∀ x ∈ (f s).waits, x.2 ∈ (f s).marked; rw [e4, e2]; exact h5
  unfold step
  split
  · exact ⟨h1, h2, h3, h4, h5⟩
  split
  · exact move _ (fun s => { s with started := s.started + 1 }) rfl rfl rfl rfl rfl rfl (by simp) (by simp) (by simp)
  · exact move _ id rfl rfl rfl rfl rfl rfl (by simp) (by simp) (by simp)
  · exact move _ id rfl rfl rfl rfl rfl rfl (by simp) (by simp) (by simp)
  · -- mk
    rename_i t hpc
    refine ⟨?_, ?_, ?_, ?_, ?_⟩
    · intro hc
      obtain ⟨a, b', c, d⟩ := h1 hc
      refine ⟨a, b', c, fun j => ?_⟩
      rw [goto_pc]; split
      · cases b <;> simp
      · exact d j
    · intro j _; show s.marked ++ [t] ≠ []; simp
    · intro _; show s.marked ++ [t] ≠ []; simp
    · show t = (s.marked ++ [t]).getLast?.getD .issued; simp
    · intro x hx; show x.2 ∈ s.marked ++ [t]; exact List.mem_append_left _ (h5 x hx)
  · -- cTry
    rename_i hpc
    refine ⟨?_, ?_, h3, h4, h5⟩
    · intro hc
      obtain ⟨a, b', c, d⟩ := h1 hc
      refine ⟨rfl, b', c, fun j => ?_⟩
      rw [goto_pc]; split
      · simp
      · exact d j
    · intro j; rw [goto_pc]; split
      · intro _; exact h2 i (Or.inl hpc)
      · exact h2 j
  · -- cRel
    rename_i hpc
    refine ⟨?_, ?_, ?_, h4, h5⟩
    · intro hc; exact absurd (show Ev.complete ∈ s.events ++ [Ev.complete] by simp) hc
    · intro j; rw [goto_pc]; split
      · simp
      · exact h2 j
    · intro _; exact h2 i (Or.inr hpc)
  · -- wAssert
    split
    · exact move _ id rfl rfl rfl rfl rfl rfl (by simp) (by simp) (by simp)
    · exact ⟨h1, h2, h3, h4, h5⟩
  · -- wAcq
    split
    · rename_i hf
      have hcm : Ev.complete ∈ s.events := by
        apply Decidable.not_not.mp; intro hc; have := (h1 hc).1; rw [hf] at this; simp at this
      refine ⟨?_, ?_, ?_, h4, h5⟩
      · intro hc; exact absurd (List.mem_append_left _ hcm) hc
      · intro j; rw [goto_pc]; split
        · simp
        · exact h2 j
      · intro _; exact h3 hcm
    · exact ⟨h1, h2, h3, h4, h5⟩
  · -- wRead
    rename_i hpc
    have hcm : Ev.complete ∈ s.events := by
      apply Decidable.not_not.mp; intro hc; exact ((h1 hc).2.2.2 i).1 hpc
    refine ⟨fun hc => absurd hcm hc, ?_, h3, h4, ?_⟩
    · intro j; rw [goto_pc]; split
      · simp
      · exact h2 j
    · intro x hx
      rcases List.mem_append.mp hx with e | e
      · exact h5 x e
      · simp only [List.mem_singleton] at e; subst e
        show s.tstate ∈ s.marked
        rw [h4]; exact last_mem _ (h3 hcm) _
  · -- kTry
    split
    · split
      · rename_i hf
        have hcm : Ev.complete ∈ s.events := by
          apply Decidable.not_not.mp; intro hc; have := (h1 hc).1; rw [hf] at this; simp at this
        refine ⟨fun hc => absurd hcm hc, ?_, h3, h4, h5⟩
        intro j; rw [goto_pc]; split
        · simp
        · exact h2 j
      · exact move _ (fun s => { s with checks := s.checks ++ [(false, s.events)] }) rfl rfl rfl rfl rfl rfl
          (by simp) (by simp) (by simp)
    · exact move _ (fun s => { s with checks := s.checks ++ [(s.free, s.events)] }) rfl rfl rfl rfl rfl rfl
        (by simp) (by simp) (by simp)
  · -- kRel
    rename_i hpc
    have hcm : Ev.complete ∈ s.events := by
      apply Decidable.not_not.mp; intro hc; exact ((h1 hc).2.2.2 i).2 hpc
    refine ⟨fun hc => absurd hcm hc, ?_, h3, h4, h5⟩
    intro j; rw [goto_pc]; split
    · simp
    · exact h2 j
  · exact ⟨h1, h2, h3, h4, h5⟩

theorem inv_init : Inv init := ⟨by simp [init], by simp [init], by simp [init], rfl, by simp [init]⟩

/-- **C20** For both back-ends and every interleaving of any calls: when a wait has returned (or has been let through),
some `complete` has taken effect before, and the returned state is one that `arax_task_mark_done` stored. -/
theorem C20_wait_after_complete (b : Backend) (sched : List (Nat × Cmd)) :
    let s := exec b init sched
    ((s.waits ≠ [] ∨ ∃ j, s.pc j = .wRead) → Ev.complete ∈ s.events) ∧
    (∀ i t, (i, t) ∈ s.waits → t ∈ s.marked) := by
  have h := inv_exec b (inv_step b) sched init inv_init
  generalize exec b init sched = s at *
  refine ⟨?_, fun i t ht => h.ret (i, t) ht⟩
  intro hw
  apply Decidable.not_not.mp
  intro hc
  obtain ⟨-, -, c, d⟩ := h.none hc
  rcases hw with hw | ⟨j, hj⟩
  · exact hw c
  · exact (d j).1 hj

/-- The states stored are states some caller passed to `arax_task_mark_done`. -/
theorem marked_from_calls (b : Backend) (sched : List (Nat × Cmd)) (T : TState → Prop)
    (hT : ∀ x ∈ sched, ∀ t, x.2 = .mark t → T t) : ∀ t ∈ (exec b init sched).marked, T t := by
  have gen : ∀ (sched : List (Nat × Cmd)) s, (∀ x ∈ sched, ∀ t, x.2 = .mark t → T t) →
      ((∀ t ∈ s.marked, T t) ∧ (∀ j t, s.pc j = .mk t → T t)) → ∀ t ∈ (exec b s sched).marked, T t := by
    intro sched
    induction sched with
    | nil => intro s _ h; exact h.1
    | cons x r ih =>
      intro s hx h
      refine ih _ (fun y hy => hx y (by simp [hy])) ?_
      have hc := hx x (by simp)
      obtain ⟨i, cmd⟩ := x
      simp only at hc ⊢
      obtain ⟨h1, h2⟩ := h
      have mv : ∀ (p : Pc), (∀ t, p = .mk t → T t) → ∀ j t, (if j = i then p else s.pc j) = .mk t → T t := by
        intro p hp j t; split
        · exact hp t
        · exact h2 j t
      unfold step
      split
      · exact ⟨h1, h2⟩
      split
      · rename_i t _; exact ⟨h1, mv _ (by intro t' e; cases e; exact hc t rfl)⟩
      · exact ⟨h1, mv _ (by simp)⟩
      · exact ⟨h1, mv _ (by simp)⟩
      · rename_i t hpc
        refine ⟨?_, mv _ (by cases b <;> simp)⟩
        intro t' ht'
        rcases List.mem_append.mp ht' with e | e
        · exact h1 t' e
        · simp only [List.mem_singleton] at e; subst e; exact h2 i _ hpc
      · exact ⟨h1, mv _ (by simp)⟩
      · exact ⟨h1, mv _ (by simp)⟩
      · split
        · exact ⟨h1, mv _ (by simp)⟩
        · exact ⟨h1, h2⟩
      · split
        · exact ⟨h1, mv _ (by simp)⟩
        · exact ⟨h1, h2⟩
      · exact ⟨h1, mv _ (by simp)⟩
      · split
        · split
          · exact ⟨h1, mv _ (by simp)⟩
          · exact ⟨h1, mv _ (by simp)⟩
        · exact ⟨h1, mv _ (by simp)⟩
      · exact ⟨h1, mv _ (by simp)⟩
      · exact ⟨h1, h2⟩
  exact gen sched init hT ⟨by simp [init], by simp [init]⟩

/-- C20: when every `mark_done` call marks the same state `t` (in particular when there is just one), every wait that
returns yields `t`. -/
theorem C20_returns_marked_state (b : Backend) (t : TState) (sched : List (Nat × Cmd))
    (ht : ∀ x ∈ sched, ∀ t', x.2 = .mark t' → t' = t) :
    ∀ i t', (i, t') ∈ (exec b init sched).waits → t' = t := by
  intro i t' h
  exact marked_from_calls b sched (· = t) ht t' ((C20_wait_after_complete b sched).2 i t' h)

/-! ### C21 -/

/-- **C21 (partial)** In every reachable state in which the completion is completed and not consumed and the task did not
fail, a thread that calls `arax_task_wait` and runs alone returns the task's state. Missing: failed tasks and repeated
waits, where the property is false (`C21_violated_failed`, `C21_violated_twice`). -/
theorem C21_first_wait_partial (b : Backend) (sched : List (Nat × Cmd)) (i : Nat) :
    let s := exec b init sched
    s.aborted = false → s.pc i = .idle → s.free = true → s.tstate ≠ .failed →
    let s' := exec b s [(i, .wait), (i, .go), (i, .go), (i, .go)]
    s'.pc i = .idle ∧ s'.waits = s.waits ++ [(i, s.tstate)] := by
  intro s hab hpc hf ht
  have htt : s.tstate = .issued ∨ s.tstate = .completed := by cases h : s.tstate <;> simp_all
  have htt' : (s.tstate = .issued ∨ s.tstate = .completed) = True := by simp [htt]
  simp [exec, step, hab, hpc, St.goto, hf, htt']

/-- **C21 is violated for failed tasks**: the task is marked failed, and a later `arax_task_wait` aborts the process
instead of returning `task_failed`. -/
theorem C21_violated_failed (b : Backend) :
    let s := exec b init ((0, .mark .failed) :: List.replicate 3 (0, .go))
    s.pc 0 = .idle ∧ s.tstate = .failed ∧ s.free = true ∧
    (exec b s [(1, .wait), (1, .go)]).aborted = true := by
  cases b <;> decide +kernel

/-- **C21 is violated for repeated waits**: after one `mark_done` and one returned wait, a second wait never returns,
whatever the other threads do except marking the task done again. -/
theorem C21_violated_twice (b : Backend) :
    let s := exec b init ([(0, .mark .completed)] ++ List.replicate 3 (0, .go) ++ [(1, .wait)] ++ List.replicate 3 (1, .go) ++
      [(2, .wait), (2, .go)])
    s.waits = [(1, .completed)] ∧ s.pc 2 = .wAcq ∧
    ∀ more : List (Nat × Cmd), (∀ x ∈ more, ∀ t, x.2 ≠ .mark t) → (exec b s more).pc 2 = .wAcq := by
  have key : ∀ (more : List (Nat × Cmd)), (∀ x ∈ more, ∀ t, x.2 ≠ .mark t) → ∀ s : St,
      (s.free = false ∧ s.pc 2 = .wAcq ∧ s.tstate = .completed ∧ ∀ j, s.pc j = .idle ∨ s.pc j = .wAssert ∨ s.pc j = .wAcq ∨ s.pc j = .kTry) →
      (exec b s more).pc 2 = .wAcq := by
    intro more
    induction more with
    | nil => intro _ s h; exact h.2.1
    | cons x r ih =>
      intro hx s h
      refine ih (fun y hy => hx y (by simp [hy])) _ ?_
      obtain ⟨h1, h2, h3, h4⟩ := h
      have hm := hx x (by simp)
      obtain ⟨i, cmd⟩ := x
      simp only at hm ⊢
      have mv : ∀ p, (p = .idle ∨ p = .wAssert ∨ p = .wAcq ∨ p = .kTry) → s.pc i ≠ .wAcq →
          (if 2 = i then p else s.pc 2) = .wAcq ∧
          ∀ j, (if j = i then p else s.pc j) = .idle ∨ (if j = i then p else s.pc j) = .wAssert ∨
            (if j = i then p else s.pc j) = .wAcq ∨ (if j = i then p else s.pc j) = .kTry := by
        intro p hp hi
        refine ⟨by rw [if_neg (fun e => hi (by rw [← e]; exact h2))]; exact h2, fun j => ?_⟩
        by_cases e : j = i
        · simp only [if_pos e]; exact hp
        · simp only [if_neg e]; exact h4 j
      unfold step
      split
      · exact ⟨h1, h2, h3, h4⟩
      split
      · rename_i t _; exact absurd rfl (hm t)
      · rename_i hpc; have := mv .wAssert (by simp) (by simp [hpc]); exact ⟨h1, this.1, h3, this.2⟩
      · rename_i hpc; have := mv .kTry (by simp) (by simp [hpc]); exact ⟨h1, this.1, h3, this.2⟩
      · rename_i hpc; have := h4 i; simp [hpc] at this
      · rename_i hpc; have := h4 i; simp [hpc] at this
      · rename_i hpc; have := h4 i; simp [hpc] at this
      · rename_i hpc
        rw [if_pos (Or.inr h3)]
        have := mv .wAcq (by simp) (by simp [hpc]); exact ⟨h1, this.1, h3, this.2⟩
      · rw [if_neg (by simp [h1])]; exact ⟨h1, h2, h3, h4⟩
      · rename_i hpc; have := h4 i; simp [hpc] at this
      · rename_i hpc
        have := mv .idle (by simp) (by simp [hpc])
        split
        · rw [if_neg (by simp [h1])]; exact ⟨h1, this.1, h3, this.2⟩
        · exact ⟨h1, this.1, h3, this.2⟩
      · rename_i hpc; have := h4 i; simp [hpc] at this
      · exact ⟨h1, h2, h3, h4⟩
  intro s
  refine ⟨by cases b <;> decide +kernel, by cases b <;> decide +kernel, fun more hm => key more hm s ⟨?_, ?_, ?_, ?_⟩⟩
  · cases b <;> decide +kernel
  · cases b <;> decide +kernel
  · cases b <;> decide +kernel
  · intro j
    by_cases e0 : j = 0
    · subst e0; left; cases b <;> decide +kernel
    by_cases e1 : j = 1
    · subst e1; left; cases b <;> decide +kernel
    by_cases e2 : j = 2
    · subst e2; right; right; left; cases b <;> decide +kernel
    left
    cases b <;> simp [s, exec, step, init, St.goto, e0, e1, e2, List.replicate_succ]

/-! ### C22 -/

/-- **C22 (partial: spin back-end)** For every interleaving, each check returned true exactly if, when it looked, the last
event was a complete (so: completed and not consumed); and a check changes nothing that complete, wait or another check
can see. Missing: the mutex back-end (`C22_mutex_sound_partial`, `C22_violated_mutex`). -/
theorem C22_spin_partial (sched : List (Nat × Cmd)) :
    let s := exec .spin init sched
    (∀ r ev, (r, ev) ∈ s.checks → r = completedNow ev) ∧ s.free = completedNow s.events ∧
    ∀ i, s.pc i = .kTry → let s' := step .spin s i .go
      s'.free = s.free ∧ s'.tstate = s.tstate ∧ s'.events = s.events ∧ s'.waits = s.waits := by
  have h := inv_exec (P := fun s => s.free = completedNow s.events ∧ (∀ r ev, (r, ev) ∈ s.checks → r = completedNow ev) ∧
      ∀ j, s.pc j ≠ .kRel ∧ s.pc j ≠ .cTry) .spin ?_ sched init ⟨rfl, by simp [init], by simp [init]⟩
  · generalize exec .spin init sched = s at *
    refine ⟨h.2.1, h.1, fun i hi => ?_⟩
    unfold step
    split
    · exact ⟨rfl, rfl, rfl, rfl⟩
    · rw [hi]; exact ⟨rfl, rfl, rfl, rfl⟩
  · intro s i cmd ⟨h1, h2, h3⟩
    have mv : ∀ p, p ≠ .kRel → p ≠ .cTry → ∀ j, (if j = i then p else s.pc j) ≠ .kRel ∧ (if j = i then p else s.pc j) ≠ .cTry := by
      intro p a b j; split
      · exact ⟨a, b⟩
      · exact h3 j
    unfold step
    split
    · exact ⟨h1, h2, h3⟩
    split
    · exact ⟨h1, h2, mv _ (by simp) (by simp)⟩
    · exact ⟨h1, h2, mv _ (by simp) (by simp)⟩
    · exact ⟨h1, h2, mv _ (by simp) (by simp)⟩
    · exact ⟨h1, h2, mv _ (by simp) (by simp)⟩
    · rename_i hpc; exact absurd hpc (h3 i).2
    · refine ⟨?_, h2, mv _ (by simp) (by simp)⟩
      show true = completedNow (s.events ++ [Ev.complete]); simp [completedNow]
    · split
      · exact ⟨h1, h2, mv _ (by simp) (by simp)⟩
      · exact ⟨h1, h2, h3⟩
    · split
      · refine ⟨?_, h2, mv _ (by simp) (by simp)⟩
        show false = completedNow (s.events ++ [Ev.wait]); simp [completedNow]
      · exact ⟨h1, h2, h3⟩
    · exact ⟨h1, h2, mv _ (by simp) (by simp)⟩
    · refine ⟨h1, ?_, mv _ (by simp) (by simp)⟩
      intro r ev hm
      rcases List.mem_append.mp hm with e | e
      · exact h2 r ev e
      · simp only [List.mem_singleton, Prod.mk.injEq] at e; obtain ⟨rfl, rfl⟩ := e; exact h1
    · rename_i hpc; exact absurd hpc (h3 i).1
    · exact ⟨h1, h2, h3⟩

/-- **C22 is violated by the mutex back-end**: `check` locks the mutex for a moment. After a completed `mark_done` that no
wait consumed, two overlapping checks give different answers: the second reports "not completed". -/
theorem C22_violated_mutex :
    let s := exec .mutex init ([(0, .mark .completed)] ++ List.replicate 3 (0, .go) ++
      [(1, .check), (2, .check), (1, .go), (2, .go)])
    s.checks = [(true, [.complete]), (false, [.complete])] ∧ completedNow [.complete] = true := by
  decide +kernel

/-- A check also changes the outcome of others with the mutex back-end: overlapping with a second `mark_done` it gives back
a mutex that a wait has taken meanwhile, so that the completion, although consumed, is reported (and can be waited for)
again. -/
theorem C22_violated_mutex_unlock :
    let s := exec .mutex init ([(0, .mark .completed)] ++ List.replicate 3 (0, .go) ++ [(1, .check), (1, .go)] ++
      [(0, .mark .completed)] ++ List.replicate 3 (0, .go) ++ [(2, .wait)] ++ List.replicate 3 (2, .go) ++ [(1, .go), (3, .check), (3, .go)])
    s.checks.getLast? = some (true, [.complete, .complete, .wait]) ∧ completedNow [.complete, .complete, .wait] = false := by
  decide +kernel

/-- In `arax_task_mark_done`. -/
def Pc.marking : Pc → Bool
  | .mk _ | .cTry | .cRel => true
  | _ => false

/-- Invariant of the mutex back-end as long as `mark_done` is called at most once. -/
structure InvM (s : St) : Prop where
  idle0  : s.started = 0 → ∀ j, (s.pc j).marking = false
  before : Ev.complete ∉ s.events → s.free = false ∧ s.events = [] ∧ ∀ j, s.pc j ≠ .kRel
  after  : Ev.complete ∈ s.events → s.started ≠ 0 ∧ ∀ j, (s.pc j).marking = false
  uniqC  : ∀ j k, (s.pc j).marking = true → (s.pc k).marking = true → j = k
  uniqK  : ∀ j k, s.pc j = .kRel → s.pc k = .kRel → j = k
  freeK  : s.free = true → ∀ j, s.pc j ≠ .kRel
  tok    : completedNow s.events = true ↔ (s.free = true ∨ ∃ j, s.pc j = .kRel)
  chk    : ∀ r ev, (r, ev) ∈ s.checks → r = true → completedNow ev = true

/-- A step that only moves thread `i`, not from or to `kRel` and keeping its `marking` status. -/
theorem invM_move (s : St) (i : Nat) (p : Pc) (h : InvM s) (h1 : p.marking = (s.pc i).marking) (h2 : p ≠ .kRel)
    (h3 : s.pc i ≠ .kRel) : InvM (s.goto i p) := by
  obtain ⟨a1, a2, a3, a4, a5, a6, a7, a8⟩ := h
  have e1 : ∀ j, ((s.goto i p).pc j).marking = (s.pc j).marking := by
    intro j; rw [goto_pc]; split
    · rename_i e; subst e; exact h1
    · rfl
  have e2 : ∀ j, (s.goto i p).pc j = .kRel ↔ s.pc j = .kRel := by
    intro j; rw [goto_pc]; split
    · rename_i e; subst e; simp [h2, h3]
    · rfl
  refine ⟨?_, ?_, ?_, ?_, ?_, ?_, ?_, a8⟩
  · intro h j; rw [e1]; exact a1 h j
  · intro h; obtain ⟨x, y, z⟩ := a2 h; exact ⟨x, y, fun j hj => z j ((e2 j).mp hj)⟩
  · intro h; obtain ⟨x, y⟩ := a3 h; exact ⟨x, fun j => by rw [e1]; exact y j⟩
  · intro j k; rw [e1, e1]; exact a4 j k
  · intro j k; rw [e2, e2]; exact a5 j k
  · intro h j hj; exact a6 h j ((e2 j).mp hj)
  · show completedNow s.events = true ↔ (s.free = true ∨ ∃ j, (s.goto i p).pc j = .kRel)
    rw [a7]; simp only [e2]

theorem invM_step (s : St) (i : Nat) (cmd : Cmd) (h : s.started ≤ 1 → InvM s) (hs : (step .mutex s i cmd).started ≤ 1) :
    InvM (step .mutex s i cmd) := by
  revert hs
  unfold step
  split
  · exact h
  split
  · -- mark call
    rename_i t hpc
    intro hs
    have hz : s.started = 0 := by have : s.started + 1 ≤ 1 := hs; omega
    obtain ⟨a1, a2, a3, a4, a5, a6, a7, a8⟩ := h (by omega)
    have hnc : Ev.complete ∉ s.events := fun hc => (a3 hc).1 hz
    obtain ⟨b1, b2, b3⟩ := a2 hnc
    refine ⟨?_, ?_, ?_, ?_, ?_, ?_, ?_, a8⟩
    · intro h; have : s.started + 1 = 0 := h; omega
    · intro _; refine ⟨b1, b2, fun j => ?_⟩; rw [goto_pc]; split
      · simp
      · exact b3 j
    · intro hc; exact absurd hc hnc
    · intro j k; rw [goto_pc, goto_pc]; split
      · split
        · omega
        · intro _ hk; have : (s.pc k).marking = true := hk; rw [a1 hz k] at this; simp at this
      · intro hj; have : (s.pc j).marking = true := hj; rw [a1 hz j] at this; simp at this
    · intro j k; rw [goto_pc, goto_pc]; split
      · simp
      · split
        · simp
        · exact a5 j k
    · intro hf; have : s.free = true := hf; rw [b1] at this; simp at this
    · show completedNow s.events = true ↔ (s.free = true ∨ _)
      rw [b2, b1]
      constructor
      · intro h; simp [completedNow] at h
      · rintro (h | ⟨j, hj⟩)
        · simp at h
        · rw [goto_pc] at hj; split at hj
          · simp at hj
          · exact absurd hj (b3 j)
  · rename_i hpc; intro hs; exact invM_move s i _ (h hs) (by simp [hpc, Pc.marking]) (by simp) (by simp [hpc])
  · rename_i hpc; intro hs; exact invM_move s i _ (h hs) (by simp [hpc, Pc.marking]) (by simp) (by simp [hpc])
  · -- mk
    rename_i t hpc
    intro hs
    have hI := h hs
    have := invM_move s i .cTry hI (by simp [hpc, Pc.marking]) (by simp) (by simp [hpc])
    exact ⟨this.idle0, this.before, this.after, this.uniqC, this.uniqK, this.freeK, this.tok, this.chk⟩
  · -- cTry
    rename_i hpc
    intro hs
    have hI := h hs
    have hnc : Ev.complete ∉ s.events := by
      intro hc; have := (hI.after hc).2 i; rw [hpc] at this; simp [Pc.marking] at this
    have hf := (hI.before hnc).1
    have := invM_move s i .cRel hI (by simp [hpc, Pc.marking]) (by simp) (by simp [hpc])
    have e : { s with free := false } = s := by rw [← hf]
    rw [e]; exact this
  · -- cRel
    rename_i hpc
    intro hs
    have hI := h hs
    obtain ⟨a1, a2, a3, a4, a5, a6, a7, a8⟩ := hI
    have hnc : Ev.complete ∉ s.events := by
      intro hc; have := (a3 hc).2 i; rw [hpc] at this; simp [Pc.marking] at this
    obtain ⟨b1, b2, b3⟩ := a2 hnc
    have hst : s.started ≠ 0 := by
      intro h0; have := a1 h0 i; rw [hpc] at this; simp [Pc.marking] at this
    have hm : ∀ j, ((s.goto i .idle).pc j).marking = false := by
      intro j; rw [goto_pc]; split
      · rfl
      · rename_i e
        cases hh : (s.pc j).marking
        · rfl
        · exact absurd (a4 j i hh (by rw [hpc]; rfl)) e
    have hk : ∀ j, (s.goto i .idle).pc j ≠ .kRel := by
      intro j; rw [goto_pc]; split
      · simp
      · exact b3 j
    refine ⟨fun h0 => absurd h0 hst, ?_, fun _ => ⟨hst, hm⟩, ?_, ?_, fun _ => hk, ?_, a8⟩
    · intro hc; exact absurd (show Ev.complete ∈ s.events ++ [Ev.complete] by simp) hc
    · intro j k hj; exact absurd hj (by have := hm j; simp only [St.goto] at this ⊢; rw [this]; simp)
    · intro j k hj; exact absurd hj (hk j)
    · show completedNow (s.events ++ [Ev.complete]) = true ↔ (true = true ∨ _)
      simp [completedNow]
  · rename_i hpc
    split
    · intro hs; exact invM_move s i _ (h hs) (by simp [hpc, Pc.marking]) (by simp) (by simp [hpc])
    · intro hs; have := h hs; exact ⟨this.idle0, this.before, this.after, this.uniqC, this.uniqK, this.freeK, this.tok, this.chk⟩
  · -- wAcq
    rename_i hpc
    split
    · rename_i hf
      intro hs
      have hI := h hs
      have hmv := invM_move s i .wRead hI (by simp [hpc, Pc.marking]) (by simp) (by simp [hpc])
      have hcm : Ev.complete ∈ s.events := by
        apply Decidable.not_not.mp; intro hc; have := (hI.before hc).1; rw [hf] at this; simp at this
      have hk := hmv.freeK hf
      refine ⟨hmv.idle0, ?_, fun _ => hmv.after hcm, hmv.uniqC, hmv.uniqK, ?_, ?_, hmv.chk⟩
      · intro hc; exact absurd (List.mem_append_left _ hcm) hc
      · intro hx; exact absurd hx (by simp [St.goto])
      · show completedNow (s.events ++ [Ev.wait]) = true ↔ (false = true ∨ ∃ j, (s.goto i .wRead).pc j = .kRel)
        constructor
        · intro h; simp [completedNow] at h
        · rintro (h | ⟨j, hj⟩)
          · simp at h
          · exact absurd hj (hk j)
    · exact h
  · rename_i hpc
    intro hs
    have := invM_move s i .idle (h hs) (by simp [hpc, Pc.marking]) (by simp) (by simp [hpc])
    exact ⟨this.idle0, this.before, this.after, this.uniqC, this.uniqK, this.freeK, this.tok, this.chk⟩
  · -- kTry
    rename_i hpc
    simp only
    split
    · rename_i hf
      intro hs
      obtain ⟨a1, a2, a3, a4, a5, a6, a7, a8⟩ := h hs
      have hcm : Ev.complete ∈ s.events := by
        apply Decidable.not_not.mp; intro hc; have := (a2 hc).1; rw [hf] at this; simp at this
      have hm : ∀ j, ((s.goto i .kRel).pc j).marking = (s.pc j).marking := by
        intro j; rw [goto_pc]; split
        · rename_i e; subst e; rw [hpc]; rfl
        · rfl
      refine ⟨?_, fun hc => absurd hcm hc, ?_, ?_, ?_, ?_, ?_, ?_⟩
      · intro h0 j; exact (hm j).trans (a1 h0 j)
      · intro hc; exact ⟨(a3 hc).1, fun j => (hm j).trans ((a3 hc).2 j)⟩
      · intro j k hj hk; exact a4 j k ((hm j).symm.trans hj) ((hm k).symm.trans hk)
      · intro j k; rw [goto_pc, goto_pc]; split
        · split
          · omega
          · intro _ hk; exact absurd hk (a6 hf k)
        · intro hj; exact absurd hj (a6 hf j)
      · intro hx; exact absurd hx (by simp [St.goto])
      · show completedNow s.events = true ↔ (false = true ∨ ∃ j, (s.goto i .kRel).pc j = .kRel)
        rw [a7]
        exact ⟨fun _ => Or.inr ⟨i, by simp [goto_pc]⟩, fun _ => Or.inl hf⟩
      · intro r ev hm hr
        rcases List.mem_append.mp hm with e | e
        · exact a8 r ev e hr
        · simp only [List.mem_singleton, Prod.mk.injEq] at e; rw [e.2]; exact a7.mpr (Or.inl hf)
    · intro hs
      have hI := h hs
      have := invM_move s i .idle hI (by simp [hpc, Pc.marking]) (by simp) (by simp [hpc])
      refine ⟨this.idle0, this.before, this.after, this.uniqC, this.uniqK, this.freeK, this.tok, ?_⟩
      intro r ev hm hr
      rcases List.mem_append.mp hm with e | e
      · exact hI.chk r ev e hr
      · simp only [List.mem_singleton, Prod.mk.injEq] at e; rw [e.1] at hr; simp at hr
  · -- kRel
    rename_i hpc
    intro hs
    obtain ⟨a1, a2, a3, a4, a5, a6, a7, a8⟩ := h hs
    have hcm : Ev.complete ∈ s.events := by
      apply Decidable.not_not.mp; intro hc; exact (a2 hc).2.2 i hpc
    have hm : ∀ j, ((s.goto i .idle).pc j).marking = (s.pc j).marking := by
      intro j; rw [goto_pc]; split
      · rename_i e; subst e; rw [hpc]; rfl
      · rfl
    have hk : ∀ j, (s.goto i .idle).pc j ≠ .kRel := by
      intro j; rw [goto_pc]; split
      · simp
      · rename_i e; intro hj; exact e (a5 j i hj hpc)
    refine ⟨fun h0 j => (hm j).trans (a1 h0 j), fun hc => absurd hcm hc, ?_, ?_, ?_, fun _ => hk, ?_, a8⟩
    · intro hc; exact ⟨(a3 hc).1, fun j => (hm j).trans ((a3 hc).2 j)⟩
    · intro j k hj hk; exact a4 j k ((hm j).symm.trans hj) ((hm k).symm.trans hk)
    · intro j k hj; exact absurd hj (hk j)
    · show completedNow s.events = true ↔ (true = true ∨ _)
      rw [a7]; exact ⟨fun _ => Or.inl rfl, fun _ => Or.inr ⟨i, hpc⟩⟩
  · exact h

theorem started_mono (s : St) (i : Nat) (cmd : Cmd) : s.started ≤ (step .mutex s i cmd).started := by
  unfold step
  split
  · exact Nat.le_refl _
  split
  · exact Nat.le_succ _
  all_goals first
    | exact Nat.le_refl _
    | (split <;> first | exact Nat.le_refl _ | (split <;> exact Nat.le_refl _))

/-- **C22 (partial: mutex back-end, task marked done once)** In every interleaving with at most one `mark_done` call: a
check that returned true did so when the completion was completed and not consumed; the mutex is free, or momentarily
held by a single check, exactly when the completion is completed and not consumed; so a false answer to a completed task
can only come from overlapping another check. -/
theorem C22_mutex_sound_partial (sched : List (Nat × Cmd)) :
    let s := exec .mutex init sched
    s.started ≤ 1 →
    (∀ r ev, (r, ev) ∈ s.checks → r = true → completedNow ev = true) ∧
    (completedNow s.events = true ↔ (s.free = true ∨ ∃ j, s.pc j = .kRel)) ∧
    (∀ j k, s.pc j = .kRel → s.pc k = .kRel → j = k) := by
  intro s hs
  have h := inv_exec (P := fun s => s.started ≤ 1 → InvM s) .mutex
    (fun s i cmd h hs => invM_step s i cmd h hs) sched init (fun _ => ⟨by simp [init, Pc.marking], by simp [init], by simp [init],
      by simp [init, Pc.marking], by simp [init], by simp [init], by simp [init, completedNow], by simp [init]⟩) hs
  exact ⟨h.chk, h.tok, h.uniqK⟩

/-- Non-vacuity: a completed, waited-for and checked task in both back-ends. -/
example (b : Backend) :
    let s := exec b init ([(1, .check), (1, .go), (0, .mark .completed)] ++ List.replicate 3 (0, .go) ++ [(1, .check), (1, .go), (1, .go)] ++
      [(2, .wait)] ++ List.replicate 3 (2, .go))
    s.waits = [(2, .completed)] ∧ s.checks = [(false, []), (true, [.complete])] ∧ s.started = 1 ∧ s.aborted = false := by
  cases b <;> decide +kernel

end Arax.Completion
