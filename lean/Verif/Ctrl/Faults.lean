import Verif.Outcome
/-!
# C99: a task's failure is its own

*Property.* A handler may fail: report `task_failed`, or throw an exception. Whoever waits for that task is told that it failed; every other task is executed and reported as if the failing one had
succeeded, and the controller goes on.

Simplifications: a handler is what it does to its own task (marks it done with a state, or not) and how it ends; the queues are given at the beginning; its work on data is C47, its references C27.
-/
namespace Arax.Faults

/-- `arax_task_state_e` after execution (/repo/include/arax_types.h:61-67). -/
inductive State where
  | completed | failed
  deriving DecidableEq, Repr

/-- How a handler ends: returns a state, throws something derived from `std::exception`, throws anything else. (Called at /repo/controller/include/deviceBaseOps.h:43.) -/
inductive Fin where
  | returns (s : State)
  | throwsStd
  | throwsOther
  deriving DecidableEq, Repr

/-- A task as its handler treats it: the state it passes to `arax_task_mark_done` (/repo/src/core/arax_task.c:83-87) before it ends, if it gets that far. -/
structure Task where
  id : Nat
  marks : Option State
  fin : Fin
  deriving DecidableEq, Repr

/-- The controller: is the process alive, the tasks waiting for every worker, the state each finished task shows to `arax_task_wait`. (/repo/controller/src/Core/accelThread.cpp:293-445.) -/
structure Ctrl where
  alive : Bool := true
  queue : Nat → List Task
  shown : Nat → Option State := fun _ => none

/-- Worker `w` executes its next task: `executeOperation` (/repo/controller/include/deviceBaseOps.h:39-47, called at /repo/controller/src/Core/accelThread.cpp:410-411). What the handler returns is dropped (:43); a `std::exception`
is printed and otherwise ignored (:44-46); anything else leaves the thread's function, which ends the process. -/
def step (c : Ctrl) (w : Nat) : Ctrl :=
  if c.alive then
    match c.queue w with
    | [] => c
    | t :: r =>
      let shown := fun i => if i = t.id then (match t.marks with | some s => some s | none => c.shown i) else c.shown i
      let alive := match t.fin with | .throwsOther => false | _ => true
      { alive := alive, queue := fun v => if v = w then r else c.queue v, shown := shown }
  else c

/-- A schedule of the workers. (`workFunc` of all workers, /repo/controller/src/Core/accelThread.cpp:363.) -/
def run (c : Ctrl) (sched : List Nat) : Ctrl := sched.foldl step c

/-! ## Specification -/

/-- What the client of a task should be told. -/
def verdict (t : Task) : State :=
  match t.fin with
  | .returns .failed => .failed
  | .returns .completed => t.marks.getD .completed
  | _ => .failed

/-- The property for one history: whatever was taken from the queues shows its verdict, and the controller lives. -/
def Isolated (q : Nat → List Task) (sched : List Nat) : Prop :=
  let c := run { queue := q } sched
  c.alive = true ∧ ∀ w, ∃ done, q w = done ++ c.queue w ∧ (∀ t ∈ done, c.shown t.id = some (verdict t)) ∧ (∀ t ∈ c.queue w, c.shown t.id = none) ∧
    done.length = min (sched.count w) (q w).length

/-- No two tasks are the same object. -/
def Distinct (q : Nat → List Task) : Prop := (∀ w, ((q w).map (·.id)).Nodup) ∧ ∀ v w, v ≠ w → ∀ t ∈ q v, ∀ u ∈ q w, t.id ≠ u.id

/-- Handlers as they should be written: the task is marked with the verdict before the handler ends, and only standard exceptions leave it. -/
def WellWritten (t : Task) : Prop := t.marks = some (verdict t) ∧ t.fin ≠ .throwsOther

/-! ## What holds -/

/-- For statements and proofs; no code of its own. -/
structure Inv (q : Nat → List Task) (sched : List Nat) (c : Ctrl) : Prop where
  alive : c.alive = true
  split : ∀ w, ∃ done, q w = done ++ c.queue w ∧ (∀ t ∈ done, c.shown t.id = t.marks) ∧ done.length = min (sched.count w) (q w).length
  quiet : ∀ w, ∀ t ∈ c.queue w, c.shown t.id = none

theorem inv_step {q : Nat → List Task} (hd : Distinct q) (hx : ∀ w, ∀ t ∈ q w, t.fin ≠ .throwsOther) {sched : List Nat} {c : Ctrl} (h : Inv q sched c) (w : Nat) : Inv q (sched ++ [w]) (step c w) := by
  have hcount : ∀ v, (sched ++ [w]).count v = sched.count v + if v = w then 1 else 0 := by
    intro v
    rw [List.count_append, List.count_singleton]
    by_cases hv : v = w
    · subst hv; simp
    · rw [if_neg hv, if_neg (by simpa using fun e => hv e.symm)]
  unfold step
  rw [if_pos h.alive]
  cases hq : c.queue w with
  | nil =>
    dsimp only
    refine ⟨h.alive, fun v => ?_, h.quiet⟩
    obtain ⟨done, h1, h2, h3⟩ := h.split v
    refine ⟨done, h1, h2, ?_⟩
    rw [hcount]
    by_cases hv : v = w
    · subst hv
      rw [hq, List.append_nil] at h1
      rw [if_pos rfl, h3]
      have : done.length = (q v).length := by rw [h1]
      omega
    · rw [if_neg hv, h3]; rfl
  | cons t r =>
    dsimp only
    obtain ⟨dw, h1, h2, h3⟩ := h.split w
    have htq : t ∈ q w := by rw [h1, hq]; simp
    have halive : (match t.fin with | .throwsOther => false | _ => true) = true := by
      have := hx w t htq
      cases hf : t.fin with
      | throwsOther => exact absurd hf this
      | _ => rfl
    have htn : c.shown t.id = none := h.quiet w t (by rw [hq]; simp)
    -- every other task of the queues has another id
    have hne : ∀ v, ∀ u ∈ q v, u.id = t.id → v = w := by
      intro v u hu e
      by_cases hv : v = w
      · exact hv
      · exact absurd e (hd.2 v w hv u hu t htq)
    refine ⟨halive, fun v => ?_, fun v u hu => ?_⟩
    · obtain ⟨done, g1, g2, g3⟩ := h.split v
      by_cases hv : v = w
      · subst hv
        have hn : ((q v).map (·.id)).Nodup := hd.1 v
        refine ⟨dw ++ [t], ?_, ?_, ?_⟩
        · dsimp only; rw [if_pos rfl, h1, hq]; simp
        · intro u hu
          rcases List.mem_append.1 hu with hu | hu
          · have hut : u.id ≠ t.id := by
              intro e
              rw [h1, hq, List.map_append, List.map_cons, List.nodup_append] at hn
              exact hn.2.2 u.id (List.mem_map.2 ⟨u, hu, rfl⟩) t.id (by simp) e
            simp only [if_neg hut]
            exact h2 u hu
          · rw [List.mem_singleton] at hu
            subst hu
            simp only [if_true]
            cases hm : u.marks with
            | some s => rfl
            | none => exact htn
        · rw [List.length_append, h3, hcount, if_pos rfl]
          have : (q v).length = dw.length + (r.length + 1) := by rw [h1, hq]; simp
          simp only [List.length_singleton]
          omega
      · refine ⟨done, ?_, ?_, ?_⟩
        · dsimp only; rw [if_neg hv]; exact g1
        · intro u hu
          have hut : u.id ≠ t.id := fun e => hv (hne v u (by rw [g1]; simp [hu]) e)
          simp only [if_neg hut]
          exact g2 u hu
        · rw [hcount, if_neg hv]; exact g3
    · dsimp only at hu ⊢
      have hu' : u ∈ c.queue v := by
        by_cases hv : v = w
        · subst hv; rw [if_pos rfl] at hu; rw [hq]; simp [hu]
        · rwa [if_neg hv] at hu
      have huq : u ∈ q v := by obtain ⟨done, g1, -, -⟩ := h.split v; rw [g1]; simp [hu']
      have hut : u.id ≠ t.id := by
        intro e
        have e2 := hne v u huq e
        subst e2
        rw [if_pos rfl] at hu
        have hn : ((q v).map (·.id)).Nodup := hd.1 v
        rw [h1, hq, List.map_append, List.map_cons, List.nodup_append, List.nodup_cons] at hn
        exact hn.2.1.1 (List.mem_map.2 ⟨u, hu, e⟩)
      simp only [if_neg hut]
      exact h.quiet v u hu'

theorem inv_run {q : Nat → List Task} (hd : Distinct q) (hx : ∀ w, ∀ t ∈ q w, t.fin ≠ .throwsOther) (sched : List Nat) : Inv q sched (run { queue := q } sched) := by
  have : ∀ (l pre : List Nat) (c : Ctrl), Inv q pre c → Inv q (pre ++ l) (l.foldl step c) := by
    intro l
    induction l with
    | nil => intro pre c h; simpa using h
    | cons w l ih =>
      intro pre c h
      have := ih (pre ++ [w]) (step c w) (inv_step hd hx h w)
      simpa using this
  have h0 : Inv q [] { queue := q } := ⟨rfl, fun w => ⟨[], by simp, by simp, by simp⟩, fun _ _ _ => rfl⟩
  have := this sched [] _ h0
  rw [List.nil_append] at this
  exact this

/-- **C99 (others).** For every number of workers, tasks and schedules, whatever the handlers mark and whatever standard exceptions they throw: the controller goes on, the tasks of every worker are executed in
order, and each task shows what its own handler marked, or nothing if it marked nothing. Missing: what is not marked (`C99_violated_silent`), other exceptions (`C99_violated_other`). -/
theorem C99_others_partial {q : Nat → List Task} (hd : Distinct q) (hx : ∀ w, ∀ t ∈ q w, t.fin ≠ .throwsOther) (sched : List Nat) :
    (run { queue := q } sched).alive = true ∧ ∀ w, ∃ done, q w = done ++ (run { queue := q } sched).queue w ∧ done.length = min (sched.count w) (q w).length ∧
      ∀ t ∈ done, (run { queue := q } sched).shown t.id = t.marks :=
  let i := inv_run hd hx sched
  ⟨i.alive, fun w => let ⟨done, h1, h2, h3⟩ := i.split w; ⟨done, h1, h3, h2⟩⟩

/-- **C99 for well-written handlers**: the whole property. -/
theorem C99_isolated_partial {q : Nat → List Task} (hd : Distinct q) (hw : ∀ w, ∀ t ∈ q w, WellWritten t) (sched : List Nat) : Isolated q sched := by
  have i := inv_run hd (fun w t ht => (hw w t ht).2) sched
  refine ⟨i.alive, fun w => ?_⟩
  obtain ⟨done, h1, h2, h3⟩ := i.split w
  refine ⟨done, h1, fun t ht => ?_, i.quiet w, h3⟩
  rw [h2 t ht]
  exact (hw w t (by rw [h1]; simp [ht])).1

/-- Two workers; the first has a task that fails with an exception after marking itself, between two good ones. (No code of its own.) -/
def demo : Nat → List Task
  | 0 => [⟨0, some .completed, .returns .completed⟩, ⟨1, some .failed, .throwsStd⟩, ⟨2, some .completed, .returns .completed⟩]
  | 1 => [⟨3, some .completed, .returns .completed⟩]
  | _ => []

/-- Non-vacuity. -/
example : Distinct demo ∧ (∀ w, ∀ t ∈ demo w, WellWritten t) ∧ (List.range 4).map (run { queue := demo } [0, 0, 1, 0]).shown = [some .completed, some .failed, some .completed, some .completed] := by
  refine ⟨⟨?_, ?_⟩, ?_, by decide⟩
  · intro w
    match w with
    | 0 => decide
    | 1 => decide
    | n + 2 => simp [demo]
  · intro v w hvw t ht u hu
    match v, w with
    | 0, 0 => exact absurd rfl hvw
    | 0, 1 => simp [demo] at ht hu; rcases ht with rfl | rfl | rfl <;> subst hu <;> decide
    | 1, 0 => simp [demo] at ht hu; rcases hu with rfl | rfl | rfl <;> subst ht <;> decide
    | 1, 1 => exact absurd rfl hvw
    | n + 2, _ => simp [demo] at ht
    | 0, n + 2 => simp [demo] at hu
    | 1, n + 2 => simp [demo] at hu
  · intro w t ht
    match w with
    | 0 => simp [demo] at ht; rcases ht with rfl | rfl | rfl <;> exact ⟨rfl, by decide⟩
    | 1 => simp [demo] at ht; subst ht; exact ⟨rfl, by decide⟩
    | n + 2 => simp [demo] at ht

/-! ## What does not hold -/

/-- **C99 fails (silence).** A handler that throws before it marks its task (as the example library does for a wrong magic number, noop.cpp:72-75), or that returns `task_failed` without marking it, leaves its client waiting for
ever: whatever is scheduled later, the task never shows a state. -/
theorem C99_violated_silent (t : Task) (q : Nat → List Task) (hq : ∀ w, ∀ u ∈ q w, u.id = t.id → u.marks = none) (sched : List Nat) :
    (run { queue := q } sched).shown t.id = none := by
  have : ∀ (l : List Nat) (c : Ctrl), c.shown t.id = none → (∀ w, ∀ u ∈ c.queue w, u.id = t.id → u.marks = none) → (l.foldl step c).shown t.id = none := by
    intro l
    induction l with
    | nil => intro c h _; exact h
    | cons w l ih =>
      intro c h hc
      rw [List.foldl_cons]
      unfold step
      by_cases ha : c.alive = true
      · rw [if_pos ha]
        cases hw : c.queue w with
        | nil => exact ih c h hc
        | cons u r =>
          dsimp only
          refine ih _ ?_ ?_
          · dsimp only
            by_cases hu : t.id = u.id
            · rw [if_pos hu, hc w u (by rw [hw]; simp) hu.symm]; exact h
            · rw [if_neg hu]; exact h
          · intro v x hx e
            dsimp only at hx
            by_cases hv : v = w
            · rw [if_pos hv] at hx; exact hc w x (by rw [hw]; simp [hx]) e
            · rw [if_neg hv] at hx; exact hc v x hx e
      · rw [if_neg ha]; exact ih c h hc
  exact this sched _ rfl hq

/-- The hypotheses are met by both kinds of handler, and the property fails for them. -/
theorem C99_violated_silent_witness : ¬ Isolated (fun w => if w = 0 then [⟨0, none, .throwsStd⟩] else []) [0] ∧ ¬ Isolated (fun w => if w = 0 then [⟨0, none, .returns .failed⟩] else []) [0] := by
  constructor
  · rintro ⟨-, h⟩
    obtain ⟨done, h1, h2, -, h4⟩ := h 0
    have hd : done = [⟨0, none, .throwsStd⟩] := by simpa [run, step] using h1.symm
    have := h2 ⟨0, none, .throwsStd⟩ (by rw [hd]; simp)
    revert this; decide
  · rintro ⟨-, h⟩
    obtain ⟨done, h1, h2, -, h4⟩ := h 0
    have hd : done = [⟨0, none, .returns .failed⟩] := by simpa [run, step] using h1.symm
    have := h2 ⟨0, none, .returns .failed⟩ (by rw [hd]; simp)
    revert this; decide

/-- **C99 fails (other exceptions).** A handler that throws something else ends the controller: nothing that was in a queue, of any worker, is executed after it. -/
theorem C99_violated_other (q : Nat → List Task) (w : Nat) (t : Task) (r : List Task) (hw : q w = t :: r) (ht : t.fin = .throwsOther) (sched : List Nat) :
    run { queue := q } (w :: sched) = run { queue := q } [w] ∧ (run { queue := q } [w]).alive = false := by
  have hdead : (step { queue := q } w).alive = false := by
    unfold step
    simp only [if_true, hw, ht]
  have hstay : ∀ (l : List Nat) (c : Ctrl), c.alive = false → l.foldl step c = c := by
    intro l
    induction l with
    | nil => intro c _; rfl
    | cons v l ih =>
      intro c hc
      rw [List.foldl_cons, show step c v = c by unfold step; rw [hc]; rfl]
      exact ih c hc
  refine ⟨?_, hdead⟩
  show sched.foldl step (step { queue := q } w) = step { queue := q } w
  exact hstay _ _ hdead

end Arax.Faults
