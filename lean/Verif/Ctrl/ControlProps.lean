import Verif.Ctrl.Control
import Verif.Live.LeadsTo
/-!
# C70: starting, pausing, resuming and stopping the workers
-/
namespace Arax.Control

open Arax.Live (upd run Fair LeadsTo run_keeps run_shift fair_shift)

theorem upd_same {α : Type} (f : Nat → α) (i : Nat) (x : α) : upd f i x i = x := by simp [upd]
theorem upd_other {α : Type} (f : Nat → α) {i j : Nat} (x : α) (h : j ≠ i) : upd f i x j = f j := by simp [upd, h]

variable {np n : Nat} {initOk : Nat → Bool} {dur : Nat → Nat}

/-! ## Specification -/

/-- A call of setJobPreference for worker `p` is in progress in this thread. -/
def Pol.on (p : Nat) : Pol → Bool
  | .idle => false
  | .write q _ => q == p
  | .mutex q _ => q == p

/-- A call that asks for NoJob is in progress in this thread. -/
def Pol.pausing : Pol → Bool
  | .idle => false
  | .write _ b => b
  | .mutex _ b => b

/-- The step is a call of setJobPreference for worker `p`. -/
def Act.sets (p : Nat) : Act → Bool
  | .setPref _ q _ => q == p
  | _ => false

/-- The step asks some worker to pause. -/
def Act.pauses : Act → Bool
  | .setPref _ _ b => b
  | _ => false

/-- The main thread has joined all workers. -/
def Joined : Main → Bool
  | .dereg _ | .done => true
  | _ => false

/-- No SIGINT and no request to pause. -/
def Calm (np n : Nat) (a : Act) : Prop := a.below np n ∧ a ≠ .sigint ∧ a.pauses = false

/-! ## Safety for every history -/

section safety

/-- How many more tasks a stopped worker may execute. -/
def quota : Wk → Nat
  | .chk | .lock | .wait | .sel | .run _ _ => 1
  | .setup => 0
  | _ => 0

theorem step_crashed {s : St} (h : s.crashed = true) (a : Act) : step np initOk dur s a = s := by simp [step, h]

theorem work_other {s : St} {p q : Nat} (hint : Nat) (h : q ≠ p) :
    (workStep initOk dur s p hint).wk q = s.wk q ∧ (workStep initOk dur s p hint).fin q = s.fin q ∧ (workStep initOk dur s p hint).mtx q = s.mtx q ∧
    (workStep initOk dur s p hint).tokens q = s.tokens q ∧ (workStep initOk dur s p hint).queue q = s.queue q ∧ (workStep initOk dur s p hint).alive q = s.alive q ∧
    (workStep initOk dur s p hint).ready q = s.ready q := by
  unfold workStep
  repeat' split
  all_goals simp_all [upd]

theorem work_frame (s : St) (p hint : Nat) :
    (workStep initOk dur s p hint).stop = s.stop ∧ (workStep initOk dur s p hint).noJob = s.noJob ∧ (workStep initOk dur s p hint).main = s.main ∧
    (workStep initOk dur s p hint).pol = s.pol ∧ (workStep initOk dur s p hint).sig = s.sig ∧ (workStep initOk dur s p hint).crashed = s.crashed := by
  unfold workStep
  repeat' split
  all_goals simp

theorem stop_step {s : St} {p : Nat} (h : s.stop p = true) (a : Act) :
    (step np initOk dur s a).stop p = true ∧ ((step np initOk dur s a).fin p).length + quota ((step np initOk dur s a).wk p) ≤ (s.fin p).length + quota (s.wk p) := by
  unfold step
  split
  · exact ⟨h, Nat.le_refl _⟩
  cases a with
  | main =>
    simp only [mainStep]
    repeat' split
    all_goals (refine ⟨?_, ?_⟩ <;> (try simp only [upd]) <;> (try split) <;> simp_all [quota])
  | work q hint =>
    by_cases e : q = p
    · subst e
      simp only [workStep]
      repeat' split
      all_goals simp_all [quota, upd]
    · obtain ⟨h1, h2, -⟩ := work_other (initOk := initOk) (dur := dur) (s := s) hint (Ne.symm e)
      obtain ⟨h3, -⟩ := work_frame (initOk := initOk) (dur := dur) s q hint
      simp only [h1, h2, h3]
      exact ⟨h, Nat.le_refl _⟩
  | setPref i q nj => simp only; split <;> exact ⟨h, Nat.le_refl _⟩
  | pol i => simp only [polStep]; split <;> exact ⟨h, Nat.le_refl _⟩
  | issue q t => simp only; split <;> exact ⟨h, Nat.le_refl _⟩
  | assign q ts => simp only; (repeat' split) <;> exact ⟨h, Nat.le_refl _⟩
  | sigint => simp only; split <;> exact ⟨h, Nat.le_refl _⟩

theorem stop_exec {p : Nat} : ∀ (h : List Act) {s : St}, s.stop p = true →
    (exec np initOk dur s h).stop p = true ∧ ((exec np initOk dur s h).fin p).length + quota ((exec np initOk dur s h).wk p) ≤ (s.fin p).length + quota (s.wk p)
  | [], s, hs => ⟨hs, Nat.le_refl _⟩
  | a :: h, s, hs => by
    have h1 := stop_step (np := np) (initOk := initOk) (dur := dur) hs a
    have h2 := stop_exec h (s := step np initOk dur s a) h1.1
    exact ⟨h2.1, Nat.le_trans h2.2 h1.2⟩

theorem quota_le (w : Wk) : quota w ≤ 1 := by cases w <;> simp [quota]

/-- **C70** (stop): whatever the state and whatever happens afterwards, a worker whose stop flag is set executes at most one more task (counting the one it is executing). -/
theorem C70_stop_bound (s : St) (p : Nat) (hs : s.stop p = true) (h : List Act) :
    ((exec np initOk dur s h).fin p).length ≤ (s.fin p).length + 1 := by
  have h1 := (stop_exec (np := np) (initOk := initOk) (dur := dur) h hs).2
  have h2 := quota_le (s.wk p)
  omega

/-- The phase after startup is never left, and a worker that has ended then executes nothing more. -/
theorem ended_step {s : St} {p : Nat} (h : s.wk p = .ended) (hm : balancing s.main = true) (a : Act) :
    (step np initOk dur s a).wk p = .ended ∧ balancing (step np initOk dur s a).main = true ∧ (step np initOk dur s a).fin p = s.fin p := by
  unfold step
  split
  · exact ⟨h, hm, rfl⟩
  cases a with
  | main =>
    simp only [mainStep]
    repeat' split
    all_goals simp_all [balancing]
  | work q hint =>
    obtain ⟨-, -, h3, -⟩ := work_frame (initOk := initOk) (dur := dur) s q hint
    by_cases e : q = p
    · subst e; simp only [workStep, h]; exact ⟨trivial, hm, trivial⟩
    · obtain ⟨h1, h2, -⟩ := work_other (initOk := initOk) (dur := dur) (s := s) hint (Ne.symm e)
      exact ⟨h1.trans h, by simpa only [h3] using hm, h2⟩
  | setPref i q nj => simp only; split <;> exact ⟨h, hm, rfl⟩
  | pol i => simp only [polStep]; split <;> exact ⟨h, hm, rfl⟩
  | issue q t => simp only; split <;> exact ⟨h, hm, rfl⟩
  | assign q ts => simp only; (repeat' split) <;> exact ⟨h, hm, rfl⟩
  | sigint => simp only; split <;> exact ⟨h, hm, rfl⟩

theorem ended_exec {p : Nat} : ∀ (h : List Act) {s : St}, s.wk p = .ended → balancing s.main = true → (exec np initOk dur s h).fin p = s.fin p
  | [], s, _, _ => rfl
  | a :: h, s, hs, hm => by
    obtain ⟨h1, h2, h3⟩ := ended_step (np := np) (initOk := initOk) (dur := dur) hs hm a
    exact (ended_exec h (s := step np initOk dur s a) h1 h2).trans h3

/-- What holds when the main thread is about to leave, or has left, the joins. -/
def JoinInv (np : Nat) (s : St) : Prop :=
  (∀ q, s.main = .join q → ∀ p, p < q → p < np → s.wk p = .ended ∨ s.wk p = .failed) ∧ (Joined s.main = true → ∀ p, p < np → s.wk p = .ended ∨ s.wk p = .failed)

theorem work_gone {s : St} {p q hint : Nat} (h : s.wk p = .ended ∨ s.wk p = .failed) :
    (workStep initOk dur s q hint).wk p = .ended ∨ (workStep initOk dur s q hint).wk p = .failed := by
  by_cases e : q = p
  · subst e
    rcases h with h | h <;> simp [workStep, h]
  · rw [(work_other hint (Ne.symm e)).1]; exact h

theorem joinInv_step {s : St} (hi : JoinInv np s) (a : Act) : JoinInv np (step np initOk dur s a) := by
  unfold step
  split
  · exact hi
  cases a with
  | main =>
    simp only [mainStep]
    cases hm : s.main with
    | join q =>
      simp only
      split
      · rename_i hq
        split
        · rename_i hw
          refine ⟨fun q' e p hp hn => ?_, fun e => by cases e⟩
          cases e
          by_cases e : p = q
          · exact e ▸ hw
          · exact hi.1 q hm p (by omega) hn
        · exact hi
      · exact ⟨(fun q' e => by cases e), fun _ p hp => hi.1 q hm p (by omega) hp⟩
    | dereg q =>
      simp only
      have := hi.2 (by rw [hm]; rfl)
      split <;> exact ⟨(fun q' e => by cases e), fun _ => this⟩
    | done => exact hi
    | await q =>
      simp only
      split
      · exact ⟨(fun q' e => by cases e), fun e => by cases e⟩
      · exact hi
    | serving =>
      simp only
      split
      · exact ⟨(fun q' e => by cases e), fun e => by cases e⟩
      · exact hi
    | spawn q => simp only; split <;> exact ⟨(fun q' e => by cases e), fun e => by cases e⟩
    | term q st =>
      match st with
      | 0 =>
        simp only; split
        · exact ⟨(fun q' e => by cases e), fun e => by cases e⟩
        · exact ⟨(fun q' e p hp => by cases e; omega), fun e => by cases e⟩
      | 1 => exact ⟨(fun q' e => by cases e), fun e => by cases e⟩
      | 2 => exact ⟨(fun q' e => by cases e), fun e => by cases e⟩
      | st + 3 => exact ⟨(fun q' e => by cases e), fun e => by cases e⟩
  | work q hint =>
    obtain ⟨-, -, h3, -⟩ := work_frame (initOk := initOk) (dur := dur) s q hint
    show JoinInv np (workStep initOk dur s q hint)
    unfold JoinInv
    rw [h3]
    exact ⟨fun q' e p hp hn => work_gone (hi.1 q' e p hp hn), fun e p hn => work_gone (hi.2 e p hn)⟩
  | setPref i q nj => simp only; split <;> exact hi
  | pol i => simp only [polStep]; split <;> exact hi
  | issue q t => simp only; split <;> exact hi
  | assign q ts => simp only; (repeat' split) <;> exact hi
  | sigint => simp only; split <;> exact hi

theorem joinInv_exec : ∀ (h : List Act) {s : St}, JoinInv np s → JoinInv np (exec np initOk dur s h)
  | [], _, hi => hi
  | a :: h, s, hi => joinInv_exec h (s := step np initOk dur s a) (joinInv_step hi a)

/-- **C70** (release): in every history, when the main thread releases the accelerators (after the joins) no worker thread is running any more. -/
theorem C70_release_after_end (pref : Nat → Bool) (h : List Act) (hj : Joined (exec np initOk dur (init pref) h).main = true) (p : Nat) (hp : p < np) :
    (exec np initOk dur (init pref) h).wk p = .ended ∨ (exec np initOk dur (init pref) h).wk p = .failed :=
  (joinInv_exec h (s := init pref) ⟨(fun q e => by cases e), fun e => by cases e⟩).2 hj p hp

/-! ## Pause and resume -/

/-- Before the signal is seen. -/
def Early : Main → Bool
  | .spawn _ | .await _ | .serving => true
  | _ => false

theorem early_step {s : St} (h : s.sig = false ∧ Early s.main = true) {a : Act} (ha : a ≠ .sigint) :
    (step np initOk dur s a).sig = false ∧ Early (step np initOk dur s a).main = true := by
  unfold step
  split
  · exact h
  cases a with
  | main =>
    simp only [mainStep]
    repeat' split
    all_goals simp_all [Early]
  | work q hint =>
    obtain ⟨-, -, h3, -, h5, -⟩ := work_frame (initOk := initOk) (dur := dur) s q hint
    simpa only [h3, h5] using h
  | setPref i q nj => simp only; split <;> exact h
  | pol i => simp only [polStep]; split <;> exact h
  | issue q t => simp only; split <;> exact h
  | assign q ts => simp only; (repeat' split) <;> exact h
  | sigint => exact absurd rfl ha

theorem early_exec : ∀ (h : List Act) {s : St}, (s.sig = false ∧ Early s.main = true) → (∀ a ∈ h, a ≠ Act.sigint) →
    (exec np initOk dur s h).sig = false ∧ Early (exec np initOk dur s h).main = true
  | [], _, hs, _ => hs
  | a :: h, s, hs, ha => early_exec h (s := step np initOk dur s a) (early_step hs (ha a (List.mem_cons_self ..))) fun b hb => ha b (List.mem_cons_of_mem _ hb)

/-- What holds once the effect of the call is there: paused (`b`) or not. -/
def Effect (p : Nat) (b : Bool) (s : St) : Prop := s.noJob p = b ∧ (if b = true then s.mtx p = true else s.wk p = .lock → s.mtx p = false)

/-- A single call `setJobPreference(p, b)` by thread `i`: where it is. -/
structure Call (i p : Nat) (b : Bool) (s : St) : Prop where
  early : s.sig = false ∧ Early s.main = true
  alone : ∀ j, j ≠ i → (s.pol j).on p = false
  phase : s.pol i = .write p b ∨ (s.pol i = .mutex p b ∧ s.noJob p = b) ∨ ((s.pol i).on p = false ∧ Effect p b s)

theorem effect_work {s : St} {p q hint : Nat} {b : Bool} (h : Effect p b s) : Effect p b (workStep initOk dur s q hint) := by
  obtain ⟨-, h2, -⟩ := work_frame (initOk := initOk) (dur := dur) s q hint
  unfold Effect at *
  rw [h2]
  refine ⟨h.1, ?_⟩
  by_cases e : q = p
  · subst e
    cases b with
    | true =>
      have hm : s.mtx q = true := h.2
      show (workStep initOk dur s q hint).mtx q = true
      unfold workStep
      repeat' split
      all_goals simp_all [upd]
    | false =>
      have hm : s.wk q = .lock → s.mtx q = false := h.2
      have hn := h.1
      show (workStep initOk dur s q hint).wk q = .lock → (workStep initOk dur s q hint).mtx q = false
      unfold workStep
      repeat' split
      all_goals (try simp_all [upd])
      all_goals (split <;> simp)
  · obtain ⟨h1, -, h3, -⟩ := work_other (initOk := initOk) (dur := dur) (s := s) hint (Ne.symm e)
    rw [h1, h3]; exact h.2

theorem effect_main {s : St} {p : Nat} {b : Bool} (he : s.sig = false ∧ Early s.main = true) (h : Effect p b s) : Effect p b (mainStep np s) := by
  unfold Effect at *
  simp only [mainStep]
  cases hm : s.main with
  | spawn q =>
    simp only
    split
    · refine ⟨h.1, ?_⟩
      cases b with
      | true => exact h.2
      | false =>
        show upd s.wk q .setup p = .lock → s.mtx p = false
        by_cases e : p = q
        · subst e; rw [upd_same]; intro x; cases x
        · rw [upd_other _ _ e]; exact h.2
    · exact h
  | await q => simp only; split <;> exact h
  | serving => simp only [he.1]; exact h
  | term q st => rw [hm] at he; cases he.2
  | join q => rw [hm] at he; cases he.2
  | dereg q => rw [hm] at he; cases he.2
  | done => rw [hm] at he; cases he.2

theorem main_frame {s : St} (he : s.sig = false ∧ Early s.main = true) : (mainStep np s).pol = s.pol ∧ (mainStep np s).noJob = s.noJob ∧ (mainStep np s).fin = s.fin ∧
    (mainStep np s).queue = s.queue ∧ (mainStep np s).tokens = s.tokens := by
  simp only [mainStep]
  cases hm : s.main with
  | spawn q => simp only; split <;> simp
  | await q => simp only; split <;> simp
  | serving => simp only [he.1]; simp
  | term q st => rw [hm] at he; cases he.2
  | join q => rw [hm] at he; cases he.2
  | dereg q => rw [hm] at he; cases he.2
  | done => rw [hm] at he; cases he.2

theorem on_false_pol {s : St} {p j : Nat} {x : Pol} (i : Nat) (hx : x.on p = false) (h : (s.pol j).on p = false) : (upd s.pol i x j).on p = false := by
  by_cases e : j = i
  · subst e; rw [upd_same]; exact hx
  · rw [upd_other _ _ e]; exact h

/-- A thread that is in no call for `p` is in none after a step that begins none. -/
theorem on_step {s : St} {j p : Nat} (he : s.sig = false ∧ Early s.main = true) (h : (s.pol j).on p = false) {a : Act} (ha : a ≠ .sigint) (hs : a.sets p = false) :
    ((step np initOk dur s a).pol j).on p = false := by
  unfold step
  split
  · exact h
  cases a with
  | main => simp only [(main_frame (np := np) he).1]; exact h
  | work q hint => simp only [(work_frame (initOk := initOk) (dur := dur) s q hint).2.2.2.1]; exact h
  | setPref k q nj =>
    simp only; split
    · exact on_false_pol k (by simpa [Act.sets, Pol.on] using hs) h
    · exact h
  | pol k =>
    simp only [polStep]
    split
    · exact h
    · rename_i q nj hk
      by_cases e : j = k
      · subst e
        exact on_false_pol j (by rw [hk] at h; exact h) h
      · show (upd s.pol k _ j).on p = false
        rw [upd_other _ _ e]; exact h
    · exact on_false_pol k rfl h
  | issue q t => simp only; split <;> exact h
  | assign q ts => simp only; (repeat' split) <;> exact h
  | sigint => exact absurd rfl ha

theorem call_step {s : St} {i p : Nat} {b : Bool} (hc : Call i p b s) {a : Act} (ha : a ≠ .sigint) (hs : a.sets p = false) : Call i p b (step np initOk dur s a) := by
  have he := early_step (np := np) (initOk := initOk) (dur := dur) hc.early ha
  refine ⟨he, fun j hj => on_step hc.early (hc.alone j hj) ha hs, ?_⟩
  clear he
  unfold step
  · split
    · exact hc.phase
    cases a with
    | main =>
      obtain ⟨f1, f2, -⟩ := main_frame (np := np) hc.early
      simp only
      rw [f1, f2]
      rcases hc.phase with h | h | ⟨h1, h2⟩
      · exact Or.inl h
      · exact Or.inr (Or.inl h)
      · exact Or.inr (Or.inr ⟨h1, effect_main hc.early h2⟩)
    | work q hint =>
      obtain ⟨-, f2, -, f4, -⟩ := work_frame (initOk := initOk) (dur := dur) s q hint
      simp only
      rw [f2, f4]
      rcases hc.phase with h | h | ⟨h1, h2⟩
      · exact Or.inl h
      · exact Or.inr (Or.inl h)
      · exact Or.inr (Or.inr ⟨h1, effect_work h2⟩)
    | setPref k q nj =>
      simp only
      split
      · rename_i hk
        rcases hc.phase with h | h | ⟨h1, h2⟩
        · left
          show upd s.pol k _ i = _
          rw [upd_other _ _ (fun e => by subst e; rw [hk] at h; cases h)]; exact h
        · right; left
          refine ⟨?_, h.2⟩
          show upd s.pol k _ i = _
          rw [upd_other _ _ (fun e => by subst e; rw [hk] at h; cases h.1)]; exact h.1
        · right; right
          exact ⟨on_false_pol k (by simpa [Act.sets, Pol.on] using hs) h1, h2⟩
      · exact hc.phase
    | pol k =>
      simp only [polStep]
      by_cases e : k = i
      · subst e
        rcases hc.phase with h | ⟨h, h'⟩ | ⟨h1, h2⟩
        · simp only [h]
          right; left
          exact ⟨upd_same .., upd_same ..⟩
        · simp only [h]
          right; right
          refine ⟨by rw [upd_same]; rfl, ?_⟩
          show s.noJob p = b ∧ _
          refine ⟨h', ?_⟩
          cases b with
          | true => exact upd_same ..
          | false => exact fun _ => upd_same ..
        · right; right
          cases hk : s.pol k with
          | idle => simp only; exact ⟨h1, h2⟩
          | write q nj =>
            rw [hk] at h1
            have hq : p ≠ q := fun e => by subst e; simp [Pol.on] at h1
            refine ⟨by show (upd s.pol k _ k).on p = false; rw [upd_same]; exact h1, ?_⟩
            show (upd s.noJob q nj p = b) ∧ _
            rw [upd_other _ _ hq]; exact h2
          | mutex q nj =>
            rw [hk] at h1
            have hq : p ≠ q := fun e => by subst e; simp [Pol.on] at h1
            refine ⟨by show (upd s.pol k _ k).on p = false; rw [upd_same]; rfl, ?_⟩
            show (s.noJob p = b) ∧ (if b = true then upd s.mtx q nj p = true else s.wk p = .lock → upd s.mtx q nj p = false)
            rw [upd_other _ _ hq]; exact h2
      · have hk1 := hc.alone k e
        cases hk : s.pol k with
        | idle => simp only; exact hc.phase
        | write q nj =>
          rw [hk] at hk1
          have hq : p ≠ q := fun e => by subst e; simp [Pol.on] at hk1
          show (upd s.pol k _ i = _ ∨ (upd s.pol k _ i = _ ∧ upd s.noJob q nj p = b) ∨ ((upd s.pol k _ i).on p = false ∧ (upd s.noJob q nj p = b ∧ _)))
          rw [upd_other _ _ (Ne.symm e), upd_other _ _ hq]; exact hc.phase
        | mutex q nj =>
          rw [hk] at hk1
          have hq : p ≠ q := fun e => by subst e; simp [Pol.on] at hk1
          show (upd s.pol k _ i = _ ∨ (upd s.pol k _ i = _ ∧ s.noJob p = b) ∨ ((upd s.pol k _ i).on p = false ∧ (s.noJob p = b ∧ (if b = true then upd s.mtx q nj p = true else s.wk p = .lock → upd s.mtx q nj p = false))))
          rw [upd_other _ _ (Ne.symm e), upd_other _ _ hq]; exact hc.phase
    | issue q t => simp only; split <;> exact hc.phase
    | assign q ts => simp only; (repeat' split) <;> exact hc.phase
    | sigint => exact absurd rfl ha

theorem call_exec {i p : Nat} {b : Bool} : ∀ (h : List Act) {s : St}, Call i p b s → (∀ a ∈ h, a ≠ Act.sigint ∧ a.sets p = false) → Call i p b (exec np initOk dur s h)
  | [], _, hs, _ => hs
  | a :: h, s, hs, ha => call_exec h (s := step np initOk dur s a) (call_step hs (ha a (List.mem_cons_self ..)).1 (ha a (List.mem_cons_self ..)).2)
      fun b hb => ha b (List.mem_cons_of_mem _ hb)

/-- How many more tasks a paused worker may execute. -/
def quotaPaused : Wk → Nat
  | .wait | .sel | .run _ _ => 1
  | _ => 0

theorem pause_step {s : St} {i p : Nat} (hc : Call i p true s) (hn : (s.pol i).on p = false) {a : Act} (ha : a ≠ .sigint) (hs : a.sets p = false) :
    ((step np initOk dur s a).pol i).on p = false ∧
    ((step np initOk dur s a).fin p).length + quotaPaused ((step np initOk dur s a).wk p) ≤ (s.fin p).length + quotaPaused (s.wk p) := by
  have heff : s.noJob p = true ∧ s.mtx p = true := by
    rcases hc.phase with h | h | h
    · rw [h] at hn; simp [Pol.on] at hn
    · rw [h.1] at hn; simp [Pol.on] at hn
    · exact ⟨h.2.1, h.2.2⟩
  refine ⟨on_step hc.early hn ha hs, ?_⟩
  · unfold step
    split
    · exact Nat.le_refl _
    cases a with
    | main =>
      have he := hc.early
      simp only [mainStep]
      cases hm : s.main with
      | spawn q =>
        simp only
        split
        · by_cases e : p = q
          · subst e; simp only [upd_same, quotaPaused]; omega
          · simp only [upd_other _ _ e]; exact Nat.le_refl _
        · exact Nat.le_refl _
      | await q => simp only; split <;> exact Nat.le_refl _
      | serving => simp only [he.1]; exact Nat.le_refl _
      | term q st => rw [hm] at he; cases he.2
      | join q => rw [hm] at he; cases he.2
      | dereg q => rw [hm] at he; cases he.2
      | done => rw [hm] at he; cases he.2
    | work q hint =>
      by_cases e : q = p
      · subst e
        simp only [workStep]
        repeat' split
        all_goals (try simp_all [quotaPaused, upd])
        all_goals (repeat' split) <;> simp_all
      · obtain ⟨h1, h2, -⟩ := work_other (initOk := initOk) (dur := dur) (s := s) hint (Ne.symm e)
        simp only [h1, h2]
        exact Nat.le_refl _
    | setPref k q nj => simp only; split <;> exact Nat.le_refl _
    | pol k => simp only [polStep]; split <;> exact Nat.le_refl _
    | issue q t => simp only; split <;> exact Nat.le_refl _
    | assign q ts => simp only; (repeat' split) <;> exact Nat.le_refl _
    | sigint => exact absurd rfl ha

theorem pause_exec {i p : Nat} : ∀ (h : List Act) {s : St}, Call i p true s → (s.pol i).on p = false → (∀ a ∈ h, a ≠ Act.sigint ∧ a.sets p = false) →
    ((exec np initOk dur s h).fin p).length + quotaPaused ((exec np initOk dur s h).wk p) ≤ (s.fin p).length + quotaPaused (s.wk p)
  | [], _, _, _, _ => Nat.le_refl _
  | a :: h, s, hs, hn, ha => by
    have h0 := ha a (List.mem_cons_self ..)
    obtain ⟨h1, h2⟩ := pause_step (np := np) (initOk := initOk) (dur := dur) hs hn h0.1 h0.2
    exact Nat.le_trans (pause_exec h (s := step np initOk dur s a) (call_step hs h0.1 h0.2) h1 fun b hb => ha b (List.mem_cons_of_mem _ hb)) h2

theorem call_begin {s : St} {i p : Nat} {b : Bool} (he : s.sig = false ∧ Early s.main = true) (hc : s.crashed = false) (hi : s.pol i = .idle) (hn : ∀ j, (s.pol j).on p = false) :
    Call i p b (step np initOk dur s (.setPref i p b)) := by
  have : step np initOk dur s (.setPref i p b) = { s with pol := upd s.pol i (.write p b) } := by simp [step, hc, hi]
  rw [this]
  refine ⟨he, fun j hj => ?_, Or.inl (upd_same ..)⟩
  show (upd s.pol i _ j).on p = false
  rw [upd_other _ _ hj]; exact hn j

/-- **C70** (pause): thread `i` asks for NoJob while nobody else changes the preference of worker `p`. Whatever else has happened before (`h0`), happens during the call
(`h1`) and after it has returned (`h2`): after the return the worker executes at most one more task until the preference is changed again. -/
theorem C70_pause_partial (pref : Nat → Bool) (i p : Nat) (h0 h1 h2 : List Act) (hsig : ∀ a ∈ h0 ++ h1 ++ h2, a ≠ Act.sigint) (hset : ∀ a ∈ h1 ++ h2, a.sets p = false)
    (hok : (exec np initOk dur (init pref) h0).crashed = false)
    (hidle : (exec np initOk dur (init pref) h0).pol i = .idle) (hnone : ∀ j, ((exec np initOk dur (init pref) h0).pol j).on p = false)
    (hret : ((exec np initOk dur (init pref) (h0 ++ .setPref i p true :: h1)).pol i).on p = false) :
    ((exec np initOk dur (init pref) (h0 ++ .setPref i p true :: h1 ++ h2)).fin p).length ≤ ((exec np initOk dur (init pref) (h0 ++ .setPref i p true :: h1)).fin p).length + 1 := by
  have he := early_exec (np := np) (initOk := initOk) (dur := dur) h0 (s := init pref) ⟨rfl, rfl⟩ (fun a ha => hsig a (by simp [ha]))
  have hb := call_begin (np := np) (initOk := initOk) (dur := dur) (b := true) he hok hidle hnone
  have hc := call_exec (np := np) (initOk := initOk) (dur := dur) h1 hb (fun a ha => ⟨hsig a (by simp [ha]), hset a (by simp [ha])⟩)
  have e1 : exec np initOk dur (init pref) (h0 ++ .setPref i p true :: h1) = exec np initOk dur (step np initOk dur (exec np initOk dur (init pref) h0) (.setPref i p true)) h1 := by
    simp [exec, List.foldl_append]
  have e2 : exec np initOk dur (init pref) (h0 ++ .setPref i p true :: h1 ++ h2) = exec np initOk dur (exec np initOk dur (init pref) (h0 ++ .setPref i p true :: h1)) h2 := by
    simp [exec, List.foldl_append]
  rw [← e1] at hc
  rw [e2]
  have := pause_exec (np := np) (initOk := initOk) (dur := dur) h2 hc hret (fun a ha => ⟨hsig a (by simp [ha]), hset a (by simp [ha])⟩)
  have hq : quotaPaused ((exec np initOk dur (init pref) (h0 ++ .setPref i p true :: h1)).wk p) ≤ 1 := by
    cases (exec np initOk dur (init pref) (h0 ++ .setPref i p true :: h1)).wk p <;> simp [quotaPaused]
  omega

/-! ## Startup -/

/-- Workers known to be ready. -/
def upto (np : Nat) : Main → Nat
  | .spawn q | .await q => q
  | _ => np

/-- Workers that may have been started. -/
def bound (np : Nat) : Main → Nat
  | .spawn q => q
  | .await q => q + 1
  | _ => np

/-- What holds in every history whose workers' initialisations succeed, until the accelerators are released. -/
structure Base (np : Nat) (s : St) : Prop where
  ok : s.crashed = false
  rdy : ∀ p, p < np → p < upto np s.main → s.ready p = true
  born : ∀ p, s.ready p = true → s.wk p ≠ .unborn ∧ s.wk p ≠ .setup ∧ s.wk p ≠ .failed
  cur : ∀ q, s.main = .await q → q < np ∧ (s.ready q = true ∨ s.wk q = .setup)
  bnd : ∀ p, s.wk p ≠ .unborn → p < np ∧ p < bound np s.main
  al : Joined s.main = false → ∀ p, s.ready p = true → s.alive p = true
  al' : ∀ p, s.alive p = true → s.ready p = true
  que : ∀ p, s.queue p ≠ [] → s.ready p = true
  tok : ∀ p, (s.queue p).length ≤ s.tokens p + (if s.wk p = .sel then 1 else 0)

theorem base_init (pref : Nat → Bool) : Base np (init pref) := by
  refine ⟨rfl, ?_, ?_, ?_, ?_, ?_, ?_, ?_, ?_⟩ <;> simp [init, upto]

/-- What a worker's step does to its own fields. -/
theorem work_self (hI : initOk p = true) (s : St) (hint : Nat) :
    let s' := workStep initOk dur s p hint
    (s.ready p = true → s'.ready p = true) ∧ (s'.ready p = true → s.ready p = true ∨ s.wk p = .setup) ∧
    (s'.ready p = s.ready p ∧ s'.alive p = s.alive p ∨ s.wk p = .setup ∧ s'.ready p = true ∧ s'.alive p = true ∧ s'.wk p = .top) ∧
    (s.wk p ≠ .unborn → s'.wk p ≠ .unborn) ∧ (s.wk p = .unborn → s'.wk p = .unborn) ∧ (s.wk p ≠ .setup → s.wk p ≠ .failed → s'.wk p ≠ .setup ∧ s'.wk p ≠ .failed) ∧
    (s'.queue p ≠ [] → s.queue p ≠ []) ∧
    ((s.queue p).length ≤ s.tokens p + (if s.wk p = .sel then 1 else 0) → (s'.queue p).length ≤ s'.tokens p + (if s'.wk p = .sel then 1 else 0)) := by
  intro s'
  have : s' = workStep initOk dur s p hint := rfl
  unfold workStep at this
  cases hw : s.wk p with
  | sel =>
    simp only [hw] at this
    cases hq : (s.queue p)[hint % (s.queue p).length]? with
    | none =>
      simp only [hq] at this
      have hnil : s.queue p = [] := by
        rw [List.getElem?_eq_none_iff] at hq
        cases hl : s.queue p with
        | nil => rfl
        | cons x r => rw [hl] at hq; have := Nat.mod_lt hint (show 0 < (x :: r).length by simp); omega
      rw [this]; simp [upd, hnil]
    | some t =>
      simp only [hq] at this
      have hne : s.queue p ≠ [] := by intro h; rw [h] at hq; simp at hq
      have hlt : hint % (s.queue p).length < (s.queue p).length := Nat.mod_lt _ (List.length_pos_iff.mpr hne)
      rw [this]; simp [upd, List.length_eraseIdx, hlt, hne]
  | run t k => cases k <;> (simp only [hw] at this; rw [this]; simp [upd])
  | wait =>
    simp only [hw] at this
    by_cases e : s.tokens p = 0
    · rw [if_pos e] at this; rw [this]; simp [hw]
    · rw [if_neg e] at this; rw [this]; simp [upd]; omega
  | lock =>
    simp only [hw] at this
    by_cases e : s.mtx p = true
    · rw [if_pos e] at this; rw [this]; simp [hw]
    · rw [if_neg e] at this; rw [this]; simp [upd]
  | setup => simp only [hw, hI] at this; rw [this]; simp [upd]
  | top => simp only [hw] at this; rw [this]; cases s.stop p <;> simp [upd]
  | chk => simp only [hw] at this; rw [this]; cases s.noJob p <;> simp [upd]
  | unborn => simp only [hw] at this; rw [this]; simp [hw]
  | failed => simp only [hw] at this; rw [this]; simp [hw]
  | ended => simp only [hw] at this; rw [this]; simp [hw]

theorem base_work {s : St} (hI : ∀ p, p < np → initOk p = true) (hb : Base np s) {p : Nat} (hp : p < np) (hint : Nat) : Base np (workStep initOk dur s p hint) := by
  obtain ⟨f1, f2, f3, f4, f5, f6⟩ := work_frame (initOk := initOk) (dur := dur) s p hint
  obtain ⟨w1, w2, w3, w4, w5, w6, w7, w8⟩ := work_self (dur := dur) (hI p hp) s hint
  have hoth := fun q (e : q ≠ p) => work_other (initOk := initOk) (dur := dur) (s := s) hint e
  refine ⟨by rw [f6]; exact hb.ok, ?_, ?_, ?_, ?_, ?_, ?_, ?_, ?_⟩
  · rw [f3]; intro q h1 h2
    have := hb.rdy q h1 h2
    by_cases e : q = p
    · subst e; exact w1 this
    · rw [(hoth q e).2.2.2.2.2.2]; exact this
  · intro q
    by_cases e : q = p
    · subst e
      intro h
      rcases w3 with ⟨h', -⟩ | ⟨h1, h2, h3, h4⟩
      · obtain ⟨a, b, c⟩ := hb.born q (h' ▸ h)
        exact ⟨w4 a, w6 b c⟩
      · rw [h4]; simp
    · rw [(hoth q e).2.2.2.2.2.2, (hoth q e).1]; exact hb.born q
  · rw [f3]; intro q h
    obtain ⟨h1, h2⟩ := hb.cur q h
    refine ⟨h1, ?_⟩
    by_cases e : q = p
    · subst e
      rcases w3 with ⟨h', -⟩ | ⟨-, h2, -⟩
      · rcases h2 with h2 | h2
        · exact Or.inl (w1 h2)
        · by_cases hr : s.ready q = true
          · exact Or.inl (w1 hr)
          · exfalso
            have := hI q hp
            apply hr
            rw [← h']
            simp [workStep, h2, this, upd]
      · exact Or.inl h2
    · rw [(hoth q e).2.2.2.2.2.2, (hoth q e).1]; exact h2
  · rw [f3]; intro q h
    by_cases e : q = p
    · subst e; exact hb.bnd q (fun h' => h (w5 h'))
    · rw [(hoth q e).1] at h; exact hb.bnd q h
  · rw [f3]; intro hj q
    by_cases e : q = p
    · subst e
      rcases w3 with ⟨h1, h2⟩ | ⟨h1, h2, h3, h4⟩
      · rw [h1, h2]; exact hb.al hj q
      · exact fun _ => h3
    · rw [(hoth q e).2.2.2.2.2.2, (hoth q e).2.2.2.2.2.1]; exact hb.al hj q
  · intro q
    by_cases e : q = p
    · subst e
      rcases w3 with ⟨h1, h2⟩ | ⟨h1, h2, h3, h4⟩
      · rw [h1, h2]; exact hb.al' q
      · exact fun _ => h2
    · rw [(hoth q e).2.2.2.2.2.2, (hoth q e).2.2.2.2.2.1]; exact hb.al' q
  · intro q
    by_cases e : q = p
    · subst e; exact fun h => w1 (hb.que q (w7 h))
    · rw [(hoth q e).2.2.2.2.2.2, (hoth q e).2.2.2.2.1]; exact hb.que q
  · intro q
    by_cases e : q = p
    · subst e; exact w8 (hb.tok q)
    · rw [(hoth q e).2.2.2.1, (hoth q e).2.2.2.2.1, (hoth q e).1]; exact hb.tok q

theorem base_main {s : St} (hb : Base np s) : Base np (mainStep np s) := by
  have hbnd : ∀ p, s.ready p = true → p < np ∧ p < bound np s.main := fun p h => hb.bnd p (hb.born p h).1
  simp only [mainStep]
  cases hm : s.main with
  | spawn q =>
    simp only
    split
    · rename_i hq
      have hu : s.wk q = .unborn := by
        apply Classical.byContradiction; intro h
        have := (hb.bnd q h).2; rw [hm] at this; simp [bound] at this
      have hnr : s.ready q = false := by
        cases h : s.ready q with
        | false => rfl
        | true => exact absurd hu (hb.born q h).1
      refine ⟨hb.ok, fun p h1 h2 => hb.rdy p h1 (by rw [hm]; exact h2), fun p h => ?_, ?_, fun p h => ?_, fun _ p h => hb.al (by rw [hm]; rfl) p h, hb.al', hb.que, fun p => ?_⟩
      · have e : p ≠ q := fun e => by subst e; rw [hnr] at h; cases h
        show upd s.wk q .setup p ≠ _ ∧ upd s.wk q .setup p ≠ _ ∧ upd s.wk q .setup p ≠ _
        rw [upd_other _ _ e]; exact hb.born p h
      · intro q' e
        cases e
        exact ⟨hq, Or.inr (upd_same ..)⟩
      · show p < np ∧ p < q + 1
        by_cases e : p = q
        · subst e; exact ⟨hq, by omega⟩
        · have := hb.bnd p (by simpa only [upd_other _ _ e] using h)
          rw [hm] at this
          exact ⟨this.1, by have := this.2; simp [bound] at this; omega⟩
      · show _ ≤ s.tokens p + (if upd s.wk q .setup p = .sel then 1 else 0)
        by_cases e : p = q
        · subst e
          have hqe : s.queue p = [] := by
            apply Classical.byContradiction; intro h
            rw [hb.que p h] at hnr; cases hnr
          rw [hqe]; simp
        · rw [upd_other _ _ e]; exact hb.tok p
    · rename_i hq
      refine ⟨hb.ok, fun p h1 _ => hb.rdy p h1 (by rw [hm]; simp [upto]; omega), hb.born, (fun q' e => by cases e), fun p h => ?_, fun _ p h => hb.al (by rw [hm]; rfl) p h, hb.al', hb.que, hb.tok⟩
      have := hb.bnd p h
      exact ⟨this.1, this.1⟩
  | await q =>
    simp only
    obtain ⟨hq, -⟩ := hb.cur q hm
    split
    · rename_i hr
      refine ⟨hb.ok, fun p h1 h2 => ?_, hb.born, (fun q' e => by cases e), fun p h => ?_, fun _ p h => hb.al (by rw [hm]; rfl) p h, hb.al', hb.que, hb.tok⟩
      · by_cases e : p = q
        · subst e; exact hr
        · exact hb.rdy p h1 (by rw [hm]; simp [upto] at h2 ⊢; omega)
      · have := hb.bnd p h
        rw [hm] at this
        exact this
    · exact hb
  | serving =>
    simp only
    split
    · exact ⟨hb.ok, fun p h1 h2 => hb.rdy p h1 (by rw [hm]; exact h2), hb.born, (fun q' e => by cases e), fun p h => by have := hb.bnd p h; rw [hm] at this; exact this, fun _ p h => hb.al (by rw [hm]; rfl) p h, hb.al', hb.que, hb.tok⟩
    · exact hb
  | term q st =>
    have hr : ∀ p, p < np → s.ready p = true := fun p h => hb.rdy p h (by rw [hm]; exact h)
    have ha : ∀ p, s.ready p = true → s.alive p = true := hb.al (by rw [hm]; rfl)
    have hn : ∀ p, s.wk p ≠ .unborn → p < np := fun p h => (hb.bnd p h).1
    match st with
    | 0 =>
      simp only
      split <;> exact ⟨hb.ok, fun p h1 _ => hr p h1, hb.born, (fun q' e => by cases e), fun p h => ⟨hn p h, hn p h⟩, fun _ => ha, hb.al', hb.que, hb.tok⟩
    | 1 =>
      refine ⟨hb.ok, fun p h1 _ => hr p h1, hb.born, (fun q' e => by cases e), fun p h => ⟨hn p h, hn p h⟩, fun _ => ha, hb.al', hb.que, fun p => ?_⟩
      show _ ≤ upd s.tokens q (s.tokens q + 1) p + _
      have := hb.tok p
      by_cases e : p = q
      · subst e; rw [upd_same]; show (s.queue p).length ≤ s.tokens p + 1 + (if s.wk p = .sel then 1 else 0); omega
      · rw [upd_other _ _ e]; exact this
    | 2 => exact ⟨hb.ok, fun p h1 _ => hr p h1, hb.born, (fun q' e => by cases e), fun p h => ⟨hn p h, hn p h⟩, fun _ => ha, hb.al', hb.que, hb.tok⟩
    | st + 3 => exact ⟨hb.ok, fun p h1 _ => hr p h1, hb.born, (fun q' e => by cases e), fun p h => ⟨hn p h, hn p h⟩, fun _ => ha, hb.al', hb.que, hb.tok⟩
  | join q =>
    have hr : ∀ p, p < np → s.ready p = true := fun p h => hb.rdy p h (by rw [hm]; exact h)
    have ha : ∀ p, s.ready p = true → s.alive p = true := hb.al (by rw [hm]; rfl)
    have hn : ∀ p, s.wk p ≠ .unborn → p < np := fun p h => (hb.bnd p h).1
    simp only
    split
    · split
      · exact ⟨hb.ok, fun p h1 _ => hr p h1, hb.born, (fun q' e => by cases e), fun p h => ⟨hn p h, hn p h⟩, fun _ => ha, hb.al', hb.que, hb.tok⟩
      · exact hb
    · exact ⟨hb.ok, fun p h1 _ => hr p h1, hb.born, (fun q' e => by cases e), fun p h => ⟨hn p h, hn p h⟩, fun _ => ha, hb.al', hb.que, hb.tok⟩
  | dereg q =>
    have hr : ∀ p, p < np → s.ready p = true := fun p h => hb.rdy p h (by rw [hm]; exact h)
    have hn : ∀ p, s.wk p ≠ .unborn → p < np := fun p h => (hb.bnd p h).1
    simp only
    split
    · refine ⟨hb.ok, fun p h1 _ => hr p h1, hb.born, (fun q' e => by cases e), fun p h => ⟨hn p h, hn p h⟩, (fun e => by cases e), fun p h => ?_, hb.que, hb.tok⟩
      replace h : upd s.alive q false p = true := h
      by_cases e : p = q
      · subst e; rw [upd_same] at h; cases h
      · rw [upd_other _ _ e] at h; exact hb.al' p h
    · exact ⟨hb.ok, fun p h1 _ => hr p h1, hb.born, (fun q' e => by cases e), fun p h => ⟨hn p h, hn p h⟩, (fun e => by cases e), hb.al', hb.que, hb.tok⟩
  | done => exact hb

theorem base_queue {s : St} (hb : Base np s) {p : Nat} (hr : s.ready p = true) (ts : List Nat) :
    Base np { s with queue := upd s.queue p (s.queue p ++ ts), tokens := upd s.tokens p (s.tokens p + ts.length) } := by
  refine ⟨hb.ok, hb.rdy, hb.born, hb.cur, hb.bnd, hb.al, hb.al', fun q h => ?_, fun q => ?_⟩
  · by_cases e : q = p
    · subst e; exact hr
    · exact hb.que q (by simpa only [upd_other _ _ e] using h)
  · show (upd s.queue p (s.queue p ++ ts) q).length ≤ upd s.tokens p (s.tokens p + ts.length) q + (if s.wk q = .sel then 1 else 0)
    have := hb.tok q
    by_cases e : q = p
    · subst e; rw [upd_same, upd_same, List.length_append]; omega
    · rw [upd_other _ _ e, upd_other _ _ e]; exact this

theorem base_step {s : St} (hI : ∀ p, p < np → initOk p = true) (hb : Base np s) {a : Act} (ha : a.below np n) (hs : a = .sigint → s.sig = false) :
    Base np (step np initOk dur s a) := by
  unfold step
  rw [if_neg (by rw [hb.ok]; simp)]
  cases a with
  | main => exact base_main hb
  | work p hint => exact base_work hI hb ha hint
  | setPref i q nj => simp only; split <;> exact ⟨hb.ok, hb.rdy, hb.born, hb.cur, hb.bnd, hb.al, hb.al', hb.que, hb.tok⟩
  | pol i => simp only [polStep]; split <;> exact ⟨hb.ok, hb.rdy, hb.born, hb.cur, hb.bnd, hb.al, hb.al', hb.que, hb.tok⟩
  | issue q t =>
    simp only
    split
    · rename_i h; exact base_queue hb (hb.al' q h) [t]
    · exact hb
  | assign q ts =>
    simp only
    (repeat' split)
    · rename_i h; exact base_queue hb (hb.al' q h) ts
    · exact ⟨hb.ok, hb.rdy, hb.born, hb.cur, hb.bnd, hb.al, hb.al', hb.que, hb.tok⟩
    · exact hb
  | sigint => rw [hs rfl]; exact ⟨hb.ok, hb.rdy, hb.born, hb.cur, hb.bnd, hb.al, hb.al', hb.que, hb.tok⟩

/-- All histories before the signal: nothing crashes. -/
theorem base_exec (hI : ∀ p, p < np → initOk p = true) : ∀ (h : List Act) {s : St}, Base np s → (s.sig = false ∧ Early s.main = true) → (∀ a ∈ h, a.below np n ∧ a ≠ Act.sigint) →
    Base np (exec np initOk dur s h)
  | [], _, hb, _, _ => hb
  | a :: h, s, hb, he, ha => by
    have h0 := ha a (List.mem_cons_self ..)
    exact base_exec hI h (s := step np initOk dur s a)
      (base_step hI hb h0.1 (fun e => absurd e h0.2))
      (early_step he h0.2) fun b hb => ha b (List.mem_cons_of_mem _ hb)

/-! ## Progress -/

/-- Steps of the main thread until the joins are over. -/
def mainRank (np : Nat) : Main → Nat
  | .spawn p => 6 * np + 10 + 2 * (np - p) + 1
  | .await p => 6 * np + 10 + 2 * (np - p)
  | .serving => 6 * np + 9
  | .term p st => 2 * np + 3 + 4 * (np - p) + (4 - st)
  | .join p => np + 2 + (np - p)
  | _ => 0

/-- Steps of a stopped worker until it ends. -/
def wkRank : Wk → Nat
  | .unborn => 8
  | .setup => 7
  | .chk => 6
  | .lock => 5
  | .wait => 4
  | .sel => 3
  | .run _ _ => 2
  | .top => 1
  | _ => 0

/-- Part of the rank that belongs to the worker the main thread waits for. -/
def waitRank (s : St) : Nat :=
  match s.main with
  | .await p => if s.ready p then 0 else 1
  | .join p => wkRank (s.wk p)
  | _ => 0

/-- Handler steps left of the worker the main thread joins. -/
def handRank (s : St) : Nat :=
  match s.main with
  | .join p => (match s.wk p with | .run _ k => k | _ => 0)
  | _ => 0

def rank (np : Nat) (s : St) : Nat × Nat := (10 * mainRank np s.main + waitRank s, handRank s)

/-- The thread everybody waits for: the worker the main thread waits for, or the main thread. -/
def help (np : Nat) (s : St) : Nat :=
  match s.main with
  | .await p => if s.ready p then 0 else p + 1
  | .join p => if p < np then (if s.wk p = .ended ∨ s.wk p = .failed then 0 else p + 1) else 0
  | _ => 0

abbrev Lt : Nat × Nat → Nat × Nat → Prop := Prod.Lex (· < ·) (· < ·)

theorem lt_wf : WellFounded Lt := (Prod.lex Nat.lt_wfRel Nat.lt_wfRel).wf

theorem lt_fst {a b c d : Nat} (h : a < c) : Lt (a, b) (c, d) := Prod.Lex.left _ _ h
theorem lt_snd {a b c d : Nat} (h : a = c) (h' : b < d) : Lt (a, b) (c, d) := by subst h; exact Prod.Lex.right _ h'

theorem waitRank_le (s : St) : waitRank s ≤ 8 := by
  unfold waitRank
  split
  · split <;> omega
  · rename_i p _; cases s.wk p <;> simp [wkRank]
  · omega

/-- Steps that touch neither the main thread nor readiness nor workers. -/
theorem rank_env {s s' : St} (h1 : s'.main = s.main) (h2 : s'.ready = s.ready) (h3 : s'.wk = s.wk) : rank np s' = rank np s ∧ help np s' = help np s := by
  simp [rank, help, waitRank, handRank, h1, h2, h3]

/-- Startup: the rank goes down. -/
theorem start_rank {s : St} (hI : ∀ p, p < np → initOk p = true) (hb : Base np s) (hn : balancing s.main = false) {a : Act} (ha : a.below np n) :
    (Lt (rank np (step np initOk dur s a)) (rank np s) ∨ (rank np (step np initOk dur s a) = rank np s ∧ help np (step np initOk dur s a) = help np s)) ∧
    (a.cls np n = help np s → Lt (rank np (step np initOk dur s a)) (rank np s)) ∧ help np s < np + 1 + n := by
  have hhelp : help np s < np + 1 + n := by
    unfold help
    split
    · rename_i q hm; obtain ⟨h, -⟩ := hb.cur q hm; split <;> omega
    · rename_i q hm; rw [hm] at hn; cases hn
    · omega
  refine ⟨?_, ?_, hhelp⟩ <;> unfold step <;> rw [if_neg (by rw [hb.ok]; simp)]
  · cases a with
    | main =>
      simp only [mainStep]
      cases hm : s.main with
      | spawn q =>
        left
        simp only
        split
        · apply lt_fst
          have : waitRank { s with wk := upd s.wk q .setup, main := .await q } ≤ 8 := waitRank_le _
          simp only [hm, mainRank, waitRank] at this ⊢
          have : (if s.ready q = true then 0 else 1) ≤ 1 := by split <;> omega
          omega
        · apply lt_fst
          simp only [hm, mainRank, waitRank]; omega
      | await q =>
        simp only
        split
        · rename_i hr
          left
          apply lt_fst
          obtain ⟨h, -⟩ := hb.cur q hm
          simp only [hm, mainRank, waitRank, hr]
          simp; omega
        · exact Or.inr ⟨rfl, rfl⟩
      | _ => rw [hm] at hn; cases hn
    | work p hint =>
      obtain ⟨-, -, f3, -⟩ := work_frame (initOk := initOk) (dur := dur) s p hint
      simp only
      cases hm : s.main with
      | spawn q => right; simp [rank, help, waitRank, handRank, f3, hm]
      | await q =>
        by_cases e : p = q
        · subst e
          cases hr : s.ready p with
          | true =>
            right
            have := (work_self (dur := dur) (hI p ha) s hint).1 hr
            simp [rank, help, waitRank, handRank, f3, hm, hr, this]
          | false =>
            left
            have hw : s.wk p = .setup := by
              rcases (hb.cur p hm).2 with h | h
              · rw [hr] at h; cases h
              · exact h
            have h4 : (workStep initOk dur s p hint).ready p = true := by simp [workStep, hw, hI p ha, upd]
            apply lt_fst
            simp [waitRank, f3, hm, h4, hr]
        · right
          have := (work_other (initOk := initOk) (dur := dur) (s := s) hint (Ne.symm e)).2.2.2.2.2.2
          simp [rank, help, waitRank, handRank, f3, hm, this]
      | _ => rw [hm] at hn; cases hn
    | setPref i q nj => right; simp only; split <;> exact ⟨rfl, rfl⟩
    | pol i => right; simp only [polStep]; split <;> exact ⟨rfl, rfl⟩
    | issue q t => right; simp only; split <;> exact ⟨rfl, rfl⟩
    | assign q ts => right; simp only; (repeat' split) <;> exact ⟨rfl, rfl⟩
    | sigint => right; simp only; split <;> exact ⟨rfl, rfl⟩
  · cases a with
    | main =>
      intro hc
      simp only [mainStep]
      cases hm : s.main with
      | spawn q =>
        simp only
        split
        · apply lt_fst
          simp only [hm, mainRank, waitRank]
          have : (if s.ready q = true then 0 else 1) ≤ 1 := by split <;> omega
          omega
        · apply lt_fst
          simp only [hm, mainRank, waitRank]; omega
      | await q =>
        simp only
        split
        · rename_i hr
          apply lt_fst
          obtain ⟨h, -⟩ := hb.cur q hm
          simp only [hm, mainRank, waitRank, hr]
          simp; omega
        · rename_i hr
          simp [help, hm, hr, Act.cls] at hc
      | _ => rw [hm] at hn; cases hn
    | work p hint =>
      intro hc
      obtain ⟨-, -, f3, -⟩ := work_frame (initOk := initOk) (dur := dur) s p hint
      simp only
      cases hm : s.main with
      | spawn q => simp [help, hm, Act.cls] at hc
      | await q =>
        cases hr : s.ready q with
        | true => simp [help, hm, hr, Act.cls] at hc
        | false =>
          simp [help, hm, hr, Act.cls] at hc
          subst hc
          have hw : s.wk p = .setup := by
            rcases (hb.cur p hm).2 with h | h
            · rw [hr] at h; cases h
            · exact h
          have h4 : (workStep initOk dur s p hint).ready p = true := by simp [workStep, hw, hI p ha, upd]
          apply lt_fst
          simp [waitRank, f3, hm, h4, hr]
      | _ => rw [hm] at hn; cases hn
    | setPref i q nj => intro hc; simp [Act.cls] at hc; omega
    | pol i => intro hc; simp [Act.cls] at hc; have : help np s < np + 1 := by (unfold help; split; (rename_i q hm; obtain ⟨h, -⟩ := hb.cur q hm; split <;> omega); (rename_i q hm; rw [hm] at hn; cases hn); omega)
               omega
    | issue q t => intro hc; simp [Act.cls] at hc; omega
    | assign q ts => intro hc; simp [Act.cls] at hc; omega
    | sigint => intro hc; simp [Act.cls] at hc; omega

/-- **C70** (start): if every accelerator initialises, then from every state reached without a signal, under every fair schedule (with any calls and tasks), the controller
finishes its startup: all workers are ready and serve. -/
theorem C70_start_partial (hI : ∀ p, p < np → initOk p = true) (pref : Nat → Bool) (h : List Act) (hh : ∀ a ∈ h, a.below np n ∧ a ≠ Act.sigint)
    (f : Nat → Act) (hf : Fair (fun a => a.below np n ∧ a ≠ .sigint) (Act.cls np n) (np + 1 + n) f) :
    ∃ t, balancing (run (step np initOk dur) (exec np initOk dur (init pref) h) f t).main = true ∧
      ∀ p, p < np → (run (step np initOk dur) (exec np initOk dur (init pref) h) f t).ready p = true := by
  have he := early_exec (np := np) (initOk := initOk) (dur := dur) h (s := init pref) ⟨rfl, rfl⟩ (fun a ha => (hh a ha).2)
  have hb := base_exec (n := n) (dur := dur) hI h (base_init pref) ⟨rfl, rfl⟩ hh
  have L : LeadsTo (step np initOk dur) (fun a => a.below np n ∧ a ≠ .sigint) (Act.cls np n) (np + 1 + n) (fun s => Base np s)
      (fun s => Base np s ∧ balancing s.main = true) Lt (rank np) (help np) := by
    have nb : ∀ s : St, Base np s → ¬ (Base np s ∧ balancing s.main = true) → balancing s.main = false := by
      intro s h1 h2
      cases h : balancing s.main with
      | false => rfl
      | true => exact absurd ⟨h1, h⟩ h2
    refine ⟨lt_wf, fun s a ha hs hq => ?_, fun s hs hq => ?_, fun s a ha hs hq => ?_, fun s a ha hs hq hc => ?_⟩
    · exact Or.inr (base_step hI hs ha.1 (fun e => absurd e ha.2))
    · exact (start_rank (dur := dur) (n := n) hI hs (nb s hs hq) (a := .main) trivial).2.2
    · exact Or.inr (start_rank hI hs (nb s hs hq) ha.1).1
    · exact Or.inr ((start_rank hI hs (nb s hs hq) ha.1).2.1 hc)
  obtain ⟨t, h1, h2⟩ := L.reaches _ f hf hb
  refine ⟨t, h2, fun p hp => h1.rdy p hp ?_⟩
  cases hm : (run (step np initOk dur) (exec np initOk dur (init pref) h) f t).main <;> rw [hm] at h2 <;> first | exact hp | cases h2

/-- The main thread has done step `k` of terminate for worker `p`. -/
def past : Main → Nat → Nat → Prop
  | .term q st, p, k => p < q ∨ (p = q ∧ k < st)
  | .join _, _, _ => True
  | .dereg _, _, _ => True
  | .done, _, _ => True
  | _, _, _ => False

theorem past_mono {m : Main} {p k : Nat} (h : past m p (k + 1)) : past m p k := by
  cases m <;> simp [past] at h ⊢; omega

/-- What terminate has achieved so far. -/
structure StopInv (np : Nat) (s : St) : Prop where
  st : ∀ p, p < np → past s.main p 0 → s.stop p = true
  tk : ∀ p, p < np → past s.main p 1 → (s.wk p = .chk ∨ s.wk p = .lock ∨ s.wk p = .wait) → 0 < s.tokens p
  nj : ∀ p, p < np → past s.main p 2 → s.noJob p = false
  mx : ∀ p, p < np → past s.main p 3 → s.wk p = .lock → s.mtx p = false
  bd : ∀ q st, s.main = .term q st → st ≤ 3 ∧ (0 < st → q < np)
  po : ∀ i, (s.pol i).pausing = false

theorem stop_main {s : St} (hb : Base np s) (hi : StopInv np s) : StopInv np (mainStep np s) := by
  simp only [mainStep]
  cases hm : s.main with
  | spawn q =>
    simp only
    split <;> exact ⟨(fun p _ h => by cases h), (fun p _ h => by cases h), (fun p _ h => by cases h), (fun p _ h => by cases h), (fun _ _ e => by cases e), hi.po⟩
  | await q =>
    simp only
    split
    · exact ⟨(fun p _ h => by cases h), (fun p _ h => by cases h), (fun p _ h => by cases h), (fun p _ h => by cases h), (fun _ _ e => by cases e), hi.po⟩
    · exact hi
  | serving =>
    simp only
    split
    · refine ⟨(fun p _ h => ?_), (fun p _ h => ?_), (fun p _ h => ?_), (fun p _ h => ?_), (fun _ _ e => by cases e; simp), hi.po⟩ <;>
        (simp [past] at h)
    · exact hi
  | term q st =>
    have p0 := hi.st; have p1 := hi.tk; have p2 := hi.nj; have p3 := hi.mx
    rw [hm] at p0 p1 p2 p3
    obtain ⟨hst, hq⟩ := hi.bd q st hm
    match st with
    | 0 =>
      simp only
      split
      · rename_i hlt
        refine ⟨fun p hp h => ?_, fun p hp h => p1 p hp ?_, fun p hp h => p2 p hp ?_, fun p hp h => p3 p hp ?_, (fun _ _ e => by cases e; simp; exact hlt), hi.po⟩
        · show upd s.stop q true p = true
          by_cases e : p = q
          · subst e; exact upd_same ..
          · rw [upd_other _ _ e]; exact p0 p hp (by simp [past] at h ⊢; omega)
        all_goals (simp [past] at h ⊢; omega)
      · rename_i hge
        refine ⟨fun p hp _ => p0 p hp ?_, fun p hp _ => p1 p hp ?_, fun p hp _ => p2 p hp ?_, fun p hp _ => p3 p hp ?_, (fun _ _ e => by cases e), hi.po⟩
        all_goals (simp [past]; omega)
    | 1 =>
      have hlt := hq (by omega)
      refine ⟨fun p hp h => p0 p hp ?_, fun p hp h => ?_, fun p hp h => p2 p hp ?_, fun p hp h => p3 p hp ?_, (fun _ _ e => by cases e; simp; exact hlt), hi.po⟩
      · simp [past] at h ⊢; omega
      · intro hw
        show 0 < upd s.tokens q (s.tokens q + 1) p
        by_cases e : p = q
        · subst e; rw [upd_same]; omega
        · rw [upd_other _ _ e]; exact p1 p hp (by simp [past] at h ⊢; omega) hw
      all_goals (simp [past] at h ⊢; omega)
    | 2 =>
      have hlt := hq (by omega)
      refine ⟨fun p hp h => p0 p hp ?_, fun p hp h => p1 p hp ?_, fun p hp h => ?_, fun p hp h => p3 p hp ?_, (fun _ _ e => by cases e; simp; exact hlt), hi.po⟩
      · simp [past] at h ⊢; omega
      · simp [past] at h ⊢; omega
      · show upd s.noJob q false p = false
        by_cases e : p = q
        · subst e; rw [upd_same]
        · rw [upd_other _ _ e]; exact p2 p hp (by simp [past] at h ⊢; omega)
      · simp [past] at h ⊢; omega
    | 3 =>
      refine ⟨fun p hp h => p0 p hp ?_, fun p hp h => p1 p hp ?_, fun p hp h => p2 p hp ?_, fun p hp h => ?_, (fun _ _ e => by cases e; simp), hi.po⟩
      · simp [past] at h ⊢; omega
      · simp [past] at h ⊢; omega
      · simp [past] at h ⊢; omega
      · intro hw
        show upd s.mtx q false p = false
        by_cases e : p = q
        · subst e; rw [upd_same]
        · rw [upd_other _ _ e]; exact p3 p hp (by simp [past] at h ⊢; omega) hw
    | st + 4 => omega
  | join q =>
    have p0 := hi.st; have p1 := hi.tk; have p2 := hi.nj; have p3 := hi.mx
    rw [hm] at p0 p1 p2 p3
    simp only
    split
    · split
      · exact ⟨fun p hp _ => p0 p hp trivial, fun p hp _ => p1 p hp trivial, fun p hp _ => p2 p hp trivial, fun p hp _ => p3 p hp trivial, (fun _ _ e => by cases e), hi.po⟩
      · exact hi
    · exact ⟨fun p hp _ => p0 p hp trivial, fun p hp _ => p1 p hp trivial, fun p hp _ => p2 p hp trivial, fun p hp _ => p3 p hp trivial, (fun _ _ e => by cases e), hi.po⟩
  | dereg q =>
    have p0 := hi.st; have p1 := hi.tk; have p2 := hi.nj; have p3 := hi.mx
    rw [hm] at p0 p1 p2 p3
    simp only
    split <;> exact ⟨fun p hp _ => p0 p hp trivial, fun p hp _ => p1 p hp trivial, fun p hp _ => p2 p hp trivial, fun p hp _ => p3 p hp trivial, (fun _ _ e => by cases e), hi.po⟩
  | done => exact hi

theorem stop_work {s : St} (hi : StopInv np s) (q hint : Nat) : StopInv np (workStep initOk dur s q hint) := by
  obtain ⟨f1, f2, f3, f4, -⟩ := work_frame (initOk := initOk) (dur := dur) s q hint
  refine ⟨by rw [f1, f3]; exact hi.st, ?_, by rw [f2, f3]; exact hi.nj, ?_, by rw [f3]; exact hi.bd, by rw [f4]; exact hi.po⟩
  · rw [f3]; intro p hp h
    by_cases e : p = q
    · subst e
      have h0 := hi.st p hp (past_mono h)
      have h1 := hi.tk p hp h
      unfold workStep
      repeat' split
      all_goals simp_all [upd]
    · obtain ⟨w1, -, -, w4, -⟩ := work_other (initOk := initOk) (dur := dur) (s := s) hint e
      rw [w1, w4]; exact hi.tk p hp h
  · rw [f3]; intro p hp h
    by_cases e : p = q
    · subst e
      have h0 := hi.st p hp (past_mono (past_mono (past_mono h)))
      have h2 := hi.nj p hp (past_mono h)
      have h3 := hi.mx p hp h
      unfold workStep
      repeat' split
      all_goals simp_all [upd]
    · obtain ⟨w1, -, w3, -⟩ := work_other (initOk := initOk) (dur := dur) (s := s) hint e
      rw [w1, w3]; exact hi.mx p hp h

theorem stop_tokens {s : St} (hi : StopInv np s) (q : Nat) (ts : List Nat) (m : Nat) :
    StopInv np { s with queue := upd s.queue q (s.queue q ++ ts), tokens := upd s.tokens q (s.tokens q + m) } := by
  refine ⟨hi.st, fun p hp h hw => ?_, hi.nj, hi.mx, hi.bd, hi.po⟩
  have := hi.tk p hp h hw
  show 0 < upd s.tokens q (s.tokens q + m) p
  by_cases e : p = q
  · subst e; rw [upd_same]; omega
  · rw [upd_other _ _ e]; exact this

theorem stopInv_step {s : St} (hb : Base np s) (hi : StopInv np s) {a : Act} (ha : a.pauses = false) : StopInv np (step np initOk dur s a) := by
  unfold step
  rw [if_neg (by rw [hb.ok]; simp)]
  cases a with
  | main => exact stop_main hb hi
  | work q hint => exact stop_work hi q hint
  | setPref i q nj =>
    simp only
    split
    · refine ⟨hi.st, hi.tk, hi.nj, hi.mx, hi.bd, fun j => ?_⟩
      show (upd s.pol i (.write q nj) j).pausing = false
      by_cases e : j = i
      · subst e; rw [upd_same]; exact ha
      · rw [upd_other _ _ e]; exact hi.po j
    · exact hi
  | pol i =>
    simp only [polStep]
    cases hp : s.pol i with
    | idle => exact hi
    | write q nj =>
      have hnj : nj = false := by have := hi.po i; rw [hp] at this; exact this
      subst hnj
      refine ⟨hi.st, hi.tk, fun p hpp h => ?_, hi.mx, hi.bd, fun j => ?_⟩
      · show upd s.noJob q false p = false
        by_cases e : p = q
        · subst e; rw [upd_same]
        · rw [upd_other _ _ e]; exact hi.nj p hpp h
      · show (upd s.pol i (.mutex q false) j).pausing = false
        by_cases e : j = i
        · subst e; rw [upd_same]; rfl
        · rw [upd_other _ _ e]; exact hi.po j
    | mutex q nj =>
      have hnj : nj = false := by have := hi.po i; rw [hp] at this; exact this
      subst hnj
      refine ⟨hi.st, hi.tk, hi.nj, fun p hpp h hw => ?_, hi.bd, fun j => ?_⟩
      · show upd s.mtx q false p = false
        by_cases e : p = q
        · subst e; rw [upd_same]
        · rw [upd_other _ _ e]; exact hi.mx p hpp h hw
      · show (upd s.pol i .idle j).pausing = false
        by_cases e : j = i
        · subst e; rw [upd_same]; rfl
        · rw [upd_other _ _ e]; exact hi.po j
  | issue q t =>
    simp only
    split
    · exact stop_tokens hi q [t] 1
    · exact hi
  | assign q ts =>
    simp only
    split
    · split
      · exact stop_tokens hi q ts ts.length
      · exact ⟨hi.st, hi.tk, hi.nj, hi.mx, hi.bd, hi.po⟩
    · exact hi
  | sigint => simp only; split <;> exact ⟨hi.st, hi.tk, hi.nj, hi.mx, hi.bd, hi.po⟩

theorem shut_main {s : St} (hi : StopInv np s) (hsig : s.sig = true) (hbal : balancing s.main = true) (hn : Joined s.main = false) :
    (Joined (mainStep np s).main = true ∨ Lt (rank np (mainStep np s)) (rank np s)) ∨ (mainStep np s = s ∧ help np s ≠ 0) := by
  simp only [mainStep]
  cases hm : s.main with
  | serving =>
    left; right
    simp only [hsig]
    apply lt_fst
    simp [hm, mainRank, waitRank]; omega
  | term q st =>
    left; right
    obtain ⟨hst, hq⟩ := hi.bd q st hm
    match st with
    | 0 =>
      simp only
      split
      · apply lt_fst; simp only [hm, mainRank, waitRank]; omega
      · apply lt_fst
        simp only [hm, mainRank, waitRank]
        have : wkRank (s.wk 0) ≤ 8 := by cases s.wk 0 <;> simp [wkRank]
        omega
    | 1 => have := hq (by omega); apply lt_fst; simp only [hm, mainRank, waitRank]; omega
    | 2 => have := hq (by omega); apply lt_fst; simp only [hm, mainRank, waitRank]; omega
    | 3 => have := hq (by omega); apply lt_fst; simp only [hm, mainRank, waitRank]; omega
    | st + 4 => omega
  | join q =>
    simp only
    split
    · rename_i hlt
      split
      · left; right
        apply lt_fst
        simp only [hm, mainRank, waitRank]
        have : wkRank (s.wk (q + 1)) ≤ 8 := by cases s.wk (q + 1) <;> simp [wkRank]
        omega
      · rename_i hw
        right
        refine ⟨rfl, ?_⟩
        simp [help, hm, hlt, hw]
    · left; left; rfl
  | _ => rw [hm] at hbal hn; simp [balancing, Joined] at hbal hn

theorem shut_worker {s : St} (hI : initOk q = true) (hi : StopInv np s) {hint : Nat} (hq : q < np) (hm : s.main = .join q) (hw : ¬ (s.wk q = .ended ∨ s.wk q = .failed))
    (hnu : s.wk q ≠ .unborn) : Lt (rank np (workStep initOk dur s q hint)) (rank np s) := by
  obtain ⟨-, -, f3, -⟩ := work_frame (initOk := initOk) (dur := dur) s q hint
  have p0 := hi.st q hq (by rw [hm]; trivial)
  have p1 := hi.tk q hq (by rw [hm]; trivial)
  have p2 := hi.nj q hq (by rw [hm]; trivial)
  have p3 := hi.mx q hq (by rw [hm]; trivial)
  have red : wkRank ((workStep initOk dur s q hint).wk q) < wkRank (s.wk q) ∨ (∃ t k, s.wk q = .run t (k + 1) ∧ (workStep initOk dur s q hint).wk q = .run t k) := by
    unfold workStep
    cases h : s.wk q with
    | unborn => exact absurd h hnu
    | failed => exact absurd (Or.inr h) hw
    | ended => exact absurd (Or.inl h) hw
    | setup => left; simp [hI, upd, wkRank]
    | top => left; simp [p0, upd, wkRank]
    | chk => left; simp [p2, upd, wkRank]
    | lock => left; simp [p3 h, upd, wkRank]
    | wait =>
      left
      have := p1 (Or.inr (Or.inr h))
      simp only
      rw [if_neg (by omega)]
      simp [upd, wkRank]
    | sel => left; simp only; split <;> simp [upd, wkRank]
    | run t k =>
      cases k with
      | zero => left; simp [upd, wkRank]
      | succ k => right; exact ⟨t, k, rfl, by simp [upd]⟩
  rcases red with h | ⟨t, k, h1, h2⟩
  · apply lt_fst
    simp only [f3, hm, waitRank]; omega
  · apply lt_snd
    · simp only [f3, hm, waitRank, h1, h2, wkRank]
    · simp only [f3, hm, handRank, h1, h2]; omega

/-- Shutdown: the rank goes down. -/
theorem shut_rank {s : St} (hI : ∀ p, p < np → initOk p = true) (hb : Base np s) (hi : StopInv np s) (hsig : s.sig = true) (hn : Joined s.main = false)
    {a : Act} (ha : a.below np n) (hns : a ≠ .sigint) :
    (Joined (step np initOk dur s a).main = true ∨ Lt (rank np (step np initOk dur s a)) (rank np s) ∨
      (rank np (step np initOk dur s a) = rank np s ∧ help np (step np initOk dur s a) = help np s)) ∧
    (a.cls np n = help np s → Joined (step np initOk dur s a).main = true ∨ Lt (rank np (step np initOk dur s a)) (rank np s)) ∧ help np s < np + 1 := by
  cases hbal : balancing s.main with
  | false =>
    obtain ⟨h1, h2, h3⟩ := start_rank (dur := dur) hI hb hbal ha
    refine ⟨Or.inr h1, fun hc => Or.inr (h2 hc), ?_⟩
    unfold help
    split
    · rename_i q hm; obtain ⟨h, -⟩ := hb.cur q hm; split <;> omega
    · rename_i q hm; rw [hm] at hbal; cases hbal
    · omega
  | true =>
    have hhelp : help np s < np + 1 := by
      unfold help
      split
      · rename_i q hm; obtain ⟨h, -⟩ := hb.cur q hm; split <;> omega
      · (repeat' split) <;> omega
      · omega
    refine ⟨?_, ?_, hhelp⟩ <;> unfold step <;> rw [if_neg (by rw [hb.ok]; simp)]
    · cases a with
      | main =>
        rcases shut_main (np := np) hi hsig hbal hn with h | h
        · rcases h with h | h
          · exact Or.inl h
          · exact Or.inr (Or.inl h)
        · right; right; simp only [h.1]; exact ⟨trivial, trivial⟩
      | work q hint =>
        right
        obtain ⟨-, -, f3, -⟩ := work_frame (initOk := initOk) (dur := dur) s q hint
        simp only
        cases hm : s.main with
        | join p =>
          by_cases e : p = q
          · subst e
            by_cases hw : s.wk p = .ended ∨ s.wk p = .failed
            · right
              have : workStep initOk dur s p hint = s := by rcases hw with h | h <;> simp [workStep, h]
              rw [this]; exact ⟨rfl, rfl⟩
            · left
              exact shut_worker (hI p ha) hi ha hm hw (hb.born p (hb.rdy p ha (by rw [hm]; exact ha))).1
          · right
            have := (work_other (initOk := initOk) (dur := dur) (s := s) hint e).1
            simp [rank, help, waitRank, handRank, f3, hm, this]
        | await p => rw [hm] at hbal; cases hbal
        | _ => right; simp [rank, help, waitRank, handRank, f3, hm]
      | setPref i q nj => right; right; simp only; split <;> exact ⟨rfl, rfl⟩
      | pol i => right; right; simp only [polStep]; split <;> exact ⟨rfl, rfl⟩
      | issue q t => right; right; simp only; split <;> exact ⟨rfl, rfl⟩
      | assign q ts => right; right; simp only; (repeat' split) <;> exact ⟨rfl, rfl⟩
      | sigint => exact absurd rfl hns
    · cases a with
      | main =>
        intro hc
        rcases shut_main (np := np) hi hsig hbal hn with h | h
        · exact h
        · exact absurd hc.symm h.2
      | work q hint =>
        intro hc
        right
        simp only [Act.cls] at hc
        cases hm : s.main with
        | join p =>
          simp only [help, hm] at hc
          split at hc
          · rename_i hlt
            split at hc
            · omega
            · rename_i hw
              have e : q = p := by omega
              subst e
              exact shut_worker (hI q ha) hi ha hm hw (hb.born q (hb.rdy q ha (by rw [hm]; exact ha))).1
          · omega
        | await p => rw [hm] at hbal; cases hbal
        | _ => simp [help, hm] at hc
      | setPref i q nj => intro hc; simp [Act.cls] at hc; omega
      | pol i => intro hc; simp [Act.cls] at hc; omega
      | issue q t => intro hc; simp [Act.cls] at hc; omega
      | assign q ts => intro hc; simp [Act.cls] at hc; omega
      | sigint => exact absurd rfl hns

theorem sig_step {s : St} (h : s.sig = true) (a : Act) : (step np initOk dur s a).sig = true := by
  unfold step
  split
  · exact h
  cases a with
  | main => simp only [mainStep]; (repeat' split) <;> exact h
  | work q hint => simp only [(work_frame (initOk := initOk) (dur := dur) s q hint).2.2.2.2.1]; exact h
  | setPref i q nj => simp only; split <;> exact h
  | pol i => simp only [polStep]; split <;> exact h
  | issue q t => simp only; split <;> exact h
  | assign q ts => simp only; (repeat' split) <;> exact h
  | sigint => simp only [h]

/-- The state at the delivery of SIGINT. -/
theorem shut_begin (hI : ∀ p, p < np → initOk p = true) (pref : Nat → Bool) (h : List Act) (hh : ∀ a ∈ h, a.below np n ∧ a ≠ Act.sigint)
    (hpo : ∀ i, ((exec np initOk dur (init pref) h).pol i).pausing = false) :
    let s := step np initOk dur (exec np initOk dur (init pref) h) .sigint
    Base np s ∧ StopInv np s ∧ s.sig = true ∧ JoinInv np s := by
  intro s
  have he := early_exec (np := np) (initOk := initOk) (dur := dur) h (s := init pref) ⟨rfl, rfl⟩ (fun a ha => (hh a ha).2)
  have hb := base_exec (n := n) (dur := dur) hI h (base_init pref) ⟨rfl, rfl⟩ hh
  have hs : s = { exec np initOk dur (init pref) h with sig := true } := by
    show step np initOk dur _ _ = _
    simp [step, hb.ok, he.1]
  have hnp : ∀ p k, ¬ past (exec np initOk dur (init pref) h).main p k := by
    intro p k
    cases hm : (exec np initOk dur (init pref) h).main <;> rw [hm] at he <;> first | exact id | cases he.2
  have hj := joinInv_exec (np := np) (initOk := initOk) (dur := dur) h (s := init pref) ⟨(fun q e => by cases e), fun e => by cases e⟩
  rw [hs]
  refine ⟨⟨hb.ok, hb.rdy, hb.born, hb.cur, hb.bnd, hb.al, hb.al', hb.que, hb.tok⟩, ⟨fun p _ x => absurd x (hnp p 0), fun p _ x => absurd x (hnp p 1), fun p _ x => absurd x (hnp p 2),
    fun p _ x => absurd x (hnp p 3), fun q st x => ?_, hpo⟩, rfl, hj⟩
  replace x : (exec np initOk dur (init pref) h).main = .term q st := x
  rw [x] at he; cases he.2

theorem gone_ended {s : St} (hb : Base np s) (hj : JoinInv np s) (hq : Joined s.main = true) (p : Nat) (hp : p < np) : s.wk p = .ended := by
  rcases hj.2 hq p hp with h | h
  · exact h
  · exact absurd h (hb.born p (hb.rdy p hp (by cases hm : s.main <;> rw [hm] at hq <;> first | exact hp | cases hq))).2.2

/-- **C70** (shutdown): SIGINT is delivered at any moment. If no call that asks for NoJob is in progress then and none is made afterwards, and the handlers end, then
under every fair schedule, with tasks issued and virtual accelerators assigned all the time, every worker ends and the main thread gets past the joins. -/
theorem C70_shutdown_partial (hI : ∀ p, p < np → initOk p = true) (pref : Nat → Bool) (h : List Act) (hh : ∀ a ∈ h, a.below np n ∧ a ≠ Act.sigint)
    (hpo : ∀ i, ((exec np initOk dur (init pref) h).pol i).pausing = false)
    (f : Nat → Act) (hf : Fair (Calm np n) (Act.cls np n) (np + 1 + n) f) :
    ∃ t, Joined (run (step np initOk dur) (exec np initOk dur (init pref) (h ++ [.sigint])) f t).main = true ∧
      (run (step np initOk dur) (exec np initOk dur (init pref) (h ++ [.sigint])) f t).crashed = false ∧
      ∀ p, p < np → (run (step np initOk dur) (exec np initOk dur (init pref) (h ++ [.sigint])) f t).wk p = .ended := by
  have e1 : exec np initOk dur (init pref) (h ++ [.sigint]) = step np initOk dur (exec np initOk dur (init pref) h) .sigint := by simp [exec, List.foldl_append]
  rw [e1]
  have h0 := shut_begin (n := n) (dur := dur) hI pref h hh hpo
  have L : LeadsTo (step np initOk dur) (Calm np n) (Act.cls np n) (np + 1 + n) (fun s => Base np s ∧ StopInv np s ∧ s.sig = true ∧ JoinInv np s)
      (fun s => (Base np s ∧ JoinInv np s) ∧ Joined s.main = true) Lt (rank np) (help np) := by
    have nq : ∀ s : St, (Base np s ∧ StopInv np s ∧ s.sig = true ∧ JoinInv np s) → ¬ ((Base np s ∧ JoinInv np s) ∧ Joined s.main = true) → Joined s.main = false := by
      intro s h1 h2
      cases h : Joined s.main with
      | false => rfl
      | true => exact absurd ⟨⟨h1.1, h1.2.2.2⟩, h⟩ h2
    have kp : ∀ s a, Calm np n a → (Base np s ∧ StopInv np s ∧ s.sig = true ∧ JoinInv np s) → ¬ ((Base np s ∧ JoinInv np s) ∧ Joined s.main = true) →
        (Base np (step np initOk dur s a) ∧ StopInv np (step np initOk dur s a) ∧ (step np initOk dur s a).sig = true ∧ JoinInv np (step np initOk dur s a)) := by
      intro s a ha hs hq
      exact ⟨base_step hI hs.1 ha.1 (fun e => absurd e ha.2.1), stopInv_step hs.1 hs.2.1 ha.2.2, sig_step hs.2.2.1 a, joinInv_step hs.2.2.2 a⟩
    refine ⟨lt_wf, fun s a ha hs hq => Or.inr (kp s a ha hs hq), fun s hs hq => ?_, fun s a ha hs hq => ?_, fun s a ha hs hq hc => ?_⟩
    · have := (shut_rank (dur := dur) (n := n) hI hs.1 hs.2.1 hs.2.2.1 (nq s hs hq) (a := .main) trivial (by simp)).2.2
      omega
    · have k := kp s a ha hs hq
      rcases (shut_rank (dur := dur) hI hs.1 hs.2.1 hs.2.2.1 (nq s hs hq) ha.1 ha.2.1).1 with h | h
      · exact Or.inl ⟨⟨k.1, k.2.2.2⟩, h⟩
      · exact Or.inr h
    · have k := kp s a ha hs hq
      rcases (shut_rank (dur := dur) hI hs.1 hs.2.1 hs.2.2.1 (nq s hs hq) ha.1 ha.2.1).2.1 hc with h | h
      · exact Or.inl ⟨⟨k.1, k.2.2.2⟩, h⟩
      · exact Or.inr h
  obtain ⟨t, ⟨h1, h2⟩, h3⟩ := L.reaches _ f hf h0
  exact ⟨t, h3, h1.ok, gone_ended h1 h2 h3⟩

/-- After the joins: what is released. -/
structure RelInv (np : Nat) (s : St) : Prop where
  ok : s.crashed = false
  jn : Joined s.main = true
  en : ∀ p, p < np → s.wk p = .ended
  rel : ∀ p, p < np → (∀ q, s.main = .dereg q → p < q → s.alive p = false) ∧ (s.main = .done → s.alive p = false)

theorem rel_step {s : St} (hr : RelInv np s) {a : Act} (ha : Calm np n a) :
    RelInv np (step np initOk dur s a) ∧ ((step np initOk dur s a).main = .done ∨ (step np initOk dur s a).main = s.main ∨
      ∃ q, q < np ∧ s.main = .dereg q ∧ (step np initOk dur s a).main = .dereg (q + 1)) ∧
    (a = .main → (step np initOk dur s a).main = .done ∨ ∃ q, q < np ∧ s.main = .dereg q ∧ (step np initOk dur s a).main = .dereg (q + 1)) := by
  have hj := hr.jn
  unfold step
  rw [if_neg (by rw [hr.ok]; simp)]
  cases a with
  | main =>
    simp only [mainStep]
    cases hm : s.main with
    | dereg q =>
      simp only
      split
      · rename_i hq
        refine ⟨⟨hr.ok, rfl, hr.en, fun p hp => ⟨fun q' e h => ?_, fun e => by cases e⟩⟩, Or.inr (Or.inr ⟨q, hq, rfl, rfl⟩), fun _ => Or.inr ⟨q, hq, rfl, rfl⟩⟩
        cases e
        show upd s.alive q false p = false
        by_cases e : p = q
        · subst e; exact upd_same ..
        · rw [upd_other _ _ e]; exact (hr.rel p hp).1 q hm (by omega)
      · rename_i hq
        exact ⟨⟨hr.ok, rfl, hr.en, fun p hp => ⟨(fun q' e => by cases e), fun _ => (hr.rel p hp).1 q hm (by omega)⟩⟩, Or.inl rfl, fun _ => Or.inl rfl⟩
    | done => exact ⟨hr, Or.inl hm, fun _ => Or.inl hm⟩
    | _ => rw [hm] at hj; cases hj
  | work p hint =>
    have hw : workStep initOk dur s p hint = s := by simp [workStep, hr.en p ha.1]
    simp only [hw]
    exact ⟨hr, Or.inr (Or.inl trivial), fun e => by cases e⟩
  | setPref i q nj => simp only; split <;> exact ⟨⟨hr.ok, hr.jn, hr.en, hr.rel⟩, Or.inr (Or.inl rfl), fun e => by cases e⟩
  | pol i => simp only [polStep]; split <;> exact ⟨⟨hr.ok, hr.jn, hr.en, hr.rel⟩, Or.inr (Or.inl rfl), fun e => by cases e⟩
  | issue q t => simp only; split <;> exact ⟨⟨hr.ok, hr.jn, hr.en, hr.rel⟩, Or.inr (Or.inl rfl), fun e => by cases e⟩
  | assign q ts => simp only; (repeat' split) <;> exact ⟨⟨hr.ok, hr.jn, hr.en, hr.rel⟩, Or.inr (Or.inl rfl), fun e => by cases e⟩
  | sigint => exact absurd rfl ha.2.1

/-- **C70** (release): under the same conditions the main thread releases every accelerator and the controller gets to its end without a crash. -/
theorem C70_released_partial (hI : ∀ p, p < np → initOk p = true) (pref : Nat → Bool) (h : List Act) (hh : ∀ a ∈ h, a.below np n ∧ a ≠ Act.sigint)
    (hpo : ∀ i, ((exec np initOk dur (init pref) h).pol i).pausing = false)
    (f : Nat → Act) (hf : Fair (Calm np n) (Act.cls np n) (np + 1 + n) f) :
    ∃ t, (run (step np initOk dur) (exec np initOk dur (init pref) (h ++ [.sigint])) f t).main = .done ∧
      (run (step np initOk dur) (exec np initOk dur (init pref) (h ++ [.sigint])) f t).crashed = false ∧
      ∀ p, p < np → (run (step np initOk dur) (exec np initOk dur (init pref) (h ++ [.sigint])) f t).alive p = false := by
  -- the main thread reaches the state right after the joins
  have e1 : exec np initOk dur (init pref) (h ++ [.sigint]) = step np initOk dur (exec np initOk dur (init pref) h) .sigint := by simp [exec, List.foldl_append]
  have h0 := shut_begin (n := n) (dur := dur) hI pref h hh hpo
  have he := early_exec (np := np) (initOk := initOk) (dur := dur) h (s := init pref) ⟨rfl, rfl⟩ (fun a ha => (hh a ha).2)
  have hb := base_exec (n := n) (dur := dur) hI h (base_init pref) ⟨rfl, rfl⟩ hh
  have hnj : Joined (step np initOk dur (exec np initOk dur (init pref) h) .sigint).main = false := by
    have : step np initOk dur (exec np initOk dur (init pref) h) .sigint = { exec np initOk dur (init pref) h with sig := true } := by simp [step, hb.ok, he.1]
    rw [this]
    show Joined (exec np initOk dur (init pref) h).main = false
    cases hm : (exec np initOk dur (init pref) h).main <;> rw [hm] at he <;> first | rfl | cases he.2
  rw [← e1] at h0 hnj
  obtain ⟨t, h1, h2, h3⟩ := C70_shutdown_partial (dur := dur) hI pref h hh hpo f hf
  -- the first moment at which the joins are over
  have first : ∃ u, RelInv np (run (step np initOk dur) (exec np initOk dur (init pref) (h ++ [.sigint])) f u) := by
    have : ∀ t, (∃ u, RelInv np (run (step np initOk dur) (exec np initOk dur (init pref) (h ++ [.sigint])) f u)) ∨
        (let s := run (step np initOk dur) (exec np initOk dur (init pref) (h ++ [.sigint])) f t; (Base np s ∧ StopInv np s ∧ s.sig = true ∧ JoinInv np s) ∧ Joined s.main = false) := by
      intro t
      induction t with
      | zero => exact Or.inr ⟨h0, hnj⟩
      | succ t ih =>
        rcases ih with ih | ⟨hs, hn⟩
        · exact Or.inl ih
        · generalize hS : run (step np initOk dur) (exec np initOk dur (init pref) (h ++ [.sigint])) f t = s at hs hn
          have ha := hf.1 t
          have hr : run (step np initOk dur) (exec np initOk dur (init pref) (h ++ [.sigint])) f (t + 1) = step np initOk dur s (f t) := by
            show step np initOk dur (run _ _ f t) (f t) = _; rw [hS]
          have k1 := base_step hI hs.1 ha.1 (fun e => absurd e ha.2.1) (dur := dur)
          have k2 := stopInv_step (initOk := initOk) (dur := dur) hs.1 hs.2.1 ha.2.2
          have k3 := sig_step (np := np) (initOk := initOk) (dur := dur) hs.2.2.1 (f t)
          have k4 := joinInv_step (initOk := initOk) (dur := dur) hs.2.2.2 (f t)
          cases hq : Joined (step np initOk dur s (f t)).main with
          | false => right; rw [hr]; exact ⟨⟨k1, k2, k3, k4⟩, hq⟩
          | true =>
            left
            refine ⟨t + 1, ?_⟩
            rw [hr]
            refine ⟨k1.ok, hq, gone_ended k1 k4 hq, fun p hp => ?_⟩
            -- the step is the one that ends the joins
            have hd : (step np initOk dur s (f t)).main = .dereg 0 := by
              have hfr : f t = .main := by
                cases hft : f t with
                | main => rfl
                | work q hint =>
                  rw [hft] at hq; simp only [step, hs.1.ok, (work_frame (initOk := initOk) (dur := dur) s q hint).2.2.1] at hq
                  rw [if_neg (by simp), (work_frame (initOk := initOk) (dur := dur) s q hint).2.2.1, hn] at hq; cases hq
                | setPref i q nj => rw [hft] at hq; simp only [step, hs.1.ok] at hq; exfalso; revert hq; rw [if_neg (by simp)]; split <;> (intro hq; rw [show Joined _ = Joined s.main from rfl, hn] at hq; cases hq)
                | pol i => rw [hft] at hq; simp only [step, hs.1.ok, polStep] at hq; exfalso; revert hq; rw [if_neg (by simp)]; split <;> (intro hq; rw [show Joined _ = Joined s.main from rfl, hn] at hq; cases hq)
                | issue q x => rw [hft] at hq; simp only [step, hs.1.ok] at hq; exfalso; revert hq; rw [if_neg (by simp)]; split <;> (intro hq; rw [show Joined _ = Joined s.main from rfl, hn] at hq; cases hq)
                | assign q x => rw [hft] at hq; simp only [step, hs.1.ok] at hq; exfalso; revert hq; rw [if_neg (by simp)]; (repeat' split) <;> (intro hq; rw [show Joined _ = Joined s.main from rfl, hn] at hq; cases hq)
                | sigint => rw [hft] at ha; exact absurd rfl ha.2.1
              rw [hfr] at hq ⊢
              simp only [step, hs.1.ok] at hq ⊢
              rw [if_neg (by simp)] at hq ⊢
              simp only [mainStep] at hq ⊢
              cases hm : s.main with
              | join q =>
                rw [hm] at hq
                simp only at hq ⊢
                split
                · rename_i hlt
                  rw [if_pos hlt] at hq
                  split at hq
                  · cases hq
                  · rw [hm] at hq; cases hq
                · rfl
              | dereg q => rw [hm] at hn; cases hn
              | done => rw [hm] at hn; cases hn
              | spawn q => exfalso; rw [hm] at hq; simp only at hq; split at hq <;> cases hq
              | await q => exfalso; rw [hm] at hq; simp only at hq; split at hq <;> (first | (cases hq; done) | (rw [hm] at hq; cases hq))
              | serving => exfalso; rw [hm] at hq; simp only at hq; split at hq <;> (first | (cases hq; done) | (rw [hm] at hq; cases hq))
              | term q st =>
                exfalso; rw [hm] at hq
                match st with
                | 0 => simp only at hq; split at hq <;> cases hq
                | 1 => cases hq
                | 2 => cases hq
                | st + 3 => cases hq
            exact ⟨fun q e hlt => by rw [hd] at e; cases e; omega, fun e => by rw [hd] at e; cases e⟩
    rcases this t with h | ⟨-, h⟩
    · exact h
    · simp only [h1] at h; cases h
  obtain ⟨u, hu⟩ := first
  -- from there the releases run through
  have L : LeadsTo (step np initOk dur) (Calm np n) (Act.cls np n) (np + 1 + n) (RelInv np)
      (fun s => RelInv np s ∧ s.main = .done) (· < ·) (fun s => match s.main with | .dereg q => np + 1 - q | _ => 0) (fun _ => 0) := by
    refine ⟨Nat.lt_wfRel.wf, fun s a ha hs hq => Or.inr (rel_step hs ha).1, fun s hs hq => by omega, fun s a ha hs hq => ?_, fun s a ha hs hq hc => ?_⟩
    · obtain ⟨k, hk, -⟩ := rel_step (initOk := initOk) (dur := dur) hs ha
      rcases hk with h | h | ⟨q, hq1, h1, h2⟩
      · exact Or.inl ⟨k, h⟩
      · right; right; simp only [h]; exact ⟨trivial, trivial⟩
      · right; left; simp only [h1, h2]; omega
    · obtain ⟨k, -, hk⟩ := rel_step (initOk := initOk) (dur := dur) hs ha
      have hm : a = .main := by cases a <;> simp [Act.cls] at hc <;> first | rfl | omega
      rcases hk hm with h | ⟨q, hq1, h1, h2⟩
      · exact Or.inl ⟨k, h⟩
      · right; simp only [h1, h2]; omega
  obtain ⟨v, hv, hd⟩ := L.reaches _ (fun x => f (u + x)) (fair_shift hf u) hu
  rw [run_shift] at hv hd
  exact ⟨u + v, hd, hv.ok, fun p hp => (hv.rel p hp).2 hd⟩

/-- No worker is stopped before the signal. -/
theorem nostop_step {s : St} (he : s.sig = false ∧ Early s.main = true) (h : ∀ p, s.stop p = false ∧ s.wk p ≠ .ended) {a : Act} (ha : a ≠ .sigint) :
    ∀ p, (step np initOk dur s a).stop p = false ∧ (step np initOk dur s a).wk p ≠ .ended := by
  unfold step
  split
  · exact h
  cases a with
  | main =>
    simp only [mainStep]
    cases hm : s.main with
    | spawn q =>
      simp only; split
      · intro p
        refine ⟨(h p).1, ?_⟩
        show upd s.wk q .setup p ≠ _
        by_cases e : p = q
        · subst e; rw [upd_same]; simp
        · rw [upd_other _ _ e]; exact (h p).2
      · exact h
    | await q => simp only; split <;> exact h
    | serving => simp only [he.1]; exact h
    | term q st => rw [hm] at he; cases he.2
    | join q => rw [hm] at he; cases he.2
    | dereg q => rw [hm] at he; cases he.2
    | done => rw [hm] at he; cases he.2
  | work q hint =>
    simp only [(work_frame (initOk := initOk) (dur := dur) s q hint).1]
    intro p
    refine ⟨(h p).1, ?_⟩
    by_cases e : p = q
    · subst e
      have h1 := (h p).1
      have h2 := (h p).2
      unfold workStep
      repeat' split
      all_goals (try simp_all [upd])
      all_goals (split <;> simp)
    · rw [(work_other hint e).1]; exact (h p).2
  | setPref k q nj => simp only; split <;> exact h
  | pol k => simp only [polStep]; split <;> exact h
  | issue q t => simp only; split <;> exact h
  | assign q ts => simp only; (repeat' split) <;> exact h
  | sigint => exact absurd rfl ha

theorem nostop_exec : ∀ (h : List Act) {s : St}, (s.sig = false ∧ Early s.main = true) → (∀ p, s.stop p = false ∧ s.wk p ≠ .ended) → (∀ a ∈ h, a ≠ Act.sigint) →
    ∀ p, (exec np initOk dur s h).stop p = false ∧ (exec np initOk dur s h).wk p ≠ .ended
  | [], _, _, h, _ => h
  | a :: h, s, he, hs, ha => nostop_exec h (s := step np initOk dur s a) (early_step he (ha a (List.mem_cons_self ..))) (nostop_step he hs (ha a (List.mem_cons_self ..)))
      fun b hb => ha b (List.mem_cons_of_mem _ hb)

/-- Steps of a running worker until it ends its next task. -/
def goRank : Wk → Nat
  | .top => 7
  | .chk => 6
  | .lock => 5
  | .wait => 4
  | .sel => 3
  | .run _ _ => 2
  | _ => 0

def goHand : Wk → Nat
  | .run _ k => k
  | _ => 0

/-- Worker `p` is not paused and has something to do. -/
structure Going (np p i L : Nat) (s : St) : Prop where
  call : Call i p false s
  off : (s.pol i).on p = false
  base : Base np s
  nost : ∀ q, s.stop q = false ∧ s.wk q ≠ .ended
  len : (s.fin p).length = L
  work : (∃ t k, s.wk p = .run t k) ∨ s.queue p ≠ []

theorem Going.eff {p i L : Nat} {s : St} (h : Going np p i L s) : s.noJob p = false ∧ (s.wk p = .lock → s.mtx p = false) := by
  rcases h.call.phase with h' | h' | h'
  · have := h.off; rw [h'] at this; simp [Pol.on] at this
  · have := h.off; rw [h'.1] at this; simp [Pol.on] at this
  · exact h'.2

theorem going_self {p i L : Nat} {s : St} (hg : Going np p i L s) (hint : Nat) :
    L < ((workStep initOk dur s p hint).fin p).length ∨
    ((workStep initOk dur s p hint).fin p = s.fin p ∧ ((∃ t k, (workStep initOk dur s p hint).wk p = .run t k) ∨ (workStep initOk dur s p hint).queue p ≠ []) ∧
      Lt (goRank ((workStep initOk dur s p hint).wk p), goHand ((workStep initOk dur s p hint).wk p)) (goRank (s.wk p), goHand (s.wk p))) := by
  obtain ⟨hnj, hmx⟩ := hg.eff
  have hst := (hg.nost p).1
  have htk := hg.base.tok p
  have hborn : s.wk p ≠ .run 0 0 → s.queue p ≠ [] → s.ready p = true := fun _ h => hg.base.que p h
  unfold workStep
  cases hw : s.wk p with
  | sel =>
    right
    have hne : s.queue p ≠ [] := by
      rcases hg.work with ⟨t, k, h⟩ | h
      · rw [hw] at h; cases h
      · exact h
    have hlt : hint % (s.queue p).length < (s.queue p).length := Nat.mod_lt _ (List.length_pos_iff.mpr hne)
    have hsome : (s.queue p)[hint % (s.queue p).length]? = some ((s.queue p)[hint % (s.queue p).length]) := List.getElem?_eq_getElem hlt
    simp only [hsome]
    refine ⟨trivial, Or.inl ⟨_, _, upd_same ..⟩, ?_⟩
    simp only [upd_same]
    exact lt_fst (by simp [goRank])
  | run t k =>
    cases k with
    | zero => left; simp only [upd_same, List.length_append, hg.len]; simp
    | succ k => right; simp only [upd_same]; exact ⟨trivial, Or.inl ⟨_, _, rfl⟩, lt_snd rfl (by simp [goHand])⟩
  | unborn =>
    exfalso
    rcases hg.work with ⟨t, k, h⟩ | h
    · rw [hw] at h; cases h
    · exact (hg.base.born p (hg.base.que p h)).1 hw
  | setup =>
    exfalso
    rcases hg.work with ⟨t, k, h⟩ | h
    · rw [hw] at h; cases h
    · exact (hg.base.born p (hg.base.que p h)).2.1 hw
  | failed =>
    exfalso
    rcases hg.work with ⟨t, k, h⟩ | h
    · rw [hw] at h; cases h
    · exact (hg.base.born p (hg.base.que p h)).2.2 hw
  | ended => exact absurd hw (hg.nost p).2
  | top =>
    right
    rcases hg.work with ⟨t, k, h⟩ | h
    · rw [hw] at h; cases h
    · simp only [hst, upd_same]; exact ⟨trivial, Or.inr h, lt_fst (by simp [goRank])⟩
  | chk =>
    right
    rcases hg.work with ⟨t, k, h⟩ | h
    · rw [hw] at h; cases h
    · simp only [hnj, upd_same]; exact ⟨trivial, Or.inr h, lt_fst (by simp [goRank])⟩
  | lock =>
    right
    rcases hg.work with ⟨t, k, h⟩ | h
    · rw [hw] at h; cases h
    · simp only [hmx hw]
      rw [if_neg (by simp)]
      simp only [upd_same]; exact ⟨trivial, Or.inr h, lt_fst (by simp [goRank])⟩
  | wait =>
    right
    rcases hg.work with ⟨t, k, h⟩ | h
    · rw [hw] at h; cases h
    · have hl := List.length_pos_iff.mpr h
      rw [hw] at htk
      simp at htk
      simp only
      rw [if_neg (by omega)]
      simp only [upd_same]; exact ⟨trivial, Or.inr h, lt_fst (by simp [goRank])⟩

theorem going_step {p i L : Nat} {s : St} (hI : ∀ p, p < np → initOk p = true) (hg : Going np p i L s) {a : Act} (ha : a.below np n ∧ a ≠ .sigint ∧ a.sets p = false) :
    L < ((step np initOk dur s a).fin p).length ∨ Going np p i L (step np initOk dur s a) := by
  have k1 := call_step (np := np) (initOk := initOk) (dur := dur) hg.call ha.2.1 ha.2.2
  have k2 := on_step (np := np) (initOk := initOk) (dur := dur) hg.call.early hg.off ha.2.1 ha.2.2
  have k3 := base_step (dur := dur) hI hg.base ha.1 (fun e => absurd e ha.2.1)
  have k4 := nostop_step (np := np) (initOk := initOk) (dur := dur) hg.call.early hg.nost ha.2.1
  have h5 : L < ((step np initOk dur s a).fin p).length ∨ ((step np initOk dur s a).fin p = s.fin p ∧ ((∃ t k, (step np initOk dur s a).wk p = .run t k) ∨ (step np initOk dur s a).queue p ≠ [])) := by
    clear k1 k2 k3 k4
    unfold step
    rw [if_neg (by rw [hg.base.ok]; simp)]
    cases a with
    | main =>
      right
      obtain ⟨-, -, f3, f4, -⟩ := main_frame (np := np) hg.call.early
      simp only [f3, f4]
      refine ⟨trivial, ?_⟩
      rcases hg.work with ⟨t, k, h⟩ | h
      · left
        refine ⟨t, k, ?_⟩
        simp only [mainStep]
        cases hm : s.main with
        | spawn q =>
          simp only
          split
          · show upd s.wk q .setup p = _
            rw [upd_other _ _ (fun e => by
              subst e
              have := (hg.base.bnd p (by rw [h]; simp)).2
              rw [hm] at this; simp [bound] at this)]
            exact h
          · exact h
        | await q => simp only; split <;> exact h
        | serving => simp only [hg.call.early.1]; exact h
        | _ => have he := hg.call.early; rw [hm] at he; cases he.2
      · exact Or.inr h
    | work q hint =>
      by_cases e : p = q
      · subst e
        rcases going_self (initOk := initOk) (dur := dur) hg hint with h | h
        · exact Or.inl h
        · exact Or.inr ⟨h.1, h.2.1⟩
      · right
        obtain ⟨w1, w2, -, -, w5, -⟩ := work_other (initOk := initOk) (dur := dur) (s := s) hint e
        simp only [w1, w2, w5]
        exact ⟨trivial, hg.work⟩
    | setPref k q nj => right; simp only; split <;> exact ⟨rfl, hg.work⟩
    | pol k => right; simp only [polStep]; split <;> exact ⟨rfl, hg.work⟩
    | issue q t =>
      right; simp only; split
      · refine ⟨rfl, ?_⟩
        rcases hg.work with h | h
        · exact Or.inl h
        · right
          show upd s.queue q (s.queue q ++ [t]) p ≠ []
          by_cases e : p = q
          · subst e; rw [upd_same]; simp
          · rw [upd_other _ _ e]; exact h
      · exact ⟨rfl, hg.work⟩
    | assign q ts =>
      right; simp only; (repeat' split)
      · refine ⟨rfl, ?_⟩
        rcases hg.work with h | h
        · exact Or.inl h
        · right
          show upd s.queue q (s.queue q ++ ts) p ≠ []
          by_cases e : p = q
          · subst e; rw [upd_same]; simp [h]
          · rw [upd_other _ _ e]; exact h
      · exact ⟨rfl, hg.work⟩
      · exact ⟨rfl, hg.work⟩
    | sigint => exact absurd rfl ha.2.1
  rcases h5 with h | ⟨h, h'⟩
  · exact Or.inl h
  · exact Or.inr ⟨k1, k2, k3, k4, by rw [h]; exact hg.len, h'⟩

/-- **C70** (resume): thread `i` asks for a preference other than NoJob while nobody else changes the preference of worker `p`. Once the call has returned, as long as a task is
queued at `p` the worker goes on: under every fair schedule in which nobody changes this preference, one more task is executed to its end. -/
theorem C70_resume_partial (hI : ∀ p, p < np → initOk p = true) (pref : Nat → Bool) (i p : Nat) (hp : p < np) (h0 h1 : List Act)
    (hh0 : ∀ a ∈ h0, a.below np n ∧ a ≠ Act.sigint) (hh1 : ∀ a ∈ h1, a.below np n ∧ a ≠ Act.sigint ∧ a.sets p = false) (hin : i < n)
    (hidle : (exec np initOk dur (init pref) h0).pol i = .idle) (hnone : ∀ j, ((exec np initOk dur (init pref) h0).pol j).on p = false)
    (hret : ((exec np initOk dur (init pref) (h0 ++ .setPref i p false :: h1)).pol i).on p = false)
    (htask : (exec np initOk dur (init pref) (h0 ++ .setPref i p false :: h1)).queue p ≠ [])
    (f : Nat → Act) (hf : Fair (fun a => a.below np n ∧ a ≠ .sigint ∧ a.sets p = false) (Act.cls np n) (np + 1 + n) f) :
    ∃ t, ((exec np initOk dur (init pref) (h0 ++ .setPref i p false :: h1)).fin p).length <
      ((run (step np initOk dur) (exec np initOk dur (init pref) (h0 ++ .setPref i p false :: h1)) f t).fin p).length := by
  have he := early_exec (np := np) (initOk := initOk) (dur := dur) h0 (s := init pref) ⟨rfl, rfl⟩ (fun a ha => (hh0 a ha).2)
  have hb0 := base_exec (n := n) (dur := dur) hI h0 (base_init pref) ⟨rfl, rfl⟩ hh0
  have hb := call_begin (np := np) (initOk := initOk) (dur := dur) (b := false) he hb0.ok hidle hnone
  have hc := call_exec (np := np) (initOk := initOk) (dur := dur) h1 hb (fun a ha => (hh1 a ha).2)
  have e1 : exec np initOk dur (init pref) (h0 ++ .setPref i p false :: h1) = exec np initOk dur (step np initOk dur (exec np initOk dur (init pref) h0) (.setPref i p false)) h1 := by
    simp [exec, List.foldl_append]
  rw [← e1] at hc
  have hall : ∀ a ∈ h0 ++ .setPref i p false :: h1, a.below np n ∧ a ≠ Act.sigint := by
    intro a ha
    simp only [List.mem_append, List.mem_cons] at ha
    rcases ha with h | h | h
    · exact hh0 a h
    · subst h; exact ⟨⟨hin, hp⟩, by simp⟩
    · exact ⟨(hh1 a h).1, (hh1 a h).2.1⟩
  have hbase := base_exec (n := n) (dur := dur) hI _ (base_init pref) ⟨rfl, rfl⟩ hall
  have hno := nostop_exec (np := np) (initOk := initOk) (dur := dur) _ (s := init pref) ⟨rfl, rfl⟩ (fun q => ⟨rfl, by simp [init]⟩) (fun a ha => (hall a ha).2)
  generalize hS : exec np initOk dur (init pref) (h0 ++ .setPref i p false :: h1) = s at *
  have L : LeadsTo (step np initOk dur) (fun a => a.below np n ∧ a ≠ .sigint ∧ a.sets p = false) (Act.cls np n) (np + 1 + n) (Going np p i (s.fin p).length)
      (fun s' => (s.fin p).length < (s'.fin p).length) Lt (fun s' => (goRank (s'.wk p), goHand (s'.wk p))) (fun _ => p + 1) := by
    refine ⟨lt_wf, fun s' a ha hs hq => going_step hI hs ha, fun s' hs hq => by omega, fun s' a ha hs hq => ?_, fun s' a ha hs hq hcl => ?_⟩
    · by_cases e : ∃ hint, a = .work p hint
      · obtain ⟨hint, rfl⟩ := e
        have : step np initOk dur s' (.work p hint) = workStep initOk dur s' p hint := by simp [step, hs.base.ok]
        simp only [this]
        rcases going_self (initOk := initOk) (dur := dur) hs hint with h | h
        · exact Or.inl h
        · exact Or.inr (Or.inl h.2.2)
      · right; right
        have : (step np initOk dur s' a).wk p = s'.wk p := by
          unfold step
          rw [if_neg (by rw [hs.base.ok]; simp)]
          cases a with
          | main =>
            simp only [mainStep]
            have hne : s'.wk p ≠ .unborn := by
              rcases hs.work with ⟨t, k, h⟩ | h
              · rw [h]; simp
              · exact (hs.base.born p (hs.base.que p h)).1
            cases hm : s'.main with
            | spawn q =>
              simp only; split
              · show upd s'.wk q .setup p = _
                rw [upd_other _ _ (fun e => by
                  subst e
                  have := (hs.base.bnd p hne).2
                  rw [hm] at this; simp [bound] at this)]
              · rfl
            | await q => simp only; split <;> rfl
            | serving => simp only [hs.call.early.1]; rfl
            | _ => exact absurd hs.call.early.2 (by rw [hm]; simp [Early])
          | work q hint => exact (work_other hint (fun h => e ⟨hint, by rw [h]⟩)).1
          | setPref k q nj => simp only; split <;> rfl
          | pol k => simp only [polStep]; split <;> rfl
          | issue q t => simp only; split <;> rfl
          | assign q ts => simp only; (repeat' split) <;> rfl
          | sigint => exact absurd rfl ha.2.1
        rw [this]; exact ⟨rfl, rfl⟩
    · have e : ∃ hint, a = .work p hint := by
        cases a with
        | work q hint => simp [Act.cls] at hcl; subst hcl; exact ⟨hint, rfl⟩
        | main => simp [Act.cls] at hcl
        | setPref k q nj => simp [Act.cls] at hcl; omega
        | pol k => simp [Act.cls] at hcl; omega
        | issue q t => simp [Act.cls] at hcl; omega
        | assign q ts => simp [Act.cls] at hcl; omega
        | sigint => simp [Act.cls] at hcl; omega
      obtain ⟨hint, rfl⟩ := e
      have : step np initOk dur s' (.work p hint) = workStep initOk dur s' p hint := by simp [step, hs.base.ok]
      simp only [this]
      rcases going_self (initOk := initOk) (dur := dur) hs hint with h | h
      · exact Or.inl h
      · exact Or.inr h.2.2
  exact L.reaches s f hf ⟨hc, hret, hbase, hno, rfl, Or.inr htask⟩

/-! ## What goes wrong -/

/-- Worker `p` is blocked in pthread_mutex_lock, nobody is about to open the mutex, and the main thread waits (for the signal, or for this worker). -/
structure Blocked (np p : Nat) (s : St) : Prop where
  wk : s.wk p = .lock
  mx : s.mtx p = true
  po : ∀ j, (s.pol j).on p = false
  mn : (s.sig = false ∧ s.main = .serving) ∨ (s.main = .join p ∧ p < np)

theorem blocked_step {p : Nat} {s : St} (hb : Blocked np p s) {a : Act} (ha : a ≠ .sigint) (hs : a.sets p = false) :
    Blocked np p (step np initOk dur s a) ∧ (step np initOk dur s a).fin p = s.fin p ∧ (step np initOk dur s a).main = s.main := by
  unfold step
  split
  · exact ⟨hb, rfl, rfl⟩
  cases a with
  | main =>
    have : mainStep np s = s := by
      rcases hb.mn with ⟨h1, h2⟩ | ⟨h1, h2⟩
      · simp [mainStep, h2, h1]
      · simp [mainStep, h1, hb.wk, h2]
    simp only [this]; exact ⟨hb, trivial, trivial⟩
  | work q hint =>
    obtain ⟨-, -, f3, f4, f5, -⟩ := work_frame (initOk := initOk) (dur := dur) s q hint
    by_cases e : p = q
    · subst e
      have : workStep initOk dur s p hint = s := by simp [workStep, hb.wk, hb.mx]
      simp only [this]; exact ⟨hb, trivial, trivial⟩
    · obtain ⟨w1, w2, w3, -⟩ := work_other (initOk := initOk) (dur := dur) (s := s) hint e
      exact ⟨⟨w1.trans hb.wk, w3.trans hb.mx, by simp only [f4]; exact hb.po, by simp only [f3, f5]; exact hb.mn⟩, w2, f3⟩
  | setPref k q nj =>
    simp only; split
    · exact ⟨⟨hb.wk, hb.mx, fun j => on_false_pol k (by simpa [Act.sets, Pol.on] using hs) (hb.po j), hb.mn⟩, rfl, rfl⟩
    · exact ⟨hb, rfl, rfl⟩
  | pol k =>
    simp only [polStep]
    have hk1 := hb.po k
    cases hk : s.pol k with
    | idle => exact ⟨hb, rfl, rfl⟩
    | write q nj => rw [hk] at hk1; exact ⟨⟨hb.wk, hb.mx, fun j => on_false_pol k hk1 (hb.po j), hb.mn⟩, rfl, rfl⟩
    | mutex q nj =>
      rw [hk] at hk1
      refine ⟨⟨hb.wk, ?_, fun j => on_false_pol k rfl (hb.po j), hb.mn⟩, rfl, rfl⟩
      show upd s.mtx q nj p = true
      rw [upd_other _ _ (fun e => by subst e; simp [Pol.on] at hk1)]; exact hb.mx
  | issue q t => simp only; split <;> exact ⟨⟨hb.wk, hb.mx, hb.po, hb.mn⟩, rfl, rfl⟩
  | assign q ts => simp only; (repeat' split) <;> exact ⟨⟨hb.wk, hb.mx, hb.po, hb.mn⟩, rfl, rfl⟩
  | sigint => exact absurd rfl ha

theorem blocked_exec {p : Nat} : ∀ (h : List Act) {s : St}, Blocked np p s → (∀ a ∈ h, a ≠ Act.sigint ∧ a.sets p = false) →
    (exec np initOk dur s h).fin p = s.fin p ∧ (exec np initOk dur s h).main = s.main
  | [], _, _, _ => ⟨rfl, rfl⟩
  | a :: h, s, hb, ha => by
    have h0 := ha a (List.mem_cons_self ..)
    obtain ⟨k1, k2, k3⟩ := blocked_step (initOk := initOk) (dur := dur) hb h0.1 h0.2
    obtain ⟨k4, k5⟩ := blocked_exec h (s := step np initOk dur s a) k1 fun b hb => ha b (List.mem_cons_of_mem _ hb)
    exact ⟨k4.trans k2, k5.trans k3⟩

end safety

/-- One accelerator is started. -/
def boot : List Act := [.main, .work 0 0, .main, .main]

/-- Two callers: the worker reads NoJob between the two writes, the mutex is opened and then closed. -/
def raceHist : List Act := boot ++ [.issue 0 7, .setPref 0 0 true, .pol 0, .work 0 0, .work 0 0, .setPref 1 0 false, .pol 1, .pol 1, .pol 0]

set_option linter.unusedSimpArgs false in
/-- **C70 violated** (concurrent callers): one thread asks for NoJob, another for AnyJob; both calls have returned and the preference is AnyJob, a task is queued - and the
worker is blocked for ever, whatever anybody does short of changing the preference again or ending the controller. For every duration of the task. -/
theorem C70_violated_race (dur : Nat → Nat) :
    let s := exec 1 (fun _ => true) dur (init fun _ => false) raceHist
    s.noJob 0 = false ∧ s.queue 0 = [7] ∧ s.crashed = false ∧ (∀ j, (s.pol j) = .idle) ∧
    ∀ h : List Act, (∀ a ∈ h, a ≠ Act.sigint ∧ a.sets 0 = false) → (exec 1 (fun _ => true) dur s h).fin 0 = [] := by
  intro s
  have hs : s.noJob 0 = false ∧ s.queue 0 = [7] ∧ s.crashed = false ∧ s.wk 0 = .lock ∧ s.mtx 0 = true ∧ s.sig = false ∧ s.main = .serving ∧ s.fin 0 = [] := by
    simp [s, raceHist, boot, exec, step, mainStep, workStep, polStep, init, upd]
  have hp : ∀ j, s.pol j = .idle := by
    intro j
    match j with
    | 0 => simp [s, raceHist, boot, exec, step, mainStep, workStep, polStep, init, upd]
    | 1 => simp [s, raceHist, boot, exec, step, mainStep, workStep, polStep, init, upd]
    | j + 2 => simp [s, raceHist, boot, exec, step, mainStep, workStep, polStep, init, upd]
  obtain ⟨h1, h2, h3, h4, h5, h6, h7, h8⟩ := hs
  refine ⟨h1, h2, h3, hp, fun h hh => ?_⟩
  have hb : Blocked 1 0 s := ⟨h4, h5, fun j => by rw [hp j]; rfl, Or.inl ⟨h6, h7⟩⟩
  rw [(blocked_exec h hb hh).1, h8]

/-- The worker has read the stop flag; the signal comes and terminate runs; then somebody asks for NoJob. -/
def lateHist : List Act := boot ++ [.work 0 0, .sigint, .main, .main, .main, .main, .main, .main, .setPref 0 0 true, .pol 0, .work 0 0, .pol 0]

set_option linter.unusedSimpArgs false in
/-- **C70 violated** (pause during shutdown): a call that asks for NoJob after terminate blocks the worker, and the main thread waits in join for ever. -/
theorem C70_violated_late_pause (dur : Nat → Nat) :
    let s := exec 1 (fun _ => true) dur (init fun _ => false) lateHist
    s.crashed = false ∧ s.sig = true ∧ ∀ h : List Act, (∀ a ∈ h, a ≠ Act.sigint ∧ a.sets 0 = false) → Joined (exec 1 (fun _ => true) dur s h).main = false := by
  intro s
  have hs : s.crashed = false ∧ s.wk 0 = .lock ∧ s.mtx 0 = true ∧ s.sig = true ∧ s.main = .join 0 := by
    simp [s, lateHist, boot, exec, step, mainStep, workStep, polStep, init, upd]
  have hp : ∀ j, s.pol j = .idle := by
    intro j
    match j with
    | 0 => simp [s, lateHist, boot, exec, step, mainStep, workStep, polStep, init, upd]
    | j + 1 => simp [s, lateHist, boot, exec, step, mainStep, workStep, polStep, init, upd]
  obtain ⟨h1, h2, h3, h4, h5⟩ := hs
  refine ⟨h1, h4, fun h hh => ?_⟩
  have hb : Blocked 1 0 s := ⟨h2, h3, fun j => by rw [hp j]; rfl, Or.inr ⟨h5, by omega⟩⟩
  rw [(blocked_exec h hb hh).2, h5]; rfl

/-- Two tasks are queued when the signal comes. -/
def pendHist : List Act := boot ++ [.issue 0 7, .issue 0 8, .sigint, .main, .main, .main, .main, .main, .work 0 0]

set_option linter.unusedSimpArgs false in
/-- **C70 violated** (pending tasks): tasks that were issued before the signal are never executed; whoever waits for them waits for ever. -/
theorem C70_violated_pending (dur : Nat → Nat) :
    let s := exec 1 (fun _ => true) dur (init fun _ => false) pendHist
    s.queue 0 = [7, 8] ∧ s.crashed = false ∧ ∀ h : List Act, (exec 1 (fun _ => true) dur s h).fin 0 = [] := by
  intro s
  have hs : s.queue 0 = [7, 8] ∧ s.crashed = false ∧ s.wk 0 = .ended ∧ balancing s.main = true ∧ s.fin 0 = [] := by
    simp [s, pendHist, boot, exec, step, mainStep, workStep, polStep, init, upd, balancing]
  obtain ⟨h1, h2, h3, h4, h5⟩ := hs
  exact ⟨h1, h2, fun h => by rw [ended_exec h h3 h4, h5]⟩

/-- A complete shutdown of one accelerator. -/
def downHist : List Act := boot ++ [.sigint, .main, .main, .main, .main, .main, .main, .work 0 0, .main, .main, .main, .main]

set_option linter.unusedSimpArgs false in
/-- **C70 violated** (balancer): the balancer goes on after the accelerators are released: it takes the next virtual accelerator and assigns it to nothing. Its tasks are in no
accelerator's queue, and nobody looks for them again. -/
theorem C70_violated_balancer (dur : Nat → Nat) (ts : List Nat) :
    (exec 1 (fun _ => true) dur (init fun _ => false) downHist).main = .done ∧
    (exec 1 (fun _ => true) dur (init fun _ => false) (downHist ++ [.assign 0 ts])).lost = ts ∧
    (exec 1 (fun _ => true) dur (init fun _ => false) (downHist ++ [.assign 0 ts])).queue 0 = [] := by
  simp [downHist, boot, exec, step, mainStep, workStep, polStep, init, upd, balancing]

/-- **C70 violated** (second signal): in whatever state, a second SIGINT kills the controller. -/
theorem C70_violated_twice (np : Nat) (initOk : Nat → Bool) (dur : Nat → Nat) (s : St) : (exec np initOk dur s [.sigint, .sigint]).crashed = true := by
  cases h : s.crashed <;> cases h' : s.sig <;> simp [exec, step, h, h']

/-- Startup has not passed worker `p`, whose initialisation fails. -/
def NotUp (p : Nat) (s : St) : Prop := s.ready p = false ∧ ((∃ q, q ≤ p ∧ s.main = .spawn q) ∨ ∃ q, q ≤ p ∧ s.main = .await q)

/-- **C70 violated** (failed initialisation): if the initialisation of one accelerator fails, the controller never gets to serve, in no history: it spins, and its clients wait. -/
theorem C70_violated_init (np : Nat) (initOk : Nat → Bool) (dur : Nat → Nat) (pref : Nat → Bool) (p : Nat) (hp : p < np) (hf : initOk p = false) (h : List Act) :
    balancing (exec np initOk dur (init pref) h).main = false := by
  have key : ∀ (h : List Act) (s : St), NotUp p s → NotUp p (exec np initOk dur s h) := by
    intro h
    induction h with
    | nil => exact fun s hs => hs
    | cons a h ih =>
      intro s hs
      refine ih _ ?_
      obtain ⟨h1, h2⟩ := hs
      unfold step
      split
      · exact ⟨h1, h2⟩
      cases a with
      | main =>
        simp only [mainStep]
        rcases h2 with ⟨q, hq, hm⟩ | ⟨q, hq, hm⟩
        · simp only [hm]
          rw [if_pos (by omega)]
          exact ⟨h1, Or.inr ⟨q, hq, rfl⟩⟩
        · simp only [hm]
          split
          · rename_i hr
            have : q ≠ p := fun e => by subst e; rw [h1] at hr; cases hr
            exact ⟨h1, Or.inl ⟨q + 1, by omega, rfl⟩⟩
          · exact ⟨h1, Or.inr ⟨q, hq, hm⟩⟩
      | work q hint =>
        obtain ⟨-, -, f3, -⟩ := work_frame (initOk := initOk) (dur := dur) s q hint
        refine ⟨?_, by simp only [f3]; exact h2⟩
        by_cases e : p = q
        · subst e
          show (workStep initOk dur s p hint).ready p = false
          unfold workStep
          (repeat' split) <;> simp_all
        · exact (work_other hint e).2.2.2.2.2.2.trans h1
      | setPref k q nj => simp only; split <;> exact ⟨h1, h2⟩
      | pol k => simp only [polStep]; split <;> exact ⟨h1, h2⟩
      | issue q t => simp only; split <;> exact ⟨h1, h2⟩
      | assign q ts => simp only; (repeat' split) <;> exact ⟨h1, h2⟩
      | sigint => simp only; split <;> exact ⟨h1, h2⟩
  obtain ⟨-, h2⟩ := key h (init pref) ⟨rfl, Or.inl ⟨0, Nat.zero_le _, rfl⟩⟩
  rcases h2 with ⟨q, -, hm⟩ | ⟨q, -, hm⟩ <;> rw [hm] <;> rfl

/-! ## The hypotheses are met -/

/-- A schedule of two workers, one preference thread and the main thread that issues tasks for ever. -/
def sched (t : Nat) : Act :=
  match t % 5 with
  | 0 => .main
  | 1 => .work 0 t
  | 2 => .work 1 t
  | 3 => .pol 0
  | _ => .issue (t % 2) t

theorem sched_fair (P : Act → Prop) (h0 : P .main) (h1 : ∀ p x, p < 2 → P (.work p x)) (h3 : P (.pol 0)) (h4 : ∀ p x, p < 2 → P (.issue p x)) :
    Fair P (Act.cls 2 1) 4 sched := by
  refine ⟨fun t => ?_, fun c hc t => ?_⟩
  · have hm : t % 5 < 5 := Nat.mod_lt _ (by omega)
    unfold sched
    split
    · exact h0
    · exact h1 0 t (by omega)
    · exact h1 1 t (by omega)
    · exact h3
    · exact h4 _ _ (Nat.mod_lt _ (by omega))
  · refine ⟨5 * t + c, by omega, ?_⟩
    have e : (5 * t + c) % 5 = c := by omega
    unfold sched
    rw [e]
    match c, hc with
    | 0, _ => rfl
    | 1, _ => rfl
    | 2, _ => rfl
    | 3, _ => rfl

example : Fair (fun a => a.below 2 1 ∧ a ≠ .sigint) (Act.cls 2 1) (2 + 1 + 1) sched :=
  sched_fair _ ⟨trivial, by simp⟩ (fun p x h => ⟨h, by simp⟩) ⟨by simp [Act.below], by simp⟩ (fun p x h => ⟨h, by simp⟩)

example : Fair (Calm 2 1) (Act.cls 2 1) (2 + 1 + 1) sched :=
  sched_fair _ ⟨trivial, by simp, rfl⟩ (fun p x h => ⟨h, by simp, rfl⟩) ⟨by simp [Act.below], by simp, rfl⟩ (fun p x h => ⟨h, by simp, rfl⟩)

example : Fair (fun a => a.below 2 1 ∧ a ≠ .sigint ∧ a.sets 0 = false) (Act.cls 2 1) (2 + 1 + 1) sched :=
  sched_fair _ ⟨trivial, by simp, rfl⟩ (fun p x h => ⟨h, by simp, rfl⟩) ⟨by simp [Act.below], by simp, rfl⟩ (fun p x h => ⟨h, by simp, rfl⟩)

/-- A history for C70_shutdown_partial: worker 0 of two is paused by the configuration, worker 1 is in the middle of a task. -/
def mixHist : List Act := [.main, .work 0 0, .main, .main, .work 1 0, .main, .main, .work 0 0, .work 0 0, .issue 1 5, .work 1 0, .work 1 0, .work 1 0, .work 1 0, .issue 0 6]

example : (∀ a ∈ mixHist, a.below 2 1 ∧ a ≠ Act.sigint) ∧
    (exec 2 (fun _ => true) (fun _ => 3) (init fun p => p == 0) mixHist).wk 0 = .lock ∧
    (exec 2 (fun _ => true) (fun _ => 3) (init fun p => p == 0) mixHist).wk 1 = .run 5 3 ∧
    (∀ i, ((exec 2 (fun _ => true) (fun _ => 3) (init fun p => p == 0) mixHist).pol i).pausing = false) := by
  refine ⟨?_, by decide, by decide, fun i => by rfl⟩
  intro a ha
  simp only [mixHist, List.mem_cons, List.not_mem_nil, or_false] at ha
  rcases ha with h | h | h | h | h | h | h | h | h | h | h | h | h | h | h <;> subst h <;> simp [Act.below]

/-- Pausing: the call returns while the worker waits for a task; the next task is still executed, the one after it is not (the bound of C70_pause_partial is attained). -/
example :
    let h0 : List Act := boot ++ [.work 0 0, .work 0 0]
    let h1 : List Act := [.pol 0, .pol 0]
    let h2 : List Act := [.issue 0 7, .issue 0 8, .work 0 0, .work 0 0, .work 0 0, .work 0 0, .work 0 0, .work 0 0, .work 0 0]
    let s0 := exec 1 (fun _ => true) (fun _ => 0) (init fun _ => false) h0
    let s1 := exec 1 (fun _ => true) (fun _ => 0) (init fun _ => false) (h0 ++ .setPref 0 0 true :: h1)
    let s2 := exec 1 (fun _ => true) (fun _ => 0) (init fun _ => false) (h0 ++ .setPref 0 0 true :: h1 ++ h2)
    s0.crashed = false ∧ s0.pol 0 = .idle ∧ (s1.pol 0).on 0 = false ∧ s1.fin 0 = [] ∧ s2.fin 0 = [7] ∧ s2.queue 0 = [8] ∧ s2.wk 0 = .lock := by decide

/-- Resuming: the worker is blocked, two tasks are queued, the call has returned. -/
example :
    let h0 : List Act := boot ++ [.setPref 0 0 true, .pol 0, .pol 0, .work 0 0, .work 0 0, .issue 0 7, .issue 0 8]
    let s0 := exec 1 (fun _ => true) (fun _ => 0) (init fun _ => false) h0
    let s1 := exec 1 (fun _ => true) (fun _ => 0) (init fun _ => false) (h0 ++ .setPref 0 0 false :: [.pol 0, .pol 0])
    s0.wk 0 = .lock ∧ s0.mtx 0 = true ∧ s0.pol 0 = .idle ∧ (s1.pol 0).on 0 = false ∧ s1.queue 0 = [7, 8] ∧ s1.wk 0 = .lock := by decide

end Arax.Control
