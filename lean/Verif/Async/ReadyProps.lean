import Verif.Async.Ready
/-!
# C24: the controller-ready notification reaches every application

`arax_init()` of application `i` has returned when `app i = .ret`. An infinite schedule is a function `f : Nat → Act`; it is fair to the
applications `0 … n-1` if each of them is scheduled again and again.
-/
namespace Arax.Ready

/-- The state after the first `t` steps of the infinite schedule `f`. -/
def run (b : Backend) (s : St) (f : Nat → Act) : Nat → St
  | 0 => s
  | t + 1 => step b (run b s f t) (f t)

/-- Only applications below `n` exist. -/
def Act.below (n : Nat) : Act → Prop
  | .app i => i < n
  | .ctl => True
  | .spurious i => i < n

def Fair (n : Nat) (f : Nat → Act) : Prop := (∀ t, (f t).below n) ∧ ∀ i, i < n → ∀ t, ∃ t', t ≤ t' ∧ f t' = .app i

/-- Number of applications below `n` that have read "not ready" and not been woken since. -/
def waiting (s : St) : Nat → Nat
  | 0 => 0
  | n + 1 => waiting s n + if s.app n = .wait ∨ s.app n = .asleep then 1 else 0

/-! ### Sums over the applications -/

def total (w : Pc → Nat) (p : Nat → Pc) : Nat → Nat
  | 0 => 0
  | n + 1 => total w p n + w (p n)

theorem total_congr (w : Pc → Nat) (p q : Nat → Pc) : ∀ n, (∀ i, i < n → p i = q i) → total w p n = total w q n
  | 0, _ => rfl
  | n + 1, h => by
    simp only [total]
    rw [total_congr w p q n (fun i hi => h i (by omega)), h n (by omega)]

theorem total_set (w : Pc → Nat) (p : Nat → Pc) (i : Nat) (x : Pc) : ∀ n, i < n →
    total w (fun j => if j = i then x else p j) n + w (p i) = total w p n + w x
  | 0, h => by omega
  | n + 1, h => by
    simp only [total]
    by_cases e : n = i
    · subst e
      have := total_congr w (fun j => if j = n then x else p j) p n (fun i hi => by
        show (if i = n then x else p i) = p i
        rw [if_neg (by omega)])
      rw [this, if_pos rfl]; omega
    · have := total_set w p i x n (by omega)
      rw [if_neg e]; omega

theorem total_pos (w : Pc → Nat) (p : Nat → Pc) (i : Nat) (hw : 1 ≤ w (p i)) : ∀ n, i < n → 1 ≤ total w p n
  | 0, h => by omega
  | n + 1, h => by
    simp only [total]
    by_cases e : n = i
    · subst e; omega
    · have := total_pos w p i hw n (by omega); omega

/-- 1 for applications that wait for a notification. -/
def wWait : Pc → Nat
  | .wait | .asleep => 1
  | _ => 0

theorem waiting_eq (s : St) : ∀ n, waiting s n = total wWait s.app n
  | 0 => rfl
  | n + 1 => by
    simp only [waiting, total, waiting_eq s n]
    cases s.app n <;> simp [wWait]

/-- Remaining steps. -/
def wLeft : Pc → Nat
  | .wait => 5
  | .asleep => 4
  | .lock => 3
  | .test => 2
  | .unlock => 1
  | .ret => 0

/-- The controller is done and every waiting application has a wake-up in store. -/
structure Good (b : Backend) (n : Nat) (s : St) : Prop where
  ready : s.ready = true
  ctl   : s.ctl = 2
  held  : s.locked = true → ∃ i, i < n ∧ (s.app i = .test ∨ s.app i = .wait ∨ s.app i = .unlock)
  tok   : match b with | .mutex => total wWait s.app n = 0 | .spin => total wWait s.app n ≤ s.tokens

/-- Holder part of the invariant, from the start. -/
def Held (n : Nat) (s : St) : Prop := s.locked = true → ∃ i, i < n ∧ (s.app i = .test ∨ s.app i = .wait ∨ s.app i = .unlock)

theorem held_step (b : Backend) (n : Nat) (s : St) (a : Act) (ha : a.below n) (h : Held n s) : Held n (step b s a) := by
  have keep : ∀ i p, s.app i ≠ .test → s.app i ≠ .wait → s.app i ≠ .unlock → ∀ tk, Held n ({ s with tokens := tk }.goto i p) := by
    intro i p h1 h2 h3 tk hl
    obtain ⟨j, hj, hh⟩ := h hl
    have : j ≠ i := by rintro rfl; simp_all
    exact ⟨j, hj, by simpa [St.goto, this] using hh⟩
  cases a with
  | app i =>
    simp only [step, appStep]
    split
    · split
      · exact h
      · intro _; exact ⟨i, ha, by simp [St.goto]⟩
    · split
      · intro _; exact ⟨i, ha, by simp [St.goto]⟩
      · intro _; exact ⟨i, ha, by simp [St.goto]⟩
    · intro hl; simp [St.goto] at hl
    · rename_i hp
      split
      · exact h
      · split
        · exact keep i .lock (by simp [hp]) (by simp [hp]) (by simp [hp]) _
        · exact h
    · intro hl; simp [St.goto] at hl
    · exact h
  | ctl =>
    simp only [step, ctlStep]
    split
    · exact h
    · split
      · intro hl
        obtain ⟨j, hj, hh⟩ := h hl
        refine ⟨j, hj, ?_⟩
        rcases hh with e | e | e <;> simp [e]
      · exact h
    · exact h
  | spurious i =>
    simp only [step]
    split
    · rename_i hp
      exact keep i .lock (by simp [hp.2]) (by simp [hp.2]) (by simp [hp.2]) s.tokens
    · exact h

theorem held_exec (b : Backend) (n : Nat) : ∀ (sched : List Act) (s : St), (∀ a ∈ sched, a.below n) → Held n s → Held n (exec b s sched)
  | [], _, _, h => h
  | a :: r, s, ha, h => held_exec b n r (step b s a) (fun x hx => ha x (by simp [hx])) (held_step b n s a (ha a (by simp)) h)

/-- After a good state, each step changes nothing or strictly decreases the remaining work. -/
theorem good_step (b : Backend) (n : Nat) (s : St) (a : Act) (ha : a.below n) (g : Good b n s) :
    Good b n (step b s a) ∧ (step b s a = s ∨ total wLeft (step b s a).app n < total wLeft s.app n) := by
  obtain ⟨h1, h2, h3, h4⟩ := g
  have hh := held_step b n s a ha h3
  have gt : ∀ i x, i < n → total wLeft (fun j => if j = i then x else s.app j) n + wLeft (s.app i) = total wLeft s.app n + wLeft x :=
    fun i x => total_set wLeft s.app i x n
  have wt : ∀ i x, i < n → total wWait (fun j => if j = i then x else s.app j) n + wWait (s.app i) = total wWait s.app n + wWait x :=
    fun i x => total_set wWait s.app i x n
  have zero : ∀ i, i < n → (s.app i = .wait ∨ s.app i = .asleep) → total wWait s.app n ≠ 0 := by
    intro i hi he
    have := total_pos wWait s.app i (by rcases he with e | e <;> simp [e, wWait]) n hi
    omega
  cases a with
  | app i =>
    have ha : i < n := ha
    simp only [step, appStep] at hh ⊢
    cases hp : s.app i with
    | lock =>
      simp only [hp] at hh ⊢
      by_cases hl : s.locked = true
      · simp only [hl, if_true] at hh ⊢; exact ⟨⟨h1, h2, h3, h4⟩, Or.inl trivial⟩
      · simp only [hl] at hh ⊢
        have e1 := gt i .test ha; have e2 := wt i .test ha
        simp only [hp, wLeft, wWait] at e1 e2
        refine ⟨⟨h1, h2, hh, ?_⟩, Or.inr ?_⟩
        · cases b
          · show total wWait (fun j => if j = i then Pc.test else s.app j) n = 0
            have h4 : total wWait s.app n = 0 := h4
            omega
          · show total wWait (fun j => if j = i then Pc.test else s.app j) n ≤ s.tokens
            have h4 : total wWait s.app n ≤ s.tokens := h4
            omega
        · show total wLeft (fun j => if j = i then Pc.test else s.app j) n < _
          omega
    | test =>
      simp only [hp, h1, if_true] at hh ⊢
      have e1 := gt i .unlock ha; have e2 := wt i .unlock ha
      simp only [hp, wLeft, wWait] at e1 e2
      refine ⟨⟨h1, h2, hh, ?_⟩, Or.inr ?_⟩
      · cases b
        · show total wWait (fun j => if j = i then Pc.unlock else s.app j) n = 0
          have h4 : total wWait s.app n = 0 := h4
          omega
        · show total wWait (fun j => if j = i then Pc.unlock else s.app j) n ≤ s.tokens
          have h4 : total wWait s.app n ≤ s.tokens := h4
          omega
      · show total wLeft (fun j => if j = i then Pc.unlock else s.app j) n < _
        omega
    | wait =>
      simp only [hp] at hh ⊢
      have e1 := gt i .asleep ha; have e2 := wt i .asleep ha
      simp only [hp, wLeft, wWait] at e1 e2
      refine ⟨⟨h1, h2, hh, ?_⟩, Or.inr ?_⟩
      · cases b
        · exact absurd h4 (zero i ha (Or.inl hp))
        · show total wWait (fun j => if j = i then Pc.asleep else s.app j) n ≤ s.tokens
          have h4 : total wWait s.app n ≤ s.tokens := h4
          omega
      · show total wLeft (fun j => if j = i then Pc.asleep else s.app j) n < _
        omega
    | asleep =>
      simp only [hp] at hh ⊢
      cases b
      · exact absurd h4 (zero i ha (Or.inr hp))
      · have h4 : total wWait s.app n ≤ s.tokens := h4
        have z := zero i ha (Or.inr hp)
        have ht : 1 ≤ s.tokens := by omega
        simp only [ht, if_true] at hh ⊢
        have e1 := gt i .lock ha; have e2 := wt i .lock ha
        simp only [hp, wLeft, wWait] at e1 e2
        refine ⟨⟨h1, h2, hh, ?_⟩, Or.inr ?_⟩
        · show total wWait (fun j => if j = i then Pc.lock else s.app j) n ≤ s.tokens - 1
          omega
        · show total wLeft (fun j => if j = i then Pc.lock else s.app j) n < _
          omega
    | unlock =>
      simp only [hp] at hh ⊢
      have e1 := gt i .ret ha; have e2 := wt i .ret ha
      simp only [hp, wLeft, wWait] at e1 e2
      refine ⟨⟨h1, h2, hh, ?_⟩, Or.inr ?_⟩
      · cases b
        · show total wWait (fun j => if j = i then Pc.ret else s.app j) n = 0
          have h4 : total wWait s.app n = 0 := h4
          omega
        · show total wWait (fun j => if j = i then Pc.ret else s.app j) n ≤ s.tokens
          have h4 : total wWait s.app n ≤ s.tokens := h4
          omega
      · show total wLeft (fun j => if j = i then Pc.ret else s.app j) n < _
        omega
    | ret => simp only; exact ⟨⟨h1, h2, h3, h4⟩, Or.inl trivial⟩
  | ctl =>
    simp only [step, ctlStep, h2] at hh ⊢
    exact ⟨⟨h1, h2, h3, h4⟩, Or.inl trivial⟩
  | spurious i =>
    have ha : i < n := ha
    simp only [step] at hh ⊢
    split
    · rename_i hp
      obtain ⟨rfl, hp⟩ := hp
      exact absurd h4 (zero i ha (Or.inr hp))
    · exact ⟨⟨h1, h2, h3, h4⟩, Or.inl rfl⟩

/-- Some application can make progress as long as not all have returned. -/
theorem good_enabled (b : Backend) (n : Nat) (s : St) (g : Good b n s) (i : Nat) (hi : i < n) (hr : s.app i ≠ .ret) :
    ∃ j, j < n ∧ step b s (.app j) ≠ s := by
  obtain ⟨h1, h2, h3, h4⟩ := g
  have ne : ∀ j p, s.app j ≠ p → ∀ s' : St, (s'.app j = p) → s' ≠ s := by
    intro j p hp s' hs' e; rw [e] at hs'; exact hp hs'
  have zero : ∀ i, i < n → (s.app i = .wait ∨ s.app i = .asleep) → total wWait s.app n ≠ 0 := by
    intro i hi he
    have := total_pos wWait s.app i (by rcases he with e | e <;> simp [e, wWait]) n hi
    omega
  have hold : ∀ j, (s.app j = .test ∨ s.app j = .wait ∨ s.app j = .unlock) → step b s (.app j) ≠ s := by
    rintro j (e | e | e)
    · exact ne j .unlock (by simp [e]) _ (by simp [step, appStep, e, h1, St.goto])
    · exact ne j .asleep (by simp [e]) _ (by simp [step, appStep, e, St.goto])
    · exact ne j .ret (by simp [e]) _ (by simp [step, appStep, e, St.goto])
  by_cases hl : s.locked = true
  · obtain ⟨j, hj, hh⟩ := h3 hl
    exact ⟨j, hj, hold j hh⟩
  · refine ⟨i, hi, ?_⟩
    cases hp : s.app i with
    | lock => exact ne i .test (by simp [hp]) _ (by simp [step, appStep, hp, hl, St.goto])
    | test => exact hold i (by simp [hp])
    | wait => exact hold i (by simp [hp])
    | unlock => exact hold i (by simp [hp])
    | ret => exact absurd hp hr
    | asleep =>
      cases b
      · exact absurd h4 (zero i hi (Or.inr hp))
      · have h4 : total wWait s.app n ≤ s.tokens := h4
        have z := zero i hi (Or.inr hp)
        have ht : 1 ≤ s.tokens := by omega
        exact ne i .lock (by simp [hp]) _ (by simp [step, appStep, hp, ht, St.goto])

theorem good_terminates (b : Backend) (n : Nat) (f : Nat → Act) (hf : Fair n f) (s : St) : ∀ k t, Good b n (run b s f t) →
    total wLeft (run b s f t).app n ≤ k → ∃ t', t ≤ t' ∧ ∀ i, i < n → (run b s f t').app i = .ret := by
  intro k
  induction k with
  | zero =>
    intro t _ h
    refine ⟨t, Nat.le_refl t, fun i hi => ?_⟩
    apply Decidable.byContradiction
    intro hr
    have : 1 ≤ wLeft ((run b s f t).app i) := by cases e : (run b s f t).app i <;> simp_all [wLeft]
    have := total_pos wLeft (run b s f t).app i this n hi
    omega
  | succ k ih =>
    intro t g h
    by_cases hall : ∀ i, i < n → (run b s f t).app i = .ret
    · exact ⟨t, Nat.le_refl t, hall⟩
    · have hex : ∃ i, i < n ∧ (run b s f t).app i ≠ .ret := by
        apply Classical.byContradiction
        intro hc
        apply hall
        intro i hi
        exact Decidable.byContradiction fun hr => hc ⟨i, hi, hr⟩
      obtain ⟨i, hi, hr⟩ := hex
      obtain ⟨j, hj, hne⟩ := good_enabled b n _ g i hi hr
      obtain ⟨t', htt, hft⟩ := hf.2 j hj t
      -- until t' nothing happens, or the work has decreased already
      have walk : ∀ d, t + d ≤ t' → (run b s f (t + d) = run b s f t) ∨
          ∃ u, t ≤ u ∧ Good b n (run b s f u) ∧ total wLeft (run b s f u).app n < total wLeft (run b s f t).app n := by
        intro d
        induction d with
        | zero => intro _; exact Or.inl rfl
        | succ d ihd =>
          intro hd
          rcases ihd (by omega) with e | e
          · have gs := good_step b n (run b s f (t + d)) (f (t + d)) (hf.1 _) (e ▸ g)
            rcases gs.2 with e2 | e2
            · left
              show step b (run b s f (t + d)) (f (t + d)) = _
              rw [e2, e]
            · right
              refine ⟨t + d + 1, by omega, gs.1, ?_⟩
              rw [← e]; exact e2
          · exact Or.inr e
      have fin : ∃ u, t ≤ u ∧ Good b n (run b s f u) ∧ total wLeft (run b s f u).app n < total wLeft (run b s f t).app n := by
        rcases walk (t' - t) (by omega) with e | e
        · have e : run b s f t' = run b s f t := by rwa [show t + (t' - t) = t' by omega] at e
          have gs := good_step b n (run b s f t') (f t') (hf.1 _) (e ▸ g)
          rcases gs.2 with e2 | e2
          · rw [hft, e] at e2; exact absurd e2 hne
          · exact ⟨t' + 1, by omega, gs.1, by rw [← e]; exact e2⟩
        · exact e
      obtain ⟨u, hu, gu, hlt⟩ := fin
      obtain ⟨v, hv, hd⟩ := ih u gu (by omega)
      exact ⟨v, by omega, hd⟩

/-- The controller's own store precedes its notification. -/
theorem ctl_ready (b : Backend) (pre : List Act) : (exec b init pre).ctl ≠ 0 → (exec b init pre).ready = true := by
  have key : ∀ (pre : List Act) (s : St), (s.ctl ≠ 0 → s.ready = true) → (exec b s pre).ctl ≠ 0 → (exec b s pre).ready = true := by
    intro pre
    induction pre with
    | nil => intro s h; exact h
    | cons a r ih =>
      intro s h
      refine ih (step b s a) ?_
      cases a with
      | app i =>
        simp only [step, appStep]
        repeat' split
        all_goals exact h
      | ctl =>
        simp only [step, ctlStep]
        split
        · intro _; rfl
        · rename_i e
          split <;> (intro _; exact h (by simp [e]))
        · exact h
      | spurious i => simp only [step]; split <;> exact h
  exact key pre init (by simp [init])

/-- **C24 (mutex, partial)** `n` applications and the controller run in any order (`pre`) up to the moment the controller is about to
broadcast, and at that moment no application is between reading "not ready" and falling asleep. Then under every fair schedule
every application returns from `arax_init()`. Missing: a broadcast that falls into that window (`C24_violated_mutex`). -/
theorem C24_all_return_mutex_partial (n : Nat) (pre : List Act) (hb : ∀ a ∈ pre, a.below n) (f : Nat → Act) (hf : Fair n f) :
    let s := exec .mutex init pre
    s.ctl = 1 → (∀ i, i < n → s.app i ≠ .wait) →
    ∃ t, ∀ i, i < n → (run .mutex (step .mutex s .ctl) f t).app i = .ret := by
  intro s hc hw
  have hr : s.ready = true := ctl_ready .mutex pre (by show s.ctl ≠ 0; omega)
  have hh : Held n s := held_exec .mutex n pre init hb (by intro h; simp [init] at h)
  have g : Good .mutex n (step .mutex s .ctl) := by
    have hs := held_step .mutex n s .ctl trivial hh
    refine ⟨?_, ?_, hs, ?_⟩
    · simp [step, ctlStep, hc, hr]
    · simp [step, ctlStep, hc]
    · have z : ∀ (p : Nat → Pc) n, (∀ i, i < n → wWait (p i) = 0) → total wWait p n = 0 := by
        intro p n
        induction n with
        | zero => intro _; rfl
        | succ n ih => intro h; simp only [total, h n (by omega), ih (fun i hi => h i (by omega))]
      refine z _ n fun i hi => ?_
      have := hw i hi
      simp only [step, ctlStep, hc]
      cases e : s.app i <;> simp_all [wWait]
  obtain ⟨t, -, ht⟩ := good_terminates .mutex n f hf _ _ 0 g (Nat.le_refl _)
  exact ⟨t, ht⟩

/-- **C24 (spin, partial)** With the spin back-end every application returns under every fair schedule if, when the controller notifies, at
most one application has read "not ready" without having been woken (in particular with a single application). Missing: two or more
waiting applications (`C24_violated_spin`). -/
theorem C24_all_return_spin_partial (n : Nat) (pre : List Act) (hb : ∀ a ∈ pre, a.below n) (f : Nat → Act) (hf : Fair n f) :
    let s := exec .spin init pre
    s.ctl = 1 → waiting s n ≤ 1 →
    ∃ t, ∀ i, i < n → (run .spin (step .spin s .ctl) f t).app i = .ret := by
  intro s hc hw
  have hr : s.ready = true := ctl_ready .spin pre (by show s.ctl ≠ 0; omega)
  have hh : Held n s := held_exec .spin n pre init hb (by intro h; simp [init] at h)
  have g : Good .spin n (step .spin s .ctl) := by
    have hs := held_step .spin n s .ctl trivial hh
    refine ⟨?_, ?_, hs, ?_⟩
    · simp [step, ctlStep, hc, hr]
    · simp [step, ctlStep, hc]
    · rw [waiting_eq] at hw
      simp only [step, ctlStep, hc]
      omega
  obtain ⟨t, -, ht⟩ := good_terminates .spin n f hf _ _ 0 g (Nat.le_refl _)
  exact ⟨t, ht⟩

/-- **C24 is violated (mutex)**: the application reads "not ready"; the controller stores and broadcasts, without the lock; the application
falls asleep and never wakes up, whatever happens (without a spurious wake-up). -/
theorem C24_violated_mutex :
    let s := exec .mutex init [.app 0, .app 0, .ctl, .ctl, .app 0]
    s.ctl = 2 ∧ s.ready = true ∧
    ∀ more : List Act, (∀ i, Act.spurious i ∉ more) → (exec .mutex s more).app 0 = .asleep := by
  refine ⟨by decide +kernel, by decide +kernel, ?_⟩
  have key : ∀ (more : List Act) (s : St), (∀ i, Act.spurious i ∉ more) → s.ctl = 2 → s.app 0 = .asleep → (exec .mutex s more).app 0 = .asleep := by
    intro more
    induction more with
    | nil => intro s _ _ h; exact h
    | cons a r ih =>
      intro s hn hc ha
      have hn' : ∀ i, Act.spurious i ∉ r := fun i hi => hn i (by simp [hi])
      cases a with
      | spurious i => exact absurd (by simp) (hn i)
      | ctl => exact ih (step .mutex s .ctl) hn' (by simp [step, ctlStep, hc]) (by simp [step, ctlStep, hc, ha])
      | app i =>
        refine ih (step .mutex s (.app i)) hn' ?_ ?_
        · simp only [step, appStep]
          repeat' split
          all_goals simp_all [St.goto]
        · by_cases e : i = 0
          · subst e; simp [step, appStep, ha]
          · simp only [step, appStep]
            repeat' split
            all_goals simp_all [St.goto, Ne.symm e]
  intro more hm
  exact key more _ hm (by decide +kernel) (by decide +kernel)

/-- **C24 is violated (spin)**: two applications wait; the controller's notification wakes one of them and the other one waits for ever. -/
theorem C24_violated_spin :
    let s := exec .spin init [.app 0, .app 0, .app 0, .app 1, .app 1, .app 1, .ctl, .ctl, .app 0, .app 0, .app 0, .app 0]
    s.ctl = 2 ∧ s.app 0 = .ret ∧ ∀ more : List Act, (∀ i, Act.app i ∈ more → i < 2) → (exec .spin s more).app 1 = .asleep := by
  refine ⟨by decide +kernel, by decide +kernel, ?_⟩
  have key : ∀ (more : List Act) (s : St), (∀ i, Act.app i ∈ more → i < 2) → s.ctl = 2 → s.tokens = 0 → s.app 0 = .ret → s.app 1 = .asleep →
      (exec .spin s more).app 1 = .asleep := by
    intro more
    induction more with
    | nil => intro s _ _ _ _ h; exact h
    | cons a r ih =>
      intro s hn hc ht h0 h1
      refine ih (step .spin s a) (fun i hi => hn i (by simp [hi])) ?_ ?_ ?_ ?_ <;>
      (cases a with
       | spurious i => simp [step, *]
       | ctl => simp [step, ctlStep, *]
       | app i =>
        have : i = 0 ∨ i = 1 := by have := hn i (by simp); omega
        rcases this with rfl | rfl <;> simp [step, appStep, *])
  intro more hm
  exact key more _ hm (by decide +kernel) (by decide +kernel) (by decide +kernel) (by decide +kernel)

/-- Non-vacuity: two applications, one asleep and one before taking the lock, when the controller broadcasts; a fair schedule exists. -/
example : (let s := exec .mutex init [.app 0, .app 0, .app 0, .ctl]
    s.ctl = 1 ∧ s.ready = true ∧ s.app 0 = .asleep ∧ ∀ i, i < 2 → s.app i ≠ .wait) ∧
    Fair 2 (fun t => .app (t % 2)) := by
  refine ⟨by decide +kernel, fun t => Nat.mod_lt _ (by omega), fun i hi t => ⟨2 * t + i, by omega, ?_⟩⟩
  show Act.app ((2 * t + i) % 2) = .app i
  rw [show (2 * t + i) % 2 = i by omega]

end Arax.Ready
