import Verif.Async.Worker
/-!
# C63: a worker waiting for tasks is woken

`exec b init pre` is the state after an arbitrary finite history `pre` of calls, steps of any thread and spurious wake-ups. From there on the
threads run their current calls with a schedule `f : Nat → Nat` (the thread that takes the next step) that is fair to all of them. (A history with
finitely many calls and spurious wake-ups consists of exactly such a prefix and such a rest.)
-/
namespace Arax.Worker

/-- The state after the first `t` steps of the infinite schedule `f`. -/
def run (b : Backend) (s : St) (f : Nat → Nat) : Nat → St
  | 0 => s
  | t + 1 => goStep b (run b s f t) (f t)

def Fair (n : Nat) (f : Nat → Nat) : Prop := (∀ t, f t < n) ∧ ∀ i, i < n → ∀ t, ∃ t', t ≤ t' ∧ f t' = i

/-- Thread `i` is inside a call of `arax_accel_wait_for_task`. -/
def St.waiting (s : St) (i : Nat) : Prop :=
  s.pc i = .lock ∨ s.pc i = .test ∨ s.pc i = .wait ∨ s.pc i = .asleep ∨ s.pc i = .take ∨ s.pc i = .unlock

/-- Thread `i` is inside a call that adds tasks. -/
def St.adding (s : St) (i : Nat) : Prop :=
  (∃ k, s.pc i = .aLock k) ∨ (∃ k, s.pc i = .aAdd k) ∨ s.pc i = .aNotify ∨ s.pc i = .aUnlock

/-- Only threads below `n` exist. -/
def Act.below (n : Nat) : Act → Prop
  | .go i | .callWait i | .spurious i => i < n
  | .callAdd i _ => i < n

/-- The accelerator has one worker: only thread `w` calls `arax_accel_wait_for_task`. -/
def OneWorker (w : Nat) (pre : List Act) : Prop := ∀ i, .callWait i ∈ pre → i = w

/-- Tasks are added one by one (`arax_accel_add_task`). -/
def OneByOne (pre : List Act) : Prop := ∀ i k, .callAdd i k ∈ pre → k ≤ 1

/-! ### Sums over the threads -/

def total (w : Pc → Nat) (p : Nat → Pc) : Nat → Nat
  | 0 => 0
  | n + 1 => total w p n + w (p n)

theorem total_congr (w : Pc → Nat) (p q : Nat → Pc) : ∀ n, (∀ i, i < n → w (p i) = w (q i)) → total w p n = total w q n
  | 0, _ => rfl
  | n + 1, h => by
    simp only [total]
    rw [total_congr w p q n (fun i hi => h i (by omega)), h n (by omega)]

theorem total_le (w : Pc → Nat) (c : Nat) (p q : Nat → Pc) : ∀ n, (∀ i, i < n → w (p i) ≤ w (q i) + c) → total w p n ≤ total w q n + c * n
  | 0, _ => by simp [total]
  | n + 1, h => by
    have := total_le w c p q n (fun i hi => h i (by omega))
    have := h n (by omega)
    simp only [total, Nat.mul_succ]; omega

theorem total_set (w : Pc → Nat) (p : Nat → Pc) (i : Nat) (x : Pc) : ∀ n, i < n →
    total w (fun j => if j = i then x else p j) n + w (p i) = total w p n + w x
  | 0, h => by omega
  | n + 1, h => by
    simp only [total]
    by_cases e : n = i
    · subst e
      have := total_congr w (fun j => if j = n then x else p j) p n (fun i hi => by
        show w (if i = n then x else p i) = w (p i)
        rw [if_neg (by omega)])
      rw [this, if_pos rfl]; omega
    · have := total_set w p i x n (by omega)
      rw [if_neg e]; omega

theorem total_pos (w : Pc → Nat) (p : Nat → Pc) : ∀ n, 1 ≤ total w p n → ∃ i, i < n ∧ 1 ≤ w (p i)
  | 0, h => by simp [total] at h
  | n + 1, h => by
    simp only [total] at h
    by_cases e : 1 ≤ w (p n)
    · exact ⟨n, by omega, e⟩
    · obtain ⟨i, hi, h'⟩ := total_pos w p n (by omega); exact ⟨i, by omega, h'⟩

/-! ### Safety invariant -/

def Pc.holds : Pc → Bool
  | .test | .wait | .take | .unlock | .aAdd _ | .aNotify | .aUnlock => true
  | _ => false

structure Inv (n : Nat) (s : St) : Prop where
  held  : s.locked = true → ∃ i, i < n ∧ (s.pc i).holds = true
  hold  : ∀ i, (s.pc i).holds = true → s.locked = true
  mutex : ∀ i j, (s.pc i).holds = true → (s.pc j).holds = true → i = j
  wait0 : ∀ i, s.pc i = .wait → s.tasks = 0
  take1 : ∀ i, s.pc i = .take → s.tasks ≠ 0
  cons  : s.tasks + s.taken = s.added
  out   : ∀ i, n ≤ i → s.pc i = .idle
  rets  : s.rets ≤ s.taken
  unl   : ∀ i, s.pc i = .unlock → s.rets + 1 ≤ s.taken

theorem inv_init (n : Nat) : Inv n init :=
  ⟨by simp [init], by simp [init, Pc.holds], by simp [init, Pc.holds], by simp [init], by simp [init], rfl, by simp [init], by simp [init], by simp [init]⟩

theorem inv_step (b : Backend) (n : Nat) (s : St) (a : Act) (ha : a.below n) (h : Inv n s) : Inv n (step b s a) := by
  obtain ⟨h1, h2, h3, h4, h5, h6, h7, h8, h9⟩ := h
  cases a with
  | go i =>
    have hi : i < n := ha
    simp only [step, goStep]
    split
    all_goals (try split)
    all_goals (try split)
    all_goals (try exact ⟨h1, h2, h3, h4, h5, h6, h7, h8, h9⟩)
    all_goals constructor
    all_goals first
        | (intro _; refine ⟨i, hi, ?_⟩; simp [St.goto, Pc.holds]; done)
        | (intro hl; simp [St.goto] at hl; done)
        | (intro hl; simp only [St.goto] at hl; obtain ⟨j, hj, hh⟩ := h1 hl; refine ⟨j, hj, ?_⟩; grind [St.goto, Pc.holds])
        | grind [St.goto, Pc.holds]
  | callWait i =>
    have hi : i < n := ha
    simp only [step]
    split
    · constructor
      all_goals first
        | (intro _; refine ⟨i, hi, ?_⟩; simp [St.goto, Pc.holds]; done)
        | (intro hl; simp [St.goto] at hl; done)
        | (intro hl; simp only [St.goto] at hl; obtain ⟨j, hj, hh⟩ := h1 hl; refine ⟨j, hj, ?_⟩; grind [St.goto, Pc.holds])
        | grind [St.goto, Pc.holds]
    · exact ⟨h1, h2, h3, h4, h5, h6, h7, h8, h9⟩
  | callAdd i k =>
    have hi : i < n := ha
    simp only [step]
    split
    · constructor
      all_goals first
        | (intro _; refine ⟨i, hi, ?_⟩; simp [St.goto, Pc.holds]; done)
        | (intro hl; simp [St.goto] at hl; done)
        | (intro hl; simp only [St.goto] at hl; obtain ⟨j, hj, hh⟩ := h1 hl; refine ⟨j, hj, ?_⟩; grind [St.goto, Pc.holds])
        | grind [St.goto, Pc.holds]
    · exact ⟨h1, h2, h3, h4, h5, h6, h7, h8, h9⟩
  | spurious i =>
    have hi : i < n := ha
    simp only [step]
    split
    · constructor
      all_goals first
        | (intro _; refine ⟨i, hi, ?_⟩; simp [St.goto, Pc.holds]; done)
        | (intro hl; simp [St.goto] at hl; done)
        | (intro hl; simp only [St.goto] at hl; obtain ⟨j, hj, hh⟩ := h1 hl; refine ⟨j, hj, ?_⟩; grind [St.goto, Pc.holds])
        | grind [St.goto, Pc.holds]
    · exact ⟨h1, h2, h3, h4, h5, h6, h7, h8, h9⟩

theorem inv_exec (b : Backend) (n : Nat) : ∀ (pre : List Act) (s : St), (∀ a ∈ pre, a.below n) → Inv n s → Inv n (exec b s pre)
  | [], _, _, h => h
  | a :: pre, s, hb, h =>
    inv_exec b n pre (step b s a) (fun x hx => hb x (List.mem_cons_of_mem _ hx)) (inv_step b n s a (hb a List.mem_cons_self) h)

/-! ### A wake-up is in store for every sleeper that has work -/

/-- mutex back-end, and spin back-end with one worker -/
def Stored (b : Backend) (s : St) : Prop :=
  ∀ i, s.pc i = .asleep → s.tasks ≠ 0 → (b = .spin ∧ 1 ≤ s.tokens) ∨ ∃ j, s.pc j = .aNotify

/-- Only `w` waits. -/
def Only (w : Nat) (s : St) : Prop := ∀ i, s.waiting i → i = w

theorem only_step (b : Backend) (w : Nat) (s : St) (a : Act) (ha : ∀ i, a = .callWait i → i = w) (h : Only w s) : Only w (step b s a) := by
  unfold Only St.waiting at *
  cases a with
  | go i =>
    simp only [step, goStep]
    split
    all_goals (try split)
    all_goals (try split)
    all_goals (try exact h)
    all_goals grind [St.goto]
  | callWait i =>
    have hi : i = w := ha i rfl
    simp only [step]; split
    · grind [St.goto]
    · exact h
  | callAdd i k =>
    simp only [step]; split
    · grind [St.goto]
    · exact h
  | spurious i =>
    simp only [step]; split
    · grind [St.goto]
    · exact h

theorem stored_step (b : Backend) (n w : Nat) (s : St) (a : Act) (hw : b = .spin → Only w s) (hi : Inv n s) (h : Stored b s) :
    Stored b (step b s a) := by
  have hww : b = .spin → ∀ i, s.pc i = .asleep → i = w := fun e i hp => hw e i (by simp [St.waiting, hp])
  obtain ⟨h1, h2, h3, h4, h5, h6, h7, h8, h9⟩ := hi
  clear hw
  -- frame: the step of `i`, whose counter is not `aNotify`, keeps `tokens` and does not raise `tasks`
  have frame : ∀ s' : St, ∀ i p, s'.pc = (s.goto i p).pc → s.pc i ≠ .aNotify → p ≠ .asleep → s'.tokens = s.tokens → (s'.tasks ≠ 0 → s.tasks ≠ 0) →
      Stored b s' := by
    intro s' i p e hp hpa ht htk x hx hne
    have hx' : s.pc x = .asleep := by rw [e] at hx; simp only [St.goto] at hx; split at hx <;> simp_all
    rcases h x hx' (htk hne) with h' | ⟨j, hj⟩
    · rw [← ht] at h'; exact Or.inl h'
    · refine Or.inr ⟨j, ?_⟩
      have : j ≠ i := by rintro rfl; exact hp hj
      rw [e]; simp [St.goto, this, hj]
  cases a with
  | go i =>
    simp only [step, goStep]
    cases hp : s.pc i with
    | idle => exact h
    | lock =>
      simp only; split
      · exact h
      · exact frame _ i .test rfl (by simp [hp]) (by simp) rfl id
    | test =>
      simp only; split
      · exact frame _ i .wait rfl (by simp [hp]) (by simp) rfl id
      · exact frame _ i .take rfl (by simp [hp]) (by simp) rfl id
    | wait => intro x hx hne; exact absurd (h4 i hp) hne
    | asleep =>
      simp only
      cases b with
      | mutex => exact h
      | spin =>
        simp only; split
        · intro x hx hne
          have := hww rfl i hp
          simp only [St.goto] at hx
          split at hx
          · simp at hx
          · rename_i hxi; exact absurd (hww rfl x hx) (by rw [← this]; exact hxi)
        · exact h
    | take => exact frame _ i .unlock rfl (by simp [hp]) (by simp) rfl (fun _ => h5 i hp)
    | unlock => exact frame _ i .idle rfl (by simp [hp]) (by simp) rfl id
    | aLock k =>
      simp only; split
      · exact h
      · exact frame _ i (.aAdd k) rfl (by simp [hp]) (by simp) rfl id
    | aAdd k =>
      simp only; split
      · exact frame _ i .aUnlock rfl (by simp [hp]) (by simp) rfl id
      · intro x hx hne; exact Or.inr ⟨i, by simp [St.goto]⟩
    | aNotify =>
      simp only
      cases b with
      | mutex =>
        intro x hx hne
        simp only at hx
        split at hx
        · simp at hx
        · split at hx
          · simp at hx
          · rename_i h1 h2; exact absurd hx h2
      | spin => intro x hx hne; exact Or.inl ⟨rfl, by simp [St.goto]⟩
    | aUnlock => exact frame _ i .idle rfl (by simp [hp]) (by simp) rfl id
  | callWait i =>
    simp only [step]; split
    · rename_i hp; exact frame _ i .lock rfl (by simp [hp]) (by simp) rfl id
    · exact h
  | callAdd i k =>
    simp only [step]; split
    · rename_i hp; exact frame _ i (.aLock k) rfl (by simp [hp]) (by simp) rfl id
    · exact h
  | spurious i =>
    simp only [step]; split
    · rename_i hp; exact frame _ i .lock rfl (by simp [hp.2]) (by simp) rfl id
    · exact h

/-- 1 for threads that will look at `tasks` (or have seen work) and for pending notifications. -/
def wAwake : Pc → Nat
  | .lock | .test | .take | .aNotify => 1
  | _ => 0

/-- spin back-end, any number of workers, tasks added one by one -/
def Counted (n : Nat) (s : St) : Prop :=
  s.tasks ≤ s.tokens + total wAwake s.pc n ∧ ∀ i k, (s.pc i = .aLock k ∨ s.pc i = .aAdd k) → k ≤ 1

theorem counted_step (n : Nat) (s : St) (a : Act) (ha : a.below n) (hk : ∀ i k, a = .callAdd i k → k ≤ 1) (hi : Inv n s) (h : Counted n s) :
    Counted n (step .spin s a) := by
  obtain ⟨h1, h2, h3, h4, h5, h6, h7, h8, h9⟩ := hi
  obtain ⟨hc, hk1⟩ := h
  have set := fun i p (h : i < n) => total_set wAwake s.pc i p n h
  have ks : ∀ (s' : St) i p, s'.pc = (s.goto i p).pc → (∀ k, p = .aLock k ∨ p = .aAdd k → k ≤ 1) →
      ∀ j k, (s'.pc j = .aLock k ∨ s'.pc j = .aAdd k) → k ≤ 1 := by
    intro s' i p e hp j k hj
    rw [e] at hj; simp only [St.goto] at hj
    split at hj
    · exact hp k hj
    · exact hk1 j k hj
  cases a with
  | go i =>
    have hin : i < n := ha
    simp only [step, goStep]
    cases hp : s.pc i with
    | idle => exact ⟨hc, hk1⟩
    | lock =>
      simp only; split
      · exact ⟨hc, hk1⟩
      · have := set i .test hin
        refine ⟨?_, ks _ i .test rfl (by simp)⟩
        simp only [hp, wAwake] at this; simp only [St.goto]; omega
    | test =>
      simp only; split
      · rename_i h0
        refine ⟨?_, ks _ i .wait rfl (by simp)⟩
        simp only [St.goto]; omega
      · have := set i .take hin
        refine ⟨?_, ks _ i .take rfl (by simp)⟩
        simp only [hp, wAwake] at this; simp only [St.goto]; omega
    | wait =>
      have h0 := h4 i hp
      refine ⟨?_, ks _ i .asleep rfl (by simp)⟩
      simp only [St.goto]; omega
    | asleep =>
      simp only; split
      · have := set i .lock hin
        refine ⟨?_, ks _ i .lock rfl (by simp)⟩
        simp only [hp, wAwake] at this; simp only [St.goto]; omega
      · exact ⟨hc, hk1⟩
    | take =>
      have := set i .unlock hin
      have := h5 i hp
      refine ⟨?_, ks _ i .unlock rfl (by simp)⟩
      simp only [St.goto]; simp only [hp, wAwake] at *; omega
    | unlock =>
      have := set i .idle hin
      refine ⟨?_, ks _ i .idle rfl (by simp)⟩
      simp only [hp, wAwake] at this; simp only [St.goto]; omega
    | aLock k =>
      simp only; split
      · exact ⟨hc, hk1⟩
      · have := set i (.aAdd k) hin
        refine ⟨?_, ks _ i (.aAdd k) rfl (by intro k' h'; simp only [Pc.aAdd.injEq, reduceCtorEq, false_or] at h'; rw [← h']; exact hk1 i k (Or.inl hp))⟩
        simp only [hp, wAwake] at this; simp only [St.goto]; omega
    | aAdd k =>
      simp only; split
      · have := set i .aUnlock hin
        refine ⟨?_, ks _ i .aUnlock rfl (by simp)⟩
        simp only [hp, wAwake] at this; simp only [St.goto]; omega
      · have := set i .aNotify hin
        have hk' := hk1 i k (Or.inr hp)
        refine ⟨?_, ks _ i .aNotify rfl (by simp)⟩
        simp only [hp, wAwake] at this; simp only [St.goto]; omega
    | aNotify =>
      have := set i .aUnlock hin
      refine ⟨?_, ks _ i .aUnlock rfl (by simp)⟩
      simp only [hp, wAwake] at this; simp only [St.goto]; omega
    | aUnlock =>
      have := set i .idle hin
      refine ⟨?_, ks _ i .idle rfl (by simp)⟩
      simp only [hp, wAwake] at this; simp only [St.goto]; omega
  | callWait i =>
    simp only [step]; split
    · rename_i hp
      have := set i .lock ha
      refine ⟨?_, ks _ i .lock rfl (by simp)⟩
      simp only [hp, wAwake] at this; simp only [St.goto]; omega
    · exact ⟨hc, hk1⟩
  | callAdd i k =>
    simp only [step]; split
    · rename_i hp
      have := set i (.aLock k) ha
      refine ⟨?_, ks _ i (.aLock k) rfl (by intro k' h'; simp only [Pc.aLock.injEq, reduceCtorEq, or_false] at h'; rw [← h']; exact hk i k rfl)⟩
      simp only [hp, wAwake] at this; simp only [St.goto]; omega
    · exact ⟨hc, hk1⟩
  | spurious i => simp only [step, reduceCtorEq, false_and, if_false]; exact ⟨hc, hk1⟩

/-! ### Progress -/

/-- Weight of a thread in the progress measure. -/
def wLeft (n : Nat) : Pc → Nat
  | .idle => 0
  | .unlock => 1
  | .take => 2
  | .asleep => 2
  | .wait => 3
  | .test => 4
  | .lock => 5
  | .aUnlock => 1
  | .aNotify => 5 * n + 12
  | .aAdd _ => 5 * n + 13
  | .aLock _ => 5 * n + 14

def phi (n : Nat) (s : St) : Nat := total (wLeft n) s.pc n + 10 * s.tokens

/-- A step of a thread either changes nothing or brings the measure down. -/
theorem phi_step (b : Backend) (n : Nat) (s : St) (i : Nat) (hi : i < n) : goStep b s i = s ∨ phi n (goStep b s i) < phi n s := by
  have set := fun p => total_set (wLeft n) s.pc i p n hi
  have key : ∀ s' : St, ∀ p, s'.pc = (s.goto i p).pc → s'.tokens = s.tokens → wLeft n p < wLeft n (s.pc i) → phi n s' < phi n s := by
    intro s' p e ht hlt
    have := set p
    unfold phi; rw [e, ht]; simp only [St.goto]; omega
  unfold goStep
  cases hp : s.pc i with
  | idle => exact Or.inl rfl
  | lock =>
    simp only; split
    · exact Or.inl rfl
    · exact Or.inr (key _ .test rfl rfl (by simp [hp, wLeft]))
  | test =>
    simp only; split
    · exact Or.inr (key _ .wait rfl rfl (by simp [hp, wLeft]))
    · exact Or.inr (key _ .take rfl rfl (by simp [hp, wLeft]))
  | wait => exact Or.inr (key _ .asleep rfl rfl (by simp [hp, wLeft]))
  | asleep =>
    simp only
    cases b with
    | mutex => exact Or.inl rfl
    | spin =>
      simp only; split
      · refine Or.inr ?_
        have := set .lock
        simp only [hp, wLeft] at this
        unfold phi; simp only [St.goto]; omega
      · exact Or.inl rfl
  | take => exact Or.inr (key _ .unlock rfl rfl (by simp [hp, wLeft]))
  | unlock => exact Or.inr (key _ .idle rfl rfl (by simp [hp, wLeft]))
  | aLock k =>
    simp only; split
    · exact Or.inl rfl
    · exact Or.inr (key _ (.aAdd k) rfl rfl (by simp [hp, wLeft]))
  | aAdd k =>
    simp only; split
    · exact Or.inr (key _ .aUnlock rfl rfl (by simp [hp, wLeft]))
    · exact Or.inr (key _ .aNotify rfl rfl (by simp [hp, wLeft]))
  | aNotify =>
    refine Or.inr ?_
    have e := set .aUnlock
    simp only [hp, wLeft] at e
    cases b with
    | mutex =>
      have := total_le (wLeft n) 5 (fun j => if j = i then .aUnlock else if s.pc j = .asleep then .lock else s.pc j)
        (fun j => if j = i then .aUnlock else s.pc j) n (by
          intro j _
          show wLeft n (if j = i then .aUnlock else if s.pc j = .asleep then .lock else s.pc j) ≤ wLeft n (if j = i then .aUnlock else s.pc j) + 5
          by_cases h1 : j = i
          · simp [h1]
          · by_cases h2 : s.pc j = .asleep
            · simp [h1, h2, wLeft]
            · simp [h1, h2])
      unfold phi; simp only; omega
    | spin => unfold phi; simp only [St.goto]; omega
  | aUnlock => exact Or.inr (key _ .idle rfl rfl (by simp [hp, wLeft]))

/-- Nothing is left to do. -/
def Quiet (b : Backend) (n : Nat) (s : St) : Prop :=
  ∀ i, i < n → s.pc i = .idle ∨ (s.pc i = .asleep ∧ (b = .spin → s.tokens = 0))

/-- Somebody can move unless everybody is idle or asleep without a wake-up. -/
theorem quiet_or_moves (b : Backend) (n : Nat) (s : St) (hinv : Inv n s) : Quiet b n s ∨ ∃ i, i < n ∧ goStep b s i ≠ s := by
  by_cases hq : ∃ i, i < n ∧ goStep b s i ≠ s
  · exact Or.inr hq
  · refine Or.inl ?_
    have stuck : ∀ i, i < n → goStep b s i = s := fun i hi => Classical.byContradiction (fun h => hq ⟨i, hi, h⟩)
    have moved : ∀ (s' : St) i p, s' = s → s'.pc = (s.goto i p).pc → p ≠ s.pc i → False := by
      intro s' i p h e hp
      rw [h] at e
      have := congrFun e i
      simp only [St.goto, if_pos] at this
      exact hp this.symm
    have hl : s.locked = false := by
      apply Decidable.byContradiction; intro hl
      obtain ⟨i, hi, hh⟩ := hinv.held (by simpa using hl)
      have hs := stuck i hi
      unfold goStep at hs
      cases hp : s.pc i with
      | idle => simp [hp, Pc.holds] at hh
      | lock => simp [hp, Pc.holds] at hh
      | asleep => simp [hp, Pc.holds] at hh
      | aLock k => simp [hp, Pc.holds] at hh
      | test =>
        rw [hp] at hs; simp only at hs; split at hs
        · exact moved _ i .wait hs rfl (by simp [hp])
        · exact moved _ i .take hs rfl (by simp [hp])
      | wait => rw [hp] at hs; exact moved _ i .asleep hs rfl (by simp [hp])
      | take => rw [hp] at hs; exact moved _ i .unlock hs rfl (by simp [hp])
      | unlock => rw [hp] at hs; exact moved _ i .idle hs rfl (by simp [hp])
      | aAdd k =>
        rw [hp] at hs; simp only at hs; split at hs
        · exact moved _ i .aUnlock hs rfl (by simp [hp])
        · exact moved _ i .aNotify hs rfl (by simp [hp])
      | aNotify =>
        rw [hp] at hs; simp only at hs
        cases b with
        | mutex =>
          have := congrArg (fun s => s.pc i) hs
          simp [hp] at this
        | spin => exact moved _ i .aUnlock hs rfl (by simp [hp])
      | aUnlock => rw [hp] at hs; exact moved _ i .idle hs rfl (by simp [hp])
    intro i hi
    have hs := stuck i hi
    have hh : (s.pc i).holds = false := by
      apply Decidable.byContradiction; intro h
      rw [hinv.hold i (by simpa using h)] at hl; simp at hl
    unfold goStep at hs
    cases hp : s.pc i with
    | idle => exact Or.inl rfl
    | lock => rw [hp] at hs; simp only [hl, Bool.false_eq_true, if_false] at hs; exact (moved _ i .test hs rfl (by simp [hp])).elim
    | aLock k => rw [hp] at hs; simp only [hl, Bool.false_eq_true, if_false] at hs; exact (moved _ i (.aAdd k) hs rfl (by simp [hp])).elim
    | asleep =>
      refine Or.inr ⟨rfl, ?_⟩
      rintro rfl
      rw [hp] at hs; simp only at hs; split at hs
      · exact (moved _ i .lock hs rfl (by simp [hp])).elim
      · omega
    | test => simp [hp, Pc.holds] at hh
    | wait => simp [hp, Pc.holds] at hh
    | take => simp [hp, Pc.holds] at hh
    | unlock => simp [hp, Pc.holds] at hh
    | aAdd k => simp [hp, Pc.holds] at hh
    | aNotify => simp [hp, Pc.holds] at hh
    | aUnlock => simp [hp, Pc.holds] at hh

/-- An invariant of the steps holds along a run. -/
theorem run_inv (b : Backend) (P : St → Prop) (n : Nat) (hP : ∀ s i, i < n → P s → P (goStep b s i)) (s : St) (h : P s) (f : Nat → Nat) (hf : ∀ t, f t < n) :
    ∀ t, P (run b s f t)
  | 0 => h
  | t + 1 => hP _ _ (hf t) (run_inv b P n hP s h f hf t)

theorem run_shift (b : Backend) (s : St) (f : Nat → Nat) (t : Nat) : ∀ u, run b (run b s f t) (fun x => f (t + x)) u = run b s f (t + u)
  | 0 => rfl
  | u + 1 => by
    show goStep b (run b (run b s f t) (fun x => f (t + x)) u) (f (t + u)) = _
    rw [run_shift b s f t u]; rfl

theorem fair_shift {n : Nat} {f : Nat → Nat} (hf : Fair n f) (t : Nat) : Fair n (fun x => f (t + x)) :=
  ⟨fun x => hf.1 _, fun i hi u => by
    obtain ⟨t', h1, h2⟩ := hf.2 i hi (t + u)
    exact ⟨t' - t, by omega, by show f (t + (t' - t)) = i; rw [show t + (t' - t) = t' by omega]; exact h2⟩⟩

/-- Before the measure drops nothing changes. -/
theorem drops (b : Backend) (n : Nat) (s : St) (f : Nat → Nat) (hf : Fair n f) (i : Nat) (hi : i < n) (hm : goStep b s i ≠ s) :
    ∃ t, phi n (run b s f t) < phi n s := by
  obtain ⟨t, -, ht⟩ := hf.2 i hi 0
  by_cases hex : ∃ u, u ≤ t ∧ phi n (run b s f u) < phi n s
  · obtain ⟨u, -, h⟩ := hex; exact ⟨u, h⟩
  · have same : ∀ u, u ≤ t → run b s f u = s := by
      intro u
      induction u with
      | zero => intro _; rfl
      | succ u ih =>
        intro hu
        have e := ih (by omega)
        rcases phi_step b n s (f u) (hf.1 u) with h | h
        · show goStep b (run b s f u) (f u) = s
          rw [e, h]
        · refine absurd ⟨u + 1, hu, ?_⟩ hex
          show phi n (goStep b (run b s f u) (f u)) < _
          rw [e]; exact h
    refine ⟨t + 1, ?_⟩
    show phi n (goStep b (run b s f t) (f t)) < _
    rw [same t (by omega), ht]
    rcases phi_step b n s i hi with h | h
    · exact absurd h hm
    · exact h

/-- Every fair run comes to rest. -/
theorem comes_to_rest (b : Backend) (n : Nat) : ∀ (m : Nat) (s : St) (f : Nat → Nat), phi n s ≤ m → Inv n s → Fair n f →
    ∃ t, Quiet b n (run b s f t) := by
  intro m
  induction m with
  | zero =>
    intro s f hm hinv hf
    rcases quiet_or_moves b n s hinv with h | ⟨i, hi, h⟩
    · exact ⟨0, h⟩
    · obtain ⟨t, ht⟩ := drops b n s f hf i hi h; omega
  | succ m ih =>
    intro s f hm hinv hf
    rcases quiet_or_moves b n s hinv with h | ⟨i, hi, h⟩
    · exact ⟨0, h⟩
    · obtain ⟨t, ht⟩ := drops b n s f hf i hi h
      have hi' := run_inv b (Inv n) n (fun s i hi h => inv_step b n s (.go i) hi h) s hinv f hf.1 t
      obtain ⟨u, hu⟩ := ih (run b s f t) (fun x => f (t + x)) (by omega) hi' (fair_shift hf t)
      exact ⟨t + u, by rw [← run_shift]; exact hu⟩

/-- At rest nothing moves any more. -/
theorem quiet_stays (b : Backend) (n : Nat) (s : St) (hq : Quiet b n s) (f : Nat → Nat) (hf : ∀ t, f t < n) : ∀ t, run b s f t = s
  | 0 => rfl
  | t + 1 => by
    show goStep b (run b s f t) (f t) = s
    rw [quiet_stays b n s hq f hf t]
    unfold goStep
    rcases hq (f t) (hf t) with h | ⟨h, ht⟩
    · rw [h]
    · rw [h]
      cases b with
      | mutex => rfl
      | spin => simp [ht rfl]

/-- What is known after any prefix. -/
structure Known (b : Backend) (n w : Nat) (s : St) : Prop where
  inv  : Inv n s
  wake : (Stored b s ∧ (b = .spin → Only w s)) ∨ (b = .spin ∧ Counted n s)

theorem known_step (b : Backend) (n w : Nat) (s : St) (i : Nat) (hi : i < n) (h : Known b n w s) : Known b n w (goStep b s i) := by
  refine ⟨inv_step b n s (.go i) hi h.inv, ?_⟩
  rcases h.wake with ⟨h1, h2⟩ | ⟨rfl, h1⟩
  · exact Or.inl ⟨stored_step b n w s (.go i) h2 h.inv h1, fun e => only_step b w s (.go i) (by simp) (h2 e)⟩
  · exact Or.inr ⟨rfl, counted_step n s (.go i) hi (by simp) h.inv h1⟩

theorem known_exec (b : Backend) (n w : Nat) : ∀ (pre : List Act) (s : St), (∀ a ∈ pre, a.below n) →
    (b = .spin → OneWorker w pre ∨ OneByOne pre) → Inv n s → (Stored b s ∧ Only w s) → (b = .spin → Counted n s) → Known b n w (exec b s pre) := by
  intro pre
  -- the two disjuncts are kept separately
  have stored : ∀ (pre : List Act) (s : St), (∀ a ∈ pre, a.below n) → (b = .spin → OneWorker w pre) → Inv n s → Stored b s → (b = .spin → Only w s) →
      Stored b (exec b s pre) ∧ (b = .spin → Only w (exec b s pre)) := by
    intro pre
    induction pre with
    | nil => intro s _ _ _ h1 h2; exact ⟨h1, h2⟩
    | cons a pre ih =>
      intro s hb hw hinv h1 h2
      exact ih (step b s a) (fun x hx => hb x (List.mem_cons_of_mem _ hx)) (fun e i hi => hw e i (List.mem_cons_of_mem _ hi))
        (inv_step b n s a (hb a List.mem_cons_self) hinv) (stored_step b n w s a h2 hinv h1)
        (fun e => only_step b w s a (fun i hi => hw e i (by rw [hi]; exact List.mem_cons_self)) (h2 e))
  have counted : ∀ (pre : List Act) (s : St), (∀ a ∈ pre, a.below n) → OneByOne pre → Inv n s → Counted n s → Counted n (exec .spin s pre) := by
    intro pre
    induction pre with
    | nil => intro s _ _ _ h1; exact h1
    | cons a pre ih =>
      intro s hb hw hinv h1
      exact ih (step .spin s a) (fun x hx => hb x (List.mem_cons_of_mem _ hx)) (fun i k hi => hw i k (List.mem_cons_of_mem _ hi))
        (inv_step .spin n s a (hb a List.mem_cons_self) hinv)
        (counted_step n s a (hb a List.mem_cons_self) (fun i k hi => hw i k (by rw [hi]; exact List.mem_cons_self)) hinv h1)
  intro s hb hw hinv h1 h2
  refine ⟨inv_exec b n pre s hb hinv, ?_⟩
  cases b with
  | mutex => exact Or.inl (stored pre s hb (by simp) hinv h1.1 (by simp))
  | spin =>
    rcases hw rfl with h | h
    · exact Or.inl (stored pre s hb (fun _ => h) hinv h1.1 (fun _ => h1.2))
    · exact Or.inr ⟨rfl, counted pre s hb h hinv (h2 rfl)⟩

/-- At rest, a thread still waiting has nothing to wait for. -/
theorem rest_no_tasks (b : Backend) (n w : Nat) (s : St) (h : Known b n w s) (hq : Quiet b n s) (i : Nat) (hi : s.pc i = .asleep) : s.tasks = 0 := by
  apply Decidable.byContradiction; intro ht
  have hin : i < n := by
    apply Decidable.byContradiction; intro hn
    have := h.inv.out i (by omega); rw [hi] at this; simp at this
  have htok : b = .spin → s.tokens = 0 := by
    rcases hq i hin with h' | h'
    · rw [hi] at h'; simp at h'
    · exact h'.2
  rcases h.wake with ⟨h1, _⟩ | ⟨rfl, h1, _⟩
  · rcases h1 i hi ht with ⟨e, h'⟩ | ⟨j, hj⟩
    · have := htok e; omega
    · have hjn : j < n := by
        apply Decidable.byContradiction; intro hn
        have := h.inv.out j (by omega); rw [hj] at this; simp at this
      rcases hq j hjn with h' | h' <;> rw [hj] at h' <;> simp at h'
  · have := htok rfl
    obtain ⟨j, hj, hw⟩ := total_pos wAwake s.pc n (by omega)
    rcases hq j hj with h' | h' <;> simp [h', wAwake] at hw

/-! ### C63 -/

/-- **C63** Wake-up: take any history `pre` of the threads `0 … n-1` in which (spin back-end) only the accelerator's worker `w` waits for tasks, or tasks
are added one by one. Under every fair schedule of what is then left of the calls, from some moment on every call that adds tasks has returned, and
either no call of `arax_accel_wait_for_task` is left or the accelerator has no pending tasks: nobody sleeps while there is work. -/
theorem C63_woken (b : Backend) (n w : Nat) (pre : List Act) (hb : ∀ a ∈ pre, a.below n) (hu : b = .spin → OneWorker w pre ∨ OneByOne pre)
    (f : Nat → Nat) (hf : Fair n f) :
    ∃ t0, ∀ t, t0 ≤ t → let s := run b (exec b init pre) f t
      (∀ i, ¬ s.adding i) ∧ ((∀ i, ¬ s.waiting i) ∨ s.tasks = 0) := by
  have hk0 : Known b n w (exec b init pre) := known_exec b n w pre init hb hu (inv_init n)
    ⟨by intro i h; simp [init] at h, by intro i h; simp [St.waiting, init] at h⟩
    (fun _ => ⟨by simp [init], by simp [init]⟩)
  obtain ⟨t0, hq⟩ := comes_to_rest b n _ (exec b init pre) f (Nat.le_refl _) hk0.inv hf
  have hk := run_inv b (Known b n w) n (fun s i hi h => known_step b n w s i hi h) _ hk0 f hf.1 t0
  refine ⟨t0, fun t ht => ?_⟩
  have e : run b (exec b init pre) f t = run b (exec b init pre) f t0 := by
    have := run_shift b (exec b init pre) f t0 (t - t0)
    rw [show t0 + (t - t0) = t by omega] at this
    rw [← this]
    exact quiet_stays b n _ hq _ (fun x => hf.1 _) _
  simp only [e]
  generalize run b (exec b init pre) f t0 = s at *
  have pcs : ∀ i, s.pc i = .idle ∨ s.pc i = .asleep := by
    intro i
    by_cases hi : i < n
    · rcases hq i hi with h | h
      · exact Or.inl h
      · exact Or.inr h.1
    · exact Or.inl (hk.inv.out i (by omega))
  refine ⟨fun i h => ?_, ?_⟩
  · rcases pcs i with h' | h' <;> simp [St.adding, h'] at h
  · by_cases hs : ∃ i, s.pc i = .asleep
    · obtain ⟨i, hi⟩ := hs
      exact Or.inr (rest_no_tasks b n w s hk hq i hi)
    · refine Or.inl fun i h => ?_
      rcases pcs i with h' | h'
      · simp [St.waiting, h'] at h
      · exact hs ⟨i, h'⟩

/-- **C63** Exact hand-out, at every moment of every history: the pending tasks are the tasks added minus the tasks handed out, and at least as many tasks were added as calls of `arax_accel_wait_for_task` have returned. -/
theorem C63_exact (b : Backend) (n : Nat) (pre : List Act) (hb : ∀ a ∈ pre, a.below n) :
    let s := exec b init pre
    s.tasks + s.taken = s.added ∧ s.rets ≤ s.taken ∧ s.rets ≤ s.added := by
  have h := inv_exec b n pre init hb (inv_init n)
  refine ⟨h.cons, h.rets, ?_⟩
  have := h.cons; have := h.rets; omega

/-- C63 needs its condition: with the spin back-end, two waiting threads, and two tasks added with one notification (`arax_accel_add_vaccel` of a virtual
accelerator with two queued tasks), one thread sleeps on although a task is pending. (The controller has one worker per accelerator.) -/
theorem C63_two_workers :
    let s := exec .spin init ([.callWait 0, .callWait 1, .callAdd 2 2] ++ List.replicate 3 (.go 0) ++ List.replicate 3 (.go 1) ++
      List.replicate 4 (.go 2) ++ List.replicate 5 (.go 0))
    s.pc 0 = .idle ∧ s.pc 1 = .asleep ∧ s.pc 2 = .idle ∧ s.tasks = 1 ∧ ∀ i, i < 3 → goStep .spin s i = s := by
  refine ⟨by decide +kernel, by decide +kernel, by decide +kernel, by decide +kernel, ?_⟩
  intro i hi
  have h3 : i = 0 ∨ i = 1 ∨ i = 2 := by omega
  rcases h3 with rfl | rfl | rfl <;> rfl

/-- Non-vacuity: a worker falls asleep, a client adds a task, the round-robin schedule of both is fair and does wake the worker. -/
example : (∀ a ∈ [Act.callWait 0, .go 0, .go 0, .go 0, .callAdd 1 1], a.below 2) ∧ OneWorker 0 [Act.callWait 0, .go 0, .go 0, .go 0, .callAdd 1 1] ∧
    OneByOne [Act.callWait 0, .go 0, .go 0, .go 0, .callAdd 1 1] ∧ Fair 2 (fun t => t % 2) ∧
    (exec .spin init [.callWait 0, .go 0, .go 0, .go 0, .callAdd 1 1]).pc 0 = .asleep ∧
    (run .spin (exec .spin init [.callWait 0, .go 0, .go 0, .go 0, .callAdd 1 1]) (fun t => t % 2) 20).rets = 1 ∧
    (run .mutex (exec .mutex init [.callWait 0, .go 0, .go 0, .go 0, .callAdd 1 1]) (fun t => t % 2) 20).rets = 1 := by
  refine ⟨by simp [Act.below], by simp [OneWorker], by simp [OneByOne], ⟨fun t => Nat.mod_lt _ (by omega), fun i hi t => ?_⟩, by decide +kernel, by decide +kernel, by decide +kernel⟩
  exact ⟨2 * t + i, by omega, by show (2 * t + i) % 2 = i; omega⟩

end Arax.Worker
