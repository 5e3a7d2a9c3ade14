/-!
# C120: the report at the end of a run of the controller

*Property.* After SIGINT the controller prints, for each accelerator of its configuration in order, how many tasks it has served in the run, then the total of these numbers, then how many
accelerators have served a task, out of how many.

Model: /repo/controller/src/Core/arax_controller.cpp:193-216 (the loop that prints) and /repo/controller/src/Core/accelThread.cpp:48, 151, 374-376 (the counters), one step per read of a counter. The workers run on:
they are stopped only afterwards (:220 `deleteThreads`). Simplified: a counter is read and written in one piece (it is a plain `size_t` without a lock); fewer than 2^31 accelerators; fewer
than 2^64 tasks on one accelerator.
-/
namespace Arax.EndReport

/-- Where the main thread is. (arax_controller.cpp:203-216.) -/
inductive Pc where
  | print (i : Nat)
  | test (i : Nat)
  | add (i : Nat)
  | total
  | used
  | done
  deriving DecidableEq, Repr

/-- The counters `served_tasks` (/repo/controller/src/Core/accelThread.h:61), the locals of `main` (arax_controller.cpp:197-201) and what has been printed: a number per accelerator, the total, used and all. -/
structure St where
  served : Nat → Nat
  pc : Pc := .print 0
  nUsed : Nat := 0
  nAll : Nat := 0
  totalTasks : Int := 0
  lines : List Nat := []
  outTotal : Option Int := none
  outUsed : Option (Nat × Nat) := none

/-- A value converted to `int`. (`totalTasks += …` with a `size_t` on the right: the sum is computed in `size_t` and converted, arax_controller.cpp:210.) -/
def toInt (x : Int) : Int := (x + 2147483648) % 4294967296 - 2147483648

/-- One step of the main thread, `n` accelerators. arax_controller.cpp:203-216. -/
def mainStep (n : Nat) (s : St) : St :=
  match s.pc with
  | .print i => if i < n then { s with lines := s.lines ++ [s.served i], pc := .test i } else { s with pc := .total }
  | .test i => { s with nUsed := if s.served i = 0 then s.nUsed else s.nUsed + 1, pc := .add i }
  | .add i => { s with totalTasks := toInt (s.totalTasks + s.served i), nAll := s.nAll + 1, pc := .print (i + 1) }
  | .total => { s with outTotal := some s.totalTasks, pc := .used }
  | .used => { s with outUsed := some (s.nUsed, s.nAll), pc := .done }
  | .done => s

/-- What happens: a step of the main thread, or the worker of accelerator `a` takes a task. -/
inductive Ev where
  | main
  | take (a : Nat)
  deriving DecidableEq, Repr

/-- One event. accelThread.cpp:374-376: a task that `selectTask` returned is counted before it is executed. -/
def step (n : Nat) (s : St) : Ev → St
  | .main => mainStep n s
  | .take a => { s with served := fun x => if x = a then s.served x + 1 else s.served x }

/-- A sequence of events. (No code of its own.) -/
def exec (n : Nat) : St → List Ev → St
  | s, [] => s
  | s, e :: es => exec n (step n s e) es

/-- When SIGINT has been received: `s0 a` tasks have been served by accelerator `a`. arax_controller.cpp:193-201. -/
def start (s0 : Nat → Nat) : St := { served := s0 }

/-! ## Specification -/

/-- The sum of a number per accelerator. -/
def sum (n : Nat) (f : Nat → Nat) : Nat := ((List.range n).map f).sum

/-- The number of accelerators with a number that is not 0. -/
def busy (n : Nat) (f : Nat → Nat) : Nat := ((List.range n).filter (fun a => f a != 0)).length

/-! ## Proofs -/

theorem sum_succ (n : Nat) (f : Nat → Nat) : sum (n + 1) f = sum n f + f n := by simp [sum, List.range_succ]
theorem busy_succ (n : Nat) (f : Nat → Nat) : busy (n + 1) f = busy n f + (if f n = 0 then 0 else 1) := by
  simp only [busy, List.range_succ, List.filter_append, List.length_append, List.filter_cons, List.filter_nil]
  by_cases h : f n = 0 <;> simp [h]

theorem toInt_add (a b : Int) : toInt (toInt a + b) = toInt (a + b) := by unfold toInt; omega
theorem toInt_small {a : Int} (h : 0 ≤ a) (h' : a < 2147483648) : toInt a = a := by unfold toInt; omega

/-- How far the loop is: `p` lines, `t` tests, `d` additions. -/
def Pc.counts (n : Nat) : Pc → Nat × Nat × Nat
  | .print i => (i, i, i)
  | .test i => (i + 1, i, i)
  | .add i => (i + 1, i + 1, i)
  | _ => (n, n, n)

/-- What holds throughout; `tv`, `av` are the numbers read by the test and by the addition. -/
structure Inv (n : Nat) (s0 : Nat → Nat) (s : St) (pv tv av : Nat → Nat) : Prop where
  mono : ∀ a, s0 a ≤ s.served a
  le : ∀ i, s.pc = .print i → i ≤ n
  lt : ∀ i, s.pc = .test i ∨ s.pc = .add i → i < n
  lines : s.lines = (List.range (s.pc.counts n).1).map pv
  used : s.nUsed = busy (s.pc.counts n).2.1 tv
  tot : s.totalTasks = toInt (sum (s.pc.counts n).2.2 av)
  all : s.nAll = (s.pc.counts n).2.2
  p : ∀ a, a < (s.pc.counts n).1 → s0 a ≤ pv a ∧ pv a ≤ s.served a
  t : ∀ a, a < (s.pc.counts n).2.1 → pv a ≤ tv a ∧ tv a ≤ s.served a
  d : ∀ a, a < (s.pc.counts n).2.2 → tv a ≤ av a ∧ av a ≤ s.served a
  o1 : s.pc = .used ∨ s.pc = .done → s.outTotal = some s.totalTasks
  o2 : s.pc = .done → s.outUsed = some (s.nUsed, s.nAll)

theorem inv_start (n : Nat) (s0 : Nat → Nat) : Inv n s0 (start s0) (fun _ => 0) (fun _ => 0) (fun _ => 0) := by
  refine ⟨fun _ => Nat.le_refl _, ?_, ?_, rfl, rfl, by simp [start, Pc.counts, sum, toInt], rfl, ?_, ?_, ?_, ?_, ?_⟩
  · intro i h; cases h; omega
  · intro i h; rcases h with h | h <;> cases h
  all_goals intro a; simp_all [start, Pc.counts]

theorem map_congr' {n : Nat} {f g : Nat → Nat} (h : ∀ a, a < n → f a = g a) : (List.range n).map f = (List.range n).map g := by
  refine List.map_congr_left ?_
  intro a ha
  exact h a (List.mem_range.mp ha)

theorem sum_congr {n : Nat} {f g : Nat → Nat} (h : ∀ a, a < n → f a = g a) : sum n f = sum n g := by
  unfold sum; rw [map_congr' h]

theorem busy_congr {n : Nat} {f g : Nat → Nat} (h : ∀ a, a < n → f a = g a) : busy n f = busy n g := by
  unfold busy
  congr 1
  refine List.filter_congr ?_
  intro a ha
  rw [h a (List.mem_range.mp ha)]

/-- `f` with the number at `i` set. -/
def put (f : Nat → Nat) (i v : Nat) : Nat → Nat := fun a => if a = i then v else f a

theorem put_lt {f : Nat → Nat} {i v a : Nat} (h : a < i) : f a = put f i v a := by unfold put; rw [if_neg (by omega)]
theorem put_eq (f : Nat → Nat) (i v : Nat) : put f i v i = v := if_pos rfl

theorem inv_step {n : Nat} {s0 : Nat → Nat} {s : St} {pv tv av : Nat → Nat} (h : Inv n s0 s pv tv av) (e : Ev) :
    ∃ pv tv av, Inv n s0 (step n s e) pv tv av := by
  obtain ⟨hm, hle, hlt, hl, hu, ht, ha, hp, htt, hd, ho1, ho2⟩ := h
  cases e with
  | take x =>
    have hs : ∀ a, s.served a ≤ (step n s (.take x)).served a := by
      intro a; show s.served a ≤ (if a = x then s.served a + 1 else s.served a); split <;> omega
    refine ⟨pv, tv, av, ?_⟩
    exact ⟨fun a => Nat.le_trans (hm a) (hs a), hle, hlt, hl, hu, ht, ha, fun a h => ⟨(hp a h).1, Nat.le_trans (hp a h).2 (hs a)⟩,
      fun a h => ⟨(htt a h).1, Nat.le_trans (htt a h).2 (hs a)⟩, fun a h => ⟨(hd a h).1, Nat.le_trans (hd a h).2 (hs a)⟩, ho1, ho2⟩
  | main =>
    cases hpc : s.pc with
    | print i =>
      simp only [hpc, Pc.counts] at hl hu ht ha hp htt hd
      by_cases hi : i < n
      · have e : step n s .main = { s with lines := s.lines ++ [s.served i], pc := .test i } := by simp [step, mainStep, hpc, hi]
        rw [e]
        refine ⟨put pv i (s.served i), tv, av, hm, ?_, ?_, ?_, hu, ht, ha, ?_, ?_, hd, ?_, ?_⟩
        · intro j h; cases h
        · intro j h; rcases h with h | h <;> cases h; exact hi
        · simp only [Pc.counts, hl, List.range_succ, List.map_append, List.map_cons, List.map_nil, put_eq]
          rw [map_congr' (fun a h => put_lt (f := pv) (v := s.served i) h)]
        · intro a h
          by_cases hai : a = i
          · subst hai; rw [put_eq]; exact ⟨hm a, Nat.le_refl _⟩
          · have h' : a < i := by simp only [Pc.counts] at h; omega
            rw [← put_lt h']; exact hp a h'
        · intro a h; rw [← put_lt (show a < i from h)]; exact htt a h
        · intro h; rcases h with h | h <;> cases h
        · intro h; cases h
      · have : i = n := by have := hle i hpc; omega
        subst this
        have e : step i s .main = { s with pc := .total } := by simp [step, mainStep, hpc]
        rw [e]
        refine ⟨pv, tv, av, hm, ?_, ?_, hl, hu, ht, ha, hp, htt, hd, ?_, ?_⟩
        · intro j h; cases h
        · intro j h; rcases h with h | h <;> cases h
        · intro h; rcases h with h | h <;> cases h
        · intro h; cases h
    | test i =>
      have hi := hlt i (Or.inl hpc)
      simp only [hpc, Pc.counts] at hl hu ht ha hp htt hd
      have e : step n s .main = { s with nUsed := if s.served i = 0 then s.nUsed else s.nUsed + 1, pc := .add i } := by simp [step, mainStep, hpc]
      rw [e]
      refine ⟨pv, put tv i (s.served i), av, hm, ?_, ?_, hl, ?_, ht, ha, hp, ?_, ?_, ?_, ?_⟩
      · intro j h; cases h
      · intro j h; rcases h with h | h <;> cases h; exact hi
      · simp only [Pc.counts, busy_succ, put_eq]
        rw [← busy_congr (f := tv) (g := put tv i (s.served i)) (fun a h => put_lt h), hu]
        split <;> omega
      · intro a h
        by_cases hai : a = i
        · subst hai; rw [put_eq]; exact ⟨(hp a (by omega)).2, Nat.le_refl _⟩
        · have h' : a < i := by simp only [Pc.counts] at h; omega
          rw [← put_lt h']; exact htt a h'
      · intro a h; rw [← put_lt (show a < i from h)]; exact hd a h
      · intro h; rcases h with h | h <;> cases h
      · intro h; cases h
    | add i =>
      have hi := hlt i (Or.inr hpc)
      simp only [hpc, Pc.counts] at hl hu ht ha hp htt hd
      have e : step n s .main = { s with totalTasks := toInt (s.totalTasks + s.served i), nAll := s.nAll + 1, pc := .print (i + 1) } := by simp [step, mainStep, hpc]
      rw [e]
      refine ⟨pv, tv, put av i (s.served i), hm, ?_, ?_, hl, hu, ?_, ?_, hp, htt, ?_, ?_, ?_⟩
      · intro j h; cases h; omega
      · intro j h; rcases h with h | h <;> cases h
      · simp only [Pc.counts, sum_succ, put_eq]
        rw [← sum_congr (fun a h => put_lt (f := av) (v := s.served i) h), ht, toInt_add]
        congr 1
      · simp only [Pc.counts, ha]
      · intro a h
        by_cases hai : a = i
        · subst hai; rw [put_eq]; exact ⟨(htt a (by omega)).2, Nat.le_refl _⟩
        · have h' : a < i := by simp only [Pc.counts] at h; omega
          rw [← put_lt h']; exact hd a h'
      · intro h; rcases h with h | h <;> cases h
      · intro h; cases h
    | total =>
      simp only [hpc, Pc.counts] at hl hu ht ha hp htt hd
      have e : step n s .main = { s with outTotal := some s.totalTasks, pc := .used } := by simp [step, mainStep, hpc]
      rw [e]
      refine ⟨pv, tv, av, hm, ?_, ?_, hl, hu, ht, ha, hp, htt, hd, fun _ => rfl, ?_⟩
      · intro j h; cases h
      · intro j h; rcases h with h | h <;> cases h
      · intro h; cases h
    | used =>
      have h1 := ho1 (Or.inl hpc)
      simp only [hpc, Pc.counts] at hl hu ht ha hp htt hd
      have e : step n s .main = { s with outUsed := some (s.nUsed, s.nAll), pc := .done } := by simp [step, mainStep, hpc]
      rw [e]
      refine ⟨pv, tv, av, hm, ?_, ?_, hl, hu, ht, ha, hp, htt, hd, fun _ => h1, fun _ => rfl⟩
      · intro j h; cases h
      · intro j h; rcases h with h | h <;> cases h
    | done =>
      have e : step n s .main = s := by simp [step, mainStep, hpc]
      rw [e]
      exact ⟨pv, tv, av, hm, hle, hlt, hl, hu, ht, ha, hp, htt, hd, ho1, ho2⟩

theorem inv_exec {n : Nat} {s0 : Nat → Nat} : ∀ (es : List Ev) (s : St) (pv tv av : Nat → Nat), Inv n s0 s pv tv av → ∃ pv tv av, Inv n s0 (exec n s es) pv tv av := by
  intro es
  induction es with
  | nil => intro s pv tv av h; exact ⟨pv, tv, av, h⟩
  | cons e es ih =>
    intro s pv tv av h
    obtain ⟨pv', tv', av', h'⟩ := inv_step h e
    exact ih _ _ _ _ h'

theorem sum_le {n : Nat} {f g : Nat → Nat} (h : ∀ a, a < n → f a ≤ g a) : sum n f ≤ sum n g := by
  induction n with
  | zero => simp [sum]
  | succ n ih => rw [sum_succ, sum_succ]; have := ih (fun a ha => h a (by omega)); have := h n (by omega); omega

theorem busy_le {n : Nat} {f g : Nat → Nat} (h : ∀ a, a < n → f a ≤ g a) : busy n f ≤ busy n g := by
  induction n with
  | zero => simp [busy]
  | succ n ih =>
    rw [busy_succ, busy_succ]
    have := ih (fun a ha => h a (by omega))
    have := h n (by omega)
    split <;> split <;> omega

/-- **C120 (partial: while the workers run on)** For every number of accelerators, all counts and every interleaving: when the report is printed it has one line per accelerator, in order; each
number is between what the accelerator had served at SIGINT and what it has served now; so are the total (if it fits an `int`) and the number of used accelerators, which are at least what the lines
say; and the number of accelerators is right. Missing: the numbers agree with each other and with what was served (`C120_violated_torn`, `C120_violated_late`, `C120_violated_total`). -/
theorem C120_between_partial (n : Nat) (s0 : Nat → Nat) (es : List Ev) :
    let s := exec n (start s0) es
    s.pc = .done → sum n s.served < 2147483648 →
    ∃ (line : Nat → Nat) (total used : Nat), s.lines = (List.range n).map line ∧ s.outTotal = some (total : Int) ∧ s.outUsed = some (used, n) ∧
      (∀ a, a < n → s0 a ≤ line a ∧ line a ≤ s.served a) ∧ sum n line ≤ total ∧ total ≤ sum n s.served ∧ busy n line ≤ used ∧ used ≤ busy n s.served := by
  intro s hpc hsm
  obtain ⟨pv, tv, av, h⟩ := inv_exec es (start s0) _ _ _ (inv_start n s0)
  change Inv n s0 s pv tv av at h
  obtain ⟨hm, hle, hlt, hl, hu, ht, ha, hp, htt, hd, ho1, ho2⟩ := h
  simp only [hpc, Pc.counts] at hl hu ht ha hp htt hd
  have hav : sum n av ≤ sum n s.served := sum_le fun a h => (hd a h).2
  refine ⟨pv, sum n av, busy n tv, hl, ?_, ?_, hp, sum_le fun a h => Nat.le_trans (htt a h).1 (hd a h).1, hav, busy_le fun a h => (htt a h).1, busy_le fun a h => (htt a h).2⟩
  · rw [ho1 (Or.inr hpc), ht, toInt_small (by omega) (by omega)]
  · rw [ho2 hpc, hu, ha]

theorem served_quiet {n : Nat} : ∀ (es : List Ev) (s : St), (∀ e ∈ es, e = .main) → (exec n s es).served = s.served := by
  intro es
  induction es with
  | nil => intro s _; rfl
  | cons e es ih =>
    intro s h
    have he := h e (by simp)
    subst he
    rw [exec, ih _ (fun x hx => h x (by simp [hx]))]
    simp only [step, mainStep]
    cases s.pc with
    | print i => dsimp only; split <;> rfl
    | _ => rfl

/-- **C120 (partial: nobody takes a task while the report is printed)** Then the report is exact: each line is what the accelerator has served, the total is their sum (if it fits an `int`), and the
number of accelerators that have served a task, out of all, is right. -/
theorem C120_exact_partial (n : Nat) (s0 : Nat → Nat) (es : List Ev) (hq : ∀ e ∈ es, e = .main) (hsm : sum n s0 < 2147483648) :
    let s := exec n (start s0) es
    s.pc = .done → s.lines = (List.range n).map s0 ∧ s.outTotal = some (sum n s0 : Int) ∧ s.outUsed = some (busy n s0, n) := by
  intro s hpc
  have hs : s.served = s0 := served_quiet es (start s0) hq
  obtain ⟨line, total, used, h1, h2, h3, h4, h5, h6, h7, h8⟩ := C120_between_partial n s0 es hpc (by
    show sum n s.served < _; rw [hs]; exact hsm)
  change sum n line ≤ total at h5
  have hl : ∀ a, a < n → line a = s0 a := fun a ha => by
    have := h4 a ha
    change s0 a ≤ line a ∧ line a ≤ s.served a at this
    rw [hs] at this
    omega
  change total ≤ sum n s.served at h6
  change used ≤ busy n s.served at h8
  rw [hs] at h6 h8
  rw [sum_congr hl] at h5
  rw [busy_congr hl] at h7
  have e1 : total = sum n s0 := by omega
  have e2 : used = busy n s0 := by omega
  subst e1
  subst e2
  exact ⟨by show s.lines = _; rw [show s.lines = _ from h1, map_congr' hl], h2, h3⟩

/-- The steps the main thread still has to make. -/
def left (n : Nat) : Pc → Nat
  | .print i => 3 * (n - i) + 3
  | .test i => 3 * (n - i) + 2
  | .add i => 3 * (n - i) + 1
  | .total => 2
  | .used => 1
  | .done => 0

theorem left_zero {n : Nat} {s0 : Nat → Nat} {s : St} {pv tv av : Nat → Nat} (_ : Inv n s0 s pv tv av) (h0 : left n s.pc = 0) : s.pc = .done := by
  cases hpc : s.pc <;> rw [hpc] at h0 <;> simp [left] at h0

/-- **C120** (the report ends) However busy the workers are, the report is complete after 3 steps of the main thread for each accelerator and 3 more. -/
theorem C120_ends (n : Nat) (s0 : Nat → Nat) (es : List Ev) (h : 3 * n + 3 ≤ es.count .main) : (exec n (start s0) es).pc = .done := by
  have key : ∀ (es : List Ev) (s : St) (pv tv av : Nat → Nat), Inv n s0 s pv tv av → left n s.pc ≤ es.count .main → (exec n s es).pc = .done := by
    intro es
    induction es with
    | nil =>
      intro s pv tv av hi hle
      exact left_zero (s := s) hi (by simpa using hle)
    | cons e es ih =>
      intro s pv tv av hi hle
      obtain ⟨pv', tv', av', hi'⟩ := inv_step hi e
      refine ih _ _ _ _ hi' ?_
      cases e with
      | take a => rw [List.count_cons_of_ne (by simp)] at hle; exact hle
      | main =>
        rw [List.count_cons_self] at hle
        simp only [step, mainStep]
        cases hpc : s.pc with
        | print i =>
          rw [hpc] at hle
          dsimp only
          split <;> simp only [left] at hle ⊢ <;> omega
        | test i => rw [hpc] at hle; simp only [left] at hle ⊢; omega
        | add i =>
          have := hi.lt i (Or.inr hpc)
          rw [hpc] at hle; simp only [left] at hle ⊢; omega
        | total => rw [hpc] at hle; simp only [left] at hle ⊢; omega
        | used => rw [hpc] at hle; simp only [left] at hle ⊢; omega
        | done => dsimp only; rw [hpc]; simp [left]
  exact key es (start s0) _ _ _ (inv_start n s0) (by simpa [start, left] using h)

/-- What a report says: the lines, the total, used and all. -/
def St.report (s : St) : List Nat × Option Int × Option (Nat × Nat) := (s.lines, s.outTotal, s.outUsed)

/-- **C120 is violated: the parts of the report contradict each other.** The worker takes a task between the reads: no accelerator has served a task, one accelerator has been used; or it has not, and one task
in total has been served. -/
theorem C120_violated_torn :
    (exec 1 (start (fun _ => 0)) [.main, .take 0, .main, .main, .main, .main, .main]).report = ([0], some 1, some (1, 1)) ∧
    (exec 1 (start (fun _ => 0)) [.main, .main, .take 0, .main, .main, .main, .main]).report = ([0], some 1, some (0, 1)) := by
  decide

/-- **C120 is violated: tasks are served after the report.** The workers are stopped only after it is printed: whatever it says, any number of tasks can follow that are in no report. -/
theorem C120_violated_late (n : Nat) (s0 : Nat → Nat) (es : List Ev) (a k : Nat) (_done : (exec n (start s0) es).pc = .done) :
    let s := exec n (start s0) es
    let s' := exec n s (List.replicate k (.take a))
    s'.report = s.report ∧ s'.served a = s.served a + k := by
  intro s s'
  have key : ∀ (k : Nat) (s : St), (exec n s (List.replicate k (.take a))).report = s.report ∧ (exec n s (List.replicate k (.take a))).served a = s.served a + k := by
    intro k
    induction k with
    | zero => intro s; exact ⟨rfl, rfl⟩
    | succ k ih =>
      intro s
      rw [List.replicate_succ, exec]
      obtain ⟨h1, h2⟩ := ih (step n s (.take a))
      refine ⟨h1, ?_⟩
      rw [h2]
      simp only [step, if_pos]
      omega
  exact key k s

/-- **C120 is violated for many tasks**: the total is an `int`. From 2^31 tasks on it is wrong: for one accelerator with `m` tasks, 2^31 ≤ m < 2^32, the total is negative. -/
theorem C120_violated_total (m : Nat) (h1 : 2147483648 ≤ m) (h2 : m < 4294967296) :
    (exec 1 (start (fun _ => m)) (List.replicate 6 .main)).report = ([m], some ((m : Int) - 4294967296), some (1, 1)) := by
  have h0 : m ≠ 0 := by omega
  have ht : toInt (0 + (m : Int)) = (m : Int) - 4294967296 := by unfold toInt; omega
  simp only [List.replicate, exec, step, mainStep, start, St.report, List.nil_append, Nat.zero_lt_one, if_true, if_neg h0, ht, Nat.zero_add, Nat.lt_irrefl, if_false]

/-- Non-vacuity of `C120_exact_partial`, `C120_between_partial` and `C120_ends`: three accelerators, one idle. -/
example : (exec 3 (start (fun a => a * 2)) (List.replicate 12 .main)).pc = .done ∧
    (exec 3 (start (fun a => a * 2)) (List.replicate 12 .main)).report = ([0, 2, 4], some 6, some (2, 3)) ∧ sum 3 (fun a => a * 2) = 6 ∧ busy 3 (fun a => a * 2) = 2 := by
  decide

end Arax.EndReport
