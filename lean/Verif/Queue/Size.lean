import Verif.Queue.ConcProps
/-!
# C88: the number of used slots, read while threads push and pop

`utils_queue_used_slots` (/repo/src/utils/queue.c:51-61) loads `bottom` and `top` one after the other; the C expression at line 55 leaves their order to the compiler.  Between the two loads any thread may do
any number of steps.
-/
namespace Arax.Queue.Conc

/-- `s'` follows `s` in an execution in which no pop is overtaken by 65536 others. (No code of its own.) -/
inductive Later (cap : Nat) (s : St) : St → Prop where
  | refl : Later cap s s
  | step {s'} (i : Nat) (cmd : Cmd) : Later cap s s' → WindowAt s' i → Later cap s (step cap s' i cmd)

/-- /repo/src/utils/queue.c:51-61, `bottom` loaded in `s`, `top` loaded in `s'`. -/
def sizeBT (s s' : St) : Nat := diff16 s.bottom s'.top

/-- /repo/src/utils/queue.c:51-61, `top` loaded in `s`, `bottom` loaded in `s'`. -/
def sizeTB (s s' : St) : Nat := diff16 s'.bottom s.top

/-- Specification: the number of values in the queue. -/
def St.count (s : St) : Nat := s.pushed.length - s.popped.length

theorem later_reach {cap : Nat} {s s' : St} (h : ReachW cap s) (hl : Later cap s s') : ReachW cap s' := by
  induction hl with
  | refl => exact h
  | step i cmd _ hw ih => exact .step i cmd ih hw

theorem step_mono (cap : Nat) (s : St) (i : Nat) (cmd : Cmd) :
    s.pushed.length ≤ (step cap s i cmd).pushed.length ∧ s.popped.length ≤ (step cap s i cmd).popped.length := by
  unfold step
  repeat' split
  all_goals simp [St.goto]

theorem later_mono {cap : Nat} {s s' : St} (hl : Later cap s s') : s.pushed.length ≤ s'.pushed.length ∧ s.popped.length ≤ s'.popped.length := by
  induction hl with
  | refl => exact ⟨Nat.le_refl _, Nat.le_refl _⟩
  | @step t i cmd _ _ ih => have := step_mono cap t i cmd; omega

theorem diff16_val (a b : Nat) : ((diff16 (a % 65536) (b % 65536) : Nat) : Int) = ((a : Int) - b) % 65536 := by
  unfold diff16
  simp only
  split <;> omega

/-- **C88** (partial) What the count is, for any number of threads, any interleaving and any number of steps between the two loads: if `bottom` is loaded first, the values pushed by then minus the values popped by the
second load; if `top` is loaded first, the values pushed by the second load minus those popped by the first; in both cases modulo 65536. Missing: that this is a number of values in the queue (`C88_violated`). -/
theorem C88_value_partial (k : Nat) (hk : k ≤ 15) (s s' : St) (h : ReachW (2 ^ k) s) (hl : Later (2 ^ k) s s') :
    (sizeBT s s' : Int) = ((s.pushed.length : Int) - s'.popped.length) % 65536 ∧ (sizeTB s s' : Int) = ((s'.pushed.length : Int) - s.popped.length) % 65536 := by
  have i1 := inv_reachW k hk s h
  have i2 := inv_reachW k hk s' (later_reach h hl)
  exact ⟨by rw [sizeBT, i1.bot, i2.top, diff16_val], by rw [sizeTB, i2.bot, i1.top, diff16_val]⟩

/-- **C88** (partial) If no push is accepted between the two loads (as in `arax_accel_add_vaccel` and `arax_accel_del_vaccel`, which hold the lock under which every task is pushed, arax_vaccel.c:34-38), the count
is the number of values in the queue at the moment of the load of `top`, whatever pops do. -/
theorem C88_pushers_excluded_partial (k : Nat) (hk : k ≤ 15) (s s' : St) (h : ReachW (2 ^ k) s) (hl : Later (2 ^ k) s s') (hp : s'.pushed.length = s.pushed.length) :
    sizeBT s s' = s'.count ∧ sizeTB s s' = s.count ∧ sizeBT s s' ≤ 2 ^ k ∧ sizeTB s s' ≤ 2 ^ k := by
  have i1 := inv_reachW k hk s h
  have i2 := inv_reachW k hk s' (later_reach h hl)
  have hv := C88_value_partial k hk s s' h hl
  have hc := pow_le k hk
  have := i1.le; have := i1.room; have := i2.le; have := i2.room
  simp only [St.count]
  omega

/-- **C88** (partial) If no pop succeeds between the two loads, the count is the number of values in the queue at the moment of the load of `bottom`. -/
theorem C88_poppers_excluded_partial (k : Nat) (hk : k ≤ 15) (s s' : St) (h : ReachW (2 ^ k) s) (hl : Later (2 ^ k) s s') (hp : s'.popped.length = s.popped.length) :
    sizeBT s s' = s.count ∧ sizeTB s s' = s'.count ∧ sizeBT s s' ≤ 2 ^ k ∧ sizeTB s s' ≤ 2 ^ k := by
  have i1 := inv_reachW k hk s h
  have i2 := inv_reachW k hk s' (later_reach h hl)
  have hv := C88_value_partial k hk s s' h hl
  have hc := pow_le k hk
  have := i1.le; have := i1.room; have := i2.le; have := i2.room
  simp only [St.count]
  omega

/-- **C88** (partial) With `top` loaded first and fewer than 32768 pushes meanwhile, the count is never too small: 0 means that the queue was empty at the first load. -/
theorem C88_top_first_partial (k : Nat) (hk : k ≤ 15) (s s' : St) (h : ReachW (2 ^ k) s) (hl : Later (2 ^ k) s s') (hp : s'.pushed.length < s.pushed.length + 32768) :
    s.count ≤ sizeTB s s' ∧ s'.count ≤ sizeTB s s' ∧ (sizeTB s s' = 0 → s.count = 0) := by
  have i1 := inv_reachW k hk s h
  have i2 := inv_reachW k hk s' (later_reach h hl)
  have hv := (C88_value_partial k hk s s' h hl).2
  have hc := pow_le k hk
  have hm := later_mono hl
  have := i1.le; have := i1.room; have := i2.le; have := i2.room
  simp only [St.count]
  omega

/-! ## Schedules -/

/-- A schedule is an execution, if no popper is ever at its CAS with 65536 pops behind it; checked along the schedule. (No code of its own.) -/
def windowOk (s : St) (i : Nat) : Bool := match s.pc i with
  | .popC _ gt _ => decide (s.popped.length < gt + 65536)
  | _ => true

/-- For statements and proofs; no code of its own. -/
def allOk (cap : Nat) : St → List (Nat × Cmd) → Bool
  | _, [] => true
  | s, (i, c) :: r => windowOk s i && allOk cap (step cap s i c) r

theorem windowOk_sound {s : St} {i : Nat} (h : windowOk s i = true) : WindowAt s i := by
  intro t gt v e
  simp only [windowOk, e, decide_eq_true_eq] at h
  exact h

theorem later_trans {cap : Nat} {a b c : St} (h1 : Later cap a b) (h2 : Later cap b c) : Later cap a c := by
  induction h2 with
  | refl => exact h1
  | step i cmd _ hw ih => exact .step i cmd ih hw

theorem later_exec (cap : Nat) (l : List (Nat × Cmd)) : ∀ s, allOk cap s l = true → Later cap s (exec cap s l) := by
  induction l with
  | nil => intro s _; exact .refl
  | cons a r ih =>
    intro s h
    simp only [allOk, Bool.and_eq_true] at h
    exact later_trans (.step a.1 a.2 .refl (windowOk_sound h.1)) (ih _ h.2)

theorem reach_later {cap : Nat} {s : St} (h : Later cap init s) : ReachW cap s := later_reach .init h

/-- Thread 0 pushes 8 (one iteration of the lock loop, then the four accesses and the unlock). (No code of its own.) -/
def pushSched : List (Nat × Cmd) := List.replicate 8 (0, Cmd.push 8)

/-- Thread 1 pops. (No code of its own.) -/
def popSched : List (Nat × Cmd) := List.replicate 4 (1, Cmd.pop)

/-- **C88** is violated in general, whichever load comes first.  Bottom first: 65535 values are reported for a queue that never held more than one; and 0 for a queue that was never empty during the call.
Top first: two values are reported for a queue with room for one. -/
theorem C88_violated :
    (∃ s s', ReachW 1 s ∧ Later 1 s s' ∧ sizeBT s s' = 65535 ∧ s.count ≤ 1 ∧ s'.count ≤ 1) ∧
    (∃ s t s', ReachW 2 s ∧ Later 2 s t ∧ Later 2 t s' ∧ sizeBT s s' = 0 ∧ s.count = 1 ∧ t.count = 2 ∧ s'.count = 1) ∧
    (∃ s s', ReachW 1 s ∧ Later 1 s s' ∧ sizeTB s s' = 2 ∧ s.count ≤ 1 ∧ s'.count ≤ 1) := by
  refine ⟨⟨init, exec 1 init (pushSched ++ popSched), .init, later_exec _ _ _ (by decide +kernel), by decide +kernel, by decide, by decide +kernel⟩,
    ⟨exec 2 init pushSched, exec 2 (exec 2 init pushSched) pushSched, exec 2 (exec 2 (exec 2 init pushSched) pushSched) popSched,
      reach_later (later_exec _ _ _ (by decide +kernel)), later_exec _ _ _ (by decide +kernel), later_exec _ _ _ (by decide +kernel), by decide +kernel, by decide +kernel,
      by decide +kernel, by decide +kernel⟩,
    ⟨init, exec 1 init (pushSched ++ popSched ++ pushSched), .init, later_exec _ _ _ (by decide +kernel), by decide +kernel, by decide, by decide +kernel⟩⟩

/-- The hypotheses of `C88_pushers_excluded_partial` are met with a pop between the loads: two values at the first load, one at the second, and one is counted. -/
example : ∃ s s', ReachW 2 s ∧ Later 2 s s' ∧ s'.pushed.length = s.pushed.length ∧ s.count = 2 ∧ s'.count = 1 ∧ sizeBT s s' = 1 ∧ sizeTB s s' = 2 :=
  ⟨exec 2 init (pushSched ++ pushSched), exec 2 (exec 2 init (pushSched ++ pushSched)) popSched, reach_later (later_exec _ _ _ (by decide +kernel)),
    later_exec _ _ _ (by decide +kernel), by decide +kernel, by decide +kernel, by decide +kernel, by decide +kernel, by decide +kernel⟩

/-- The hypotheses of `C88_poppers_excluded_partial` are met with a push between the loads. -/
example : ∃ s s', ReachW 2 s ∧ Later 2 s s' ∧ s'.popped.length = s.popped.length ∧ s.count = 1 ∧ s'.count = 2 ∧ sizeBT s s' = 1 ∧ sizeTB s s' = 2 :=
  ⟨exec 2 init pushSched, exec 2 (exec 2 init pushSched) pushSched, reach_later (later_exec _ _ _ (by decide +kernel)), later_exec _ _ _ (by decide +kernel), by decide +kernel,
    by decide +kernel, by decide +kernel, by decide +kernel, by decide +kernel⟩

/-- The hypotheses of `C88_top_first_partial` are met with a push and a pop between the loads. -/
example : ∃ s s', ReachW 2 s ∧ Later 2 s s' ∧ s'.pushed.length < s.pushed.length + 32768 ∧ s.count = 1 ∧ s'.count = 1 ∧ sizeTB s s' = 2 :=
  ⟨exec 2 init pushSched, exec 2 (exec 2 init pushSched) (pushSched ++ popSched), reach_later (later_exec _ _ _ (by decide +kernel)), later_exec _ _ _ (by decide +kernel),
    by decide +kernel, by decide +kernel, by decide +kernel, by decide +kernel⟩

end Arax.Queue.Conc
