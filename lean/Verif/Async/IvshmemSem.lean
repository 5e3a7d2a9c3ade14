import Verif.Async.Ivshmem

/-!
# C106: semaphores, conditions and shutdown over ivshmem

*Property.* With the ivshmem back-end, too, taking from a semaphore that has something returns, a wait for a condition that is notified returns, the lock of a condition excludes, and
leaving arax returns.

None of it holds, and the theorems below say so for every schedule, not for one: no call of `async_semaphore_dec` and no call of `async_condition_wait` returns, ever, whatever other
threads do (its compare-and-swap has its operands swapped, /repo/src/async/ivshmem/async.c:186, and `sem->meta`, used by 195, is never set, 149-154); no call of `async_meta_exit`
returns (it clears `meta->fd`, 239, the thread it waits for looks at `reg_fd`, 46). What does hold: the value of a semaphore is the number of increments.

Simplification: `int val` (183) holds the value exactly (fewer than 2^31 increments).
-/
namespace Arax.IvshmemSem

/-! ### The semaphore -/

/-- Where a thread is; `w`: the decrement is part of a wait for a condition (220-222). Line numbers of /repo/src/async/ivshmem/async.c. -/
inductive Pc where
  | idle
  | load (w : Bool)             -- dec: about to read the value [183, 189]
  | cas (w : Bool) (v : Nat)    -- dec: read `v` ≠ 0, about to swap [186]
  | relock                      -- wait for a condition: decremented, about to lock again [222]
  | lost                        -- dec: read 0 and followed `sem->meta`, which nobody has set [195]
  | look                        -- inc: added, about to look for penders [167]
  deriving DecidableEq

/-- What can be observed: a call returned. (No code of its own.) -/
inductive Ev where
  | incRet (i : Nat) | decRet (i : Nat) | waitRet (i : Nat)
  deriving DecidableEq

/-- The semaphore `async_semaphore_s` (/repo/src/async/ivshmem/async.h; its list of penders is empty, as nobody gets to 199), the threads, the number of `async_semaphore_inc` calls that
have begun to take effect, what returned. -/
structure St where
  value : Nat := 0             -- 153
  pc : Nat → Pc := fun _ => .idle
  incs : Nat := 0
  evs : List Ev := []          -- newest first

/-- Calls and steps of threads. -/
inductive Act where
  | inc (i : Nat)
  | dec (i : Nat)
  | condWait (i : Nat)
  | condNotify (i : Nat)
  | go (i : Nat)
  deriving DecidableEq

/-- Thread `i` goes to `p`. (No code of its own.) -/
def St.goto (s : St) (i : Nat) (p : Pc) : St := { s with pc := fun j => if j = i then p else s.pc j }

/-- `__sync_bool_compare_and_swap(&value, old, new)`. -/
def cas (value old new : Nat) : Nat × Bool := if value = old then (new, true) else (value, false)

/-- A step inside a call. /repo/src/async/ivshmem/async.c:161-204, 218-223. -/
def goStep (s : St) (i : Nat) : St :=
  match s.pc i with
  | .idle => s
  | .look => ({ s with evs := .incRet i :: s.evs }).goto i .idle                        -- 167: no penders
  | .load w => s.goto i (if s.value = 0 then .lost else .cas w s.value)                  -- 183-185, 189
  | .cas w v =>
    let r := cas s.value (v - 1) v                                                       -- 186, as written
    if r.2 then
      if w then ({ s with value := r.1 }).goto i .relock
      else ({ s with value := r.1, evs := .decRet i :: s.evs }).goto i .idle
    else s.goto i (.load w)
  | .relock => ({ s with evs := .waitRet i :: s.evs }).goto i .idle                      -- 222
  | .lost => s

/-- One step. An increment adds at once (163); `async_condition_notify` is an increment (225-228); `async_condition_wait` starts with the unlock (220), which does not touch the semaphore,
and decrements. /repo/src/async/ivshmem/async.c:161-228. -/
def step (s : St) : Act → St
  | .inc i => if s.pc i = .idle then ({ s with value := s.value + 1, incs := s.incs + 1 }).goto i .look else s
  | .condNotify i => if s.pc i = .idle then ({ s with value := s.value + 1, incs := s.incs + 1 }).goto i .look else s
  | .dec i => if s.pc i = .idle then s.goto i (.load false) else s
  | .condWait i => if s.pc i = .idle then s.goto i (.load true) else s
  | .go i => goStep s i

/-- A history. (No code of its own.) -/
def run (s : St) (l : List Act) : St := l.foldl step s

/-- What holds in every history. -/
structure Inv (s : St) : Prop where
  count : s.value = s.incs
  below : ∀ i w v, s.pc i = .cas w v → 0 < v ∧ v ≤ s.value
  never : ∀ i, s.pc i ≠ .relock
  evs : ∀ e ∈ s.evs, ∃ i, e = .incRet i

theorem Inv.goto {s : St} (h : Inv s) (i : Nat) {p : Pc} (hp : p ≠ .relock) (hc : ∀ w v, p = .cas w v → 0 < v ∧ v ≤ s.value) : Inv (s.goto i p) := by
  refine ⟨h.count, ?_, ?_, h.evs⟩
  · intro j w v hj
    simp only [St.goto] at hj ⊢
    by_cases e : j = i
    · rw [if_pos e] at hj; exact hc w v hj
    · rw [if_neg e] at hj; exact h.below j w v hj
  · intro j
    simp only [St.goto]
    split
    · exact hp
    · exact h.never j

theorem Inv.step {s : St} (h : Inv s) (a : Act) : Inv (step s a) := by
  have add : Inv { s with value := s.value + 1, incs := s.incs + 1 } :=
    ⟨by simp [h.count], fun i w v hi => by have := h.below i w v hi; exact ⟨this.1, Nat.le_succ_of_le this.2⟩, h.never, h.evs⟩
  cases a with
  | inc i =>
    simp only [IvshmemSem.step]
    split
    · exact add.goto i (by simp) (by simp)
    · exact h
  | condNotify i =>
    simp only [IvshmemSem.step]
    split
    · exact add.goto i (by simp) (by simp)
    · exact h
  | dec i =>
    simp only [IvshmemSem.step]
    split
    · exact h.goto i (by simp) (by simp)
    · exact h
  | condWait i =>
    simp only [IvshmemSem.step]
    split
    · exact h.goto i (by simp) (by simp)
    · exact h
  | go i =>
    simp only [IvshmemSem.step, goStep]
    split
    · exact h
    · have h' : Inv { s with evs := .incRet i :: s.evs } := by
        refine ⟨h.count, h.below, h.never, ?_⟩
        intro e he
        rcases List.mem_cons.1 he with he | he
        · exact ⟨i, he⟩
        · exact h.evs e he
      exact h'.goto i (by simp) (by simp)
    · refine h.goto i ?_ ?_
      · split <;> simp
      · intro w v
        split
        · simp
        · intro e; injection e with _ e; subst e; exact ⟨by omega, Nat.le_refl _⟩
    · rename_i w v hpc
      have hb := h.below i w v hpc
      have : s.value ≠ v - 1 := by omega
      simp only [cas, this, if_false, Bool.false_eq_true]
      exact h.goto i (by simp) (by simp)
    · rename_i hpc; exact absurd hpc (h.never i)
    · exact h

theorem Inv.run {s : St} (h : Inv s) (l : List Act) : Inv (run s l) := by
  induction l generalizing s with
  | nil => exact h
  | cons a l ih => exact ih (h.step a)

theorem Inv.init : Inv {} := ⟨rfl, by simp, by simp, by simp⟩

/-- **C106, violated** In every history of any number of threads, no call of `async_semaphore_dec` and none of `async_condition_wait` ever returns, however often the semaphore is
incremented and the condition notified. -/
theorem C106_violated_never_returns (l : List Act) (i : Nat) : Ev.decRet i ∉ (run {} l).evs ∧ Ev.waitRet i ∉ (run {} l).evs := by
  have h := (Inv.init.run l).evs
  constructor <;> intro hm <;> obtain ⟨j, hj⟩ := h _ hm <;> cases hj

/-- 1 for an increment or a notification called by a thread that is not in a call. -/
def effect (s : St) : Act → Nat
  | .inc i => if s.pc i = .idle then 1 else 0
  | .condNotify i => if s.pc i = .idle then 1 else 0
  | _ => 0

/-- The number of increments and notifications in a history. -/
def Increments (s : St) : List Act → Nat
  | [] => 0
  | a :: l => effect s a + Increments (step s a) l

theorem incs_run (s : St) (l : List Act) : (run s l).incs = s.incs + Increments s l := by
  induction l generalizing s with
  | nil => simp [run, Increments]
  | cons a l ih =>
    show (run (step s a) l).incs = s.incs + (effect s a + Increments (step s a) l)
    rw [ih, ← Nat.add_assoc]
    congr 1
    cases a with
    | inc i => simp only [step, effect]; split <;> simp [St.goto]
    | condNotify i => simp only [step, effect]; split <;> simp [St.goto]
    | dec i => simp only [step, effect]; split <;> simp [St.goto]
    | condWait i => simp only [step, effect]; split <;> simp [St.goto]
    | go i =>
      simp only [step, goStep, effect]
      split
      · simp
      · simp [St.goto]
      · simp [St.goto]
      · split
        · split <;> simp [St.goto]
        · simp [St.goto]
      · simp [St.goto]
      · simp

/-- **C106** What `async_semaphore_value` reports is the number of increments: none is lost, in every history. -/
theorem C106_value_counts_partial (l : List Act) : (run {} l).value = Increments {} l := by
  rw [(Inv.init.run l).count, incs_run]
  exact Nat.zero_add _

/-- **C106** An increment and a notification return: at their next step, in every state any history leads to. -/
theorem C106_inc_returns_partial (l : List Act) (i : Nat) (hi : (run {} l).pc i = .idle) :
    Ev.incRet i ∈ (run {} (l ++ [.inc i, .go i])).evs ∧ Ev.incRet i ∈ (run {} (l ++ [.condNotify i, .go i])).evs := by
  have e : ∀ a b, run {} (l ++ [a, b]) = step (step (run {} l) a) b := by
    intro a b; simp [run]
  rw [e, e]
  constructor <;> simp [step, hi, goStep, St.goto]

/-- Non-vacuity: three increments and two takers, one of them early; the value is 3, nobody got anything. -/
example : (run {} [.dec 9, .inc 1, .go 1, .inc 1, .condNotify 2, .go 1, .dec 3, .go 3, .go 3, .go 3]).value = 3
    ∧ (run {} [.dec 9, .inc 1, .go 1, .inc 1, .condNotify 2, .go 1, .dec 3, .go 3, .go 3, .go 3]).pc 3 = .cas false 3 := by decide

/-- Non-vacuity: a taker that comes before the first increment and looks follows the pointer nobody has set. -/
example : (run {} [.dec 9, .go 9]).pc 9 = .lost := by decide

/-! ### The lock of a condition -/

/-- The condition after `async_condition_init`: its lock, completion 0, initialised and completed. /repo/src/async/ivshmem/async.c:206-211. -/
def condInit : Ivshmem.St := Ivshmem.run {} [.complete 0 0, .go 0 false]

/-- **C106, violated** Two threads hold the lock of a condition at the same time: both calls of `async_condition_lock` (a wait for completion 0, 213-216) return, and nobody has called
`async_condition_unlock` (230-233) in between: the only completion is the one of `async_condition_init`. -/
theorem C106_violated_lock_excludes :
    (Ivshmem.run condInit [.wait 1 0, .go 1 false, .go 1 false, .other, .irq, .go 1 false, .wait 2 0, .go 2 false, .go 2 false, .other, .irq, .go 2 false]).evs
      = [.returned 0, .returned 0, .completed 0]
    ∧ (Ivshmem.run condInit [.wait 1 0, .go 1 false, .go 1 false, .other, .irq, .go 1 false, .wait 2 0, .go 2 false, .go 2 false, .other, .irq, .go 2 false]).broken = false := by
  decide

/-! ### Shutdown -/

/-- The interrupt thread `async_thread`. /repo/src/async/ivshmem/async.c:37-62. -/
inductive TPc where
  | head        -- 46
  | reading     -- 48
  | ended       -- 61
  deriving DecidableEq

/-- The caller of `async_meta_exit`. /repo/src/async/ivshmem/async.c:235-245. -/
inductive XPc where
  | out
  | clear       -- 239
  | bell        -- 240
  | join        -- 242
  | left        -- 245
  deriving DecidableEq

/-- The process's `reg_fd` (36), the segment's `meta->fd`, interrupts not yet read, the two threads. -/
structure Sd where
  regFd : Nat
  metaFd : Nat
  bells : Nat := 0
  t : TPc := .head
  x : XPc := .out

/-- After `async_meta_init_always`: `open` gave a descriptor > 0, anything else aborts (100-105); `meta->fd` holds what the memory held, no line of the file sets it.
/repo/src/async/ivshmem/async.c:89-116. -/
def Started (s : Sd) : Prop := s.regFd ≠ 0 ∧ s.t = .head ∧ s.x = .out

/-- Steps: of the interrupt thread, of the thread that leaves, and interrupts from elsewhere. -/
inductive SdAct where
  | thread | leave | other
  deriving DecidableEq

/-- One step. /repo/src/async/ivshmem/async.c:46-59 (the thread), 237-245 (the exit). -/
def sdStep (s : Sd) : SdAct → Sd
  | .thread =>
    match s.t with
    | .head => { s with t := if s.regFd = 0 then .ended else .reading }
    | .reading => if s.bells = 0 then s else { s with bells := s.bells - 1, t := .head }
    | .ended => s
  | .leave =>
    match s.x with
    | .out => { s with x := .clear }
    | .clear => { s with metaFd := 0, x := .bell }
    | .bell => { s with bells := s.bells + 1, x := .join }
    | .join => if s.t = .ended then { s with x := .left } else s
    | .left => s
  | .other => { s with bells := s.bells + 1 }

/-- A history. (No code of its own.) -/
def sdRun (s : Sd) (l : List SdAct) : Sd := l.foldl sdStep s

/-- **C106, violated** Leaving arax never returns: however the two threads are scheduled, whatever interrupts come, `async_meta_exit` waits for a thread that never ends. -/
theorem C106_violated_exit_never_returns (s : Sd) (hs : Started s) (l : List SdAct) : (sdRun s l).x ≠ .left ∧ (sdRun s l).t ≠ .ended := by
  have : ∀ (l : List SdAct) (s : Sd), s.regFd ≠ 0 → s.x ≠ .left → s.t ≠ .ended → (sdRun s l).x ≠ .left ∧ (sdRun s l).t ≠ .ended := by
    intro l
    induction l with
    | nil => intro s _ h1 h2; exact ⟨h1, h2⟩
    | cons a l ih =>
      intro s h0 h1 h2
      show (sdRun (sdStep s a) l).x ≠ .left ∧ (sdRun (sdStep s a) l).t ≠ .ended
      cases a with
      | thread =>
        simp only [sdStep]
        split
        · exact ih _ h0 h1 (by simp [h0])
        · split
          · exact ih _ h0 h1 h2
          · exact ih _ h0 h1 (by simp)
        · exact ih _ h0 h1 h2
      | leave =>
        simp only [sdStep]
        split
        · exact ih _ h0 (by simp) h2
        · exact ih _ h0 (by simp) h2
        · exact ih _ h0 (by simp) h2
        · rw [if_neg h2]; exact ih _ h0 h1 h2
        · rename_i e; exact absurd e h1
      | other => exact ih _ h0 h1 h2
  exact this l s hs.1 (by rw [hs.2.2]; simp) (by rw [hs.2.1]; simp)

/-- Non-vacuity: the exit gets as far as the wait, the interrupt thread has taken its interrupt and goes on. -/
example : Started { regFd := 5, metaFd := 0 }
    ∧ (sdRun { regFd := 5, metaFd := 0 } [.thread, .leave, .leave, .leave, .thread, .thread, .leave]).x = .join
    ∧ (sdRun { regFd := 5, metaFd := 0 } [.thread, .leave, .leave, .leave, .thread, .thread, .leave]).t = .reading :=
  ⟨⟨by decide, rfl, rfl⟩, by decide, by decide⟩

end Arax.IvshmemSem
