import Verif.Outcome
/-!
# Model of the hand-over of orphan virtual accelerators

Threads `0 … n-1` call `arax_pipe_add_orphan_vaccel` (/repo/src/core/arax_pipe.c:63-71), `arax_pipe_get_orphan_vaccel` (78-98; in the controller only
/repo/controller/src/Core/VacBalancerThread.cpp:15-18 does), `arax_pipe_remove_orphan_vaccel` (100-107; from arax_accel.c:118 and arax_vaccel.c:122) and
`arax_pipe_orphan_stop` (109-114), any number of times and in any order. Virtual accelerators are numbers. One step per access to shared memory, with
these simplifications: list operations are one step (they run under the lock; C10), so is `async_condition_unlock`, so is the dec of the spin semaphore
(`C23_counting_spin_partial`). The lock-free length read of `arax_pipe_have_orphan_vaccels` happens under the lock here (line 84). `arax_assert(vac->phys == 0)`
(66, 94) is the subject of C34 and not repeated here.
Condition variables: mutex back-end = `pthread_cond_wait`/`pthread_cond_broadcast` (/repo/src/async/mutex/async.c:74-82; releasing the mutex and
falling asleep is one atomic step, spurious wake-ups are allowed); spin back-end = /repo/src/async/spin/async.c:69-79.
-/
namespace Arax.Orphan

/-- /repo/src/async/mutex/async.c and /repo/src/async/spin/async.c; chosen at build time (`async_architecture`). -/
inductive Backend where
  | mutex | spin
  deriving DecidableEq

/-- Where a thread is; line numbers of /repo/src/core/arax_pipe.c. -/
inductive Pc where
  | idle
  | gLock               -- get: about to lock [arax_pipe.c:82]
  | gTest               -- get: about to test for orphans [84]
  | gWait               -- get: has seen none, about to call async_condition_wait [85]
  | asleep              -- get: inside async_condition_wait, lock released, not yet woken
  | gRelock             -- get: woken, about to take the lock again
  | gPop                -- get: about to pop the list head [87]
  | gUnlock (r : Option Nat) -- get: about to unlock and return r [89-97]
  | aLock (v : Nat)     -- add: [67]
  | aAdd (v : Nat)      -- add: [68]
  | aNotify             -- add: [69]
  | rLock (v : Nat)     -- remove: [103]
  | rDel (v : Nat)      -- remove: [104-105]
  | sLock               -- stop: [111]
  | sNotify             -- stop: [112]
  | unlock              -- end of add, remove, stop [70, 106, 113]
  deriving DecidableEq

/-- `orphan_vacs` and `orphan_cond` of the pipe (/repo/include/arax_pipe.h:40-41) and the threads. -/
structure St where
  orphans : List Nat := []
  locked  : Bool := false
  tokens  : Nat := 0              -- spin: value of the condition's semaphore
  pc      : Nat → Pc := fun _ => .idle
  rets    : List (Nat × Option Nat) := []   -- ghost: what the returned get calls returned, and to whom
  added   : List Nat := []        -- ghost: the virtual accelerators put on the list
  removed : List Nat := []        -- ghost: those taken off by a remove
  stops   : Nat := 0              -- ghost: number of stop notifications

/-- After /repo/src/core/arax_pipe.c:40, 47. -/
def init : St := {}

/-- Model bookkeeping, no code of its own: thread `i` goes to `p`. -/
def St.goto (s : St) (i : Nat) (p : Pc) : St := { s with pc := fun j => if j = i then p else s.pc j }

/-- `async_condition_notify` by thread `i`, which then goes on to its unlock. mutex/async.c:79-82, spin/async.c:76-79. -/
def St.notify (b : Backend) (s : St) (i : Nat) : St :=
  match b with
  | .mutex => { s with pc := fun j => if j = i then .unlock else if s.pc j = .asleep then .gRelock else s.pc j }
  | .spin => { s with tokens := s.tokens + 1 }.goto i .unlock

/-- The calls: arax_pipe.c:78-98, 63-71, 100-107, 109-114. -/
inductive Call where
  | get | add (v : Nat) | remove (v : Nat) | stop
  deriving DecidableEq

/-- Their first step: arax_pipe.c:82, 67, 103, 111. -/
def Call.start : Call → Pc
  | .get => .gLock
  | .add v => .aLock v
  | .remove v => .rLock v
  | .stop => .sLock

/-- Steps of the system: a thread, a new call, or a spurious wake-up (POSIX, `pthread_cond_wait`). (/repo/src/core/arax_pipe.c:63-98.) -/
inductive Act where
  | go (i : Nat)                -- thread i takes a step of the call it is in
  | call (i : Nat) (c : Call)   -- thread i, in no call, makes a call
  | spurious (i : Nat)          -- mutex: a spurious wake-up
  deriving DecidableEq

/-- One step of a thread, arax_pipe.c:63-114. -/
def goStep (b : Backend) (s : St) (i : Nat) : St :=
  match s.pc i with
  | .idle => s
  | .gLock => if s.locked then s else { s with locked := true }.goto i .gTest
  | .gTest => if s.orphans.length = 0 then s.goto i .gWait else s.goto i .gPop
  | .gWait => { s with locked := false }.goto i .asleep
  | .asleep =>
    match b with
    | .mutex => s
    | .spin => if 1 ≤ s.tokens then { s with tokens := s.tokens - 1 }.goto i .gRelock else s
  | .gRelock => if s.locked then s else { s with locked := true }.goto i .gPop
  | .gPop => { s with orphans := s.orphans.tail }.goto i (.gUnlock s.orphans.head?)
  | .gUnlock r => { s with locked := false, rets := s.rets ++ [(i, r)] }.goto i .idle
  | .aLock v => if s.locked then s else { s with locked := true }.goto i (.aAdd v)
  | .aAdd v => { s with orphans := v :: s.orphans, added := v :: s.added }.goto i .aNotify
  | .aNotify => s.notify b i
  | .rLock v => if s.locked then s else { s with locked := true }.goto i (.rDel v)
  | .rDel v =>
    if v ∈ s.orphans then { s with orphans := s.orphans.erase v, removed := v :: s.removed }.goto i .unlock
    else s.goto i .unlock
  | .sLock => if s.locked then s else { s with locked := true }.goto i .sNotify
  | .sNotify => { s with stops := s.stops + 1 }.notify b i
  | .unlock => { s with locked := false }.goto i .idle

/-- One step of the system: arax_pipe.c:63-114 (`goStep`), the beginning of a call, or a spurious wake-up at arax_pipe.c:85. -/
def step (b : Backend) (s : St) : Act → St
  | .go i => goStep b s i
  | .call i c => if s.pc i = .idle then s.goto i c.start else s
  | .spurious i => if b = .mutex ∧ s.pc i = .asleep then s.goto i .gRelock else s

/-- Model bookkeeping, no code of its own: a schedule. -/
def exec (b : Backend) (s : St) (sched : List Act) : St := sched.foldl (step b) s

end Arax.Orphan
