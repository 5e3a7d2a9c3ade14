import Verif.Outcome
/-!
# Model of the worker wake-up of one physical accelerator

Threads `0 … n-1` call `arax_accel_wait_for_task` (/repo/src/core/arax_accel.c:26-36, the accelerator's worker through
/repo/controller/src/Core/accelThread.cpp:479), `arax_accel_add_task` (arax_accel.c:38-44, every `arax_vaccel_add_task`) and the part of
`arax_accel_add_vaccel` between the lock and the unlock of the accelerator (arax_accel.c:123-136), any number of times and in any order.
One step per access to shared memory, with two simplifications: the dec of the spin semaphore is one step (as `C23_counting_spin_partial` justifies: its value goes down by one, only when positive), and
`async_condition_unlock` is one step (mutex back-end: /repo/src/async/mutex/async.c:19-20 tries the lock first, which the holder cannot get, and then
unlocks). `tasks` is a natural number (the `size_t` counter is not modelled near 2^64).
Condition variables: mutex back-end = `pthread_cond_wait`/`pthread_cond_broadcast` (/repo/src/async/mutex/async.c:74-82; releasing the mutex and
falling asleep is one atomic step, spurious wake-ups are allowed); spin back-end = /repo/src/async/spin/async.c:69-79.
-/
namespace Arax.Worker

/-- /repo/src/async/mutex/async.c and /repo/src/async/spin/async.c; chosen at build time (`async_architecture`). -/
inductive Backend where
  | mutex | spin
  deriving DecidableEq

/-- Where a thread is; line numbers of /repo/src/core/arax_accel.c. -/
inductive Pc where
  | idle              -- in none of the calls
  | lock              -- wait_for_task: about to take the lock [arax_accel.c:28, or the end of async_condition_wait]
  | test              -- holds the lock, about to read `tasks` [30]
  | wait              -- holds the lock, has read 0, about to call async_condition_wait [31]
  | asleep            -- inside async_condition_wait, lock released, not yet woken
  | take              -- holds the lock, has read a positive number [33]
  | unlock            -- [35]
  | aLock (k : Nat)   -- add_task (k = 1) / add_vaccel (k = tasks queued on the virtual accelerator): about to lock [40 / 123]
  | aAdd (k : Nat)    -- [41 / 129-130]
  | aNotify           -- [42 / 131]
  | aUnlock           -- [43 / 136]
  deriving DecidableEq

/-- `tasks` and `lock` of the accelerator (/repo/src/core/arax_accel.h:19-21) and the threads. -/
structure St where
  tasks  : Nat := 0
  locked : Bool := false
  tokens : Nat := 0               -- spin: value of the condition's semaphore
  pc     : Nat → Pc := fun _ => .idle
  added  : Nat := 0               -- ghost: sum of all completed increments
  taken  : Nat := 0               -- ghost: number of completed decrements (tasks handed to a wait_for_task call)
  rets   : Nat := 0               -- ghost: number of returned wait_for_task calls

/-- After `arax_accel_init` (/repo/src/core/arax_accel.c:15-21). -/
def init : St := {}

/-- Model bookkeeping, no code of its own: thread `i` goes to `p`. -/
def St.goto (s : St) (i : Nat) (p : Pc) : St := { s with pc := fun j => if j = i then p else s.pc j }

/-- Steps of the system: a thread, a new call, or a spurious wake-up (POSIX, `pthread_cond_wait`). (/repo/src/core/arax_accel.c:26-44, 123-136.) -/
inductive Act where
  | go (i : Nat)           -- thread i takes a step of the call it is in
  | callWait (i : Nat)     -- thread i, in no call, calls arax_accel_wait_for_task
  | callAdd (i k : Nat)    -- thread i, in no call, calls arax_accel_add_task (k = 1) or reaches arax_accel.c:123 with k queued tasks
  | spurious (i : Nat)     -- mutex: a spurious wake-up
  deriving DecidableEq

/-- One step of a thread, arax_accel.c:26-44 and 123-136. -/
def goStep (b : Backend) (s : St) (i : Nat) : St :=
  match s.pc i with
  | .idle => s
  | .lock => if s.locked then s else { s with locked := true }.goto i .test
  | .test => if s.tasks = 0 then s.goto i .wait else s.goto i .take
  | .wait => { s with locked := false }.goto i .asleep
  | .asleep =>
    match b with
    | .mutex => s
    | .spin => if 1 ≤ s.tokens then { s with tokens := s.tokens - 1 }.goto i .lock else s
  | .take => { s with tasks := s.tasks - 1, taken := s.taken + 1 }.goto i .unlock
  | .unlock => { s with locked := false, rets := s.rets + 1 }.goto i .idle
  | .aLock k => if s.locked then s else { s with locked := true }.goto i (.aAdd k)
  | .aAdd k => if k = 0 then s.goto i .aUnlock else { s with tasks := s.tasks + k, added := s.added + k }.goto i .aNotify
  | .aNotify =>
    match b with
    | .mutex => { s with pc := fun j => if j = i then .aUnlock else if s.pc j = .asleep then .lock else s.pc j }
    | .spin => { s with tokens := s.tokens + 1 }.goto i .aUnlock
  | .aUnlock => { s with locked := false }.goto i .idle

/-- One step of the system: arax_accel.c:26-44, 123-136 (`goStep`), the beginning of a call, or a spurious wake-up at arax_accel.c:31. -/
def step (b : Backend) (s : St) : Act → St
  | .go i => goStep b s i
  | .callWait i => if s.pc i = .idle then s.goto i .lock else s
  | .callAdd i k => if s.pc i = .idle then s.goto i (.aLock k) else s
  | .spurious i => if b = .mutex ∧ s.pc i = .asleep then s.goto i .lock else s

/-- Model bookkeeping, no code of its own: a schedule. -/
def exec (b : Backend) (s : St) (sched : List Act) : St := sched.foldl (step b) s

end Arax.Worker
