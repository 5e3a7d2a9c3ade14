import Verif.Outcome
/-!
# Model of `/repo/src/core/arax_throttle.c` over the condition variables of `/repo/src/async/{mutex,spin}/async.c`

Any number of threads call `arax_throttle_size_inc/dec` on one throttle; one step per access to shared memory
or per pthread operation, so every interleaving is a schedule. `size_t` arithmetic wraps modulo 2^64.

Assumptions on pthreads: a mutex is a lock bit; `pthread_cond_wait` releases the mutex and starts sleeping in one
step; a broadcast wakes every sleeper; spurious wake-ups can happen.
-/
namespace Arax.Throttle

/-- The asynchronous back-end chosen at build time (/repo/cmake/Options.cmake `async_architecture`). /repo/src/async/mutex/async.c, /repo/src/async/spin/async.c. -/
inductive Backend where
  | mutex | spin
  deriving DecidableEq

/-- Build configuration: back-end, `ARAX_THROTTLE_ENFORCE` (default OFF), and the throttle's capacity. /repo/src/core/arax_throttle.h:12-16, arax_throttle.c:64-67, 88-92, 98-101. -/
structure Conf where
  backend : Backend
  enforce : Bool
  cap     : Nat

/-- A call of `arax_throttle_size_inc` or `arax_throttle_size_dec`. /repo/src/core/arax_throttle.c:49-74, 77-105. -/
inductive Call where
  | inc (sz : Nat)
  | dec (sz : Nat)
  deriving DecidableEq

/-- What the call is meant to add to the available size. arax_throttle.c:62, 96. -/
def Call.delta : Call → Int
  | .inc sz => sz
  | .dec sz => -(sz : Int)

/-- The argument `sz` (arax_throttle.c:49, 77). -/
def Call.size : Call → Nat
  | .inc sz => sz
  | .dec sz => sz

/-- Where a thread is (line numbers of arax_throttle.c; async.c for the condition variable). (/repo/src/core/arax_throttle.c:8-120.) -/
inductive Pc where
  | idle
  | lock (c : Call)            -- at `async_condition_lock` [57, 85]
  | test (sz : Nat)            -- holds the lock, at `while (available < sz)` [89]
  | sleep (sz : Nat)           -- mutex back-end: asleep in `pthread_cond_wait` [mutex/async.c:76]
  | rel (sz : Nat)             -- spin back-end: at `async_completion_complete(mutex)` [spin/async.c:161-71]
  | semRd (sz : Nat)           -- spin: about to read `sem->value` [spin async_semaphore_dec]
  | semCas (sz : Nat) (v : Nat) -- spin: about to CAS `v → v-1`
  | relock (sz : Nat)          -- re-acquiring the lock at the end of `async_condition_wait`
  | read (c : Call)            -- holds the lock, about to read `available` [62, 96]
  | store (c : Call) (v : Nat) -- about to write `available` [62, 96]
  | check (c : Call)           -- about to evaluate the ENFORCE assertion [66, 100]
  | notify (c : Call)          -- about to notify [70] (inc only)
  | unl1 (c : Call)            -- mutex: `pthread_mutex_trylock` of the unlock [mutex/async.c:19]
  | unl2 (c : Call)            -- the release itself; then the call returns
  deriving DecidableEq

/-- `arax_throttle_s` (/repo/src/core/arax_throttle.h:12-16) with its condition (mutex/async.h:27-32, spin/async.h:24-28), and the threads. -/
structure St where
  locked    : Bool
  sem       : Nat                -- spin back-end: the condition's semaphore
  avail     : Nat
  pc        : Nat → Pc
  returned  : List Call := []    -- ghost: the calls that have returned
  aborted   : Bool := false

/-- Model bookkeeping, no code of its own: thread `i` goes to `p`. -/
def St.goto (s : St) (i : Nat) (p : Pc) : St := { s with pc := fun j => if j = i then p else s.pc j }

/-- /repo/src/core/arax_throttle.c:28-47 `arax_throttle_init` (its assertions: `InitOk`). -/
def init (a : Nat) : St := { locked := false, sem := 0, avail := a, pc := fun _ => .idle }

/-- arax_throttle.c:33-35: the assertions of `arax_throttle_init`; sizes are `size_t`. -/
def InitOk (cf : Conf) (a : Nat) : Prop := 0 < a ∧ 0 < cf.cap ∧ a ≤ cf.cap ∧ cf.cap < 18446744073709551616

/-- `available += sz` / `available -= sz` in `size_t`. arax_throttle.c:62, 96. -/
def add64 (v : Nat) (d : Int) : Nat := (((v : Int) + d) % 18446744073709551616).toNat

/-- What the environment makes a thread do next. (`spurious`: POSIX, at mutex/async.c:76.) -/
inductive Cmd where
  | call (c : Call)   -- an idle thread calls the API
  | go                -- the thread executes its next step
  | spurious          -- a sleeping thread wakes spuriously
  deriving DecidableEq

/-- `pthread_cond_broadcast`: all sleepers go on to re-acquire the mutex. mutex/async.c:81. -/
def St.wakeAll (s : St) : St :=
  { s with pc := fun j => match s.pc j with | .sleep sz => .relock sz | p => p }

/-- One step of thread `i`. An aborted process does nothing any more. /repo/src/core/arax_throttle.c:49-105, /repo/src/async/mutex/async.c:69-87, /repo/src/async/spin/async.c:44-84; per place at `Pc`. -/
def step (cf : Conf) (s : St) (i : Nat) (cmd : Cmd) : St :=
  if s.aborted then s else
  match s.pc i, cmd with
  | .idle, .call c =>
    if c.size = 0 then { s with returned := s.returned ++ [c] } else s.goto i (.lock c)
  | .idle, _ => s
  | .lock c, .go =>
    if s.locked then s
    else { s with locked := true }.goto i
      (match c with | .inc _ => .read c | .dec sz => if cf.enforce then .test sz else .read c)
  | .test sz, .go =>
    if s.avail < sz then
      match cf.backend with
      | .mutex => { s with locked := false }.goto i (.sleep sz)
      | .spin => s.goto i (.rel sz)
    else s.goto i (.read (.dec sz))
  | .sleep sz, .spurious => s.goto i (.relock sz)
  | .rel sz, .go => { s with locked := false }.goto i (.semRd sz)
  | .semRd sz, .go => if 1 ≤ s.sem then s.goto i (.semCas sz s.sem) else s
  | .semCas sz v, .go =>
    if s.sem = v then { s with sem := v - 1 }.goto i (.relock sz) else s.goto i (.semRd sz)
  | .relock sz, .go => if s.locked then s else { s with locked := true }.goto i (.test sz)
  | .read c, .go => s.goto i (.store c s.avail)
  | .store c v, .go => { s with avail := add64 v c.delta }.goto i (.check c)
  | .check c, .go =>
    if cf.enforce = true ∧ cf.cap < s.avail then { s with aborted := true }
    else s.goto i (match c with | .inc _ => .notify c | .dec _ => .unl1 c)
  | .notify c, .go =>
    match cf.backend with
    | .mutex => s.wakeAll.goto i (.unl1 c)
    | .spin => { s with sem := s.sem + 1 }.goto i (.unl1 c)
  | .unl1 c, .go =>
    match cf.backend with
    | .mutex => { s with locked := true }.goto i (.unl2 c)   -- trylock: locks it if it was free
    | .spin => s.goto i (.unl2 c)
  | .unl2 c, .go => { s with locked := false, returned := s.returned ++ [c] }.goto i .idle
  | _, _ => s

/-- Every interleaving of every choice of calls. (No code of its own.) -/
def exec (cf : Conf) (s : St) (sched : List (Nat × Cmd)) : St := sched.foldl (fun s x => step cf s x.1 x.2) s

end Arax.Throttle
