import Verif.Outcome
/-!
# Model of the condition API: `async_condition_{init,lock,unlock,wait,notify}`

Back-ends `mutex` (/repo/src/async/mutex/async.c:9-26, 60-87) and `spin` (/repo/src/async/spin/async.c:9-22, 57-84). Threads `0 … n-1` each run a program: a
list of calls on one condition. One step per access to shared memory; simplifications:
- the dec of the spin semaphore is one step (justified by `C23_counting_spin_partial`: its value goes down by one, only when positive), and its value is
  a natural number;
- `pthread_cond_wait` releases the mutex and falls asleep in one step (POSIX), spurious wake-ups are allowed (`Act.spurious`);
- the mutex is a flag: `PTHREAD_MUTEX_DEFAULT` of glibc does not record an owner that `unlock` would check.
-/
namespace Arax.Cond

/-- /repo/src/async/mutex/async.c and /repo/src/async/spin/async.c; chosen at build time (`async_architecture`). -/
inductive Backend where
  | mutex   -- /repo/src/async/mutex/async.c
  | spin    -- /repo/src/async/spin/async.c
  deriving DecidableEq

/-- The calls of a program: the four functions of /repo/src/async/async_api.h:106-133. -/
inductive Call where
  | lock | unlock | wait | notify
  deriving DecidableEq

/-- Where a thread is, seen from its own program. Lines behind each. (/repo/src/async/mutex/async.c:60-87, /repo/src/async/spin/async.c:57-84.) -/
inductive Pc where
  | out      -- in no call, does not hold the condition
  | acq      -- in async_condition_lock or at the end of async_condition_wait: about to (try to) take the lock [mutex/async.c:25; spin/async.c:21]
  | inside   -- in no call; its last lock or wait has returned
  | rel1     -- in async_condition_unlock [mutex/async.c:19; spin/async.c:16]
  | rel2     -- in async_condition_unlock, after the trylock [mutex/async.c:20]
  | wt       -- in async_condition_wait, lock not yet released [mutex/async.c:76; spin/async.c:71]
  | asleep   -- in async_condition_wait, lock released, not woken [mutex/async.c:76; spin/async.c:72]
  deriving DecidableEq

/-- The shared memory of one `async_condition_s` (/repo/src/async/mutex/async.h, /repo/src/async/spin/async.h) and the threads. mutex/async.h:15-32, spin/async.h:12-28. -/
structure St where
  held      : Bool              -- mutex: the pthread mutex is locked
  completed : Bool              -- spin: `completed`
  tokens    : Nat := 0          -- spin: the value of `cond->semaphore`
  pc        : Nat → Pc := fun _ => .out
  todo      : Nat → List Call   -- the rest of each thread's program
  notifs    : Nat := 0          -- ghost: number of async_condition_notify calls
  wakes     : Nat := 0          -- ghost: spin: number of waits that got past async_semaphore_dec

/-- `pthread_mutex_trylock` (its result is ignored at mutex/async.c:19): afterwards the mutex is locked by somebody. -/
def St.trylock (s : St) : St := { s with held := true }

/-- `pthread_mutex_unlock`. mutex/async.c:20. -/
def St.munlock (s : St) : St := { s with held := false }

/-- `__sync_bool_compare_and_swap(&completed, 0, 1)` (spin/async.c:16). -/
def St.cas01 (s : St) : St := { s with completed := if s.completed = false then true else s.completed }

/-- Model bookkeeping, no code of its own: thread `i` goes to `p`. -/
def St.goto (s : St) (i : Nat) (p : Pc) : St := { s with pc := fun j => if j = i then p else s.pc j }

/-- Thread `i` starts the next call of its program. (No code of its own: the caller.) -/
def St.pop (s : St) (i : Nat) : St := { s with todo := fun j => if j = i then (s.todo i).tail else s.todo j }

/-- `async_condition_init`. mutex/async.c:60-67 = completion_init (mutex_init: unlocked; mutex_lock) and condition_unlock (trylock, unlock);
spin/async.c:57-62 = completion_init (completed = 0), completion_complete (CAS 0 to 1), semaphore_init (value = 0). -/
def init (b : Backend) (prog : Nat → List Call) : St :=
  match b with
  | .mutex => (St.mk true false 0 (fun _ => .out) prog 0 0).trylock.munlock
  | .spin => (St.mk false false 0 (fun _ => .out) prog 0 0).cas01

/-- `async_condition_notify`: mutex/async.c:79-82 wakes every sleeping thread, spin/async.c:76-79 increments the semaphore. -/
def notify (b : Backend) (s : St) : St :=
  match b with
  | .mutex => { s with pc := fun j => if s.pc j = .asleep then .acq else s.pc j, notifs := s.notifs + 1 }
  | .spin => { s with tokens := s.tokens + 1, notifs := s.notifs + 1 }

/-- One step of thread `i`. A call that the program makes in the wrong place (unlock, wait or notify without the lock, lock with it) is not modelled: the
thread stops there. /repo/src/async/mutex/async.c:17-26, 69-87; /repo/src/async/spin/async.c:14-22, 44-55, 64-84; per place at `Pc`. -/
def goStep (b : Backend) (s : St) (i : Nat) : St :=
  match s.pc i with
  | .out =>
    match s.todo i with
    | .lock :: _ => (s.pop i).goto i .acq
    | _ => s
  | .inside =>
    match s.todo i with
    | .unlock :: _ => (s.pop i).goto i .rel1
    | .wait :: _ => (s.pop i).goto i .wt
    | .notify :: _ => notify b (s.pop i)
    | _ => s
  | .acq =>
    match b with
    | .mutex => if s.held then s else { s with held := true }.goto i .inside
    | .spin => if s.completed then { s with completed := false }.goto i .inside else s
  | .rel1 =>
    match b with
    | .mutex => s.trylock.goto i .rel2
    | .spin => s.cas01.goto i .out
  | .rel2 => s.munlock.goto i .out
  | .wt =>
    match b with
    | .mutex => s.munlock.goto i .asleep
    | .spin => s.cas01.goto i .asleep
  | .asleep =>
    match b with
    | .mutex => s
    | .spin => if 1 ≤ s.tokens then { s with tokens := s.tokens - 1, wakes := s.wakes + 1 }.goto i .acq else s

/-- Steps of the system: a thread, or a spurious wake-up (POSIX, `pthread_cond_wait` at mutex/async.c:76). -/
inductive Act where
  | go (i : Nat)          -- thread i takes a step
  | spurious (i : Nat)    -- mutex: `pthread_cond_wait` of thread i wakes without a broadcast
  deriving DecidableEq

/-- One step of the system: `goStep`, or a spurious wake-up at mutex/async.c:76. -/
def step (b : Backend) (s : St) : Act → St
  | .go i => goStep b s i
  | .spurious i => if b = .mutex ∧ s.pc i = .asleep then s.goto i .acq else s

/-- Model bookkeeping, no code of its own: a schedule. -/
def exec (b : Backend) (s : St) (sched : List Act) : St := sched.foldl (step b) s

/-! ## ivshmem: /repo/src/async/ivshmem/async.c

Only lock and unlock (118-142, 206-233), one condition, one virtual machine. `wait` and `notify` use `sem->meta`, which `async_semaphore_init` (149-154) does
not set. Differences to the code that favour it: the doorbell always reaches the machine whose thread waits, and the interrupt thread (37-62) handles an
interrupt in one step. -/
namespace Iv

/-- Where a thread is; line numbers of /repo/src/async/ivshmem/async.c. -/
inductive Pc where
  | out
  | try_             -- async_completion_wait: about to trylock [137]
  | add              -- trylock failed: about to put the completion on the outstanding list [138]
  | setId            -- [140]
  | lck              -- in pthread_mutex_lock [141]
  | inside
  | c1               -- async_completion_complete: about to set completed [131]
  | c2               -- about to ring the bell [132]
  deriving DecidableEq

/-- `async_completion_s` and the part of `async_meta_s` that matters (/repo/src/async/ivshmem/async.h), interrupts, threads. -/
structure St where
  held      : Bool := true      -- the pthread mutex; async_completion_init leaves it locked [126]
  completed : Bool := true      -- completion_init clears it, async_condition_init then sets it [125, 209, 131]
  linked    : Bool := false     -- the completion is on `meta->outstanding`
  corrupt   : Bool := false     -- the completion was added while it was linked: the list is broken from then on
  bells     : Nat               -- interrupts not yet read [48]
  pc        : Nat → Pc := fun _ => .out

/-- State after `async_condition_init` (/repo/src/async/ivshmem/async.c:206-211) and `bells` unread interrupts (init itself rings the bell of an uninitialised `vm_id`, 132). -/
def init (bells : Nat) : St := { bells := bells }

/-- Model bookkeeping, no code of its own: thread `i` goes to `p`. -/
def St.goto (s : St) (i : Nat) (p : Pc) : St := { s with pc := fun j => if j = i then p else s.pc j }

/-- Calls (/repo/src/async/ivshmem/async.c:213-216, 230-233), steps of threads (129-142), of the interrupt thread (46-59), and bells rung for other completions (28, 132). -/
inductive Act where
  | lock (i : Nat)      -- thread i, outside, calls async_condition_lock
  | unlock (i : Nat)    -- thread i, inside, calls async_condition_unlock
  | go (i : Nat)        -- a step of thread i
  | irq                 -- the interrupt thread reads one interrupt and handles it
  | ring                -- somebody rings the bell for another completion of the same machine
  deriving DecidableEq

/-- /repo/src/async/ivshmem/async.c:129-142. -/
def goStep (s : St) (i : Nat) : St :=
  match s.pc i with
  | .out => s
  | .inside => s
  | .try_ => if s.held then s.goto i .add else { s with held := true }.goto i .setId
  | .add => { s with linked := true, corrupt := s.corrupt || s.linked }.goto i .setId
  | .setId => s.goto i .lck
  | .lck => if s.held then s else { s with held := true }.goto i .inside
  | .c1 => { s with completed := true }.goto i .c2
  | .c2 => { s with bells := s.bells + 1 }.goto i .out

/-- /repo/src/async/ivshmem/async.c:46-59: one round of the interrupt thread. -/
def irqStep (s : St) : St :=
  if s.bells = 0 then s
  else if s.linked && s.completed then { s with bells := s.bells - 1, linked := false, held := false }
  else { s with bells := s.bells - 1 }

/-- One step: async.c:129-142, 213-216, 230-233; 46-59; 28. -/
def step (s : St) : Act → St
  | .lock i => if s.pc i = .out then s.goto i .try_ else s
  | .unlock i => if s.pc i = .inside then s.goto i .c1 else s
  | .go i => goStep s i
  | .irq => irqStep s
  | .ring => { s with bells := s.bells + 1 }

/-- Model bookkeeping, no code of its own: a schedule. -/
def exec (s : St) (sched : List Act) : St := sched.foldl step s

end Iv
end Arax.Cond
