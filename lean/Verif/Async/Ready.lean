import Verif.Outcome
/-!
# Model of the controller-ready handshake: `/repo/src/arch/shm/impl.c:115-121` (applications) and `143-147` (controller)

Applications `0 … n-1` call `arax_init()`; the controller calls `arax_controller_init_done()` once. One step per access to shared memory, except
that the spin semaphore's dec is one step (justified by `C23_counting_spin_partial`: its value changes by one, only when positive).
Condition variables: mutex back-end = `pthread_cond_wait`/`pthread_cond_broadcast` (/repo/src/async/mutex/async.c:74-82; releasing the mutex and
falling asleep is one atomic step, spurious wake-ups are allowed); spin back-end = /repo/src/async/spin/async.c:69-79.
-/
namespace Arax.Ready

/-- /repo/src/async/mutex/async.c and /repo/src/async/spin/async.c; chosen at build time (`async_architecture`). -/
inductive Backend where
  | mutex | spin
  deriving DecidableEq

/-- Where an application is in `_arax_init`; line numbers of /repo/src/arch/shm/impl.c. -/
inductive Pc where
  | lock      -- about to take the condition's lock [impl.c:117, or the end of async_condition_wait]
  | test      -- holds the lock, about to read `cntrl_ready` [impl.c:118]
  | wait      -- holds the lock, has read 0, about to call async_condition_wait [impl.c:119]
  | asleep    -- inside async_condition_wait, lock released, not yet woken
  | unlock    -- holds the lock, has read 1 [impl.c:120]
  | ret       -- arax_init returned [impl.c:122]
  deriving DecidableEq

/-- `cntrl_ready` and `cntrl_ready_cond` of the pipe (/repo/include/arax_pipe.h:37-38), applications and controller. -/
structure St where
  ready  : Bool := false          -- `cntrl_ready`
  locked : Bool := false
  tokens : Nat := 0               -- spin: value of the condition's semaphore
  app    : Nat → Pc := fun _ => .lock
  ctl    : Nat := 0               -- controller: 0 = before line 145, 1 = before line 146, 2 = returned

/-- After `arax_pipe_init` (/repo/src/core/arax_pipe.c:45; `cntrl_ready` is 0 in a fresh segment). -/
def init : St := {}

/-- Model bookkeeping, no code of its own: application `i` goes to `p`. -/
def St.goto (s : St) (i : Nat) (p : Pc) : St := { s with app := fun j => if j = i then p else s.app j }

/-- Steps of the system (impl.c:117-120, 145-146), or a spurious wake-up (POSIX). -/
inductive Act where
  | app (i : Nat)     -- application i takes a step
  | ctl               -- the controller takes a step
  | spurious (i : Nat)  -- mutex: a spurious wake-up of a sleeping application
  deriving DecidableEq

/-- impl.c:117-122. -/
def appStep (b : Backend) (s : St) (i : Nat) : St :=
  match s.app i with
  | .lock => if s.locked then s else { s with locked := true }.goto i .test
  | .test => if s.ready then s.goto i .unlock else s.goto i .wait
  | .wait => { s with locked := false }.goto i .asleep
  | .asleep =>
    match b with
    | .mutex => s
    | .spin => if 1 ≤ s.tokens then { s with tokens := s.tokens - 1 }.goto i .lock else s
  | .unlock => { s with locked := false }.goto i .ret
  | .ret => s

/-- impl.c:143-147: the store, then the notification, neither under the lock. -/
def ctlStep (b : Backend) (s : St) : St :=
  match s.ctl with
  | 0 => { s with ready := true, ctl := 1 }
  | 1 =>
    match b with
    | .mutex => { s with app := fun j => if s.app j = .asleep then .lock else s.app j, ctl := 2 }
    | .spin => { s with tokens := s.tokens + 1, ctl := 2 }
  | _ => s

/-- One step of the system: impl.c:117-122, 143-147, or a spurious wake-up at impl.c:119. -/
def step (b : Backend) (s : St) : Act → St
  | .app i => appStep b s i
  | .ctl => ctlStep b s
  | .spurious i => if b = .mutex ∧ s.app i = .asleep then s.goto i .lock else s

/-- Model bookkeeping, no code of its own: a schedule. -/
def exec (b : Backend) (s : St) (sched : List Act) : St := sched.foldl (step b) s

end Arax.Ready
