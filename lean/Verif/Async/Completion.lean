import Verif.Outcome
/-!
# Model of task completion: `/repo/src/async/{mutex,spin}/async.c` completions and `/repo/src/core/arax_task.c:77-87`

One task, any number of threads that mark it done, wait for it and check it; one step per access to shared memory
or pthread call. Assumption on pthreads: a (normal, process-shared) mutex is a lock bit, `lock` waits until
it is clear and sets it, `trylock` sets it if it is clear, `unlock` clears it whoever calls it (this is what
glibc does; POSIX leaves unlocking by a non-owner undefined).
-/
namespace Arax.Completion

/-- /repo/src/async/mutex/async.c and /repo/src/async/spin/async.c; chosen at build time (`async_architecture`). -/
inductive Backend where
  | mutex | spin
  deriving DecidableEq

/-- /repo/include/arax_types.h:62-66 `arax_task_state_e`. -/
inductive TState where
  | failed | issued | completed
  deriving DecidableEq

/-- Where a thread is. (Lines at each.) -/
inductive Pc where
  | idle
  | mk (t : TState)   -- in `arax_task_mark_done`: about to store the state [arax_task.c:85]
  | cTry              -- in `async_completion_complete`, mutex: `trylock` [mutex/async.c:19]
  | cRel              -- mutex: `unlock` [mutex/async.c:20]; spin: CAS 0 → 1 [spin/async.c:16]
  | wAssert           -- in `arax_task_wait_done`: the assertion on the state [arax_task.c:79]
  | wAcq              -- `async_completion_wait`: mutex lock [mutex/async.c:25]; spin CAS 1 → 0 [spin/async.c:21]
  | wRead             -- in `arax_task_wait`: about to read the state to return [impl.c:521]
  | kTry              -- `async_completion_check`: mutex `trylock` [mutex/async.c:32]; spin: the read [spin/async.c:26]
  | kRel              -- mutex: `unlock` after a successful trylock [mutex/async.c:33]
  deriving DecidableEq

/-- Observable events: a `complete` took effect, a `wait` was let through. (No code of its own.) -/
inductive Ev where
  | complete | wait
  deriving DecidableEq

/-- The task state (/repo/src/core/arax_task.h:9-23), its completion (/repo/src/async/mutex/async.h:15-20, /repo/src/async/spin/async.h:12-16) and the threads. -/
structure St where
  tstate  : TState
  free    : Bool                    -- mutex: not locked; spin: `completed ≠ 0`
  pc      : Nat → Pc
  marked  : List TState := []       -- ghost: states stored by `arax_task_mark_done`
  started : Nat := 0                -- ghost: number of `mark_done` calls
  events  : List Ev := []           -- ghost
  waits   : List (Nat × TState) := []          -- ghost: returned `arax_task_wait` calls
  checks  : List (Bool × List Ev) := []        -- ghost: result of each check and the events before its decision
  aborted : Bool := false

/-- `arax_task_alloc` + `arax_task_submit`: `async_completion_init` (mutex: locked; spin: 0) and state issued
(/repo/src/core/arax_task.c:24, 73; mutex/async.c:9-15; spin/async.c:9-12). -/
def init : St := { tstate := .issued, free := false, pc := fun _ => .idle }

/-- Model bookkeeping, no code of its own: thread `i` goes to `p`. -/
def St.goto (s : St) (i : Nat) (p : Pc) : St := { s with pc := fun j => if j = i then p else s.pc j }

/-- What a thread does next: a call (/repo/src/core/arax_task.c:77-87, /repo/src/async/async_api.h:50), or the next step of the call it is in. -/
inductive Cmd where
  | mark (t : TState)   -- call `arax_task_mark_done(task, t)`
  | wait                -- call `arax_task_wait(task)`
  | check               -- call `async_completion_check`
  | go
  deriving DecidableEq

/-- One step of thread `i`. /repo/src/core/arax_task.c:77-87, /repo/src/arch/shm/impl.c:515-522, /repo/src/async/mutex/async.c:17-35, /repo/src/async/spin/async.c:14-27; per place at `Pc`. -/
def step (b : Backend) (s : St) (i : Nat) (cmd : Cmd) : St :=
  if s.aborted then s else
  match s.pc i, cmd with
  | .idle, .mark t => { s with started := s.started + 1 }.goto i (.mk t)
  | .idle, .wait => s.goto i .wAssert
  | .idle, .check => s.goto i .kTry
  | .mk t, .go =>
    { s with tstate := t, marked := s.marked ++ [t] }.goto i (match b with | .mutex => .cTry | .spin => .cRel)
  | .cTry, .go => { s with free := false }.goto i .cRel
  | .cRel, .go => { s with free := true, events := s.events ++ [Ev.complete] }.goto i .idle
  | .wAssert, .go =>
    if s.tstate = .issued ∨ s.tstate = .completed then s.goto i .wAcq else { s with aborted := true }
  | .wAcq, .go =>
    if s.free then { s with free := false, events := s.events ++ [Ev.wait] }.goto i .wRead else s
  | .wRead, .go => { s with waits := s.waits ++ [(i, s.tstate)] }.goto i .idle
  | .kTry, .go =>
    match b with
    | .mutex =>
      if s.free then { s with free := false, checks := s.checks ++ [(true, s.events)] }.goto i .kRel
      else { s with checks := s.checks ++ [(false, s.events)] }.goto i .idle
    | .spin => { s with checks := s.checks ++ [(s.free, s.events)] }.goto i .idle
  | .kRel, .go => { s with free := true }.goto i .idle
  | _, _ => s

/-- Model bookkeeping, no code of its own: a schedule. -/
def exec (b : Backend) (s : St) (sched : List (Nat × Cmd)) : St := sched.foldl (fun s x => step b s x.1 x.2) s

end Arax.Completion
