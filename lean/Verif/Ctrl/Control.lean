import Verif.Live.Model
/-!
# Model for C70: starting, pausing, resuming and stopping the workers of the controller

The main thread of the controller (/repo/controller/src/Core/arax_controller.cpp:67-114, 177-227), one worker thread per accelerator
(/repo/controller/src/Core/accelThread.cpp:293-474), threads that change job preferences (accelThread.cpp:124-135), the balancer (VacBalancerThread.cpp:12-23), clients that
issue tasks, and the signal handler (arax_controller.cpp:36-42). One step per access to shared state.

Simplifications:
- `enable_mtx` is used as a binary semaphore: `pthread_mutex_trylock` on a locked mutex does nothing, `pthread_mutex_unlock` opens it whoever holds it (POSIX leaves both
  undefined for other threads; this is what a default glibc mutex does).
- A task enters the queue of its accelerator and is counted in one step (C65 has the steps in between); all virtual accelerators of one accelerator are one queue, and the
  scheduler may take any task of it (`hint`), so every policy is covered.
- `arax_accel_wait_for_task` and `arax_accel_add_task` are one step each (C63).
- `acceleratorInit` of worker `p` succeeds iff `initOk p`. The handler of task `t` takes `dur t` further steps.
- `crashed`: an exception left the signal handler; nothing happens afterwards.
-/
namespace Arax.Control

open Arax.Live (upd)

/-- Where a worker is. /repo/controller/src/Core/accelThread.cpp:293-474. -/
inductive Wk where
  | unborn              -- not started [62-70]
  | setup               -- started, before acceleratorInit [325]
  | failed              -- acceleratorInit failed, thread returned [325-330]
  | top                 -- at the loop condition [363]
  | chk                 -- about to read job_preference [368]
  | lock                -- in pthread_mutex_lock [369]
  | wait                -- in arax_accel_wait_for_task [479]
  | sel                 -- about to select a task [373]
  | run (t k : Nat)     -- executes task t, k steps left [410]
  | ended               -- returned from workFunc [474]
  deriving DecidableEq

/-- Where the main thread is. /repo/controller/src/Core/arax_controller.cpp. -/
inductive Main where
  | spawn (p : Nat)       -- about to start worker p [87]
  | await (p : Nat)       -- spins until worker p is ready [88-89]
  | serving               -- waits for the signal [193]
  | term (p st : Nat)     -- in terminate of worker p: 0 stopExec, 1 add_task, 2 job_preference, 3 unlock [108; accelThread.cpp:138-144]
  | join (p : Nat)        -- joins worker p [111]
  | dereg (p : Nat)       -- releases accelerator p [63]
  | done                  -- returned from deRegisterAccel [221]
  deriving DecidableEq

/-- Where a thread that changes job preferences is (accelThread.cpp:124-135). -/
inductive Pol where
  | idle
  | write (p : Nat) (noJob : Bool)    -- about to write job_preference [126]
  | mutex (p : Nat) (noJob : Bool)    -- about to trylock (noJob) or unlock [127-130]
  deriving DecidableEq

/-- Shared state of the controller: `stopExec`, `job_preference == NoJob`, `enable_mtx` (/repo/controller/src/Core/accelThread.h), `tasks` and queues, `arax_accel != 0`, `readyToServe`. -/
structure St where
  stop  : Nat → Bool := fun _ => false
  noJob : Nat → Bool
  mtx   : Nat → Bool := fun _ => true
  tokens : Nat → Nat := fun _ => 0
  queue : Nat → List Nat := fun _ => []
  fin   : Nat → List Nat := fun _ => []       -- ghost: the tasks executed by worker p, in order
  wk    : Nat → Wk := fun _ => .unborn
  alive : Nat → Bool := fun _ => false
  ready : Nat → Bool := fun _ => false
  main  : Main := .spawn 0
  pol   : Nat → Pol := fun _ => .idle
  sig   : Bool := false                       -- shouldExit has its value
  crashed : Bool := false
  lost  : List Nat := []                      -- ghost: tasks of virtual accelerators that were handed to a released accelerator

/-- All workers constructed: constructor calls disable(), preferences from the configuration. accelThread.cpp:46-60, Config.cpp:157. -/
def init (pref : Nat → Bool) : St := { noJob := pref }

/-- Steps of the system. (The lines are at the functions below.) -/
inductive Act where
  | main                          -- the main thread takes a step
  | work (p hint : Nat)           -- worker p takes a step; hint: which task it would like
  | setPref (i p : Nat) (noJob : Bool)   -- thread i, in no call, calls setJobPreference of worker p
  | pol (i : Nat)                 -- thread i takes a step
  | issue (p t : Nat)             -- a client issues task t to a virtual accelerator of accelerator p
  | assign (p : Nat) (ts : List Nat)   -- the balancer assigns a virtual accelerator with queue ts to accelerator p
  | sigint                        -- SIGINT is delivered
  deriving DecidableEq

/-- One step of the main thread. arax_controller.cpp:86-92 (spawn, await), 193 (serving), 106-113 (terminate, join), 51-64 (release). -/
def mainStep (np : Nat) (s : St) : St :=
  match s.main with
  | .spawn p => if p < np then { s with wk := upd s.wk p .setup, main := .await p } else { s with main := .serving }
  | .await p => if s.ready p then { s with main := .spawn (p + 1) } else s
  | .serving => if s.sig then { s with main := .term 0 0 } else s
  | .term p 0 => if p < np then { s with stop := upd s.stop p true, main := .term p 1 } else { s with main := .join 0 }
  | .term p 1 => { s with tokens := upd s.tokens p (s.tokens p + 1), main := .term p 2 }
  | .term p 2 => { s with noJob := upd s.noJob p false, main := .term p 3 }
  | .term p _ => { s with mtx := upd s.mtx p false, main := .term (p + 1) 0 }
  | .join p => if p < np then (if s.wk p = .ended ∨ s.wk p = .failed then { s with main := .join (p + 1) } else s) else { s with main := .dereg 0 }
  | .dereg p => if p < np then { s with alive := upd s.alive p false, main := .dereg (p + 1) } else { s with main := .done }
  | .done => s

/-- One step of worker `p`. accelThread.cpp:325-330, 337-360 (setup), 363-445 (loop), 477-490. -/
def workStep (initOk : Nat → Bool) (dur : Nat → Nat) (s : St) (p hint : Nat) : St :=
  match s.wk p with
  | .unborn | .failed | .ended => s
  | .setup => if initOk p then { s with wk := upd s.wk p .top, alive := upd s.alive p true, ready := upd s.ready p true } else { s with wk := upd s.wk p .failed }
  | .top => { s with wk := upd s.wk p (if s.stop p then .ended else .chk) }
  | .chk => { s with wk := upd s.wk p (if s.noJob p then .lock else .wait) }
  | .lock => if s.mtx p then s else { s with mtx := upd s.mtx p true, wk := upd s.wk p .wait }
  | .wait => if s.tokens p = 0 then s else { s with tokens := upd s.tokens p (s.tokens p - 1), wk := upd s.wk p .sel }
  | .sel =>
    match (s.queue p)[hint % (s.queue p).length]? with
    | none => { s with wk := upd s.wk p .top }
    | some t => { s with queue := upd s.queue p ((s.queue p).eraseIdx (hint % (s.queue p).length)), wk := upd s.wk p (.run t (dur t)) }
  | .run t (k + 1) => { s with wk := upd s.wk p (.run t k) }
  | .run t 0 => { s with fin := upd s.fin p (s.fin p ++ [t]), wk := upd s.wk p .top }

/-- One step of a thread in setJobPreference. accelThread.cpp:124-135. -/
def polStep (s : St) (i : Nat) : St :=
  match s.pol i with
  | .idle => s
  | .write p nj => { s with noJob := upd s.noJob p nj, pol := upd s.pol i (.mutex p nj) }
  | .mutex p nj => { s with mtx := upd s.mtx p nj, pol := upd s.pol i .idle }

/-- The balancer runs: it is created after all workers are ready and never stopped. arax_controller.cpp:185, VacBalancerThread.cpp:10-22. -/
def balancing : Main → Bool
  | .spawn _ | .await _ => false
  | _ => true

/-- One step of the system. Assignment to a released accelerator: `arax_accel` is 0 (impl.c:376), `arax_assert_obj` checks nothing (arax_assert.h:12), `vaccel->phys` of an orphan is 0
too, so arax_accel.c:113-114 returns: the virtual accelerator is no orphan any more and is not assigned either (`lost`). The second signal: `set_value` throws (arax_controller.cpp:41). -/
def step (np : Nat) (initOk : Nat → Bool) (dur : Nat → Nat) (s : St) (a : Act) : St :=
  if s.crashed then s else
  match a with
  | .main => mainStep np s
  | .work p hint => workStep initOk dur s p hint
  | .setPref i p nj => if s.pol i = .idle then { s with pol := upd s.pol i (.write p nj) } else s
  | .pol i => polStep s i
  | .issue p t => if s.alive p then { s with queue := upd s.queue p (s.queue p ++ [t]), tokens := upd s.tokens p (s.tokens p + 1) } else s
  | .assign p ts =>
    if balancing s.main then
      if s.alive p then { s with queue := upd s.queue p (s.queue p ++ ts), tokens := upd s.tokens p (s.tokens p + ts.length) } else { s with lost := s.lost ++ ts }
    else s
  | .sigint => if s.sig then { s with crashed := true } else { s with sig := true }

/-- A history. (No code of its own.) -/
def exec (np : Nat) (initOk : Nat → Bool) (dur : Nat → Nat) (s : St) (h : List Act) : St := h.foldl (step np initOk dur) s

/-- `np` accelerators, `n` threads that change preferences. (No code of its own.) -/
def Act.below (np n : Nat) : Act → Prop
  | .main => True
  | .work p _ => p < np
  | .setPref i p _ => i < n ∧ p < np
  | .pol i => i < n
  | .issue p _ => p < np
  | .assign p _ => p < np
  | .sigint => True

/-- The thread a step belongs to: main 0, worker p is p+1, preference thread i is np+1+i; calls and signals belong to nobody (≥ np+1+n). (No code of its own.) -/
def Act.cls (np n : Nat) : Act → Nat
  | .main => 0
  | .work p _ => p + 1
  | .pol i => np + 1 + i
  | _ => np + 1 + n

end Arax.Control
