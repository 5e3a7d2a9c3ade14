import Verif.Live.Fair
/-!
# Model for C65: from `arax_task_issue` to the end of the handler

Threads `0 … n-1` are clients in `arax_vaccel_add_task` (/repo/src/core/arax_vaccel.c:32-39; the part of `arax_task_issue` that can block) or the balancer in
`arax_accel_add_vaccel` (/repo/src/core/arax_accel.c:108-141). Workers `0 … np-1` are the accelerator threads
(/repo/controller/src/Core/accelThread.cpp:363-445, 477-490), one per physical accelerator. Any number of virtual accelerators; `cap` is
`UTILS_QUEUE_CAPACITY`, the capacity of a virtual accelerator's queue.

One step per access to the shared state of the virtual accelerators. Simplifications:
- A queue is a list; push fails when it holds `cap` tasks, pop takes the oldest (C05, C07).
- `arax_accel_add_task` and the counter part of `arax_accel_wait_for_task` are one step each: they hold the accelerator's lock, and C63 shows that a
  waiting worker is woken.
- Snapshot and scan of the worker are one step, which takes the oldest task of some non-empty queue of the accelerator, if there is one: round robin does
  (C35), and so does every policy the schedule can choose here (`hint`). Only the worker takes tasks out of these queues.
- An assignment of a virtual accelerator that is already assigned does nothing (arax_accel.c:113-116 returns or aborts; excluded by C34).
- Virtual accelerators are not taken away from their accelerator (round robin never does).
- The handler of task `t` takes `dur t` steps: handlers terminate.
-/
namespace Arax.Live

/-- Where a client or the balancer is (/repo/src/core/arax_vaccel.c:32-39, /repo/src/core/arax_accel.c:108-141). -/
inductive Pc where
  | idle
  | iLock (v t : Nat)     -- issue: about to take the spinlock of v [arax_vaccel.c:34]
  | iPush (v t : Nat)     -- issue: in the push loop, holding the lock [35]
  | iAdd (v : Nat)        -- issue: about to test phys and count the task [36-37]
  | iUnlock (v : Nat)     -- issue: [38]
  | bLock (v p : Nat)     -- assign v to accelerator p: about to take the spinlock of v [arax_accel.c:120]
  | bAdd (v p : Nat)      -- assign: [122-137]
  | bUnlock (v : Nat)     -- assign: [140]
  deriving DecidableEq

/-- Where a worker is (/repo/controller/src/Core/accelThread.cpp:363-445, 477-490). -/
inductive Wk where
  | idle                  -- in arax_accel_wait_for_task [accelThread.cpp:479]
  | token                 -- has taken one from the count, about to look for a task [481-485, 373]
  | run (v t k : Nat)     -- executes task t of virtual accelerator v, k handler steps left [410]
  deriving DecidableEq

/-- Queues, `phys` and locks of the virtual accelerators (/repo/src/core/arax_vaccel.h:29-41), counts of the accelerators (/repo/src/core/arax_accel.h:21), threads. -/
structure St where
  queue : Nat → List Nat := fun _ => []
  phys  : Nat → Option Nat := fun _ => none   -- vaccel->phys
  lock  : Nat → Bool := fun _ => false        -- vaccel->lock
  tasks : Nat → Nat := fun _ => 0             -- accel->tasks
  pc    : Nat → Pc := fun _ => .idle
  wk    : Nat → Wk := fun _ => .idle
  calls : Nat → List Nat := fun _ => []       -- ghost: the tasks with which arax_task_issue was called, per virtual accelerator
  pushed : Nat → List Nat := fun _ => []      -- ghost: the tasks that entered the queue
  fin   : Nat → List Nat := fun _ => []       -- ghost: the tasks whose handler has ended

/-- Nothing issued or assigned (/repo/src/core/arax_accel.c:15-23, /repo/src/core/arax_vaccel.c:6-22). -/
def init : St := {}

/-- Model bookkeeping, no code of its own: point update. -/
def upd {α : Type} (f : Nat → α) (i : Nat) (x : α) : Nat → α := fun j => if j = i then x else f j

/-- Model bookkeeping, no code of its own: thread `i` goes to `p`. -/
def St.goto (s : St) (i : Nat) (p : Pc) : St := { s with pc := upd s.pc i p }

/-- Steps of the system: calls of arax_vaccel.c:32 and arax_accel.c:108, steps of threads and workers. -/
inductive Act where
  | issue (i v t : Nat)      -- thread i, in no call, calls arax_task_issue with task t on virtual accelerator v
  | assign (i v p : Nat)     -- thread i, in no call, calls arax_accel_add_vaccel(p, v)
  | go (i : Nat)             -- thread i takes a step
  | work (p hint : Nat)      -- the worker of accelerator p takes a step; hint: the virtual accelerator it would like to serve
  deriving DecidableEq

/-- The first of the virtual accelerators `0 … m-1` that belongs to `p` and has a task. RoundRobinScheduler.cpp:40-50. -/
def firstTask (s : St) (p : Nat) : Nat → Option Nat
  | 0 => none
  | m + 1 =>
    match firstTask s p m with
    | some v => some v
    | none => if s.phys m = some p ∧ s.queue m ≠ [] then some m else none

/-- The queue the worker serves next: the one asked for, if it belongs to `p` and has a task, else the first such. RoundRobinScheduler.cpp:30-52. -/
def choose (m : Nat) (s : St) (p hint : Nat) : Option Nat :=
  if hint < m ∧ s.phys hint = some p ∧ s.queue hint ≠ [] then some hint else firstTask s p m

/-- One step of a client or of the balancer. /repo/src/core/arax_vaccel.c:32-39, /repo/src/core/arax_accel.c:108-141; per place at `Pc`. -/
def goStep (cap : Nat) (s : St) (i : Nat) : St :=
  match s.pc i with
  | .idle => s
  | .iLock v t => if s.lock v then s else { s with lock := upd s.lock v true }.goto i (.iPush v t)
  | .iPush v t =>
    if (s.queue v).length < cap then
      { s with queue := upd s.queue v (s.queue v ++ [t]), pushed := upd s.pushed v (s.pushed v ++ [t]) }.goto i (.iAdd v)
    else s
  | .iAdd v =>
    match s.phys v with
    | some p => { s with tasks := upd s.tasks p (s.tasks p + 1) }.goto i (.iUnlock v)
    | none => s.goto i (.iUnlock v)
  | .iUnlock v => { s with lock := upd s.lock v false }.goto i .idle
  | .bLock v p => if s.lock v then s else { s with lock := upd s.lock v true }.goto i (.bAdd v p)
  | .bAdd v p =>
    if s.phys v = none then
      { s with tasks := upd s.tasks p (s.tasks p + (s.queue v).length), phys := upd s.phys v (some p) }.goto i (.bUnlock v)
    else s.goto i (.bUnlock v)
  | .bUnlock v => { s with lock := upd s.lock v false }.goto i .idle

/-- One step of the worker of accelerator `p`. /repo/controller/src/Core/accelThread.cpp:363-445, 477-490; per place at `Wk`. -/
def workStep (m : Nat) (dur : Nat → Nat) (s : St) (p hint : Nat) : St :=
  match s.wk p with
  | .idle => if s.tasks p = 0 then s else { s with tasks := upd s.tasks p (s.tasks p - 1), wk := upd s.wk p .token }
  | .token =>
    match choose m s p hint with
    | none => { s with wk := upd s.wk p .idle }
    | some v =>
      match s.queue v with
      | [] => { s with wk := upd s.wk p .idle }
      | t :: r => { s with queue := upd s.queue v r, wk := upd s.wk p (.run v t (dur t)) }
  | .run v t (k + 1) => { s with wk := upd s.wk p (.run v t k) }
  | .run v t 0 => { s with fin := upd s.fin v (s.fin v ++ [t]), wk := upd s.wk p .idle }

/-- One step of the system. arax_vaccel.c:32-39, arax_accel.c:108-141, accelThread.cpp:363-445, 477-490. -/
def step (m cap : Nat) (dur : Nat → Nat) (s : St) : Act → St
  | .issue i v t => if s.pc i = .idle then { s with calls := upd s.calls v (s.calls v ++ [t]) }.goto i (.iLock v t) else s
  | .assign i v p => if s.pc i = .idle then s.goto i (.bLock v p) else s
  | .go i => goStep cap s i
  | .work p hint => workStep m dur s p hint

/-- A history. (No code of its own.) -/
def exec (m cap : Nat) (dur : Nat → Nat) (s : St) (pre : List Act) : St := pre.foldl (step m cap dur) s

/-- `n` threads, `m` virtual accelerators, `np` physical accelerators. (No code of its own.) -/
def Act.below (n m np : Nat) : Act → Prop
  | .issue i v _ => i < n ∧ v < m
  | .assign i v p => i < n ∧ v < m ∧ p < np
  | .go i => i < n
  | .work p _ => p < np

end Arax.Live
