import Verif.Object.Lemmas
/-!
# The pending-task counter of a physical accelerator

One physical accelerator with its one worker thread, `n` virtual accelerators, any number of clients, the balancer thread, and the workers of the other
accelerators. Every event is one atomic step of one thread: a queue operation is atomic (C08), `arax_accel_add_vaccel`/`arax_accel_del_vaccel` hold both
the virtual accelerator's spinlock and the accelerator's lock over all they do (/repo/src/core/arax_accel.c:120-140, 163-177), so each is one step that
needs the spinlock to be free.

Simplification: `accel->tasks` is a `size_t`; here it is an integer, and a negative value means that the `size_t` has wrapped below zero. The test
`accel->tasks == 0` (arax_accel.c:30) then agrees with the code as long as the integer stays strictly between -2^64 and 2^64.
-/
namespace Arax.Accel.Count
open Arax.Object (sumTo)

/-- Where the worker is in accelThread::workFunc (/repo/controller/src/Core/accelThread.cpp:363-445). -/
inductive Wk where
  | idle                      -- before arax_accel_wait_for_task takes a task (accelThread.cpp:479, arax_accel.c:28-35)
  | token                     -- it decremented `tasks`, before arax_accel_get_assigned_vaccels (accelThread.cpp:481)
  | scan (todo : List Nat)    -- in selectTask: virtual accelerators still to be looked at (RoundRobinScheduler.cpp:40-50)
  deriving DecidableEq

/-- The accelerator (/repo/src/core/arax_accel.h:14-27), its virtual accelerators (/repo/src/core/arax_vaccel.h:29-41) and its worker, as far as the count is concerned. -/
structure St where
  tasks : Int                 -- accel->tasks
  q     : Nat → Nat           -- number of tasks in each virtual accelerator's queue
  on    : Nat → Bool          -- vaccel->phys is this accelerator
  lock  : Nat → Bool          -- a client is in arax_vaccel_add_task, between the push and its end (arax_vaccel.c:36-38)
  dead  : Nat → Bool          -- released by its client, destroyed
  wk    : Wk

/-- arax_accel.c:15-23 (before any virtual accelerator is assigned; the free_vaq is one more of them). -/
def init : St := { tasks := 0, q := fun _ => 0, on := fun _ => false, lock := fun _ => false, dead := fun _ => false, wk := .idle }

/-- Model bookkeeping, no code of its own: point update. -/
def upd {α : Type} (f : Nat → α) (i : Nat) (x : α) : Nat → α := fun j => if j = i then x else f j

/-- The steps of clients, worker, balancer and destructors; the lines of each are behind it. (No code of its own.) -/
inductive Ev where
  | push (v : Nat)                -- client: utils_queue_push, with the spinlock taken (arax_vaccel.c:34-35)
  | count (v : Nat)               -- client: arax_accel_add_task if assigned, then unlock (arax_vaccel.c:36-38, arax_accel.c:38-44)
  | assign (v : Nat)              -- arax_accel_add_vaccel (arax_accel.c:120-140)
  | wait                          -- worker: arax_accel_wait_for_task (arax_accel.c:28-35)
  | snapshot (l : List Nat)       -- worker: arax_accel_get_assigned_vaccels, in scan order (arax_accel.c:147-151)
  | look                          -- worker: look at the next virtual accelerator, pop if there is a task (RoundRobinScheduler.cpp:41-43)
  | done                          -- worker: nothing found (RoundRobinScheduler.cpp:52)
  | delSelf                       -- worker, HeterogeneousScheduler.cpp:154, 193: the next one's task cannot run here: arax_accel_del_vaccel
  | release (v : Nat)             -- last reference dropped: destructor, arax_accel_del_vaccel (arax_vaccel.c:119-120)
  | delExt (v : Nat)              -- balancer, ElasticScheduler.cpp:66: arax_accel_del_vaccel, the virtual accelerator lives on elsewhere
  | envPop (v : Nat)              -- worker of another accelerator pops a task
  deriving DecidableEq

/-- arax_accel.c:163-177 for virtual accelerator `v`. -/
def del (s : St) (v : Nat) : St :=
  { s with tasks := if s.q v ≠ 0 then s.tasks - (s.q v - 1) else s.tasks, on := upd s.on v false }

/-- One step; `none`: not possible now (the thread is elsewhere, or waits for the lock or for a task, or the queue is full). The cited lines are those of the events (`Ev`): arax_vaccel.c:32-39, arax_accel.c:26-44, 108-178, RoundRobinScheduler.cpp:40-52, HeterogeneousScheduler.cpp:154, 193, ElasticScheduler.cpp:66. -/
def step (n : Nat) (s : St) : Ev → Option St
  | .push v => if v < n ∧ s.lock v = false ∧ s.dead v = false then some { s with q := upd s.q v (s.q v + 1), lock := upd s.lock v true } else none
  | .count v => if v < n ∧ s.lock v = true then some { s with tasks := if s.on v then s.tasks + 1 else s.tasks, lock := upd s.lock v false } else none
  | .assign v =>
    if v < n ∧ s.lock v = false ∧ s.dead v = false ∧ s.on v = false then some { s with tasks := s.tasks + s.q v, on := upd s.on v true } else none
  | .wait => if s.wk = .idle ∧ s.tasks ≠ 0 then some { s with tasks := s.tasks - 1, wk := .token } else none
  | .snapshot l =>
    if s.wk = .token ∧ l.Nodup ∧ (∀ v ∈ l, v < n ∧ s.on v = true) ∧ (∀ v, v < n → s.on v = true → v ∈ l) then some { s with wk := .scan l } else none
  | .look =>
    match s.wk with
    | .scan (v :: r) => if s.q v = 0 then some { s with wk := .scan r } else some { s with q := upd s.q v (s.q v - 1), wk := .idle }
    | _ => none
  | .done => if s.wk = .scan [] then some { s with wk := .idle } else none
  | .delSelf =>
    match s.wk with
    | .scan (v :: r) => if s.lock v = false ∧ s.on v = true ∧ s.q v ≠ 0 then some { (del s v) with wk := .scan r } else none
    | _ => none
  | .release v =>
    if v < n ∧ s.lock v = false ∧ s.dead v = false then
      if s.on v then some { (del s v) with dead := upd s.dead v true } else some { s with dead := upd s.dead v true }
    else none
  | .delExt v => if v < n ∧ s.lock v = false ∧ s.dead v = false ∧ s.on v = true then some (del s v) else none
  | .envPop v => if v < n ∧ s.q v ≠ 0 then some { s with q := upd s.q v (s.q v - 1) } else none

/-- A history. (No code of its own.) -/
def run (n : Nat) : St → List Ev → Option St
  | s, [] => some s
  | s, e :: es => match step n s e with | some s' => run n s' es | none => none

/-- States reached by histories all of whose steps satisfy `P`. (No code of its own.) -/
inductive Reach (n : Nat) (P : St → Ev → Prop) : St → Prop where
  | init : Reach n P init
  | step {s s' : St} {e : Ev} : Reach n P s → P s e → step n s e = some s' → Reach n P s'

/-! ### What the properties talk about -/

/-- Tasks queued on the virtual accelerators assigned to this accelerator. (No code of its own.) -/
def queued (n : Nat) (s : St) : Nat := sumTo (fun v => if s.on v then s.q v else 0) n
/-- Submissions to assigned virtual accelerators that have pushed their task and not yet counted it. (No code of its own.) -/
def submitting (n : Nat) (s : St) : Nat := sumTo (fun v => if s.on v ∧ s.lock v then 1 else 0) n
/-- 1 if the worker has taken a task from the count and neither popped it nor given up. (No code of its own.) -/
def unserved (s : St) : Nat := if s.wk = .idle then 0 else 1

end Arax.Accel.Count
