/-!
# Model of how dropped data objects give their device memory back

One accelerator with device memory (CUDA, HIP, OpenCL), its worker, any number of virtual accelerators on it and any number of client threads. The last reference of a data object may be dropped by a client (`arax_data_free`,
`arax_task_free`) or by the worker, when it drops a task. Whoever drops it issues a task `free` to the accelerator's own virtual accelerator `free_vaq`, whose queue has a bounded number of places, and waits while there is none.

Simplifications: one accelerator (the arguments of a task are on the accelerator it runs on: C69); an operation on a reference count, a queue or the flag `done` is one step; the lock of `free_vaq`, which a thread that waits for room holds
(C79), is left out: whoever waits for that lock waits while the queue is full, too; the worker takes tasks from its virtual accelerators in any order (a superset of the round robin scheduler); throttles do not wait (C67, C68 are about
them); the task `free` has no arguments, and its run is one step.
-/
namespace Arax.Reclaim

/-- What a thread still has to do in a call that drops references: drop one of data object `d`, or issue the task that frees the device memory of `d`. arax_task.c:94-97; arax_data.c:380-390. -/
inductive Job where
  | drop (d : Nat)
  | push (d : Nat)
deriving DecidableEq

/-- Shared memory and threads. Thread 0 is the worker. Lists of pairs stand for one list per thread or per virtual accelerator: the entries of one of them are in order. (/repo/src/core/arax_data.h:36-49, arax_task.h, arax_object.h, and the threads.) -/
structure St where
  made : Nat → Bool := fun _ => false      -- arax_data_init was called for this data object
  user : Nat → Bool := fun _ => false      -- the user has not called arax_data_free yet
  drefs : Nat → Nat := fun _ => 0          -- ref_count of data objects
  remote : Nat → Bool := fun _ => false    -- it has device memory
  issued : Nat → Bool := fun _ => false    -- this task was issued
  args : Nat → List Nat := fun _ => []     -- io[] of tasks
  async : Nat → Bool := fun _ => false     -- the handler frees the task (arax_data_set, memcpy that is not sync)
  trefs : Nat → Nat := fun _ => 0          -- ref_count of tasks
  tuser : Nat → Bool := fun _ => false     -- the issuer's reference of a task
  done : Nat → Bool := fun _ => false      -- marked done
  live : List Nat := []                    -- tasks that have not been destroyed
  queue : List (Nat × Nat) := []           -- the queues of the virtual accelerators: virtual accelerator, task
  run : Option Nat := none                 -- the task the worker executes
  fq : List Nat := []                      -- the queue of free_vaq: whose device memory to free
  jobs : List (Nat × Job) := []            -- thread, what it has to do
  freed : List Nat := []                   -- ghost: device memory freed, in order

/-- Function update. (No code of its own.) -/
def upd {α : Type} (f : Nat → α) (i : Nat) (a : α) : Nat → α := fun j => if j = i then a else f j

/-- The first entry for `i`, and the rest. (No code of its own.) -/
def first {α : Type} (i : Nat) : List (Nat × α) → Option (α × List (Nat × α))
  | [] => none
  | (j, a) :: l => if j = i then some (a, l) else
    match first i l with
    | none => none
    | some (b, r) => some (b, (j, a) :: r)

/-- The thread is in a call that drops references. (No code of its own.) -/
def St.busy (s : St) (i : Nat) : Bool := s.jobs.any fun x => x.1 = i

/-- What can happen. Clients are the threads `c ≥ 1`. (The lines are at the functions below.) -/
inductive Act where
  | new (d : Nat)                                            -- arax_data_init
  | issue (c v t : Nat) (ds : List Nat) (async : Bool)       -- arax_task_issue of task `t` on virtual accelerator `v`
  | pick (v : Nat) (al : List Nat)                           -- the worker takes a task and allocates device memory for the arguments `al`
  | handlerFree                                              -- the handler frees its task
  | mark                                                     -- arax_task_mark_done
  | finish                                                   -- the worker drops its reference of the task
  | pickFree                                                 -- the worker executes a task of free_vaq
  | taskFree (c t : Nat)                                     -- arax_task_wait and arax_task_free
  | dataFree (c d : Nat)                                     -- arax_data_free
  | go (i : Nat)                                             -- thread `i` does its next job
deriving DecidableEq

/-- `arax_object_ref_dec` of task `t` by thread `i`; the destructor drops the arguments. arax_object.c:161-209; arax_task.c:89-103. -/
def St.dropTask (s : St) (i t : Nat) : St :=
  if s.trefs t - 1 = 0 then { s with trefs := upd s.trefs t 0, live := s.live.erase t, jobs := (s.args t).map (fun d => (i, Job.drop d)) ++ s.jobs }
  else { s with trefs := upd s.trefs t (s.trefs t - 1) }

/-- `arax_object_ref_dec` of data object `d` by thread `i`, whose other jobs are in `r`; the destructor issues `free` if there is device memory. arax_object.c:161-209; arax_data.c:373-403. -/
def St.dropData (s : St) (i d : Nat) (r : List (Nat × Job)) : St :=
  if s.drefs d - 1 = 0 ∧ s.remote d = true then { s with drefs := upd s.drefs d (s.drefs d - 1), jobs := (i, .push d) :: r }
  else { s with drefs := upd s.drefs d (s.drefs d - 1), jobs := r }

/-- One event; `none`: it cannot happen now. `cap`: `UTILS_QUEUE_CAPACITY`.
`issue`: the user has references of all arguments, each of which gets another one; it waits while the queue is full. arax_task.c:7-75; arax_vaccel.c:32-39; impl.c:467-488.
`pick`, `mark`, `finish`: accelThread.cpp:371-436. `handlerFree`: HIPBuiltins.cpp:258-264, 336-342; OpenclBuiltins.cpp:139-143. `pickFree`: HIPBuiltins.cpp:301-327. `taskFree`: the user waited for the task. impl.c:515-529.
`dataFree`: arax_data.c:325-332. `go`: arax_task.c:94-97; arax_data.c:380-390; arax_vaccel.c:32-39. -/
def St.step (cap : Nat) (s : St) : Act → Option St
  | .new d => if s.made d = false then some { s with made := upd s.made d true, user := upd s.user d true, drefs := upd s.drefs d 1 } else none
  | .issue c v t ds a =>
    if 1 ≤ c ∧ s.busy c = false ∧ s.issued t = false ∧ (∀ d ∈ ds, s.user d = true) ∧ s.queue.countP (fun x => x.1 = v) < cap then
      some { s with issued := upd s.issued t true, args := upd s.args t ds, async := upd s.async t a, trefs := upd s.trefs t 1, tuser := upd s.tuser t true, live := t :: s.live, drefs := fun d => s.drefs d + ds.count d, queue := s.queue ++ [(v, t)] }
    else none
  | .pick v al =>
    if s.busy 0 = false ∧ s.run = none then
      match first v s.queue with
      | none => none
      | some (t, r) => if ∀ d ∈ al, d ∈ s.args t then some { s with queue := r, run := some t, trefs := upd s.trefs t (s.trefs t + 1), remote := fun d => s.remote d || decide (d ∈ al) } else none
    else none
  | .handlerFree =>
    match s.run with
    | none => none
    | some t => if s.async t = true ∧ s.tuser t = true then some ({ s with tuser := upd s.tuser t false }.dropTask 0 t) else none
  | .mark =>
    match s.run with
    | none => none
    | some t => if s.done t = false then some { s with done := upd s.done t true } else none
  | .finish =>
    match s.run with
    | none => none
    | some t => if s.done t = true ∧ (s.async t = true → s.tuser t = false) then some ({ s with run := none }.dropTask 0 t) else none
  | .pickFree =>
    if s.busy 0 = false ∧ s.run = none then
      match s.fq with
      | [] => none
      | d :: r => some { s with fq := r, remote := upd s.remote d false, freed := s.freed ++ [d] }
    else none
  | .taskFree c t =>
    if 1 ≤ c ∧ s.busy c = false ∧ s.async t = false ∧ s.tuser t = true ∧ s.done t = true then some ({ s with tuser := upd s.tuser t false }.dropTask c t) else none
  | .dataFree c d =>
    if 1 ≤ c ∧ s.busy c = false ∧ s.user d = true then some { s with user := upd s.user d false, jobs := (c, .drop d) :: s.jobs } else none
  | .go i =>
    match first i s.jobs with
    | none => none
    | some (.drop d, r) => some (s.dropData i d r)
    | some (.push d, r) => if s.fq.length < cap then some { s with fq := s.fq ++ [d], jobs := r } else none

/-- One event, or nothing if it cannot happen. (Dispatch only.) -/
def St.act (cap : Nat) (s : St) (a : Act) : St := (s.step cap a).getD s

/-- A history. (No code of its own.) -/
def St.exec (cap : Nat) (s : St) (h : List Act) : St := h.foldl (St.act cap) s

/-- The start: no data objects, no tasks. (No code of its own.) -/
def start : St := {}

end Arax.Reclaim
