import Verif.Outcome
/-!
# The controller's schedulers

Task selection (`selectTask`) as run by one accelerator worker on its snapshot of the assigned virtual accelerators, while clients keep pushing tasks; and
assignment (`assignVac`) as run by the balancer. A queue is the sequence of its tasks, oldest first (C07/C08); a pop is one atomic step.
Modelled: RoundRobinScheduler and HeterogeneousScheduler. Simplification: the worker is the only consumer of the queues it looks at (C34).
-/
namespace Arax.Sched

/-- The queues of all virtual accelerators. `vaccel->queue` (/repo/src/core/arax_vaccel.h:40). -/
abbrev Queues := Nat → List Nat

/-- Model bookkeeping, no code of its own: contents of one queue after a pop (/repo/src/utils/queue.c:63-88). -/
def setQ (q : Queues) (v : Nat) (l : List Nat) : Queues := fun w => if w = v then l else q w

/-- What the clients push: `env k v` are the tasks pushed on `v` just before the worker's `k`-th look at a queue (arax_vaccel_add_task,
/repo/src/core/arax_vaccel.c:32-39). -/
abbrev Pushes := Nat → Nat → List Nat

/-- The pushes before the worker looks (`arax_vaccel_add_task`, /repo/src/core/arax_vaccel.c:32-39). -/
def arrive (env : Pushes) (k : Nat) (q : Queues) : Queues := fun v => q v ++ env k v

/-- The loops of RoundRobinScheduler::selectTask (/repo/controller/src/Schedulers/RoundRobinScheduler.cpp:40-50) over the remaining positions: pop the first
non-empty queue. Returns position and task. -/
def scan (vacs : List Nat) (env : Pushes) : List Nat → Nat → Queues → Option (Nat × Nat) × Queues
  | [], _, q => (none, q)
  | i :: is, k, q =>
    let q1 := arrive env k q
    match vacs[i]? with
    | none => (none, q)                     -- not reached: positions are below the size
    | some v =>
      match q1 v with
      | [] => scan vacs env is (k + 1) q1
      | t :: r => (some (i, t), setQ q1 v r)

/-- The positions in the order both loops visit them (RoundRobinScheduler.cpp:35-36, 40, 46). -/
def order (n c : Nat) : List Nat := let off := (c + 1) % n; (List.range n).drop off ++ (List.range n).take off

/-- RoundRobinScheduler::selectTask (RoundRobinScheduler.cpp:28-57): the task or NULL, the queues, and rr_counter[th]. -/
def selectTask (vacs : List Nat) (c : Nat) (env : Pushes) (q : Queues) : Option Nat × Queues × Nat :=
  if vacs.length = 0 then (none, q, c)
  else
    match scan vacs env (order vacs.length c) 0 q with
    | (none, q') => (none, q', c)
    | (some (i, t), q') => (some t, q', i)

/-! ### HeterogeneousScheduler -/

/-- Queues, and the virtual accelerators taken away from this accelerator and put in the orphan list, first one first. HeterogeneousScheduler.cpp:112-218. -/
structure HSt where
  q : Queues
  orphaned : List Nat

/-- The loops of HeterogeneousScheduler::selectTask (/repo/controller/src/Schedulers/HeterogeneousScheduler.cpp:129-205) with checkForRunnableTask (12-48):
no task: next; a task that cannot run here: arax_accel_del_vaccel and arax_pipe_add_orphan_vaccel; a runnable task: pop it. -/
def hscan (canRun : Nat → Bool) (vacs : List Nat) (env : Pushes) : List Nat → Nat → HSt → Option (Nat × Nat) × HSt
  | [], _, s => (none, s)
  | i :: is, k, s =>
    let q1 := arrive env k s.q
    match vacs[i]? with
    | none => (none, s)
    | some v =>
      match q1 v with
      | [] => hscan canRun vacs env is (k + 1) { s with q := q1 }
      | t :: r =>
        if canRun t then (some (i, t), { s with q := setQ q1 v r })
        else hscan canRun vacs env is (k + 1) { q := q1, orphaned := v :: s.orphaned }

/-- HeterogeneousScheduler::selectTask (HeterogeneousScheduler.cpp:112-218). -/
def hselectTask (canRun : Nat → Bool) (vacs : List Nat) (c : Nat) (env : Pushes) (q : Queues) : Option Nat × HSt × Nat :=
  if vacs.length = 0 then (none, { q := q, orphaned := [] }, c)
  else
    match hscan canRun vacs env (order vacs.length c) 0 { q := q, orphaned := [] } with
    | (none, s) => (none, s, c)
    | (some (i, t), s) => (some t, s, i)

/-! ### assignVac -/

/-- A C++ vector iterator: the vector it points into (each call's vector is a new one), and the position. RoundRobinScheduler.cpp:19. -/
structure Iter where
  vec : Nat
  pos : Nat
  deriving DecidableEq

/-- RoundRobinScheduler::assignVac (RoundRobinScheduler.cpp:9-26): `call` numbers the calls, `accels` is this call's local vector, `st` the function's static
iterator (`none` before the first call). Returns the accelerator chosen and the static iterator. Dereferencing an iterator that is not inside this call's
vector (earlier calls' vectors are destroyed) is `ub`. -/
def assignVac (call : Nat) (accels : List Nat) (st : Option Iter) : Res (Nat × Iter) :=
  let it := st.getD ⟨call, 0⟩                                                 -- line 19
  let it := if it = ⟨call, accels.length⟩ then ⟨call, 0⟩ else it              -- lines 21-23
  if it.vec = call then
    match accels[it.pos]? with                                                -- line 24
    | some a => .ok (a, { it with pos := it.pos + 1 })                        -- line 25
    | none => .ub
  else .ub

/-- The same on a machine where each call's vector happens to get the storage of the previous one (which the allocator usually does when the sizes are
equal): the static iterator is then a plain position in the current vector. RoundRobinScheduler.cpp:9-26. -/
def assignVacReuse (accels : List Nat) (st : Nat) : Res (Nat × Nat) :=
  let p := if st = accels.length then 0 else st
  match accels[p]? with
  | some a => .ok (a, p + 1)
  | none => .ub

/-- HeterogeneousScheduler::assignVac (HeterogeneousScheduler.cpp:51-109) under the same assumption about storage; `head` is the oldest task of the queue of
the virtual accelerator, `canRun a t` whether the accelerator can run it. The loop runs `fuel` more times. -/
def hassign (canRun : Nat → Nat → Bool) (accels : List Nat) (head : Option Nat) : Nat → Nat → Res (Nat × Nat)
  | 0, _ => .abort                                                            -- lines 107-108
  | fuel + 1, st =>
    let p := if st = accels.length then 0 else st                             -- lines 67-69
    match accels[p]? with
    | none => .ub
    | some a =>
      match head with
      | none => .ok (a, p)                                                    -- lines 97-104
      | some t => if canRun a t then .ok (a, p) else hassign canRun accels head fuel (p + 1)   -- lines 80-96

/-- HeterogeneousScheduler::assignVac (HeterogeneousScheduler.cpp:51-109) as a whole: as many rounds of the loop as there are accelerators. -/
def hassignVac (canRun : Nat → Nat → Bool) (accels : List Nat) (head : Option Nat) (st : Nat) : Res (Nat × Nat) :=
  hassign canRun accels head accels.length st

end Arax.Sched
