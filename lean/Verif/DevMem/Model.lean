import Verif.Live.Fair
/-!
# Model of device memory: allocation on a physical accelerator, its accounting, and its release

Code: the worker of each physical accelerator (/repo/controller/src/Core/accelThread.cpp:363-445) and the built-in handlers of the CUDA, HIP and OpenCL
back-ends; `arax_data_*` (/repo/src/core/arax_data.c:117-218, 325-403) and `arax_accel_size_{inc,dec}` (/repo/src/core/arax_accel.c:51-65).

Simplifications:
- the sizes counted by a throttle are integers (wrap-around of `size_t` is the subject of C18); a call of `arax_throttle_size_{inc,dec}` is one step, waiting
  included (justified by C17 for the updates, and by C19 for the wake-up in the mutex back-end);
- charging the throttle and the `malloc` that follows it are one step, as are the driver's `free` and the increment that follows it;
- a worker may take any pending task meant for it, in any order (the schedulers: C38-C40);
- an assertion that fires stops the whole system (`aborted`);
- data objects are freed by the user only while no task and no call uses them (with a task or call still using it, the last reference goes away later: C27);
- only virtual accelerators of a GPU-like type (for `CPU` nothing is allocated: /repo/controller/src/Cpu/CPUaccelThread.cpp:74-82, arax_data.c:167-168).
-/
namespace Arax.DevMem

/-- The device back-ends with memory of their own. /repo/controller/src/{Cuda,ROCm,OpenCL}. -/
inductive Backend where
  | cuda | hip | opencl
  deriving DecidableEq

/-- Build configuration and constants: back-end, `ARAX_THROTTLE_ENFORCE`, size of each data object (arax_data.h `size`), capacity and initially available
size of each physical accelerator (arax_accel.c:21), the numbers of data objects, physical accelerators (one worker each) and client threads. -/
structure Conf where
  backend : Backend
  enforce : Bool
  sz      : Nat → Nat
  cap     : Nat → Nat
  avail0  : Nat → Nat
  n       : Nat
  nw      : Nat
  nc      : Nat

/-- The virtual accelerator a task was issued to: an ordinary one, or the `free_vaq` of a physical one (arax_accel.c:22, arax_data.c:389). -/
inductive Target where
  | vac (v : Nat)
  | free (p : Nat)
  deriving DecidableEq

/-- What the handler of a task does with device memory: nothing; allocate `io[0]` (`memset`); allocate `io[1]` and `io[0]` (`memcpy`).
HIPBuiltins.cpp:200-299, CUDABuiltins.cu:119-216, OpenclBuiltins.cpp:90-168. -/
inductive Kind where
  | plain | memset | memcpy
  deriving DecidableEq

/-- A task, as far as device memory goes. arax_task.h; arax_data.c:183 (`client`), 385-389 (`refund`). -/
structure Task where
  target : Target
  datas  : List Nat               -- io[]
  allocs : List (Nat × Bool)      -- still to be allocated, and whether the allocation is charged to the throttle
  refund : Option (Nat × Nat)     -- "free": size and physical accelerator
  client : Option Nat             -- "alloc_data": the thread waiting in arax_data_allocate_remote
  deriving DecidableEq

/-- The worker of a physical accelerator. accelThread.cpp:373-437. -/
inductive Worker where
  | idle
  | run (t : Task)                      -- before the next allocation, or (allocs = []) before the rest of the handler
  | dec (t : Task) (d : Nat)            -- data->phys written, about to read data->accel->phys again [HIPaccelThread.cpp:306]
  | charge (t : Task) (d : Nat) (q : Nat)  -- in arax_accel_size_dec(q, size) [HIPaccelThread.cpp:306-308]
  deriving DecidableEq

/-- A thread of a client process. arax_data.c:185-191. -/
inductive Client where
  | idle
  | wait (d v : Nat)     -- in arax_task_wait [185]
  | back (d v : Nat)     -- the task is done [186-191]
  | charge (d q : Nat)   -- in arax_accel_size_dec [191]
  deriving DecidableEq

/-- Shared memory: the data objects (`accel`, `remote`, `phys`, flag OTHR_REMT; arax_data.h), `phys` of the virtual accelerators (arax_accel.h), the throttles,
the tasks pending in all queues, workers and clients; ghosts `over` and `gift`. (Fields of /repo/src/core/arax_data.h:36-49 and of the threads.) -/
structure St where
  accel   : Nat → Option Nat := fun _ => none   -- data->accel
  remote  : Nat → Bool := fun _ => false        -- data->remote is not NULL
  other   : Nat → Bool := fun _ => false        -- flag OTHR_REMT
  dphys   : Nat → Option Nat := fun _ => none   -- data->phys
  freed   : Nat → Bool := fun _ => false        -- the destructor of the data object has run
  vphys   : Nat → Option Nat := fun _ => none   -- vaccel->phys
  avail   : Nat → Int                           -- the throttle's available size
  pending : List Task := []
  worker  : Nat → Worker := fun _ => .idle
  client  : Nat → Client := fun _ => .idle
  aborted : Bool := false
  over    : Nat → Nat := fun _ => 0             -- ghost: bytes charged by arax_data_allocate_remote itself (arax_data.c:191)
  gift    : Nat → Nat := fun _ => 0             -- ghost: bytes allocated without a charge (CUDAaccelThread.cpp:382-398)

/-- Model bookkeeping, no code of its own: function update. -/
def upd {α : Type} (f : Nat → α) (i : Nat) (a : α) : Nat → α := fun j => if j = i then a else f j

/-- The start: nothing allocated, throttles as initialised (arax_accel.c:21). -/
def init (cf : Conf) : St := { avail := fun p => cf.avail0 p }

/-- Is the data object in use by this task? (io[], arax_task.c:33-46.) -/
def Task.uses (t : Task) (d : Nat) : Bool := t.datas.contains d

/-- The task a worker is executing. accelThread.cpp:389. -/
def Worker.task : Worker → Option Task
  | .idle => none
  | .run t => some t
  | .dec t _ => some t
  | .charge t _ _ => some t

/-- The data object a client thread has passed to arax_data_allocate_remote. arax_data.c:162. -/
def Client.data : Client → Option Nat
  | .idle => none
  | .wait d _ => some d
  | .back d _ => some d
  | .charge d _ => some d

/-- No task and no call uses the data object any more: the reference count is the user's own. arax_task.c:89-97. -/
def St.unused (cf : Conf) (s : St) (d : Nat) : Bool :=
  s.pending.all (fun t => !t.uses d) &&
  (List.range cf.nw).all (fun p => match (s.worker p).task with | some t => !t.uses d | none => true) &&
  (List.range cf.nc).all (fun c => (s.client c).data != some d)

/-- `data->accel->phys` (NULL if either is). HIPaccelThread.cpp:298-306. -/
def St.physOf (s : St) (d : Nat) : Option Nat := match s.accel d with | none => none | some v => s.vphys v

/-- `arax_data_migrate_accel(data, v)`; `none`: an assertion fires. arax_data.c:117-160. -/
def St.migrate (s : St) (d v : Nat) : Option St :=
  match s.accel d with
  | none => if s.remote d then none else some { s with accel := upd s.accel d (some v) }
  | some u => if u = v then some s else if s.vphys u = s.vphys v then some { s with accel := upd s.accel d (some v) } else none

/-- `arax_data_{input,output}_init` for all arguments, in order. arax_task.c:36-46. -/
def St.migrateAll (s : St) (v : Nat) : List Nat → Option St
  | [] => some s
  | d :: ds => match s.migrate d v with
    | none => none
    | some s' => s'.migrateAll v ds

/-- The allocations made while a task runs: every output by the worker (accelThread.cpp:404-409; HIPaccelThread.cpp:291-313, CUDAaccelThread.cpp:252-287,
OpenclaccelThread.cpp:349-377), then those of the handler, which for CUDA are not charged (CUDABuiltins.cu:142-144, 204; HIPBuiltins.cpp:227-234, 279;
OpenclBuiltins.cpp:112-119, 153). -/
def allocsOf (cf : Conf) (ins outs : List Nat) (k : Kind) : List (Nat × Bool) :=
  let io := ins ++ outs
  let ch := decide (cf.backend ≠ .cuda)
  outs.map (fun d => (d, true)) ++
    (match k with
     | .plain => []
     | .memset => io[0]?.toList.map fun d => (d, ch)
     | .memcpy => io[1]?.toList.map (fun d => (d, ch)) ++ io[0]?.toList.map fun d => (d, ch))

/-- `arax_accel_size_dec(q, b)` would wait now. arax_throttle.c:88-92. -/
def St.blocks (cf : Conf) (s : St) (q b : Nat) : Bool := cf.enforce && decide (s.avail q < b)

/-- What the threads and the users do. (The lines are at the functions below.) -/
inductive Event where
  | issue (v : Nat) (ins outs : List Nat) (k : Kind)   -- arax_task_issue (also arax_data_get and arax_data_set: one output)
  | allocRemote (c d v : Nat)    -- thread c calls arax_data_allocate_remote(d, v)
  | clientGo (c : Nat)           -- thread c goes on
  | setAccel (d v : Nat)         -- arax_data_set_accel
  | setRemote (d v : Nat)        -- arax_data_set_remote
  | free (d : Nat)               -- arax_data_free: last reference
  | assign (v q : Nat)           -- the controller assigns virtual accelerator v to physical accelerator q
  | take (p : Nat) (k : Nat)     -- worker p takes the k-th pending task
  | work (p : Nat)               -- worker p goes on
  deriving DecidableEq

/-- Worker `p` may take the task: its virtual accelerator belongs to `p` (for `free_vaq` since arax_accel.c:22). -/
def St.mine (s : St) (p : Nat) : Target → Bool
  | .vac v => s.vphys v == some p
  | .free q => q == p

/-- The worker's next step. Per branch: `alloc_remote` / `alloc_no_throttle` (HIPaccelThread.cpp:291-313 and the places at `allocsOf`): nothing if there is a
remote; assert accel and phys; write data->phys; charge; malloc (for size 0 the pointer stays NULL). Then the handler: `free` increments the throttle
(HIPBuiltins.cpp:301-327, CUDABuiltins.cu:218-237, OpenclBuiltins.cpp:170-183; assertion of the increment: arax_throttle.c:64-67); `alloc_data` asserts the remote
(HIPBuiltins.cpp:157-187, OpenclBuiltins.cpp:58-85; for CUDA the client does, arax_data.c:187) and completes. -/
def workStep (cf : Conf) (s : St) (p : Nat) : St :=
  match s.worker p with
  | .idle => s
  | .run t =>
    match t.allocs with
    | (d, ch) :: rest =>
      if s.remote d then { s with worker := upd s.worker p (.run { t with allocs := rest }) }
      else
        match s.physOf d with
        | none => { s with aborted := true }
        | some q =>
          if ch then { s with dphys := upd s.dphys d (some q), worker := upd s.worker p (.dec { t with allocs := rest } d) }
          else { s with dphys := upd s.dphys d (some q), remote := upd s.remote d (decide (0 < cf.sz d)), gift := upd s.gift q (s.gift q + cf.sz d),
                        worker := upd s.worker p (.run { t with allocs := rest }) }
    | [] =>
      match t.refund with
      | some (b, q) =>
        let a := s.avail q + b
        if cf.enforce && decide ((cf.cap q : Int) < a) then { s with aborted := true }
        else { s with avail := upd s.avail q a, worker := upd s.worker p .idle }
      | none =>
        match t.client with
        | none => { s with worker := upd s.worker p .idle }
        | some c =>
          match s.client c with
          | .wait d v =>
            if s.remote d then { s with client := upd s.client c (.back d v), worker := upd s.worker p .idle } else { s with aborted := true }
          | _ => s
  | .dec t d =>
    match s.physOf d with
    | none => { s with aborted := true }
    | some q => { s with worker := upd s.worker p (.charge t d q) }
  | .charge t d q =>
    if s.blocks cf q (cf.sz d) then s
    else { s with avail := upd s.avail q (s.avail q - cf.sz d), remote := upd s.remote d (decide (0 < cf.sz d)), worker := upd s.worker p (.run t) }

/-- The next step of a client thread in arax_data_allocate_remote. arax_data.c:187-191. -/
def clientStep (cf : Conf) (s : St) (c : Nat) : St :=
  match s.client c with
  | .back d v =>
    if s.accel d = some v then
      match s.vphys v with
      | none => { s with aborted := true }
      | some q => { s with client := upd s.client c (.charge d q) }
    else { s with aborted := true }
  | .charge d q =>
    if s.blocks cf q (cf.sz d) then s
    else { s with avail := upd s.avail q (s.avail q - cf.sz d), over := upd s.over q (s.over q + cf.sz d), client := upd s.client c .idle }
  | _ => s

/-- Calls and steps. Calls on data objects, physical accelerators or threads that do not exist, on data objects already freed, or from a thread that is inside a call, do nothing.
`issue`: arax_task.c:8-75; `allocRemote`: arax_data.c:162-183; `setAccel`: 195-204; `setRemote`: 206-218; `free`: 325-332, 373-403; the other
lines at `workStep` and `clientStep`; `assign`: /repo/src/core/arax_accel.c `arax_accel_add_vaccel` and the controller's schedulers. -/
def step (cf : Conf) (s : St) (e : Event) : St :=
  if s.aborted then s else
  match e with
  | .issue v ins outs k =>
    if ∀ d ∈ ins ++ outs, d < cf.n ∧ s.freed d = false then
      match s.migrateAll v (ins ++ outs) with
      | none => { s with aborted := true }
      | some s' => { s' with pending := s'.pending ++ [⟨.vac v, ins ++ outs, allocsOf cf ins outs k, none, none⟩] }
    else s
  | .allocRemote c d v =>
    if c < cf.nc ∧ d < cf.n ∧ s.freed d = false ∧ s.client c = .idle then
      if s.remote d then (if s.accel d = none then { s with aborted := true } else s)
      else
        match s.migrate d v with
        | none => { s with aborted := true }
        | some s' => { s' with pending := s'.pending ++ [⟨.vac v, [d], [(d, true)], none, some c⟩], client := upd s'.client c (.wait d v) }
    else s
  | .clientGo c => clientStep cf s c
  | .setAccel d v => if d < cf.n ∧ s.freed d = false then { s with accel := upd s.accel d (some v) } else s
  | .setRemote d v =>
    if d < cf.n ∧ s.freed d = false then
      if s.accel d = none ∧ s.remote d = false then
        { s with accel := upd s.accel d (some v), remote := upd s.remote d true, other := upd s.other d true }
      else { s with aborted := true }
    else s
  | .free d =>
    if d < cf.n ∧ s.freed d = false ∧ s.unused cf d then
      if s.remote d && !s.other d then
        match s.dphys d with
        | none => { s with aborted := true }
        | some q => { s with freed := upd s.freed d true, pending := s.pending ++ [⟨.free q, [], [], some (cf.sz d, q), none⟩] }
      else { s with freed := upd s.freed d true }
    else s
  | .assign v q => if q < cf.nw then { s with vphys := upd s.vphys v (some q) } else s
  | .take p k =>
    match s.worker p, s.pending[k]? with
    | .idle, some t => if p < cf.nw ∧ s.mine p t.target then { s with worker := upd s.worker p (.run t), pending := s.pending.eraseIdx k } else s
    | _, _ => s
  | .work p => workStep cf s p

/-- Every history of calls and steps. (No code of its own.) -/
def exec (cf : Conf) (s : St) (h : List Event) : St := h.foldl (step cf) s

end Arax.DevMem
