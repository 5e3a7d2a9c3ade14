import Verif.Outcome
/-!
# The Elastic scheduler: spreading virtual accelerators, moving them between devices, and the data that has to follow

Code: `ElasticScheduler::assignVac` and `selectTask` (/repo/controller/src/Schedulers/ElasticScheduler.cpp:12-165), `accelThread::migrateFromRemote` and
`migrateToRemote` (/repo/controller/src/Core/accelThread.cpp:200-289; empty unless built with `MIGRATION`), and the device back-ends' `alloc_remote`,
`sync_to_remote`, `sync_from_remote`, `free_remote` (/repo/controller/src/ROCm/HIPaccelThread.cpp:291-366; the same in CUDAaccelThread.cpp:252-376 and
OpenclaccelThread.cpp:349-431).

Simplifications:
- `assignVac` (run by the one balancer thread) is one step, and so is the execution of one task with the migrations that precede it; the worker's update of its
  own list of virtual accelerators is a separate step, so it may be arbitrarily late;
- which of the non-empty queues of its list a worker pops (the round robin of lines 102-163) is left open: any of them (C38 is about that order);
- every data object is used with one virtual accelerator only (`vac`), has a positive size, and its remote was not supplied by the user;
- sizes counted by a throttle are integers and `arax_accel_size_dec` does not wait (C67 and C68 are about both);
- contents are one number per copy: the copy on the host (shared memory) and the copy on the device.
-/
namespace Arax.Elastic

/-- Build option and constants: `MIGRATION` (accelThread.cpp:202, 251); the accelerators of each type, in the order of `Config::getAccelerators(type)`
(/repo/controller/src/Core/Config.cpp); the type of each virtual accelerator; the address (in elements) at which the k-th call of `assignVac` gets its local
vector (ElasticScheduler.cpp:17-20); the `free_vaq` of each accelerator (arax_accel.c:22); virtual accelerator and size of each data object. -/
structure Conf where
  migration : Bool
  accs  : Nat → List Nat
  vtype : Nat → Nat
  addr  : Nat → Nat
  freev : Nat → Nat
  vac   : Nat → Nat
  sz    : Nat → Nat

/-- A task: its inputs, its outputs, and the value it writes in the outputs. arax_task.h `io`, `in_count`, `out_count`. (No code of its own.) -/
structure Task where
  ins  : List Nat
  outs : List Nat
  val  : Nat
  deriving DecidableEq

/-- Ghost: what an executed task finds. Worker, argument, device the argument is on, contents, and what the last task that wrote it had written. (No code of its own.) -/
structure Seen where
  worker : Nat
  data   : Nat
  on     : Option Nat
  got    : Nat
  want   : Option Nat
  deriving DecidableEq

/-- Controller and shared memory. (/repo/controller/src/Schedulers/ElasticScheduler.cpp:12-165, /repo/src/core/arax_accel.c:108-141.) -/
structure St where
  it     : Option Nat := none                    -- paccel_rr (ElasticScheduler.cpp:21): `none` before the first call
  calls  : Nat := 0                              -- calls of assignVac so far
  mig    : Option Nat := none                    -- vaq4migration (ElasticScheduler.h:22; read only after a write in this model)
  vphys  : Nat → Option Nat                      -- vaccel->phys
  list   : Nat → List Nat                        -- accel->vaccels
  snap   : Nat → List Nat := fun _ => []         -- accelThread::assignedVACs
  queue  : Nat → List Task := fun _ => []        -- vaccel->queue
  loc    : Nat → Option Nat := fun _ => none     -- the device data->remote points to; `none`: NULL
  dphys  : Nat → Option Nat := fun _ => none     -- data->phys
  dev    : Nat → Nat := fun _ => 0               -- contents of the copy on the device
  host   : Nat → Nat := fun _ => 0               -- contents of the buffer in shared memory
  avail  : Nat → Int := fun _ => 0               -- available size, relative to the start
  ub     : Bool := false                         -- an iterator outside its vector was dereferenced
  aborted : Bool := false                        -- an assertion fired
  want   : Nat → Option Nat := fun _ => none     -- ghost: what the last task wrote in it
  placed : List (Nat × Nat) := []                -- ghost: virtual accelerators assigned, and where to, in order
  seen   : List Seen := []                       -- ghost: what the executed tasks found

/-- Model bookkeeping, no code of its own: function update. -/
def upd {α : Type} (f : Nat → α) (i : Nat) (a : α) : Nat → α := fun j => if j = i then a else f j

/-- The start: every accelerator has its `free_vaq` (arax_accel.c:22, `arax_accel_add_vaccel`), no virtual accelerator is assigned. -/
def init (cf : Conf) (nacc : Nat) : St :=
  { vphys := fun v => (List.range nacc).find? (fun p => cf.freev p == v)
    list := fun p => if p < nacc then [cf.freev p] else [] }

/-- What happens. (Lines at each.) -/
inductive Event where
  | assign (v : Nat)              -- the balancer calls assignVac(v) (VacBalancerThread.cpp:21)
  | submit (v : Nat) (t : Task)   -- a client issues a task to v
  | refresh (p : Nat)             -- worker p: updateVirtAccels (accelThread.cpp:371, 477-490)
  | pick (p v : Nat)              -- worker p: selectTask pops a task of v, and executes it (accelThread.cpp:373-437)
  | free (d : Nat)                -- the data object is freed
  deriving DecidableEq

/-- `arax_accel_add_vaccel(p, v)`. /repo/src/core/arax_accel.c:108-141. -/
def addVac (s : St) (p v : Nat) : St :=
  if s.vphys v = some p then s
  else if s.vphys v = none then { s with list := upd s.list p (v :: s.list p), vphys := upd s.vphys v (some p) }
  else { s with aborted := true }

/-- `arax_accel_del_vaccel(p, v)`. /repo/src/core/arax_accel.c:156-178. -/
def delVac (s : St) (p v : Nat) : St :=
  if s.vphys v = some p then { s with list := upd s.list p ((s.list p).filter (· ≠ v)), vphys := upd s.vphys v none }
  else { s with aborted := true }

/-- The loop that moves one assigned virtual accelerator away: the first that is not one of the two `free_vaq`. ElasticScheduler.cpp:54-73. -/
def moveOne (cf : Conf) (s : St) (cur nxt : Nat) : St :=
  match (s.snap cur).find? (fun m => m != cf.freev nxt && m != cf.freev cur) with
  | none => s
  | some m => addVac (delVac { s with mig := some m } cur m) nxt m

/-- Position of the iterator in this call's vector of `n` elements starting at `base`: `some i` if it may be dereferenced there. Lines 26-28: the end is replaced
by the beginning. ElasticScheduler.cpp:20-28, 35. -/
def position (it : Option Nat) (base n : Nat) : Option Nat :=
  let p := it.getD base
  let p := if p = base + n then base else p
  if base ≤ p ∧ p < base + n then some (p - base) else none

/-- `ElasticScheduler::assignVac(v)`. ElasticScheduler.cpp:12-91. -/
def assignVac (cf : Conf) (s : St) (v : Nat) : St :=
  let l := cf.accs (cf.vtype v)
  let base := cf.addr s.calls
  let s := { s with calls := s.calls + 1 }
  match position s.it base l.length with
  | none => { s with ub := true }
  | some i =>
    let cur := l.getD i 0
    let nxt := l.getD (if i + 1 = l.length then 0 else i + 1) 0        -- lines 46-52
    let s := if s.snap cur ≠ [] then moveOne cf s cur nxt else s       -- line 40
    if s.aborted then s
    else
      let s := addVac s cur v                                          -- lines 79, 88
      { s with it := some (base + i + 1), placed := s.placed ++ [(v, cur)] }

/-- `alloc_remote(d)` by worker `p`: the memory is on the worker's device, `phys` and the charge go by the virtual accelerator. HIPaccelThread.cpp:291-313. -/
def allocRemote (cf : Conf) (s : St) (p d : Nat) : St :=
  if s.loc d ≠ none then s
  else match s.vphys (cf.vac d) with
    | none => { s with aborted := true }
    | some q => { s with dphys := upd s.dphys d (some q), loc := upd s.loc d (some p), avail := upd s.avail q (s.avail q - cf.sz d) }

/-- `free_remote(d)`: the increment goes by the virtual accelerator. HIPaccelThread.cpp:351-366. -/
def freeRemote (cf : Conf) (s : St) (d : Nat) : St :=
  if s.loc d = none then s
  else match s.vphys (cf.vac d) with
    | none => { s with aborted := true }
    | some q => { s with avail := upd s.avail q (s.avail q + cf.sz d), dphys := upd s.dphys d none, loc := upd s.loc d none }

/-- One argument of `migrateFromRemote`. accelThread.cpp:261-286; sync_from_remote: HIPaccelThread.cpp:334-349. -/
def fromRemote1 (cf : Conf) (p : Nat) (s : St) (d : Nat) : St :=
  match s.dphys d with
  | none => s
  | some q =>
    if q = p then s
    else
      let s := if s.loc d ≠ none then { s with host := upd s.host d (s.dev d) } else s
      freeRemote cf s d

/-- One argument of `migrateToRemote`. accelThread.cpp:213-233; sync_to_remote: HIPaccelThread.cpp:315-332. -/
def toRemote1 (cf : Conf) (p : Nat) (s : St) (d : Nat) : St :=
  if s.dphys d = some p then s
  else
    let s := allocRemote cf s p d
    { s with dev := upd s.dev d (s.host d) }

/-- The two calls in `selectTask`, for all arguments. ElasticScheduler.cpp:111-117, 137-143. -/
def migrate (cf : Conf) (s : St) (p : Nat) (args : List Nat) : St :=
  if cf.migration then args.foldl (toRemote1 cf p) (args.foldl (fromRemote1 cf p) s) else s

/-- The kernel writes its outputs. accelThread.cpp:410. -/
def write1 (x : Nat) (s : St) (d : Nat) : St := { s with dev := upd s.dev d x, want := upd s.want d (some x) }

/-- Ghost: what the kernel finds. accelThread.cpp:410. -/
def look (s : St) (p d : Nat) : Seen := ⟨p, d, s.loc d, s.dev d, s.want d⟩

/-- `selectTask` returning a task of `v`, then `workFunc` allocating its outputs and executing it. ElasticScheduler.cpp:95-165, accelThread.cpp:373-437. -/
def run (cf : Conf) (s : St) (p v : Nat) (t : Task) : St :=
  let args := t.ins ++ t.outs
  let s := if s.mig = some v then migrate cf s p args else s
  let s := t.outs.foldl (fun s d => allocRemote cf s p d) s
  let s := { s with seen := s.seen ++ args.map (look s p) }
  t.outs.foldl (write1 t.val) s

/-- No queued task uses the data object. (arax_task.c:33-46 holds a reference for each.) -/
def St.unusedIn (s : St) (vs : List Nat) (d : Nat) : Bool := vs.all fun v => (s.queue v).all fun t => !(t.ins ++ t.outs).contains d

/-- Calls and steps. `assign` of a virtual accelerator that is assigned already, or is some `free_vaq`, does nothing (the balancer gets orphans only); a client
issues only tasks whose data objects belong to that virtual accelerator; the last reference to a data object goes when no queued task uses it
(arax_data.c:373-403, then the `free` handler: HIPBuiltins.cpp:301-327). -/
def step (cf : Conf) (s : St) (e : Event) : St :=
  if s.aborted ∨ s.ub then s else
  match e with
  | .assign v => if s.vphys v = none then assignVac cf s v else s
  | .submit v t => if ∀ d ∈ t.ins ++ t.outs, cf.vac d = v then { s with queue := upd s.queue v (s.queue v ++ [t]) } else s
  | .refresh p => { s with snap := upd s.snap p (s.list p) }
  | .pick p v =>
    if v ∈ s.snap p then
      match s.queue v with
      | [] => s
      | t :: r => run cf { s with queue := upd s.queue v r } p v t
    else s
  | .free d =>
    if s.unusedIn [cf.vac d] d then
      match s.loc d, s.dphys d with
      | none, _ => { s with want := upd s.want d none }
      | some _, none => { s with aborted := true }
      | some _, some q => { s with avail := upd s.avail q (s.avail q + cf.sz d), loc := upd s.loc d none, dphys := upd s.dphys d none, want := upd s.want d none }
    else s

/-- Every history of calls and steps. (No code of its own.) -/
def exec (cf : Conf) (s : St) (h : List Event) : St := h.foldl (step cf) s

end Arax.Elastic
