import Verif.Outcome
/-!
# Model of reference counted objects: `/repo/src/core/arax_object.c` and the objects built on it
(`arax_accel.c`, `arax_vaccel.c`, `arax_proc.c`, `arax_data.c`, `arax_task.c`)

One API call at a time (the interleavings of two clients that matter for procedures are in `Proc`). An object's address is a
number; addresses are never reused in the model, so that an access to a destroyed object is visible as `ub`.

Simplifications: `ref_count` is unbounded (`int` in the code); `arax_assert_obj` declares a function and checks nothing (/repo/src/core/arax_object.h), so it is
omitted; names other than those of procedures, annotations and the task queue/orphan lists (`Accel`) are omitted; data with a remote buffer
allocated by the library (GPU back-ends; destructor issues a "free" task, arax_data.c:380-391) is not part of this machine.
-/
namespace Arax.Object

/-- /repo/src/core/arax_object.h:14-22 `arax_object_type_e`. -/
inductive Ty where
  | phys | vaccel | proc | data | task
  deriving DecidableEq

/-- The references and names an object contains. /repo/src/core/arax_accel.h:14-27, arax_vaccel.h:29-41, arax_proc.h:15-21, arax_data.h:36-51, arax_task.h:9-23. -/
inductive Kind where
  | phys (freeVaq : Option Nat)                             -- arax_accel_s: `free_vaq`
  | vaccel (phys : Option Nat)                              -- arax_vaccel_s: `phys` (not counted)
  | proc (name : List Char)                                 -- arax_proc_s
  | data (accel : Option Nat)                               -- arax_data_s: `accel`
  | task (io : List Nat) (accel : Option Nat) (proc : Nat)  -- arax_task_msg_s: `io` (as far as filled), `accel` (once submitted), `proc` (not counted)
  deriving DecidableEq

/-- `obj.type` of each (/repo/src/core/arax_object.h:14-22). -/
def Kind.ty : Kind → Ty
  | .phys _ => .phys
  | .vaccel _ => .vaccel
  | .proc _ => .proc
  | .data _ => .data
  | .task _ _ _ => .task

/-- arax_object.h:40-48 `arax_object_s` with the fields of the derived structure. -/
structure Obj where
  kind : Kind
  refs : Nat
  size : Nat
  deriving DecidableEq

/-- The shared segment as far as objects are concerned: /repo/src/core/arax_object.h:25-48, /repo/src/core/arax_throttle.h:12-16. -/
structure St where
  obj   : Nat → Option Obj            -- the allocated objects
  next  : Nat                         -- addresses used so far
  repo  : Ty → List Nat               -- the repository's list per type, first element first
  avail : Int                         -- the pipe throttle's `available` (as an integer; the code keeps it modulo 2^64)
  user  : Nat → Nat                   -- ghost: references held by clients and workers
  lost  : Nat := 0                    -- ghost: bytes the throttle was charged for allocations that failed

/-- `sizeof` of the structures, and the segment's initial available size. /repo/src/core/arax_pipe.c:49. -/
structure Conf where
  szPhys : Nat
  szVaccel : Nat
  szProc : Nat
  szData : Nat
  szTask : Nat
  total : Nat

/-- arax_object.c:60-69 `arax_object_repo_init`; arax_pipe.c:49. -/
def init (c : Conf) : St := { obj := fun _ => none, next := 0, repo := fun _ => [], avail := c.total, user := fun _ => 0 }

/-- Model bookkeeping, no code of its own: store to, allocation or release of the object at `o`. -/
def St.put (s : St) (o : Nat) (x : Option Obj) : St := { s with obj := fun j => if j = o then x else s.obj j }

/-- Model bookkeeping, no code of its own: store of a list of the repository. -/
def St.setRepo (s : St) (t : Ty) (l : List Nat) : St := { s with repo := fun u => if u = t then l else s.repo u }

/-- Model bookkeeping, no code of its own: ghost. -/
def St.setUser (s : St) (o : Nat) (n : Nat) : St := { s with user := fun j => if j = o then n else s.user j }

/-- arax_object.c:98-126 `arax_object_register` with reference count 1, held by the caller. With `allocOk = false` the allocator
returned NULL: the throttle has been decreased already (line 103) and the call returns NULL (106-107). -/
def register (s : St) (allocOk : Bool) (k : Kind) (size : Nat) : St × Option Nat :=
  let s := { s with avail := s.avail - size }
  if allocOk then
    ((({ s with next := s.next + 1 }.put s.next (some { kind := k, refs := 1, size := size })).setRepo k.ty (s.next :: s.repo k.ty)).setUser s.next 1,
      some s.next)
  else ({ s with lost := s.lost + size }, none)

/-- arax_object.c:145-159 `arax_object_ref_inc`. -/
def refInc (s : St) (o : Nat) : Res St :=
  match s.obj o with
  | none => .ub
  | some x => .ok (s.put o (some { x with refs := x.refs + 1 }))

/-- The references the destructors drop, in order: task (arax_task.c:89-103: every io, then accel), data (arax_data.c:393-395), physical
accelerator (arax_accel.c:193), others none (arax_vaccel.c:113-123, arax_proc.c:41-42). -/
def Kind.children : Kind → List Nat
  | .phys f => f.toList
  | .vaccel _ => []
  | .proc _ => []
  | .data a => a.toList
  | .task io a _ => io ++ a.toList

/-- arax_vaccel.c:119-120: the destructor of a virtual accelerator locks and changes the physical accelerator it is assigned to;
arax_accel.c:193, impl.c:372: that of a physical accelerator dereferences its `free_vaq`. -/
def dtorOk (s : St) : Kind → Bool
  | .phys none => false
  | .vaccel (some a) => (s.obj a).isSome
  | _ => true

/-- arax_object.c:161-209 `arax_object_ref_dec`. The first argument bounds the nesting of destructors (task, data, accelerator); running out
of it counts as `ub` and is proved not to happen for 3. -/
def refDec : Nat → St → Nat → Res St
  | 0, _, _ => .ub
  | d + 1, s, o =>
    match s.obj o with
    | none => .ub
    | some x =>
      if x.refs = 0 then .abort                                        -- 174
      else if x.refs = 1 then
        let s := (s.put o (some { x with refs := 0 })).setRepo x.kind.ty ((s.repo x.kind.ty).erase o)   -- 182, 191
        if dtorOk s x.kind then do                                     -- 195
          let s ← x.kind.children.foldlM (refDec d) s
          .ok { s.put o none with avail := s.avail + x.size }          -- 199-203
        else .ub
      else .ok (s.put o (some { x with refs := x.refs - 1 }))

/-- arax_data.c:117-160 `arax_data_migrate_accel`. In the model the data forgets the old accelerator before its reference is dropped
(the code overwrites `data->accel` after; nothing reads it in between). -/
def migrate (s : St) (d v : Nat) : Res St :=
  match s.obj d with
  | none => .ub
  | some x =>
    match x.kind with
    | .data acc =>
      if acc = some v then .ok s                                        -- 122
      else match acc with
        | none => do                                                    -- 125-130
          let s ← refInc s v
          match s.obj d with
          | none => .ub
          | some x => .ok (s.put d (some { x with kind := .data (some v) }))
        | some w =>
          match s.obj w, s.obj v with
          | some y, some z =>
            match y.kind, z.kind with
            | .vaccel p, .vaccel q =>
              if p = q then do                                          -- 139-143
                let s ← refDec 3 (s.put d (some { x with kind := .data none })) w
                let s ← refInc s v
                match s.obj d with
                | none => .ub
                | some x => .ok (s.put d (some { x with kind := .data (some v) }))
              else .abort                                               -- 144-147
            | _, _ => .abort                                            -- 150-157
          | _, _ => .ub
    | _ => .ub

/-- arax_task.c:36-46: store one argument in the task, take a reference on it and migrate it (arax_data.c:229-249). -/
def addIo (t v : Nat) (s : St) (d : Nat) : Res St := do
  let s ← refInc s d
  match s.obj t with
  | some { kind := .task io a p, refs, size } =>
    migrate (s.put t (some { kind := .task (io ++ [d]) a p, refs, size })) d v
  | _ => .ub

/-- impl.c:422-465 `check_semantics` for non-NULL arguments: reading the type of a destroyed object is undefined. -/
def checkIo (s : St) : List Nat → Res Bool
  | [] => .ok true
  | d :: r =>
    match s.obj d with
    | none => .ub
    | some x => if x.kind.ty = .data then checkIo s r else .ok false

/-- impl.c:467-488 `arax_task_issue`: check, arax_task_alloc (arax_task.c:7-49), arax_task_submit (arax_task.c:64-75). -/
def issue (c : Conf) (s : St) (allocOk : Bool) (v p : Nat) (ins outs : List Nat) (hostSize : Nat) : Res (St × Nat) := do
  let ok ← checkIo s (ins ++ outs)
  if ok then
    match register s allocOk (.task [] none p) (c.szTask + 8 * (ins ++ outs).length + hostSize) with
    | (_, none) => .abort                                               -- impl.c:480
    | (s, some t) => do
      let s ← (ins ++ outs).foldlM (addIo t v) s
      let s ← refInc s v
      match s.obj t with
      | some { kind := .task io _ p, refs, size } => .ok (s.put t (some { kind := .task io (some v) p, refs, size }), t)
      | _ => .ub
  else .abort                                                           -- impl.c:476

/-- arax_data.c:195-204 `arax_data_set_accel`. -/
def setAccel (s : St) (d v : Nat) : Res St :=
  match s.obj d with
  | some { kind := .data acc, refs, size } =>
    if acc = some v then .ok s else refInc (s.put d (some { kind := .data (some v), refs, size })) v
  | _ => .ub

/-- arax_data.c:75-86: the assignment part of `arax_data_set` (and, for a fresh remote, of `arax_data_set_remote`, 211-217: both assert that the data is
unassigned or, for `arax_data_set`, assigned to the same accelerator). -/
def setAssign (s : St) (d v : Nat) : Res St :=
  match s.obj d with
  | some { kind := .data acc, refs := _, size := _ } =>
    if acc = some v then .ok s
    else if acc = none then do
      let s ← refInc s v
      match s.obj d with
      | some { kind := _, refs, size } => .ok (s.put d (some { kind := .data (some v), refs, size }))
      | none => .ub
    else .abort
  | _ => .ub

/-- arax_accel.c:108-141 `arax_accel_add_vaccel`, reference part. -/
def assign (s : St) (v a : Nat) : Res St :=
  match s.obj v, s.obj a with
  | some { kind := .vaccel p, refs, size }, some _ =>
    if p = some a then .ok s
    else if p = none then .ok (s.put v (some { kind := .vaccel (some a), refs, size }))
    else .abort
  | _, _ => .ub

/-- arax_accel.c:156-178 `arax_accel_del_vaccel`, reference part. -/
def unassign (s : St) (v : Nat) : Res St :=
  match s.obj v with
  | some { kind := .vaccel (some a), refs, size } =>
    if (s.obj a).isSome then .ok (s.put v (some { kind := .vaccel none, refs, size })) else .ub
  | _ => .ub

/-- The API calls. The functions and lines are behind each (/repo/src/core, /repo/src/arch/shm/impl.c). -/
inductive Op where
  | newPhys                                   -- arax_accel_init (arax_accel.c:5-24)
  | newVaccel (a : Option Nat)                -- arax_accel_acquire_type / arax_accel_acquire_phys (impl.c:335-364, arax_vaccel.c:3-30)
  | newProc (name : List Char)                -- arax_proc_init (arax_proc.c:4-14)
  | newData (size align : Nat)                -- arax_data_init_aligned (arax_data.c:21-50)
  | issue (v p : Nat) (ins outs : List Nat) (hostSize : Nat)   -- arax_task_issue
  | refInc (o : Nat)                          -- arax_object_ref_inc (worker, arax_accel_list, arax_proc_get)
  | refDec (o : Nat)                          -- arax_data_free, arax_task_free, arax_accel_release, arax_proc_put
  | setAssign (d v : Nat)                     -- arax_data_set / arax_data_set_remote
  | setAccel (d v : Nat)                      -- arax_data_set_accel
  | assign (v a : Nat)                        -- arax_accel_set_physical
  | unassign (v : Nat)                        -- arax_accel_del_vaccel by the scheduler
  deriving DecidableEq

/-- One API call; `allocOk` tells whether the shared memory allocator finds room (for every object the call allocates). Lines at `Op` and at the functions called here. (Dispatch only: the lines are at the functions called.) -/
def step (c : Conf) (s : St) (allocOk : Bool) (op : Op) : Res St :=
  match op with
  | .newPhys =>
    -- arax_accel.c:22: the accelerator's own queue is created assigned to it
    if allocOk then
      let s1 := (register s true (.phys none) c.szPhys).1
      let s2 := (register s1 true (.vaccel (some s.next)) c.szVaccel).1
      -- the new queue's reference belongs to `free_vaq`
      .ok ((s2.setUser (s.next + 1) 0).put s.next (some { kind := .phys (some (s.next + 1)), refs := 1, size := c.szPhys }))
    else .ok (register s false (.phys none) c.szPhys).1
  | .newVaccel a =>
    match a with
    | none => .ok (register s allocOk (.vaccel none) c.szVaccel).1
    | some a => if (s.obj a).isSome then .ok (register s allocOk (.vaccel (some a)) c.szVaccel).1 else .ub
  | .newProc name => .ok (register s allocOk (.proc name) c.szProc).1
  | .newData size align => if align = 0 then .abort else .ok (register s allocOk (.data none) (c.szData + (size + align + 8))).1
  | .issue v p ins outs h => (issue c s allocOk v p ins outs h).map (·.1)
  | .refInc o => (refInc s o).map fun s => s.setUser o (s.user o + 1)
  | .refDec o => refDec 3 (s.setUser o (s.user o - 1)) o
  | .setAssign d v => setAssign s d v
  | .setAccel d v => setAccel s d v
  | .assign v a => assign s v a
  | .unassign v => unassign s v

/-- arax_object.c:71-88 `arax_object_repo_exit`: number of objects still registered. -/
def repoExit (s : St) : Nat :=
  (s.repo .phys).length + (s.repo .vaccel).length + (s.repo .proc).length + (s.repo .data).length + (s.repo .task).length

/-- impl.c:165-166: the check of the last process in `arax_exit`, `initially` being the available size when that process joined (impl.c:106). -/
def leakCheck (s : St) (initially : Int) : Res Unit := if s.avail = initially then .ok () else .abort

end Arax.Object
