/-!
# The locks of the library

What every call does with locks, function by function, and any number of threads that make any calls. A condition of the code that depends on memory is a choice (`alt`), the object a pointer leads to is
any object (`any`), a loop runs any number of times (`rep`): the paths of the model are a superset of those of the code, so what holds of all of them holds of the code.

Locks that wait: `utils_spinlock` (src/utils/spinlock.h:32-52), `async_condition` (src/async/mutex/async.c:60-87, the spin back-end likewise), the spin locks of dlmalloc (malloc.c:1909-1926), the `std::mutex`es of the
controller (accelThread.cpp:34-36). Not modelled: the locks of libc, of C++ streams and of device drivers; `ARAX_THROTTLE_DEBUG`'s print lock (arax_throttle.c:8-21, a leaf inside `thr`, compiled out).
-/
namespace Arax.Locks

/-- The kinds of objects. arax_object.h:14-22. -/
inductive Ty where
  | phys | virt | proc | data | task
deriving DecidableEq

/-- The locks. `setup`, `print`, `prep`: accelThread.cpp:34-36. `ready`: `cntrl_ready_cond`; `procs`: `proc_lock`; `orphan`: `orphan_cond` (include/arax_pipe.h). `repo t`: arax_object.h:32-33. `vac v`:
arax_vaccel.h:34. `acc a`: arax_accel.h:19. `thr 0`: the throttle of the pipe, `thr (a + 1)`: of accelerator `a` (arax_throttle.h). `heap i`: the `mutex` of an mspace (`heap 0`: the pipe's). `glob p`: `malloc_global_mutex` of
process `p` (malloc.c:2070-2089). `bits`: bitmap.h. `kv k`: Kv.h:18. -/
inductive Lk where
  | setup | print | prep | ready | procs
  | repo (t : Ty)
  | orphan
  | vac (v : Nat)
  | acc (a : Nat)
  | thr (k : Nat)
  | heap (i : Nat)
  | glob (p : Nat)
  | bits
  | kv (k : Nat)
deriving DecidableEq

/-- What a thread does. `use l`: it reads and changes what lock `l` protects. `wait l`: `async_condition_wait`, which gives `l` back, sleeps and takes `l` again; `sleep` is the part of it that waits for a notification.
`room v`: `while (!utils_queue_push(...))` on the queue of virtual accelerator `v` (arax_vaccel.c:35). `await`: waiting for something else: the end of a task, a start of the controller. -/
inductive Op where
  | lock (l : Lk)
  | unlock (l : Lk)
  | use (l : Lk)
  | wait (l : Lk)
  | sleep
  | room (v : Nat)
  | await
deriving DecidableEq

/-- Programs. (No code of its own.) -/
inductive Cmd where
  | skip
  | op (o : Op)
  | seq (a b : Cmd)
  | alt (a b : Cmd)
  | any (f : Nat → Cmd)
  | rep (a : Cmd)

infixr:60 " ;; " => Cmd.seq
infixr:55 " ∥ " => Cmd.alt

/-- What the program does on its way, for each way through it. (No code of its own.) -/
inductive Path : Cmd → List Op → Prop where
  | skip : Path .skip []
  | op (o : Op) : Path (.op o) [o]
  | seq {a b : Cmd} {p q : List Op} : Path a p → Path b q → Path (.seq a b) (p ++ q)
  | left {a b : Cmd} {p : List Op} : Path a p → Path (.alt a b) p
  | right {a b : Cmd} {p : List Op} : Path b p → Path (.alt a b) p
  | any {f : Nat → Cmd} {p : List Op} (i : Nat) : Path (f i) p → Path (.any f) p
  | rep0 {a : Cmd} : Path (.rep a) []
  | rep {a : Cmd} {p q : List Op} : Path a p → Path (.rep a) q → Path (.rep a) (p ++ q)

/-- A section under lock `l` that uses what `l` protects. (No code of its own.) -/
def crit (l : Lk) (c : Cmd) : Cmd := .op (.lock l) ;; .op (.use l) ;; c ;; .op (.unlock l)

/-- How the library is built, and the process. `enf`: `ARAX_THROTTLE_ENFORCE`. (No code of its own.) -/
structure Cfg where
  enf : Bool
  proc : Nat

/-! ## The allocator -/

/-- `utils_bitmap_alloc_bits`, `utils_bitmap_free_bits`. bitmap.c:217-252, 254-294. -/
def bmpOp : Cmd := crit .bits .skip

/-- `ensure_initialization`, `init_mparams`. malloc.c:2679, 3160-3248. -/
def ensure (c : Cfg) : Cmd := .skip ∥ crit (.glob c.proc) .skip

/-- `mspace_malloc`: at most one call of `arax_mmap`, in `sys_alloc`. malloc.c:5640-5745, 4152. -/
def mmalloc (c : Cfg) (i : Nat) : Cmd := crit (.heap i) (.skip ∥ (ensure c ;; bmpOp))

/-- `mspace_free`: `arax_ummap` in `sys_trim`, `release_unused_segments` and for directly mapped blocks. malloc.c:5747-5842, 4409. -/
def mfree (c : Cfg) (i : Nat) : Cmd := crit (.heap i) (.skip ∥ (ensure c ;; .rep bmpOp))

/-- `create_mspace`. malloc.c:5553-5573. -/
def mcreate (c : Cfg) : Cmd := ensure c ;; bmpOp

/-- `destroy_mspace`. malloc.c:5611-5634. It takes no lock: nobody else may use the allocator. -/
def mdestroy : Cmd := .rep bmpOp

/-- `mspace_mallinfo`. malloc.c:6100-6108, 3569-3608. -/
def minfo (c : Cfg) (i : Nat) : Cmd := ensure c ;; crit (.heap i) .skip

/-- `mspace_inspect_all`, which calls the user's function `f` for every region. malloc.c:5994-6005. -/
def minspect (i : Nat) (f : Cmd) : Cmd := crit (.heap i) (.rep f)

/-- `arch_alloc_create_sub_alloc`. alloc.c:163-170. -/
def subAlloc (c : Cfg) : Cmd := .any fun i => mmalloc c i ;; mcreate c

/-! ## Throttles, objects -/

/-- `arax_throttle_size_inc`. arax_throttle.c:49-74. -/
def inc (k : Nat) : Cmd := .skip ∥ crit (.thr k) .skip

/-- `arax_throttle_size_dec`. arax_throttle.c:77-105. -/
def dec (c : Cfg) (k : Nat) : Cmd := .skip ∥ crit (.thr k) (if c.enf then .rep (.op (.wait (.thr k))) else .skip)

/-- `arax_object_register`. arax_object.c:98-126. -/
def register (c : Cfg) (t : Ty) : Cmd := dec c 0 ;; mmalloc c 0 ;; mmalloc c 0 ;; crit (.repo t) .skip

/-- `arax_object_rename`. arax_object.c:128-143. -/
def rename (c : Cfg) : Cmd := .skip ∥ (mfree c 0 ;; mmalloc c 0)

/-- `arax_object_ref_dec` of an object with destructor `d`: the list is left before the destructor runs. arax_object.c:161-209. -/
def refDec (c : Cfg) (t : Ty) (d : Cmd) : Cmd := crit (.repo t) .skip ;; (.skip ∥ (d ;; mfree c 0 ;; mfree c 0 ;; inc 0))

/-- `arax_object_ref_dec_pre_locked`: it removes the object from the list of its kind, takes no lock, and runs the destructor. arax_object.c:211-235. -/
def refDecPre (c : Cfg) (t : Ty) (d : Cmd) : Cmd := .skip ∥ (.op (.use (.repo t)) ;; d ;; mfree c 0 ;; mfree c 0 ;; inc 0)

/-! ## Accelerators -/

/-- `arax_pipe_add_orphan_vaccel`, `arax_pipe_remove_orphan_vaccel`, `arax_pipe_orphan_stop`. arax_pipe.c:63-71, 100-114. -/
def orphanOp : Cmd := crit .orphan .skip

/-- `arax_pipe_get_orphan_vaccel`. arax_pipe.c:78-98. -/
def getOrphan : Cmd := crit .orphan ((.skip ∥ .op (.wait .orphan)) ;; .op (.use .orphan))

/-- `arax_accel_add_task`, `arax_accel_get_assigned_vaccels`. arax_accel.c:38-44, 143-154. -/
def accOp (a : Nat) : Cmd := crit (.acc a) .skip

/-- `arax_accel_wait_for_task`. arax_accel.c:26-36. -/
def waitForTask (a : Nat) : Cmd := crit (.acc a) (.rep (.op (.wait (.acc a))) ;; .op (.use (.acc a)))

/-- `arax_accel_add_vaccel`. arax_accel.c:108-141. -/
def addVac (a v : Nat) : Cmd := .skip ∥ (orphanOp ;; crit (.vac v) (.skip ∥ crit (.acc a) .skip))

/-- `arax_accel_del_vaccel`. arax_accel.c:156-178. -/
def delVac (a v : Nat) : Cmd := crit (.vac v) (crit (.acc a) .skip)

/-- The destructor of a virtual accelerator. arax_vaccel.c:113-123. -/
def vacDtor (v : Nat) : Cmd := (.any fun a => delVac a v) ∥ orphanOp

/-- Dropping a reference of some virtual accelerator. arax_object.c:161-209. -/
def vacDec (c : Cfg) : Cmd := .any fun v => refDec c .virt (vacDtor v)

/-- The destructor of an accelerator: it drops its `free_vaq`. arax_accel.c:180-194; impl.c:366-382. -/
def accDtor (c : Cfg) (a : Nat) : Cmd := crit (.acc a) .skip ;; vacDec c

/-- Dropping a reference of some accelerator. arax_object.c:161-209. -/
def accDec (c : Cfg) : Cmd := .any fun a => refDec c .phys (accDtor c a)

/-- `arax_vaccel_init`. arax_vaccel.c:3-30. -/
def vacInit (c : Cfg) : Cmd := register c .virt ;; ((.any fun v => .any fun a => addVac a v) ∥ orphanOp)

/-- `arax_accel_init`. arax_accel.c:5-24. -/
def accInit (c : Cfg) : Cmd := register c .phys ;; vacInit c

/-- `arax_vaccel_add_task`. arax_vaccel.c:32-39. -/
def addTask (v : Nat) : Cmd := crit (.vac v) (.op (.room v) ;; (.skip ∥ .any accOp))

/-- `arax_pipe_find_accel`, the walk of `arax_pipe_delete_accel`, `arax_pipe_find_proc`, the walk of `arax_data_ref_offset`. arax_pipe.c:175-236; arax_data.c:305-320. -/
def find (t : Ty) : Cmd := crit (.repo t) .skip

/-- `arax_pipe_delete_accel`. arax_pipe.c:175-192. -/
def deleteAccel (c : Cfg) : Cmd := find .phys ;; (.skip ∥ accDec c)

/-- `arax_accel_list` of kind `k`, with an array of an earlier list of kind `old`, or without. impl.c:221-281, 294-303. -/
def accelList (c : Cfg) (k old : Ty) : Cmd :=
  crit (.repo k) (.skip ∥ .rep (match old with
    | .phys => .any fun a => refDecPre c .phys (accDtor c a)
    | _ => .any fun v => refDecPre c .virt (vacDtor v)))

/-- `arax_accel_list_free`. impl.c:283-292. -/
def listFree (c : Cfg) : Cmd := .rep (accDec c ∥ vacDec c)

/-! ## Procedures, tasks, data -/

/-- `arax_proc_register`. impl.c:384-398; arax_proc.c:4-14. -/
def procRegister (c : Cfg) : Cmd := find .proc ;; (.skip ∥ register c .proc)

/-- `arax_proc_get`. impl.c:400-411. -/
def procGet : Cmd := find .proc

/-- `arax_proc_put`. impl.c:413-420; arax_proc.c:41-42. -/
def procPut (c : Cfg) : Cmd := refDec c .proc .skip

/-- `arax_data_migrate_accel`. arax_data.c:117-160. -/
def migrate (c : Cfg) : Cmd := .skip ∥ vacDec c

/-- `arax_task_alloc`. arax_task.c:7-49. -/
def taskAlloc (c : Cfg) : Cmd := register c .task ;; .rep (migrate c ;; rename c)

/-- `arax_task_issue`. impl.c:467-488; arax_task.c:64-75. -/
def issue (c : Cfg) : Cmd := taskAlloc c ;; .any addTask

/-- The destructor of a data object: with device memory it issues a task that frees it. arax_data.c:373-403. -/
def dataDtor (c : Cfg) : Cmd := (procGet ;; issue c ;; vacDec c) ∥ vacDec c ∥ .skip

/-- Dropping a reference of a data object; `arax_data_free`. arax_data.c:325-332. -/
def dataDec (c : Cfg) : Cmd := refDec c .data (dataDtor c)

/-- The destructor of a task. arax_task.c:89-103. -/
def taskDtor (c : Cfg) : Cmd := .rep (dataDec c) ;; (.skip ∥ vacDec c)

/-- Dropping a reference of a task; `arax_task_free`. impl.c:524-529. -/
def taskDec (c : Cfg) : Cmd := refDec c .task (taskDtor c)

/-- `arax_task_wait`. impl.c:515-522; arax_task.c:77-81. -/
def taskWait : Cmd := .op .await

/-- `arax_data_get`. arax_data.c:52-73. -/
def dataGet (c : Cfg) : Cmd := procGet ;; issue c ;; taskWait ;; taskDec c ;; procPut c

/-- `arax_data_set`. arax_data.c:75-93. -/
def dataSet (c : Cfg) : Cmd := procGet ;; issue c ;; procPut c

/-- `arax_data_memcpy`. arax_data.c:95-113. -/
def dataMemcpy (c : Cfg) : Cmd := .skip ∥ (dataGet c ;; dataSet c)

/-- `arax_data_allocate_remote`. arax_data.c:162-193. -/
def allocRemote (c : Cfg) : Cmd := .skip ∥ (procGet ;; issue c ;; taskWait ;; taskDec c ;; .any fun a => dec c (a + 1))

/-! ## Start and end -/

/-- `arax_pipe_init`: the first one makes the allocator, the others wait for it. arax_pipe.c:5-56; alloc.c:28-60. -/
def pipeInit (c : Cfg) : Cmd := mcreate c ∥ .op .await

/-- `_arax_init`: the first thread of a process maps the segment, the others wait for it; `w`: it waits for the controller. impl.c:34-122; arax_pipe.c:126-146. -/
def init (c : Cfg) (w : Bool) : Cmd :=
  ((crit .procs .skip ;; pipeInit c) ∥ .op .await) ;; (if w then crit .ready (.rep (.op (.wait .ready))) else .skip)

/-- `arax_exit`. impl.c:156-191; arax_pipe.c:148-163, 241-251. -/
def exit : Cmd := .skip ∥ ((.skip ∥ mdestroy) ;; crit .procs .skip)

/-- `arax_ptr_valid`. arax_ptr.c:4-18. -/
def ptrValid (c : Cfg) : Cmd := init c true

/-- `arax_data_ref_offset`. arax_data.c:274-323. -/
def refOffset (c : Cfg) : Cmd := ptrValid c ;; (.skip ∥ ptrValid c) ;; (.skip ∥ find .data)

/-- `arax_plot_register_metric`. src/utils/arax_plot.c:7-23. -/
def metric (c : Cfg) : Cmd := init c true ;; (ptrValid c ∥ mmalloc c 0) ;; mmalloc c 0 ;; crit (.kv 1) .skip

/-! ## The controller -/

/-- What a task does with locks: `alloc_remote` for its arguments, then a handler, which may account for memory and drop the task. accelThread.cpp:395-411; CpuBuiltins.cpp:6-138; CUDA, HIP and OpenCL handlers. -/
def execute (c : Cfg) : Cmd := .rep (.any fun a => dec c (a + 1)) ;; (.skip ∥ .any fun a => inc (a + 1)) ;; (.skip ∥ taskDec c)

/-- The thread of accelerator `a`: start. accelThread.cpp:315-360. `acceleratorInit` is not modelled. -/
def workerStart (c : Cfg) : Cmd := crit .setup .skip ;; crit .print (accInit c) ;; crit .prep .skip

/-- One round of the thread of accelerator `a`. accelThread.cpp:363-445, 477-490. -/
def workerRound (c : Cfg) (a : Nat) : Cmd :=
  (.skip ∥ .op .await) ;; waitForTask a ;; accOp a ;; ptrValid c ;; (.skip ∥ (execute c ;; taskDec c))

/-- The end of the thread of accelerator `a`. accelThread.cpp:447-473. -/
def workerEnd (a : Nat) : Cmd := crit .print (inc (a + 1))

/-- One round of the balancer: an orphan is assigned; the elastic scheduler moves another one before. VacBalancerThread.cpp:12-23; RoundRobinScheduler.cpp:9-26; ElasticScheduler.cpp:20-91. -/
def balancerRound : Cmd :=
  getOrphan ;; (.skip ∥ getOrphan) ;; .any fun v => .any fun a => (.skip ∥ .any fun m => .any fun b => delVac a m ;; addVac b m) ;; addVac a v

/-! ## All calls -/

/-- The calls. (The calls of /repo/include/arax.h, arax_pipe.h and arax_data.h, and the rounds of the threads of the controller; the lines of each are at its program above.) -/
inductive Api where
  | init | controllerInit | exit | ptrValid
  | accelList (k : Bool) | accelListFree | acquirePhys | acquireType | release | setPhysical (a v : Nat)
  | accelInit | addVaccel (a v : Nat) | delVaccel (a v : Nat) | addAccelTask (a : Nat) | waitForTask (a : Nat) | getAssigned (a : Nat)
  | getOrphan | addOrphan | orphanStop | findAccel | deleteAccel
  | procRegister | procGet | procPut
  | issue | issueSync | taskWait | taskFree
  | dataInit | dataGet | dataSet | dataMemcpy | dataFree | allocRemote | refOffset | annotate
  | sizeInc (k : Nat) | sizeDec (k : Nat)
  | allocate (i : Nat) | free (i : Nat) | stats (i : Nat) | inspect (i : Nat) | subAlloc | allocExit
  | metric | kv (k : Nat)
  | workerStart | workerRound (a : Nat) | workerEnd (a : Nat) | balancerRound

/-- What a call does. The array that `arax_accel_list` gets is NULL or of an earlier list of the same kind; the function given to `arch_alloc_inspect` uses no lock. (Dispatch only: the lines are at the programs above.) -/
def Api.cmd (c : Cfg) : Api → Cmd
  | .init => Locks.init c true
  | .controllerInit => Locks.init c false
  | .exit => Locks.exit
  | .ptrValid => Locks.ptrValid c
  | .accelList k => Locks.accelList c (if k then .phys else .virt) (if k then .phys else .virt)
  | .accelListFree => listFree c
  | .acquirePhys => .skip ∥ vacInit c
  | .acquireType => vacInit c
  | .release => accDec c ∥ vacDec c
  | .setPhysical a v => addVac a v
  | .accelInit => accInit c
  | .addVaccel a v => addVac a v
  | .delVaccel a v => delVac a v
  | .addAccelTask a => accOp a
  | .waitForTask a => Locks.waitForTask a
  | .getAssigned a => accOp a
  | .getOrphan => Locks.getOrphan
  | .addOrphan => orphanOp
  | .orphanStop => orphanOp
  | .findAccel => find .phys
  | .deleteAccel => Locks.deleteAccel c
  | .procRegister => Locks.procRegister c
  | .procGet => Locks.procGet
  | .procPut => Locks.procPut c
  | .issue => Locks.issue c
  | .issueSync => Locks.issue c ;; Locks.taskWait ;; taskDec c
  | .taskWait => Locks.taskWait
  | .taskFree => taskDec c
  | .dataInit => register c .data
  | .dataGet => Locks.dataGet c
  | .dataSet => Locks.dataSet c
  | .dataMemcpy => Locks.dataMemcpy c
  | .dataFree => dataDec c
  | .allocRemote => Locks.allocRemote c
  | .refOffset => Locks.refOffset c
  | .annotate => rename c
  | .sizeInc k => inc k
  | .sizeDec k => dec c k
  | .allocate i => mmalloc c i
  | .free i => mfree c i
  | .stats i => minfo c i
  | .inspect i => minspect i .skip
  | .subAlloc => Locks.subAlloc c
  | .allocExit => mdestroy
  | .metric => Locks.metric c
  | .kv k => crit (.kv k) .skip
  | .workerStart => Locks.workerStart c
  | .workerRound a => Locks.workerRound c a
  | .workerEnd a => Locks.workerEnd a
  | .balancerRound => Locks.balancerRound

/-- What a thread does that makes the calls `l`, one after the other. (No code of its own.) -/
inductive Calls (c : Cfg) : List Api → List Op → Prop where
  | nil : Calls c [] []
  | cons {f : Api} {l : List Api} {p q : List Op} : Path (f.cmd c) p → Calls c l q → Calls c (f :: l) (p ++ q)

/-! ## Threads -/

/-- The threads: what each still has to do, whether it is dead, and who has which lock. (No code of its own.) -/
structure St where
  todo : Nat → List Op
  dead : Nat → Bool
  own : Lk → Option Nat

/-- Thread `t` goes on with `r`. (No code of its own.) -/
def St.next (s : St) (t : Nat) (r : List Op) : St := { s with todo := fun u => if u = t then r else s.todo u }

/-- Lock `l` is taken by `o`, or free. (No code of its own.) -/
def St.give (s : St) (l : Lk) (o : Option Nat) : St := { s with own := fun k => if k = l then o else s.own k }

/-- What can happen. `go t`: thread `t` does its next step; `ev t`: what thread `t` waits for happens: it is notified, there is room in the queue, the task ends; `die t`. (No code of its own.) -/
inductive Act where
  | go (t : Nat)
  | ev (t : Nat)
  | die (t : Nat)

/-- The step a thread does by itself: none, if it waits for a lock or an event, or is done. spinlock.h:32-52; async.c:60-87. -/
def St.go (s : St) (t : Nat) : Option St :=
  if s.dead t then none else
  match s.todo t with
  | .lock l :: r => if s.own l = none then some ((s.give l (some t)).next t r) else none
  | .unlock l :: r => some ((s.give l none).next t r)
  | .use _ :: r => some (s.next t r)
  | .wait l :: r => some ((s.give l none).next t (.sleep :: .lock l :: r))
  | _ => none

/-- One event. (No code of its own.) -/
def St.act (s : St) : Act → St
  | .go t => (s.go t).getD s
  | .ev t => if s.dead t then s else
    match s.todo t with
    | .sleep :: r => s.next t r
    | .room _ :: r => s.next t r
    | .await :: r => s.next t r
    | _ => s
  | .die t => { s with dead := fun u => if u = t then true else s.dead u }

/-- The states of `n` threads that make any calls, in any processes (`pr t` is that of thread `t`). (No code of its own.) -/
def Reached (enf : Bool) (s : St) : Prop :=
  ∃ (n : Nat) (pr : Nat → Nat) (calls : Nat → List Api) (p : Nat → List Op) (acts : List Act),
    (∀ t, Calls ⟨enf, pr t⟩ (calls t) (p t)) ∧ (∀ t, n ≤ t → p t = []) ∧ s = acts.foldl St.act ⟨p, fun _ => false, fun _ => none⟩

end Arax.Locks
