import Verif.Layout.Props
/-!
# Model of the attributes of accelerators (C87)

Byte memory, structs laid out as a C compiler does, one load or store per access.  Every call below makes one store to an attribute (`arax_accel_inc_revision` is one atomic
instruction), so the histories of calls are the interleavings of threads, except that `arax_accel_add_vaccel` and `arax_accel_del_vaccel`
set the link and count the change in one step of the model.
-/
namespace Arax.Attr
open Arax.Layout (Mem readLE writeLE)

/-- `n` rounded up to a multiple of `a`. (Alignment rule of C.) (No code of its own.) -/
def up (a n : Nat) : Nat := (n + (a - 1)) / a * a

/-- Offset of field `i` of a struct with fields (size, alignment), starting at offset `o`. (Layout rule of C.) (No code of its own.) -/
def off : List (Nat × Nat) → Nat → Nat → Nat
  | [], _, o => o
  | (_, a) :: _, 0, o => up a o
  | (s, a) :: fs, i + 1, o => off fs i (up a o + s)

/-- Size of field `i`. (C rule.) -/
def sz (fs : List (Nat × Nat)) (i : Nat) : Nat := (fs.getD i (0, 1)).1

/-- What depends on the machine and the build: size of `utils_spinlock` (/repo/src/utils/spinlock.h:6-12), of `async_condition_s` (/repo/src/async/*/async.h) with its alignment, of
`arax_throttle_s` (/repo/src/core/arax_throttle.h) and of the queue (/repo/src/utils/queue.h:15-28). -/
structure K where
  spin : Nat
  cond : Nat
  condAl : Nat
  thr : Nat
  queue : Nat

/-- `struct arax_vaccel_s` (/repo/src/core/arax_vaccel.h:29-41): obj, type, ordering, lock, vaccels, cid, priority, phys, meta, queue. -/
def vf (k : K) : List (Nat × Nat) := [(56, 8), (4, 4), (4, 4), (k.spin, k.spin), (24, 8), (8, 8), (8, 8), (8, 8), (8, 8), (k.queue, 64)]

/-- `struct arax_accel_s` (/repo/src/core/arax_accel.h:14-27): obj, type, state, lock, vaccels, tasks, revision, throttle, stats, free_vaq. -/
def af (k : K) : List (Nat × Nat) := [(56, 8), (4, 4), (4, 4), (k.cond, k.condAl), (32, 8), (8, 8), (8, 8), (k.thr, 8), (1, 1), (8, 8)]

/-- `arax_object_s` (/repo/src/core/arax_object.h:40-48): repo, list, alloc_size, type, ref_count, name; 56 bytes. -/
def of : List (Nat × Nat) := [(8, 8), (24, 8), (8, 8), (4, 4), (4, 4), (8, 8)]

/-- `sizeof`, without the padding at the end. (C rule.) -/
def size (fs : List (Nat × Nat)) : Nat := off fs fs.length 0

/-- Load of field `i` of the struct at `a`. (C.) -/
def ld (fs : List (Nat × Nat)) (i : Nat) (m : Mem) (a : Nat) : Nat := readLE m (a + off fs i 0) (sz fs i)

/-- Store to field `i` of the struct at `a`. (C.) -/
def st (fs : List (Nat × Nat)) (i : Nat) (m : Mem) (a v : Nat) : Mem := writeLE m (a + off fs i 0) (sz fs i) v

/-! ## The calls -/

/-- /repo/src/core/arax_vaccel.c:57-62 `arax_vaccel_set_cid`: memory and result. -/
def setCid (k : K) (m : Mem) (a v : Nat) : Mem × Nat := let m' := st (vf k) 5 m a v; (m', ld (vf k) 5 m' a)
/-- /repo/src/core/arax_vaccel.c:64-68. -/
def getCid (k : K) (m : Mem) (a : Nat) : Nat := ld (vf k) 5 m a
/-- /repo/src/core/arax_vaccel.c:70-75 `arax_vaccel_set_job_priority`. -/
def setPriority (k : K) (m : Mem) (a v : Nat) : Mem × Nat := let m' := st (vf k) 6 m a v; (m', ld (vf k) 6 m' a)
/-- /repo/src/core/arax_vaccel.c:77-81. -/
def getPriority (k : K) (m : Mem) (a : Nat) : Nat := ld (vf k) 6 m a
/-- /repo/src/core/arax_vaccel.c:41-47 `arax_vaccel_set_ordering`. -/
def setOrdering (k : K) (m : Mem) (a v : Nat) : Mem := st (vf k) 2 m a v
/-- /repo/src/core/arax_vaccel.c:49-55. -/
def getOrdering (k : K) (m : Mem) (a : Nat) : Nat := ld (vf k) 2 m a
/-- /repo/src/core/arax_vaccel.c:83-87 `arax_vaccel_set_meta`. -/
def setMeta (k : K) (m : Mem) (a v : Nat) : Mem := st (vf k) 8 m a v
/-- /repo/src/core/arax_vaccel.c:89-93. -/
def getMeta (k : K) (m : Mem) (a : Nat) : Nat := ld (vf k) 8 m a
/-- /repo/src/core/arax_accel.c:96-100 `arax_accel_inc_revision`. -/
def incRevision (k : K) (m : Mem) (a : Nat) : Mem := st (af k) 6 m a (ld (af k) 6 m a + 1)
/-- /repo/src/core/arax_accel.c:102-106. -/
def getRevision (k : K) (m : Mem) (a : Nat) : Nat := ld (af k) 6 m a
/-- /repo/src/arch/shm/impl.c:305-312 `arax_accel_type`: of any accelerator, through `arax_accel_s`. -/
def accelType (k : K) (m : Mem) (a : Nat) : Nat := ld (af k) 1 m a
/-- The member `type` of `arax_object_s`. (/repo/src/core/arax_object.h.) -/
def objType (m : Mem) (a : Nat) : Nat := ld of 3 m a

/-- /repo/src/arch/shm/impl.c:314-333 `arax_accel_stat`, with /repo/src/core/arax_accel.c:89-94 and /repo/src/core/arax_vaccel.c:107-111: the state, or `none` where NULL is dereferenced.  The
statistics struct is empty. -/
def accelStat (k : K) (m : Mem) (a : Nat) : Option Nat :=
  if objType m a = 0 then some (ld (af k) 2 m a)
  else if objType m a = 1 then
    let p := ld (vf k) 7 m a
    if p = 0 then none else some (ld (af k) 2 m p)
  else some 0

/-- /repo/src/core/arax_accel.c:5-24 `arax_accel_init` after the object was registered (/repo/src/core/arax_object.c:113), up to the creation of `free_vaq` (22, a call of `vaccelInit`). -/
def accelInit (k : K) (m : Mem) (a type : Nat) : Mem :=
  let m := st of 3 m a 0
  let m := st (af k) 5 m a 0
  let m := st (af k) 1 m a type
  let m := st (af k) 2 m a 1
  st (af k) 6 m a 0

/-- /repo/src/core/arax_accel.c:108-141 `arax_accel_add_vaccel`, what it does to attributes: link (134) and revision (137), in one step.  `none`: the assertion at 116 fails. -/
def addVaccel (k : K) (m : Mem) (p v : Nat) : Option Mem :=
  if ld (vf k) 7 m v = p then some m
  else if ld (vf k) 7 m v = 0 then some (incRevision k (st (vf k) 7 m v p) p)
  else none

/-- /repo/src/core/arax_accel.c:156-178 `arax_accel_del_vaccel`: link (173) and revision (176), in one step.  `none`: the assertion at 161 fails. -/
def delVaccel (k : K) (m : Mem) (p v : Nat) : Option Mem :=
  if ld (vf k) 7 m v = p then some (incRevision k (st (vf k) 7 m v 0) p) else none

/-- /repo/src/core/arax_vaccel.c:3-30 `arax_vaccel_init` after the object was registered; `p` is the physical accelerator or 0 (NULL: an orphan, arax_pipe.c:116-128, which writes no attribute). -/
def vaccelInit (k : K) (m : Mem) (a type p : Nat) : Option Mem :=
  let m := st of 3 m a 1
  let m := st (vf k) 7 m a 0
  let m := st (vf k) 5 m a (2 ^ 64 - 1)
  let m := st (vf k) 6 m a (2 ^ 64 - 1)
  let m := st (vf k) 1 m a type
  let m := st (vf k) 8 m a 0
  let m := st (vf k) 2 m a 0
  if p = 0 then some m else addVaccel k m p a

/-- What happens: the calls, objects going away, and any store of the rest of the library or of a user to a byte that is no attribute (`other`): locks, list nodes, queues, throttles, names, buffers. (The lines are at the functions above.) -/
inductive Op where
  | newPhys (a type : Nat)
  | newVirt (a type p : Nat)
  | cid (a v : Nat)
  | priority (a v : Nat)
  | ordering (a v : Nat)
  | md (a v : Nat)
  | add (p v : Nat)
  | del (p v : Nat)
  | free (a : Nat)
  | other (x : Nat) (b : BitVec 8)

/-- One event on memory. (Dispatch only.) -/
def run (k : K) (m : Mem) : Op → Option Mem
  | .newPhys a t => some (accelInit k m a t)
  | .newVirt a t p => vaccelInit k m a t p
  | .cid a v => some (setCid k m a v).1
  | .priority a v => some (setPriority k m a v).1
  | .ordering a v => some (setOrdering k m a v)
  | .md a v => some (setMeta k m a v)
  | .add p v => addVaccel k m p v
  | .del p v => delVaccel k m p v
  | .free _ => some m
  | .other x b => some (fun y => if y = x then b else m y)

end Arax.Attr
