import Verif.Dl.Phases2
import Verif.Dl.Props
/-!
# Overlapping calls

Any number of threads, of any number of processes, call the allocators of one segment at the same time. Each call takes the lock of its allocator, works in phases (`Phases.lean`) and gives the lock back. A
thread may die between any two of its steps.
-/
namespace Arax.Dl
open Arax.Bitmap (bit Bmp)

/-- A call: `mspace_malloc` (malloc.c:5640-5745), `mspace_free` (5747-5842), `mspace_mallinfo` (6100-6108; it only reads). -/
inductive Call where
  | alloc (bytes pick : Nat)
  | free (a : Nat)
  | stat
deriving DecidableEq

/-- Where a thread is. `out r`: in no call, `r` is what the last call returned; `want i c`: in the loop of `spin_acquire_lock` (malloc.c:1909-1919) of allocator `i`; `inn i c`: the lock is taken (2801, 5647,
5761), the first phase is next; `mid i ph`: in `mspace_free`, phase `ph` is next; `back i r`: `POSTACTION` (2802, 5740, 5839) is next; `kill l`: in the loop of `destroy_mspace` (5618-5627), the segments `l`
are next. -/
inductive TS where
  | out (r : Nat)
  | want (i : Nat) (c : Call)
  | inn (i : Nat) (c : Call)
  | mid (i : Nat) (ph : Phase)
  | back (i r : Nat)
  | kill (l : List (Nat × Nat))
deriving DecidableEq

/-- The allocator whose lock the thread has. malloc.c:2801-2802. -/
def TS.inside : TS → Option Nat
  | .inn i _ => some i
  | .mid i _ => some i
  | .back i _ => some i
  | _ => none

/-- The allocator the thread is calling. (No code of its own.) -/
def TS.at : TS → Option Nat
  | .want i _ => some i
  | .inn i _ => some i
  | .mid i _ => some i
  | .back i _ => some i
  | _ => none

/-- The block the thread has handed to `mspace_free`, which has not yet ended it. malloc.c:5747. -/
def TS.gives : TS → Option (Nat × Nat)
  | .want i (.free a) => some (i, a)
  | .inn i (.free a) => some (i, a)
  | _ => none

/-- The regions `destroy_mspace` still has to return. malloc.c:5618-5627. -/
def TS.dying : TS → List (Nat × Nat)
  | .kill l => l
  | _ => []

/-- The segment, and the threads: `n` of them, `thr t` is where thread `t` is, `dead t` if it is no more; `lock i` is the thread that has the `mutex` (malloc.c:2648) of allocator `i`. `leak`: the pages of the
directly mapped blocks of destroyed allocators (a ghost). `sys.lost` (a ghost) has these and the pages of the regions that `destroy_mspace` is about to return. -/
structure CSys where
  sys : Sys
  n : Nat
  lock : Nat → Option Nat
  thr : Nat → TS
  dead : Nat → Bool
  leak : Nat → Bool

/-- Thread `t` moves. (No code of its own.) -/
def CSys.move (κ : CSys) (t : Nat) (x : TS) : CSys := { κ with thr := fun u => if u = t then x else κ.thr u }

/-- Somebody has handed block `a` of allocator `i` to `mspace_free`. (No code of its own.) -/
def CSys.given (κ : CSys) (i a : Nat) : Bool := (List.range κ.n).any fun t => (κ.thr t).gives == some (i, a)

/-- Somebody is in a call of allocator `i`. (No code of its own.) -/
def CSys.used (κ : CSys) (i : Nat) : Bool := (List.range κ.n).any fun t => (κ.thr t).at == some i

/-- The blocks the users hold: those that no one has handed to `mspace_free`. (No code of its own.) -/
def CSys.held (κ : CSys) (i : Nat) : List (Nat × Nat) := (κ.sys.live i).filter fun c => !κ.given i c.1

/-- What can happen. `create t i`: thread `t` makes allocator `i`; `call t i c`: `t` starts a call; `acquire t`: `t` looks at the lock it waits for, and takes it if it is free; `step t`: `t` does the next part
of its call; `write`, `links`: as in `Act`; `destroy t i`: `t` calls `destroy_mspace`; `die t`: `t` dies where it is. (The calls of /repo/src/alloc/dlmalloc/malloc.c (`create_mspace`, `mspace_malloc`, `mspace_free`, …) under the locks of malloc.c:1909-1926.) -/
inductive CAct where
  | create (t i : Nat)
  | call (t i : Nat) (c : Call)
  | acquire (t : Nat)
  | step (t : Nat)
  | write (i x v : Nat)
  | links (i x v : Nat)
  | destroy (t i : Nat)
  | die (t : Nat)

/-- Thread `t` exists and lives. (No code of its own.) -/
def CSys.alive (κ : CSys) (t : Nat) : Bool := decide (t < κ.n) && !κ.dead t

/-- Thread `t` is in no call. (No code of its own.) -/
def TS.idle : TS → Bool
  | .out _ => true
  | _ => false

/-- The users free what they hold. (No code of its own.) -/
def CSys.may (κ : CSys) (i : Nat) : Call → Bool
  | .free a => (κ.held i).any (·.1 == a)
  | _ => true

/-- `arax_mmap` finds no pages (bitmap.c:217-252 has then only reset its cursor) and aborts the process of thread `t`, wherever `t` is. alloc.c:143-152; arax_assert.c:10-18. -/
def CSys.abort (κ : CSys) (t : Nat) : CSys := { κ with sys := { κ.sys with bmp := Bitmap.resetCursor κ.sys.bmp }, dead := fun u => if u = t then true else κ.dead u }

/-- The first phase of a call. malloc.c:5640-5842. -/
def cinn (cf : Conf) (κ : CSys) (t i : Nat) : Call → Out CSys
  | .alloc bytes pick =>
    match malloc cf { κ.sys.heap i with mem := κ.sys.mem, bmp := κ.sys.bmp } bytes pick with
    | .ok (s, a) => .ok ({ κ with sys := κ.sys.after i ⟨s, if a = 0 then κ.sys.live i else (a, bytes) :: κ.sys.live i, fun _ => false⟩ }.move t (.back i a))
    | .noMem => .ok (κ.abort t)
    | .corrupt => .corrupt
  | .free a => (freeHead cf { κ.sys.heap i with mem := κ.sys.mem, bmp := κ.sys.bmp } a).bind fun (s, ph) =>
      .ok ({ κ with sys := κ.sys.after i ⟨s, (κ.sys.live i).filter (·.1 != a), fun _ => false⟩ }.move t (.mid i ph))
  | .stat => .ok (κ.move t (.back i 0))

/-- The next part of the call of thread `t`. malloc.c:5618-5627, 5640-5842. -/
def cpart (cf : Conf) (κ : CSys) (t : Nat) : TS → Out CSys
  | .out _ => .ok κ
  | .want _ _ => .ok κ
  | .inn i c => cinn cf κ t i c
  | .mid i .done => .ok (κ.move t (.back i 0))
  | .mid i ph => (phStep cf { κ.sys.heap i with mem := κ.sys.mem, bmp := κ.sys.bmp } ph).bind fun (s, ph) => .ok ({ κ with sys := κ.sys.after i ⟨s, κ.sys.live i, fun _ => false⟩ }.move t (.mid i ph))
  | .back i r => .ok ({ κ with lock := fun j => if j = i then none else κ.lock j }.move t (.out r))
  | .kill [] => .ok (κ.move t (.out 0))
  | .kill (r :: l) => (munmap cf { κ.sys.heap 0 with mem := κ.sys.mem, bmp := κ.sys.bmp } r.1 r.2).bind fun s =>
      .ok ({ κ with sys := { κ.sys with bmp := s.bmp, lost := fun p => κ.sys.lost p && !covers cf [r] p } }.move t (.kill l))

/-- One event. What the users must not do (use an allocator that does not exist, free what they do not hold, destroy an allocator somebody is calling, write elsewhere) they do not do: such an event changes
nothing. `mspace_free(0)` does nothing (malloc.c:5749), and is not called here. alloc.c:62-107, 163-170. -/
def cstep (cf : Conf) (κ : CSys) : CAct → Out CSys
  | .create t i =>
    if κ.alive t && (κ.thr t).idle && !κ.sys.up i then
      match create cf κ.sys.mem κ.sys.bmp with
      | .ok s => .ok { κ with sys := κ.sys.after i ⟨s, [], fun _ => false⟩ }
      | .noMem => .ok (κ.abort t)
      | .corrupt => .corrupt
    else .ok κ
  | .call t i c =>
    if κ.alive t && (κ.thr t).idle && κ.sys.up i && κ.may i c then .ok (κ.move t (.want i c)) else .ok κ
  | .acquire t =>
    match κ.alive t, κ.thr t with
    | true, .want i c => if κ.lock i = none then .ok ({ κ with lock := fun j => if j = i then some t else κ.lock j }.move t (.inn i c)) else .ok κ
    | _, _ => .ok κ
  | .step t => if κ.alive t then cpart cf κ t (κ.thr t) else .ok κ
  | .write i x v => if holdsByte (κ.held i) x then (κ.sys.at cf i (.write x v)).bind fun σ => .ok { κ with sys := σ } else .ok κ
  | .links i x v => (κ.sys.at cf i (.links x v)).bind fun σ => .ok { κ with sys := σ }
  | .destroy t i =>
    if κ.alive t && (κ.thr t).idle && κ.sys.up i && !κ.used i then
      let R := (κ.sys.heap i).segs.map fun (g : Seg) => (g.base, g.size)
      .ok ({ κ with sys := { κ.sys with live := fun j => if j = i then [] else κ.sys.live j, up := fun j => if j = i then false else κ.sys.up j, lost := fun p => κ.sys.lost p || covers cf (R ++ directs κ.sys.mem (κ.sys.live i)) p }, leak := fun p => κ.leak p || covers cf (directs κ.sys.mem (κ.sys.live i)) p }.move t (.kill R))
    else .ok κ
  | .die t => .ok { κ with dead := fun u => if u = t then true else κ.dead u }

/-- A history. (No code of its own.) -/
def crun (cf : Conf) : List CAct → CSys → Out CSys
  | [], κ => .ok κ
  | a :: t, κ => (cstep cf κ a).bind (crun cf t)

/-- A new segment, used by `n` threads. alloc.c:28-51. -/
def cfresh (mem0 : Nat → Nat) (bmem : Nat → BitVec 64) (size n : Nat) : CSys :=
  { sys := fresh mem0 bmem size, n := n, lock := fun _ => none, thr := fun _ => .out 0, dead := fun _ => false, leak := fun _ => false }

/-- The states that histories of overlapping calls reach. (No code of its own.) -/
def CReached (g : Seat) (mremap : Bool) (κ : CSys) : Prop := g.Ok ∧ ∃ mem0 bmem n acts, crun (g.conf mremap) acts (cfresh mem0 bmem g.pages n) = .ok κ

end Arax.Dl
