import Verif.Outcome
/-!
# Model of `/repo/src/utils/queue.c` (task queue), sequential view

`uint16_t` cursors are `Nat`s kept below 65536 with explicit `% 65536`; pointers stored in the queue
are `Nat` with `0 = NULL`; `cap` is the build option `UTILS_QUEUE_CAPACITY`
(/repo/cmake/Options.cmake:44-48, "Up to 65536, MUST BE power of 2").
-/
namespace Arax.Queue

/-- /repo/src/utils/queue.h:15-28 `struct queue` (lock omitted: sequential view). -/
structure Q where
  entries : Nat → Nat
  bottom  : Nat
  top     : Nat

/-- /repo/src/utils/queue.c:39-49 `utils_queue_init`: power-of-two assertion, then all zero. -/
def init (cap : Nat) : Res Q :=
  if cap &&& (cap - 1) ≠ 0 then .abort else .ok { entries := fun _ => 0, bottom := 0, top := 0 }

/-- `b - t` as `int`, `+ UINT16_MAX + 1` if negative (queue.c:53-60 and 102-105). -/
def diff16 (b t : Nat) : Nat :=
  let d : Int := (b : Int) - (t : Int)
  (if d < 0 then d + 65536 else d).toNat

/-- /repo/src/utils/queue.c:51-61 `utils_queue_used_slots`. -/
def usedSlots (q : Q) : Nat := diff16 q.bottom q.top

/-- /repo/src/utils/queue.c:63-87 `utils_queue_pop` (no concurrent access: the CAS succeeds). -/
def pop (cap : Nat) (q : Q) : Q × Nat :=
  let t := q.top
  let b := q.bottom
  if b = t then (q, 0)
  else
    let i := t &&& (cap - 1)
    ({ q with top := (t + 1) % 65536 }, q.entries i)

/-- /repo/src/utils/queue.c:89-124 `utils_queue_push`. -/
def push (cap : Nat) (q : Q) (data : Nat) : Res (Q × Nat) :=
  if data = 0 then .abort
  else
    let b := q.bottom
    let t := q.top
    if diff16 b t = cap then .ok (q, 0)
    else
      let i := b &&& (cap - 1)
      .ok ({ q with entries := fun j => if j = i then data else q.entries j, bottom := (b + 1) % 65536 }, data)

/-- /repo/src/utils/queue.c:126-142 `utils_queue_peek`. -/
def peek (cap : Nat) (q : Q) : Nat :=
  let t := q.top
  let b := q.bottom
  if b = t then 0 else q.entries (t &&& (cap - 1))

/-- A call on the queue. /repo/src/utils/queue.h:38-90. -/
inductive Op where
  | push (data : Nat)
  | pop
  | peek
  | used
  deriving DecidableEq

/-- One call: new queue and returned value. (/repo/src/utils/queue.c, one function each.) -/
def step (cap : Nat) (q : Q) : Op → Res (Q × Nat)
  | .push d => push cap q d
  | .pop => .ok (pop cap q)
  | .peek => .ok (q, peek cap q)
  | .used => .ok (q, usedSlots q)

/-- A sequence of calls: the returned values, until a call aborts. (No code of its own.) -/
def run (cap : Nat) (q : Q) : List Op → Res (List Nat)
  | [] => .ok []
  | o :: os => do
    let (q', r) ← step cap q o
    let rs ← run cap q' os
    pure (r :: rs)

end Arax.Queue
