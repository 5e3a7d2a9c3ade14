import Verif.Outcome
/-!
# Model of the semaphores: `/repo/src/async/{spin,mutex,ivshmem}/async.c`

Any number of threads incrementing and decrementing one semaphore; one step per access to shared memory.
-/
namespace Arax.Semaphore

/-- /repo/src/async/{spin,mutex,ivshmem}/async.c; chosen at build time (`async_architecture`). -/
inductive Backend where
  | spin     -- /repo/src/async/spin/async.c:29-55
  | posix    -- /repo/src/async/mutex/async.c:37-58: POSIX `sem_t`; assumption: `sem_post`/`sem_wait` are atomic, `sem_post`
             -- fails (result ignored by the code) at SEM_VALUE_MAX = 2147483647
  | ivshmem  -- /repo/src/async/ivshmem/async.c:149-204 without sleeping threads
  deriving DecidableEq

/-- `int v = <size_t>`: conversion to a 32-bit signed integer (implementation-defined; GCC reduces modulo 2^32). (C rule.) -/
def toInt (v : Nat) : Int :=
  if v % 4294967296 < 2147483648 then ((v % 4294967296 : Nat) : Int) else ((v % 4294967296 : Nat) : Int) - 4294967296

/-- Where a thread is in `async_semaphore_dec` (spin/async.c:44-55, mutex/async.c:55-58, ivshmem/async.c:181-204). -/
inductive Pc where
  | idle
  | rd             -- in `async_semaphore_dec`: about to read the value
  | cas (v : Nat)  -- about to compare-and-swap, having read `v`
  | sleep          -- ivshmem only: appended to the pending list (`async_completion_wait(compl)`)
  deriving DecidableEq

/-- `async_semaphore_s` (spin/async.h:18-22, mutex/async.h:22-25, ivshmem/async.h) and the threads. -/
structure St where
  value : Nat          -- the counter (`volatile size_t`)
  pc    : Nat → Pc
  incs  : Nat := 0     -- ghost: number of `async_semaphore_inc` calls
  decs  : Nat := 0     -- ghost: number of returned `async_semaphore_dec` calls

/-- `async_semaphore_init` (spin/async.c:29-32, mutex/async.c:37-40, ivshmem/async.c:149-154). -/
def init : St := { value := 0, pc := fun _ => .idle }

/-- Model bookkeeping, no code of its own: thread `i` goes to `p`. -/
def St.goto (s : St) (i : Nat) (p : Pc) : St := { s with pc := fun j => if j = i then p else s.pc j }

/-- What a thread does next: a call (/repo/src/async/async_api.h:81, 91), or the next step of the call it is in. -/
inductive Cmd where
  | inc | dec | go
  deriving DecidableEq

/-- `async_semaphore_inc`: one atomic `__sync_fetch_and_add(&value, 1)` (spin/async.c:41; ivshmem/async.c:163 with an empty
pending list) resp. `sem_post` (mutex/async.c:52). -/
def incValue (b : Backend) (v : Nat) : Nat :=
  match b with
  | .posix => if v < 2147483647 then v + 1 else v
  | _ => (v + 1) % 18446744073709551616

/-- One step of thread `i` (spin/async.c:44-55; mutex/async.c:55-58; ivshmem/async.c:181-204). -/
def step (b : Backend) (s : St) (i : Nat) (cmd : Cmd) : St :=
  match s.pc i, cmd with
  | .idle, .inc => { s with value := incValue b s.value, incs := s.incs + 1 }
  | .idle, .dec => s.goto i .rd
  | .rd, .go =>
    match b with
    | .spin => if 1 ≤ toInt s.value then s.goto i (.cas (toInt s.value).toNat) else s
    | .posix => if 1 ≤ s.value then { s with value := s.value - 1, decs := s.decs + 1 }.goto i .idle else s
    | .ivshmem => if toInt s.value ≠ 0 then s.goto i (.cas s.value) else s.goto i .sleep
  | .cas v, .go =>
    match b with
    | .ivshmem =>
      -- `__sync_bool_compare_and_swap(&value, val - 1, val)`: expects val - 1 and stores val
      if s.value = v - 1 then { s with value := v, decs := s.decs + 1 }.goto i .idle else s.goto i .rd
    | _ => if s.value = v then { s with value := v - 1, decs := s.decs + 1 }.goto i .idle else s.goto i .rd
  | _, _ => s

/-- Model bookkeeping, no code of its own: a schedule. -/
def exec (b : Backend) (s : St) (sched : List (Nat × Cmd)) : St := sched.foldl (fun s x => step b s x.1 x.2) s

/-- `async_semaphore_value` (spin/async.c:34-37). -/
def semValue (s : St) : Int := toInt s.value

/-- `async_semaphore_inc` of the ivshmem back-end with `pending` sleeping threads, run alone (ivshmem/async.c:161-179):
`do { pop the first pending; wake it } while ((val = __sync_fetch_and_add(&value, -1)))`; taking the first element
of an empty list reads the list head as if it was a node and dereferences its `owner` (undefined). Returns the value and
the number of threads still sleeping. -/
def ivshmemWake : Nat → Nat → Res (Nat × Nat)
  | _, 0 => .ub
  | 0, p + 1 => .ok (18446744073709551615, p)
  | v + 1, p + 1 => ivshmemWake v p

/-- `async_semaphore_inc` of the ivshmem back-end, run alone (ivshmem/async.c:161-179): the increment, then `ivshmemWake` if somebody sleeps. -/
def ivshmemInc (value pending : Nat) : Res (Nat × Nat) :=
  if pending = 0 then .ok (value + 1, 0) else ivshmemWake (value + 1) pending

end Arax.Semaphore
