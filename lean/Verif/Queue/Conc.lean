import Verif.Queue.Model
/-!
# Concurrent model of `/repo/src/utils/queue.c` (UTILS_QUEUE_MPMC build, the default)

Any number of threads (thread ids are `Nat`), each executing any sequence of `push`/`pop` calls; one step
is one shared-memory access (sequential consistency). `pushed`/`popped` are history variables: the
values accepted by pushes in the order of the `bottom` store, and the values returned by successful
pops in the order of the successful CAS.  `gt` in a popper's control state is the history value "number
of successful pops when this pop read `top`".
-/
namespace Arax.Queue.Conc

/-- Control state of one thread (line numbers of /repo/src/utils/queue.c in brackets). -/
inductive Pc where
  | idle
  | popB (t gt : Nat)          -- `t` read [72]; about to read `bottom` [73]
  | popE (t gt : Nat)          -- not empty [76]; about to read the entry [81]
  | popC (t gt v : Nat)        -- entry read; about to CAS `top` [82]
  | pushSpin (v : Nat)         -- in spinlock: about to read the lock word [spinlock.h:35]
  | pushCas (v : Nat)          -- about to CAS the lock word [spinlock.h:37]
  | pushRB (v : Nat)           -- lock held; about to read `bottom` [99]
  | pushRT (v b : Nat)         -- about to read `top` [100] and test for full [102-111]
  | pushW (v b : Nat)          -- about to store the entry [114]
  | pushB (v b : Nat)          -- about to store `bottom` [116]
  | pushU                      -- about to release the lock [122]
  deriving DecidableEq

/-- Shared memory and thread states. /repo/src/utils/queue.h:15-28. -/
structure St where
  entries : Nat → Nat
  top     : Nat
  bottom  : Nat
  lock    : Nat
  pushed  : List Nat
  popped  : List Nat
  pc      : Nat → Pc

/-- What an idle thread does next. /repo/src/utils/queue.c:63, 90. -/
inductive Cmd where
  | push (v : Nat)
  | pop

/-- After `utils_queue_init`, all threads idle. /repo/src/utils/queue.c:39-49. -/
def init : St :=
  { entries := fun _ => 0, top := 0, bottom := 0, lock := 0, pushed := [], popped := [], pc := fun _ => .idle }

/-- Model bookkeeping, no code of its own: thread `i` goes to `p`. -/
def St.goto (s : St) (i : Nat) (p : Pc) : St := { s with pc := fun j => if j = i then p else s.pc j }

/-- One step of thread `i` (/repo/src/utils/queue.c:63-124, /repo/src/utils/spinlock.h:32-52). `cmd` is
only consulted when the thread is idle. A push of NULL aborts the process and is not modelled as a step. -/
def step (cap : Nat) (s : St) (i : Nat) (cmd : Cmd) : St :=
  match s.pc i with
  | .idle =>
    match cmd with
    | .pop => s.goto i (.popB s.top s.popped.length)
    | .push v => s.goto i (.pushSpin v)
  | .popB t gt => if s.bottom = t then s.goto i .idle else s.goto i (.popE t gt)
  | .popE t gt => s.goto i (.popC t gt (s.entries (t &&& (cap - 1))))
  | .popC t _ v =>
    if s.top = t then { s with top := (t + 1) % 65536, popped := s.popped ++ [v] }.goto i .idle
    else s.goto i .idle
  | .pushSpin v => if s.lock ≠ 0 then s else s.goto i (.pushCas v)
  | .pushCas v => if s.lock = 0 then { s with lock := 1 }.goto i (.pushRB v) else s.goto i (.pushSpin v)
  | .pushRB v => s.goto i (.pushRT v s.bottom)
  | .pushRT v b => if diff16 b s.top = cap then s.goto i .pushU else s.goto i (.pushW v b)
  | .pushW v b =>
    { s with entries := fun j => if j = b &&& (cap - 1) then v else s.entries j }.goto i (.pushB v b)
  | .pushB v b => { s with bottom := (b + 1) % 65536, pushed := s.pushed ++ [v] }.goto i .pushU
  | .pushU => { s with lock := 0 }.goto i .idle

/-- States reachable by any schedule (any interleaving, any number of threads, any calls). (No code of its own.) -/
inductive Reach (cap : Nat) : St → Prop where
  | init : Reach cap init
  | step {s} (i : Nat) (cmd : Cmd) : Reach cap s → Reach cap (step cap s i cmd)

/-- The popper that is about to CAS has been overtaken by fewer than 65536 pops since it read `top`. (No code of its own.) -/
def WindowAt (s : St) (i : Nat) : Prop :=
  ∀ t gt v, s.pc i = .popC t gt v → s.popped.length < gt + 65536

/-- Reachability by schedules in which no pop is overtaken by 65536 or more other pops. (No code of its own.) -/
inductive ReachW (cap : Nat) : St → Prop where
  | init : ReachW cap init
  | step {s} (i : Nat) (cmd : Cmd) : ReachW cap s → WindowAt s i → ReachW cap (step cap s i cmd)

end Arax.Queue.Conc
