import Verif.Exec.Theorems
import Verif.Queue.Multi
/-!
# C86: tasks on the real queues and locks

The system of `Verif/Exec/Model.lean`, but with the queue of every virtual accelerator as it is in `/repo/src/utils/queue.c`, one memory access per step, and with
the spinlock of the virtual accelerator and the retry loop of `arax_vaccel_add_task`.  Clients are threads `2c`, workers threads `2p + 1`.  A task pointer
is the task number plus one (0 is NULL).  As in `Exec/Model`: the pending-task counter and the wake-up of workers (`arax_accel_add_task`,
/repo/src/core/arax_vaccel.c:36-37) are left out (C32, C33, C63); virtual accelerators stay on their physical accelerator; completion is a flag (C20).
-/
namespace Arax.Exec.Real
open Arax.Exec Arax.Queue Arax.Queue.Multi

/-- Where a client is: outside the library; in the argument loop for task `t`; in `utils_spinlock_lock`, reading (/repo/src/utils/spinlock.h:35) and about to CAS (:37); about to
call `utils_queue_push` (/repo/src/core/arax_vaccel.c:35); in that call; about to unlock (:38); waiting; aborted. -/
inductive RC where
  | idle | prep (t k : Nat) | spin (t : Nat) | cas (t : Nat) | push (t : Nat) | inPush (t : Nat) | unlock (t : Nat) | wait (t : Nat) | aborted
  deriving DecidableEq

/-- Where a worker is: between two tasks; about to call `utils_queue_pop` for virtual accelerator `v` (/repo/controller/src/Schedulers/RoundRobinScheduler.cpp:41, 47); in
that call; running a task. -/
inductive RW where
  | free | pick (v : Nat) | inPop (v : Nat) | run (t : Nat) (prog : Prog)

/-- Everything but the queues; fields as in `Exec.St`, and the spinlocks of the virtual accelerators (/repo/src/core/arax_vaccel.h:31).  Ghost: `issued`, the tasks whose issue has
returned to the client; `taken v`, the tasks that `utils_queue_pop` of queue `v` has returned, in order. -/
structure G where
  mem : Mem
  accel : Nat → Option Nat
  task : Nat → Task
  next : Nat
  fin : Nat → Bool
  host : Nat → Host
  lock : Nat → Nat
  client : Nat → RC
  worker : Nat → RW
  ret : Nat → Option Host
  issued : List Nat
  taken : Nat → List Nat

/-- Empty system. (After /repo/src/core/arax_pipe.c:8-55.) -/
def g0 (m0 : Mem) : G :=
  { mem := m0, accel := fun _ => none, task := fun _ => ⟨0, 0, [], .done, .user⟩, next := 0, fin := fun _ => false, host := fun _ _ => 0,
    lock := fun _ => 0, client := fun _ => .idle, worker := fun _ => .free, ret := fun _ => none, issued := [], taken := fun _ => [] }

/-- Steps other than those of the queues: calls of client `c`; client `c` goes on; worker `p` chooses virtual accelerator `v` to look at; worker `p` executes one step
of its task. (As `Exec.step`: the lines are there.) -/
inductive Act where
  | issue (c v : Nat) (io : List Nat) (prog : Prog)
  | set (c d v : Nat) (bs : List Nat)
  | get (c d : Nat)
  | wait (c t : Nat)
  | client (c : Nat)
  | pick (p v : Nat)
  | work (p : Nat)

/-- Allocate a task (/repo/src/core/arax_task.c:15-31). -/
def rbegin (g : G) (c : Nat) (t : Task) : Option G :=
  if g.client c = .idle then some { g with task := upd g.task g.next t, next := g.next + 1, client := upd g.client c (.prep g.next 0) } else none

/-- One step of a client inside the library, outside the queue: arguments (/repo/src/core/arax_task.c:36-46, /repo/src/core/arax_data.c:117-160), spinlock (/repo/src/utils/spinlock.h:31-42,
called at /repo/src/core/arax_vaccel.c:34), unlock (spinlock.h:52-56, arax_vaccel.c:38), wait (/repo/src/arch/shm/impl.c:515-522). -/
def rclient (ph : Nat → Nat) (g : G) (c : Nat) : Option G :=
  match g.client c with
  | .prep t k =>
    match (g.task t).io[k]? with
    | none => some { g with client := upd g.client c (.spin t) }
    | some d =>
      match g.accel d with
      | none => some { g with accel := upd g.accel d (some (g.task t).vac), client := upd g.client c (.prep t (k + 1)) }
      | some v =>
        if ph v = ph (g.task t).vac then
          some { g with accel := upd g.accel d (some (g.task t).vac), client := upd g.client c (.prep t (k + 1)) }
        else some { g with client := upd g.client c .aborted }
  | .spin t => if g.lock (g.task t).vac ≠ 0 then none else some { g with client := upd g.client c (.cas t) }
  | .cas t =>
    if g.lock (g.task t).vac = 0 then some { g with lock := upd g.lock (g.task t).vac 1, client := upd g.client c (.push t) }
    else some { g with client := upd g.client c (.spin t) }
  | .unlock t =>
    some { g with lock := upd g.lock (g.task t).vac 0, issued := g.issued ++ [t],
                  client := upd g.client c (if (g.task t).kind = .get then .wait t else .idle) }
  | .wait t => if g.fin t then some { g with ret := upd g.ret t (some (g.host t)), client := upd g.client c .idle } else none
  | .push _ | .inPush _ | .idle | .aborted => none

/-- One step of a running task (/repo/controller/src/Core/accelThread.cpp:410), then `arax_task_mark_done`. -/
def rwork (g : G) (p : Nat) : Option G :=
  match g.worker p with
  | .run t (.read k off cont) => some { g with worker := upd g.worker p (.run t (cont (rd (g.task t).io g.mem k off))) }
  | .run t (.write k off b next) => some { g with mem := wr (g.task t).io g.mem k off b, worker := upd g.worker p (.run t next) }
  | .run t (.out off b next) => some { g with host := upd g.host t (upd (g.host t) off b), worker := upd g.worker p (.run t next) }
  | .run t .done => some { g with fin := upd g.fin t true, worker := upd g.worker p .free }
  | .free | .pick _ | .inPop _ => none

/-- One step outside the queues; lines as in `Exec.step`.  A client can only wait for a task whose issue has returned. (No code of its own.) -/
def rstep (ph size : Nat → Nat) : Act → G → Option G
  | .issue c v io prog, g => rbegin g c ⟨c, v, io, prog, .user⟩
  | .set c d v bs, g =>
    if g.accel d = none ∨ g.accel d = some v then rbegin g c ⟨c, v, [d], setProg bs, .set⟩
    else if g.client c = .idle then some { g with client := upd g.client c .aborted } else none
  | .get c d, g =>
    match g.accel d with
    | some v => rbegin g c ⟨c, v, [d], getProg (size d), .get⟩
    | none => if g.client c = .idle then some { g with client := upd g.client c .aborted } else none
  | .wait c t, g => if g.client c = .idle ∧ t ∈ g.issued then some { g with client := upd g.client c (.wait t) } else none
  | .client c, g => rclient ph g c
  | .pick p v, g =>
    match g.worker p with
    | .free => if ph v = p then some { g with worker := upd g.worker p (.pick v) } else none
    | _ => none
  | .work p, g => rwork g p

/-- Legal calls, as in `Exec.Legal`. (No code of its own.) -/
def RLegal (size : Nat → Nat) : Act → Prop
  | .issue _ _ io prog => ∃ hs, prog.Fits io.length (fun k => size (io.getD k 0)) hs
  | .set _ d _ bs => bs.length = size d
  | _ => True

/-- The program around the queues: pushes of clients (`arax_vaccel_add_task`, arax_vaccel.c:32-39: again while NULL is returned), pops of workers
(RoundRobinScheduler.cpp:41-55: NULL means that there is no task). -/
def prog (ph size : Nat → Nat) : Multi.Client G where
  want g i :=
    if i % 2 = 0 then match g.client (i / 2) with
      | .push t => some ((g.task t).vac, .push (t + 1))
      | _ => none
    else match g.worker (i / 2) with
      | .pick v => some (v, .pop)
      | _ => none
  call g i _ :=
    if i % 2 = 0 then match g.client (i / 2) with
      | .push t => { g with client := upd g.client (i / 2) (.inPush t) }
      | _ => g
    else match g.worker (i / 2) with
      | .pick v => { g with worker := upd g.worker (i / 2) (.inPop v) }
      | _ => g
  ret g i r :=
    if i % 2 = 0 then match g.client (i / 2) with
      | .inPush t => { g with client := upd g.client (i / 2) (if r = 0 then .push t else .unlock t) }
      | _ => g
    else match g.worker (i / 2) with
      | .inPop v =>
        if r = 0 then { g with worker := upd g.worker (i / 2) .free }
        else { g with worker := upd g.worker (i / 2) (.run (r - 1) (g.task (r - 1)).prog), taken := upd g.taken v (g.taken v ++ [r - 1]) }
      | _ => g
  own g g' := ∃ a, RLegal size a ∧ rstep ph size a g = some g'

/-! ## The relation with `Exec` -/

/-- The client in `Exec` after its push. (No code of its own.) -/
def after (g : G) (t : Nat) : PC := if (g.task t).kind = .get then .wait t else .idle

/-- The client's place in `Exec`; `th` is the state of its push. (No code of its own.) -/
def CRel (g : G) (th : Nat → Lin.ATh) : RC → PC → Prop
  | .idle, x => x = .idle
  | .prep t k, x => x = .prep t k
  | .spin t, x => x = .push t
  | .cas t, x => x = .push t
  | .push t, x => x = .push t
  | .inPush t, x => (∃ n, th (g.task t).vac = .called (.push (t + 1)) n ∧ x = .push t) ∨ (th (g.task t).vac = .done 0 ∧ x = .push t) ∨
      (th (g.task t).vac = .done (t + 1) ∧ x = after g t)
  | .unlock t, x => x = after g t
  | .wait t, x => x = .wait t
  | .aborted, x => x = .aborted

/-- The worker's place in `Exec`; `th` is the state of its pop. (No code of its own.) -/
def WRel (ph : Nat → Nat) (g : G) (p : Nat) (th : Nat → Lin.ATh) : RW → Option (Nat × Prog) → Prop
  | .free, x => x = none
  | .pick v, x => ph v = p ∧ x = none
  | .inPop v, x => ph v = p ∧ ((∃ n, th v = .called .pop n ∧ x = none) ∨ (th v = .done 0 ∧ x = none) ∨
      ∃ t, th v = .done (t + 1) ∧ x = some (t, (g.task t).prog))
  | .run t prog, x => x = some (t, prog)

/-- The task that a client is busy with. (No code of its own.) -/
def RC.busy : RC → Option Nat
  | .prep t _ | .spin t | .cas t | .push t | .inPush t | .unlock t => some t
  | _ => none

/-- The client has pushed this task. (No code of its own.) -/
def Pushed (g : G) (th : Nat → Lin.ATh) : RC → Nat → Prop
  | .unlock t, x => x = t
  | .inPush t, x => th (g.task t).vac = .done (t + 1) ∧ x = t
  | _, _ => False

/-- What the worker of `v` has taken out but not yet been told. (No code of its own.) -/
def pend (th : Lin.ATh) : List Nat :=
  match th with
  | .done (t + 1) => [t]
  | _ => []

/-- The state with atomic queues and a state of `Exec`. (No code of its own.) -/
structure R (ph : Nat → Nat) (a : ASt G) (s : Exec.St) : Prop where
  mem : s.mem = a.g.mem
  accel : s.accel = a.g.accel
  task : s.task = a.g.task
  next : s.next = a.g.next
  fin : s.fin = a.g.fin
  host : s.host = a.g.host
  ret : s.ret = a.g.ret
  queue : ∀ v, a.q v = (s.queue v).map (· + 1)
  client : ∀ c, CRel a.g (fun v => a.th v (2 * c)) (a.g.client c) (s.client c)
  worker : ∀ p, WRel ph a.g p (fun v => a.th v (2 * p + 1)) (a.g.worker p) (s.worker p)
  thc : ∀ v c, a.th v (2 * c) = .out ∨ ∃ t, a.g.client c = .inPush t ∧ (a.g.task t).vac = v
  thw : ∀ v p, a.th v (2 * p + 1) = .out ∨ a.g.worker p = .inPop v
  low : ∀ c t, (a.g.client c).busy = some t → t < a.g.next
  issued : ∀ t ∈ a.g.issued, t ∈ s.log
  pushed : ∀ c t, Pushed a.g (fun v => a.th v (2 * c)) (a.g.client c) t → t ∈ s.log
  taken : ∀ v, ofVac s.task v s.exec = a.g.taken v ++ pend (a.th v (2 * ph v + 1))

end Arax.Exec.Real
