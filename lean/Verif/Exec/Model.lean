import Verif.Outcome
/-!
# Issuing, queueing and executing tasks on CPU accelerators (C47, C48)

Any number of client threads, virtual accelerators, physical CPU accelerators (one worker thread each), data objects and
tasks.  One step per access to shared state: a worker runs the body of a task one buffer byte at a time, and clients
and other workers may be scheduled between any two of these steps.

Simplifications.  The ring buffer of a virtual accelerator is a list of at most `cap` tasks (that the ring is such a
queue for every interleaving is C07, `Verif.Queue`); the push happens under the spinlock of the virtual accelerator
(C09) and is one step, which blocks while the queue is full.  The virtual accelerators stay on their physical
accelerator.  Waking up workers is C32 and C33.  Reading and setting `data->accel` for one argument is one step.  Tasks whose
handler accesses bytes outside its buffers are excluded (`Prog.Fits`).  Memory is sequentially consistent.
-/
namespace Arax.Exec

/-- Point update. (No code of its own.) -/
def upd {α : Type} (f : Nat → α) (i : Nat) (v : α) : Nat → α := fun j => if j = i then v else f j
theorem upd_same {α : Type} (f : Nat → α) (i : Nat) (v : α) : upd f i v i = v := by simp [upd]
theorem upd_ne {α : Type} (f : Nat → α) (i j : Nat) (v : α) (h : j ≠ i) : upd f i v j = f j := by simp [upd, h]

/-- Contents of the data buffers: object, offset ↦ byte. `arax_data_s.buffer` (/repo/src/core/arax_data.h:36-51). -/
abbrev Mem := Nat → Nat → Nat
/-- Host area of a task: offset ↦ byte. `arax_task_host_data` (/repo/src/core/arax_task.c:51-62). -/
abbrev Host := Nat → Nat

/-- What a handler does: any terminating program that reads and writes bytes of its buffers (`k`-th element of `task->io`) and writes bytes
of the task's host area.  Reading the host area needs no instruction, its contents are fixed when the task is issued. A handler is the function called at /repo/controller/src/Core/accelThread.cpp:410. -/
inductive Prog where
  | done
  | read (k off : Nat) (cont : Nat → Prog)
  | write (k off b : Nat) (next : Prog)
  | out (off b : Nat) (next : Prog)

/-- The program stays inside its buffers (`size k` bytes each, `n` of them) and its host area (`hs` bytes). (No code of its own.) -/
def Prog.Fits (n : Nat) (size : Nat → Nat) (hs : Nat) : Prog → Prop
  | .done => True
  | .read k off cont => k < n ∧ off < size k ∧ ∀ b, (cont b).Fits n size hs
  | .write k off _ next => k < n ∧ off < size k ∧ next.Fits n size hs
  | .out off _ next => off < hs ∧ next.Fits n size hs

/-- Read byte `off` of the `k`-th buffer. A load through `arax_data_deref` (/repo/src/core/arax_data.c:260-272) in a handler. -/
def rd (io : List Nat) (m : Mem) (k off : Nat) : Nat :=
  match io[k]? with
  | some d => m d off
  | none => 0

/-- Write byte `off` of the `k`-th buffer. A store through `arax_data_deref` (/repo/src/core/arax_data.c:260-272) in a handler. -/
def wr (io : List Nat) (m : Mem) (k off b : Nat) : Mem :=
  match io[k]? with
  | some d => upd m d (upd (m d) off b)
  | none => m

/-! ## The built-in CPU handlers -/

/-- Write `bs` from offset `off` of buffer 0. The `memcpy`/`memset` loops of /repo/controller/src/Cpu/CpuBuiltins.cpp:18-38, 118-133. -/
def writeAll : List Nat → Nat → Prog
  | [], _ => .done
  | b :: bs, off => .write 0 off b (writeAll bs (off + 1))

/-- `arax_data_set` for CPU: copies the host area to the buffer (/repo/controller/src/Cpu/CpuBuiltins.cpp:118-133). The `memcpy` is modelled as a
forward byte copy. -/
def setProg (bs : List Nat) : Prog := writeAll bs 0

/-- Copy `n` bytes from offset `i` of buffer 0 to the host area. The `memcpy` of /repo/controller/src/Cpu/CpuBuiltins.cpp:100-116. -/
def copyOut : Nat → Nat → Prog
  | 0, _ => .done
  | n + 1, i => .read 0 i (fun b => .out i b (copyOut n (i + 1)))

/-- `arax_data_get` for CPU: copies the buffer to the host area (/repo/controller/src/Cpu/CpuBuiltins.cpp:100-116). -/
def getProg (size : Nat) : Prog := copyOut size 0

/-- `memset` for CPU (/repo/controller/src/Cpu/CpuBuiltins.cpp:18-38): the value is converted to `unsigned char`. -/
def memsetProg (off value n : Nat) : Prog := writeAll (List.replicate n (value % 256)) off

/-- Copy `n` bytes from buffer 0 at `so` to buffer 1 at `dof`. The `memcpy` of /repo/controller/src/Cpu/CpuBuiltins.cpp:39-85. -/
def copyBuf : Nat → Nat → Nat → Prog
  | 0, _, _ => .done
  | n + 1, so, dof => .read 0 so (fun b => .write 1 dof b (copyBuf n (so + 1) (dof + 1)))

/-- `memcpy` for CPU (/repo/controller/src/Cpu/CpuBuiltins.cpp:39-85): `io[0]` is the source, `io[1]` the destination (size 0 aborts the
controller and is outside this model). -/
def memcpyProg (so dof n : Nat) : Prog := copyBuf n so dof

/-! ## The system -/

/-- How the task was made: `arax_task_issue` by the user, `arax_data_set`, `arax_data_get`. /repo/src/arch/shm/impl.c:467, /repo/src/core/arax_data.c:75, 52. -/
inductive Kind where
  | user | set | get
  deriving DecidableEq, Repr

/-- A task (/repo/src/core/arax_task.h:9-23); `owner` (ghost) is the client thread that made it. -/
structure Task where
  owner : Nat
  vac : Nat
  io : List Nat
  prog : Prog
  kind : Kind

/-- Where a client thread is: outside the library; in the argument loop of `arax_task_alloc` for task `t`; about to push `t`;
waiting for `t`; aborted. /repo/src/core/arax_task.c:36-46, /repo/src/core/arax_vaccel.c:32-39, /repo/src/arch/shm/impl.c:515-522. -/
inductive PC where
  | idle | prep (t k : Nat) | push (t : Nat) | wait (t : Nat) | aborted
  deriving DecidableEq, Repr

/-- Shared state: buffer contents, `data->accel`, the tasks allocated so far, the queue of every virtual accelerator, completion flags,
host areas, worker threads (task and the rest of its program), clients.  Ghost: `log` is the order in which tasks entered the
queues, `exec` the order in which they were taken out, `ret` what a client saw in the host area when its wait returned. /repo/src/core/arax_data.h:36-51, arax_task.h:9-23, arax_vaccel.h:29-41. -/
structure St where
  mem : Mem
  accel : Nat → Option Nat
  task : Nat → Task
  next : Nat
  queue : Nat → List Nat
  fin : Nat → Bool
  host : Nat → Host
  worker : Nat → Option (Nat × Prog)
  client : Nat → PC
  log : List Nat
  exec : List Nat
  ret : Nat → Option Host

/-- Empty system with buffer contents `m0`. (After /repo/src/core/arax_pipe.c:8-55.) -/
def init0 (m0 : Mem) : St :=
  { mem := m0, accel := fun _ => none, task := fun _ => ⟨0, 0, [], .done, .user⟩, next := 0, queue := fun _ => [], fin := fun _ => false,
    host := fun _ _ => 0, worker := fun _ => none, client := fun _ => .idle, log := [], exec := [], ret := fun _ => none }

/-- Steps: client `c` calls `arax_task_issue` / `arax_data_set` / `arax_data_get` / `arax_task_wait`; client `c` goes on with its call; worker
`p` takes the next task of virtual accelerator `v`; worker `p` executes one step of its task. Lines at `step`: /repo/src/arch/shm/impl.c:467-522, /repo/src/core/arax_data.c:52-93. -/
inductive Act where
  | issue (c v : Nat) (io : List Nat) (prog : Prog)
  | set (c d v : Nat) (bs : List Nat)
  | get (c d : Nat)
  | wait (c t : Nat)
  | client (c : Nat)
  | pop (p v : Nat)
  | work (p : Nat)

/-- Allocate a task for an idle client (/repo/src/core/arax_task.c:15-31). -/
def begin (s : St) (c : Nat) (t : Task) : Option St :=
  if s.client c = .idle then some { s with task := upd s.task s.next t, next := s.next + 1, client := upd s.client c (.prep s.next 0) } else none

/-- One step. `ph v` is the physical accelerator of virtual accelerator `v`, `size d` the size of data object `d`, `cap` the
capacity of a queue.
- `issue`: /repo/src/arch/shm/impl.c:467-488; `set`: /repo/src/core/arax_data.c:75-93 (must be bound to `v` or to nothing, else abort);
  `get`: /repo/src/core/arax_data.c:52-73 (must be bound, uses the accelerator the data is bound to);
  `wait`: /repo/src/arch/shm/impl.c:515-522.
- `client` in `prep`: one argument through `arax_data_migrate_accel` (/repo/src/core/arax_task.c:36-46, /repo/src/core/arax_data.c:117-160);
  in `push`: `arax_vaccel_add_task` (/repo/src/core/arax_vaccel.c:32-39), a `get` goes on to wait (/repo/src/core/arax_data.c:66);
  in `wait`: returns once the task is marked done, and `get` copies the host area (/repo/src/core/arax_data.c:68).
- `pop`: `selectTask` (/repo/controller/src/Core/Scheduler.cpp), any scheduling policy;
- `work`: the handler (/repo/controller/src/Core/accelThread.cpp:410), then `arax_task_mark_done`. -/
def step (ph : Nat → Nat) (size : Nat → Nat) (cap : Nat) : Act → St → Option St
  | .issue c v io prog, s => begin s c ⟨c, v, io, prog, .user⟩
  | .set c d v bs, s =>
    if s.accel d = none ∨ s.accel d = some v then begin s c ⟨c, v, [d], setProg bs, .set⟩
    else if s.client c = .idle then some { s with client := upd s.client c .aborted } else none
  | .get c d, s =>
    match s.accel d with
    | some v => begin s c ⟨c, v, [d], getProg (size d), .get⟩
    | none => if s.client c = .idle then some { s with client := upd s.client c .aborted } else none
  | .wait c t, s =>
    if s.client c = .idle ∧ t ∈ s.log then some { s with client := upd s.client c (.wait t) } else none
  | .client c, s =>
    match s.client c with
    | .prep t k =>
      match (s.task t).io[k]? with
      | none => some { s with client := upd s.client c (.push t) }
      | some d =>
        match s.accel d with
        | none => some { s with accel := upd s.accel d (some (s.task t).vac), client := upd s.client c (.prep t (k + 1)) }
        | some v =>
          if ph v = ph (s.task t).vac then
            some { s with accel := upd s.accel d (some (s.task t).vac), client := upd s.client c (.prep t (k + 1)) }
          else some { s with client := upd s.client c .aborted }
    | .push t =>
      if (s.queue (s.task t).vac).length < cap then
        some { s with queue := upd s.queue (s.task t).vac (s.queue (s.task t).vac ++ [t]), log := s.log ++ [t],
                      client := upd s.client c (if (s.task t).kind = .get then .wait t else .idle) }
      else none
    | .wait t => if s.fin t then some { s with ret := upd s.ret t (some (s.host t)), client := upd s.client c .idle } else none
    | .idle => none
    | .aborted => none
  | .pop p v, s =>
    if ph v = p ∧ s.worker p = none then
      match s.queue v with
      | t :: rest => some { s with queue := upd s.queue v rest, worker := upd s.worker p (some (t, (s.task t).prog)), exec := s.exec ++ [t] }
      | [] => none
    else none
  | .work p, s =>
    match s.worker p with
    | some (t, .read k off cont) => some { s with worker := upd s.worker p (some (t, cont (rd (s.task t).io s.mem k off))) }
    | some (t, .write k off b next) => some { s with mem := wr (s.task t).io s.mem k off b, worker := upd s.worker p (some (t, next)) }
    | some (t, .out off b next) => some { s with host := upd s.host t (upd (s.host t) off b), worker := upd s.worker p (some (t, next)) }
    | some (t, .done) => some { s with fin := upd s.fin t true, worker := upd s.worker p none }
    | none => none

/-- Legal calls: handlers stay inside their buffers, `arax_data_set` is given as many bytes as the data object has. (No code of its own.) -/
def Legal (size : Nat → Nat) : Act → Prop
  | .issue _ _ io prog => ∃ hs, prog.Fits io.length (fun k => size (io.getD k 0)) hs
  | .set _ d _ bs => bs.length = size d
  | _ => True

/-- Reachable states. (No code of its own.) -/
inductive Reach (ph : Nat → Nat) (size : Nat → Nat) (cap : Nat) (m0 : Mem) : St → Prop where
  | init : Reach ph size cap m0 (init0 m0)
  | step {s s' : St} {a : Act} : Reach ph size cap m0 s → Legal size a → step ph size cap a s = some s' → Reach ph size cap m0 s'

end Arax.Exec
