/-!
# Model of task execution on devices with memory and streams of their own (CUDA, HIP, OpenCL)

Any number of accelerators (each a worker thread with a stream; several may share a device, so there is one flat device memory for all), virtual accelerators with a fixed physical accelerator each, data objects, clients. A handler puts an
operation into the worker's stream; the device executes the operations of a stream in order, byte by byte, the streams independently of each other, while workers and clients go on. Some handlers wait until their stream is empty.

Driver behaviour assumed: a stream is first-in first-out; `hipStreamSynchronize`, `cudaStreamSynchronize`, `clFinish` return when all operations of the stream have been executed; `hipMalloc`, `cudaMalloc`, `clCreateBuffer` give memory that
overlaps no other allocation, with any contents; `hipFree`, `cudaFree` wait for the operations that use the memory (they wait for the whole device), and `clReleaseMemObject` gives the memory back after them; fixed arguments of an operation
(addresses, sizes, values) are copied when it is enqueued, host buffers are read and written when it is executed.

Simplifications: a virtual accelerator is not moved to another physical one (C69); the worker takes the first task of any of its virtual accelerators (any scheduler); the user drops a data object when no task that has not run uses it (who drops
the last reference, and when: C80); throttles do not wait (C67, C68); sizes are below 2^64 and data objects not empty.
-/
namespace Arax.Stream

/-- Function update. (No code of its own.) -/
def upd {α : Type} (f : Nat → α) (i : Nat) (a : α) : Nat → α := fun j => if j = i then a else f j

/-- What a device does for one operation: a terminating program that reads and writes bytes of its buffers (`k`-th element of `task->io`) and of the task's host area. arax_task.c:51-62; AraxLibUtilsMemOps.h. -/
inductive Prog where
  | done
  | rd (k off : Nat) (f : Nat → Prog)
  | wr (k off b : Nat) (q : Prog)
  | hrd (off : Nat) (f : Nat → Prog)
  | hwr (off b : Nat) (q : Prog)

/-- The back-ends with memory of their own. controller/src/{Cuda,ROCm,OpenCL}. (No code of its own.) -/
inductive Backend where
  | cuda | hip | opencl
deriving DecidableEq

/-- Back-end, sizes of data objects, the physical accelerator of each virtual one, how many physical ones there are. (What the configuration and the driver give; controller/src/Core/Config.cpp:215-302.) -/
structure Conf where
  be : Backend
  size : Nat → Nat
  ph : Nat → Nat
  nw : Nat

/-- `size_t` to `int` and back, for sizes and offsets: the helpers of the OpenCL back-end take `int`. `none`: negative. CLHelper.h:35, 52, 69, 87-88, 104-105. -/
def toInt (n : Nat) : Option Nat := if n % 2 ^ 32 < 2 ^ 31 then some (n % 2 ^ 32) else none

/-- How much device memory a data object gets. HIPBuiltins.cpp:148; CUDAaccelThread.cpp:395; CLHelper.h:35-38 (nothing if the size is negative). -/
def Conf.dsz (cf : Conf) (d : Nat) : Nat := match cf.be with
  | .opencl => (toInt (cf.size d)).getD 0
  | _ => cf.size d

/-- Device memory of that size can be had: an OpenCL buffer of negative size cannot, `remote` stays NULL. CLHelper.h:35-49. -/
def Conf.fits (cf : Conf) (d : Nat) : Bool := match cf.be with
  | .opencl => (toInt (cf.size d)).isSome
  | _ => true

/-- Subtraction of `size_t`. (C.) -/
def usub (a b : Nat) : Nat := (a + 2 ^ 64 - b % 2 ^ 64) % 2 ^ 64

/-- What clients ask for: `arax_data_set` (arax_data.c:75-93), `arax_data_get` (52-73), tasks `memset` and `memcpy` (AraxLibUtilsMemOps.h:5-21), tasks of user libraries. `wait`: the field `sync`. `waits`: the user's handler waits for its stream. -/
inductive Req where
  | set (d : Nat) (bs : Nat → Nat)
  | get (d : Nat)
  | memset (d off val n : Nat)
  | memcpy (src dst so dof n : Nat) (wait : Bool)
  | kernel (io : List Nat) (prog : Prog) (host : Nat → Nat) (waits : Bool)

/-- `io[]` of the task. arax_data.c:64, 90; CUDABuiltins.cu:122-123, 202. -/
def Req.io : Req → List Nat
  | .set d _ => [d]
  | .get d => [d]
  | .memset d _ _ _ => [d]
  | .memcpy a b _ _ _ _ => [a, b]
  | .kernel io _ _ _ => io

/-- The host area at the start. arax_data.c:90, 64 (not initialised); impl.c:467-488. -/
def Req.host : Req → Nat → Nat
  | .set _ bs => bs
  | .kernel _ _ h _ => h
  | _ => fun _ => 0

/-- Copy `n` bytes of the host area to buffer 0, from `i` on. HIPBuiltins.cpp:363-364; CUDABuiltins.cu:271-272; CLHelper.h:52-65. -/
def copyIn : Nat → Nat → Prog
  | 0, _ => .done
  | n + 1, i => .hrd i fun b => .wr 0 i b (copyIn n (i + 1))

/-- Copy `n` bytes of buffer 0 to the host area, from `i` on. HIPBuiltins.cpp:393-394; CUDABuiltins.cu:294-295; CLHelper.h:69-83. -/
def copyOut : Nat → Nat → Prog
  | 0, _ => .done
  | n + 1, i => .rd 0 i fun b => .hwr i b (copyOut n (i + 1))

/-- Write `n` bytes to buffer 0, from `i` on; `f j` at `i + j`. HIPBuiltins.cpp:286; CUDABuiltins.cu:207; CLHelper.h:104-118. -/
def fill (f : Nat → Nat) : Nat → Nat → Prog
  | 0, _ => .done
  | n + 1, i => .wr 0 i (f 0) (fill (fun j => f (j + 1)) n (i + 1))

/-- Copy `n` bytes from buffer 0 at `a` to buffer 1 at `b`. HIPBuiltins.cpp:255; CUDABuiltins.cu:165; CLHelper.h:87-101. -/
def copyBuf : Nat → Nat → Nat → Prog
  | 0, _, _ => .done
  | n + 1, a, b => .rd 0 a fun x => .wr 1 b x (copyBuf n (a + 1) (b + 1))

/-- Byte `j` of the pattern of `clEnqueueFillBuffer`: the `int` at `&args->value`, little endian, again and again. OpenclBuiltins.cpp:161. -/
def pattern (val j : Nat) : Nat := val / 256 ^ (j % 4) % 256

/-- What a handler puts into the stream. `none`: it aborts the controller. An OpenCL call that fails does nothing (its error code is printed, at most).
`memset`: HIPBuiltins.cpp:272-299, CUDABuiltins.cu:199-216, OpenclBuiltins.cpp:147-168 (the size given is not used; the offset and the size of the data object have to be multiples of 4). `memcpy`: HIPBuiltins.cpp:200-267, CUDABuiltins.cu:119-189,
OpenclBuiltins.cpp:90-145 (copies as many bytes as the source has). `arax_data_set`: HIPBuiltins.cpp:344-371, CUDABuiltins.cu:251-281, OpenclBuiltins.cpp:191-214. `arax_data_get`: HIPBuiltins.cpp:380-403, CUDABuiltins.cu:288-305,
OpenclBuiltins.cpp:216-234. -/
def Conf.prog (cf : Conf) : Req → Option Prog
  | .set d _ => some (copyIn (cf.dsz d) 0)
  | .get d => some (copyOut (cf.dsz d) 0)
  | .memset d off val n => match cf.be with
    | .opencl => match toInt off with
      | none => some .done
      | some o => if o + cf.dsz d ≤ cf.dsz d ∧ o % 4 = 0 ∧ cf.dsz d % 4 = 0 then some (fill (pattern val) (cf.dsz d) o) else some .done
    | _ => some (fill (fun _ => val % 256) n off)
  | .memcpy src dst so dof n _ =>
    if n = 0 ∨ usub (cf.size dst) dof < n ∨ usub (cf.size src) so < n then none else match cf.be with
    | .opencl => match toInt so, toInt dof with
      | some a, some b => if a + cf.dsz src ≤ cf.dsz src ∧ b + cf.dsz src ≤ cf.dsz dst then some (copyBuf (cf.dsz src) a b) else some .done
      | _, _ => some .done
    | _ => some (copyBuf n so dof)
  | .kernel _ q _ _ => some q

/-- The handler waits until its stream is empty. HIPBuiltins.cpp:262, 367, 397; CUDABuiltins.cu:184, 273, 302; OpenclBuiltins.cpp:141, 209, 230. -/
def Conf.waits (_cf : Conf) : Req → Bool
  | .set _ _ => true
  | .get _ => true
  | .memset _ _ _ _ => false
  | .memcpy _ _ _ _ _ w => !w
  | .kernel _ _ _ w => w

/-- The handler marks its task as done. HIPBuiltins.cpp:265, 295, 398 and 368 (`set` does not); CUDABuiltins.cu:183-187, 214, 303; OpenclBuiltins.cpp:138 (before the wait of 141: here after it), 164, 231. -/
def Conf.marks (cf : Conf) : Req → Bool
  | .set _ _ => false
  | .memcpy _ _ _ _ _ w => w || cf.be != .cuda
  | _ => true

/-- The handler frees its task. HIPBuiltins.cpp:263, 368; CUDABuiltins.cu:183-186, 279; OpenclBuiltins.cpp:142, 165, 212. -/
def Conf.frees (cf : Conf) : Req → Bool
  | .set _ _ => true
  | .memset _ _ _ _ => cf.be == .opencl
  | .memcpy _ _ _ _ _ w => !w && cf.be != .cuda
  | _ => false

/-- A task. arax_task.h:9-23. -/
structure Task where
  vac : Nat
  req : Req

/-- An operation in a stream: whose it is, the addresses of its buffers, what is left to do. (/repo/controller/src/Cuda/CUDAaccelThread.cpp, /repo/controller/src/ROCm/HIPaccelThread.cpp:291-366: what the handlers put in the stream.) -/
structure Op where
  t : Nat
  base : Nat → Nat
  prog : Prog

/-- The worker: between tasks; has taken a task; waits for its stream. accelThread.cpp:371-437. -/
inductive W where
  | idle | begin (t : Nat) | wait (t : Nat)
deriving DecidableEq

/-- Everything. (Fields of /repo/src/core/arax_data.h:36-49 and /repo/src/core/arax_task.h, the queues, the workers of /repo/controller/src/Core/accelThread.cpp:363-445, and the device.) -/
structure St where
  n : Nat := 0                              -- tasks issued so far
  task : Nat → Task := fun _ => ⟨0, .get 0⟩
  bound : Nat → Option Nat := fun _ => none -- data->accel
  dropped : Nat → Bool := fun _ => false    -- the last reference of the data object is gone
  queue : List (Nat × Nat) := []            -- the queues: virtual accelerator, task
  worker : Nat → W := fun _ => .idle
  remote : Nat → Option Nat := fun _ => none
  mem : Nat → Nat                           -- device memory
  host : Nat → Nat → Nat := fun _ _ => 0    -- host areas
  stream : Nat → List Op := fun _ => []
  done : Nat → Bool := fun _ => false
  gone : Nat → Bool := fun _ => false       -- the task has been freed
  log : List Nat := []                      -- ghost: the tasks whose handlers have run, in order
  dead : Bool := false                      -- the controller has aborted

/-- What can happen. (The lines are at the functions below, one for each constructor.) -/
inductive Act where
  | issue (v : Nat) (r : Req)
  | take (p v : Nat)
  | alloc (p d b : Nat)
  | launch (p : Nat)
  | dev (p : Nat)
  | finish (p : Nat)
  | drop (d : Nat)
  | freeDev (p d : Nat)
  | userFree (t : Nat)
  | scribble (t : Nat) (h : Nat → Nat)

/-- `k`-th argument. (/repo/src/core/arax_task.c: `io[k]`.) -/
def arg (io : List Nat) (k : Nat) : Nat := io.getD k 0

/-- The first entry for `i`, and the rest. (No code of its own.) -/
def first (i : Nat) : List (Nat × Nat) → Option (Nat × List (Nat × Nat))
  | [] => none
  | (j, a) :: l => if j = i then some (a, l) else
    match first i l with
    | none => none
    | some (b, r) => some (b, (j, a) :: r)

/-- The physical accelerator of a data object. arax_data.c:139, HIPBuiltins.cpp:143. -/
def St.phys (cf : Conf) (s : St) (d : Nat) : Option Nat := (s.bound d).map cf.ph

/-- The library accepts the data object for a task on virtual accelerator `v`. `set`: arax_data.c:83; `get`: it goes to `data->accel` (arax_data.c:64); others: arax_data.c:117-160. -/
def St.accepts (cf : Conf) (s : St) (v d : Nat) : Req → Bool
  | .set _ _ => s.bound d == none || s.bound d == some v
  | .get _ => s.bound d == some v
  | _ => s.bound d == none || s.phys cf d == some (cf.ph v)

/-- The worker has task `t` in hand. (No code of its own.) -/
def W.has (w : W) (t : Nat) : Bool := w == .begin t || w == .wait t

/-- A task that has not been executed, or is being executed, uses the data object. arax_task.c:33-46, 89-97. -/
def St.inUse (cf : Conf) (s : St) (d : Nat) : Bool :=
  s.queue.any (fun x => (s.task x.2).req.io.contains d) ||
  (List.range cf.nw).any (fun p => match s.worker p with
    | .idle => false
    | .begin t => (s.task t).req.io.contains d
    | .wait t => (s.task t).req.io.contains d)

/-- Two ranges have no byte in common. (No code of its own.) -/
def apart (a n b m : Nat) : Bool := decide (a + n ≤ b) || decide (b + m ≤ a)

/-- The range `[b, b + n)` is apart from all device memory in use. (The driver.) -/
def St.roomAt (cf : Conf) (all : List Nat) (s : St) (b n : Nat) : Bool := all.all fun e => match s.remote e with
  | none => true
  | some c => apart b n c (cf.dsz e)

/-- The handler is at its end. (No code of its own.) -/
def St.complete (cf : Conf) (s : St) (t : Nat) : St :=
  { s with done := upd s.done t (cf.marks (s.task t).req), gone := upd s.gone t (cf.frees (s.task t).req) }

/-- One byte of an operation. (The device: no code of its own.) -/
def Prog.step (base : Nat → Nat) (m h : Nat → Nat) : Prog → Prog × (Nat → Nat) × (Nat → Nat)
  | .done => (.done, m, h)
  | .rd k off f => (f (m (base k + off)), m, h)
  | .wr k off b q => (q, upd m (base k + off) b, h)
  | .hrd off f => (f (h off), m, h)
  | .hwr off b q => (q, m, upd h off b)

/-- One step; `none`: it cannot happen now. `all`: the data objects there are (to look for overlaps).
`issue`: arax_task.c:7-75; impl.c:467-488. `take`: accelThread.cpp:371-395. `alloc`: accelThread.cpp:403-409; OpenclaccelThread.cpp:349-377 (no memory: an assertion fires); HIPBuiltins.cpp:133-154; CUDAaccelThread.cpp:252-287, 382-398; OpenclBuiltins.cpp:34-56. `launch`, `finish`: the handlers. `drop`: arax_data.c:373-403.
`freeDev`: HIPBuiltins.cpp:301-327; CUDABuiltins.cu:218-237; OpenclBuiltins.cpp:170-183. `userFree`: impl.c:515-529 after `arax_task_wait`. `scribble`: the memory of a freed task is used for something else. -/
def St.step (cf : Conf) (all : List Nat) (s : St) : Act → Option St
  | .issue v r =>
    if (∀ d ∈ r.io, d ∈ all ∧ s.dropped d = false ∧ s.accepts cf v d r = true) then
      some { s with n := s.n + 1, task := upd s.task s.n ⟨v, r⟩, bound := fun d => if d ∈ r.io then some v else s.bound d, queue := s.queue ++ [(v, s.n)], host := upd s.host s.n r.host }
    else none
  | .take p v =>
    if p < cf.nw ∧ cf.ph v = p ∧ s.worker p = .idle then
      match first v s.queue with
      | none => none
      | some (t, r) => some { s with queue := r, worker := upd s.worker p (.begin t) }
    else none
  | .alloc p d b =>
    match s.worker p with
    | .begin t =>
      if d ∈ (s.task t).req.io ∧ s.remote d = none ∧ s.roomAt cf all b (cf.dsz d) = true then
        if cf.fits d then some { s with remote := upd s.remote d (some b) } else some { s with dead := true }
      else none
    | _ => none
  | .launch p =>
    match s.worker p with
    | .begin t =>
      if (∀ d ∈ (s.task t).req.io, (s.remote d).isSome) then
        match cf.prog (s.task t).req with
        | none => some { s with dead := true }
        | some q =>
          let s1 : St := { s with log := s.log ++ [t], stream := upd s.stream p (s.stream p ++ [Op.mk t (fun k => (s.remote (arg (s.task t).req.io k)).getD 0) q]) }
          if cf.waits (s.task t).req then some { s1 with worker := upd s.worker p (.wait t) }
          else some (St.complete cf { s1 with worker := upd s.worker p .idle } t)
      else none
    | _ => none
  | .dev p =>
    match s.stream p with
    | [] => none
    | o :: l => match o.prog with
      | .done => some { s with stream := upd s.stream p l }
      | q =>
        let r := q.step o.base s.mem (s.host o.t)
        some { s with stream := upd s.stream p (⟨o.t, o.base, r.1⟩ :: l), mem := r.2.1, host := upd s.host o.t r.2.2 }
  | .finish p =>
    match s.worker p with
    | .wait t => match s.stream p with
      | [] => some (St.complete cf { s with worker := upd s.worker p .idle } t)
      | _ :: _ => none
    | _ => none
  | .drop d => if s.dropped d = false ∧ s.inUse cf d = false then some { s with dropped := upd s.dropped d true } else none
  | .freeDev p d =>
    if p < cf.nw ∧ s.worker p = .idle ∧ s.dropped d = true ∧ s.phys cf d = some p then
      match s.stream p with
      | [] => some { s with remote := upd s.remote d none }
      | _ :: _ => none
    else none
  | .userFree t => if s.done t = true ∧ s.gone t = false then some { s with gone := upd s.gone t true } else none
  | .scribble t h => if s.gone t = true then some { s with host := upd s.host t h } else none

/-- One step, or nothing: after the controller has aborted nothing happens any more. (Dispatch only: the lines are at the functions called.) -/
def St.act (cf : Conf) (all : List Nat) (s : St) (a : Act) : St := if s.dead then s else (s.step cf all a).getD s

/-- A history. (No code of its own.) -/
def St.exec (cf : Conf) (all : List Nat) (s : St) (h : List Act) : St := h.foldl (St.act cf all) s

/-- The start: device memory with any contents. (No code of its own.) -/
def start (m : Nat → Nat) : St := { mem := m }

end Arax.Stream
