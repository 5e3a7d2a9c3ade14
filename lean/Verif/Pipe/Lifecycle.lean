import Verif.Object.Props
/-!
# Life of the shared segment: `arax_init` / `arax_exit` (C43)

Any number of processes, each with any number of callers (threads).  One step per shared access that
matters: the atomic operations on `arax_state.threads` and `pipe->processes`, the opening/mapping of the
segment, the flag `arax_state.initialized`, unmapping and unlinking.
Not modelled here: waiting for the controller (C24), the leak check (C26), failing calls (`exit(1)`),
the contents of the pipe (C44) and the process map (C42).
-/
namespace Arax.Life
open Arax.Object (sumTo sumTo_update sumTo_ge sumTo_zero sumTo_pos sumTo_congr)

/-- Where a caller is.
`i1`…`i3`: inside `_arax_init` as the first thread of its process (before opening/mapping, before `arax_pipe_init`'s
`processes++`, before `initialized = 1`); `iw`: inside `_arax_init`, spinning on `initialized`;
`e1`…`e3`: inside `arax_exit` as the last thread (before `processes--`, before `munmap`, before `shm_unlink`). /repo/src/arch/shm/impl.c:44-114, 156-190. -/
inductive PC where
  | idle | i1 | i2 | i3 | iw | e1 | e2 (last : Bool) | e3
  deriving DecidableEq

/-- `pc`, `depth` per caller (`depth` = inits minus exits of this caller); `threads`, `inited`, `attached` per
process (`arax_state.threads`, `.initialized`, and which segment `.vpipe` maps); `procs` per segment
(`pipe->processes`); `linked` = the segment the file name refers to; `next` = next unused segment identity.
`counted` is ghost: process is counted in `processes`. /repo/src/arch/shm/impl.c:15-27, /repo/include/arax_pipe.h:29. -/
structure St where
  pc : Nat → PC
  depth : Nat → Nat
  threads : Nat → Nat
  inited : Nat → Bool
  attached : Nat → Option Nat
  counted : Nat → Bool
  procs : Nat → Nat
  linked : Option Nat
  next : Nat

/-- Point update. (No code of its own.) -/
def upd {α : Type} (f : Nat → α) (i : Nat) (v : α) : Nat → α := fun j => if j = i then v else f j

theorem upd_same {α : Type} (f : Nat → α) (i : Nat) (v : α) : upd f i v i = v := by simp [upd]
theorem upd_ne {α : Type} (f : Nat → α) (i j : Nat) (v : α) (h : j ≠ i) : upd f i v j = f j := by simp [upd, h]

/-- The step names; the caller is the argument. Lines at `step` (/repo/src/arch/shm/impl.c:44-122, 156-190). -/
inductive Act where
  | init (t : Nat)
  | map (t : Nat)
  | join (t : Nat)
  | ready (t : Nat)
  | wait (t : Nat)
  | exit (t : Nat)
  | leave (t : Nat)
  | unmap (t : Nat)
  | unlink (t : Nat)
  | api (t : Nat)
  deriving DecidableEq

/-- Nobody has called anything; the file does not exist. (/repo/src/arch/shm/impl.c:26-27.) -/
def init0 : St :=
  { pc := fun _ => .idle, depth := fun _ => 0, threads := fun _ => 0, inited := fun _ => false,
    attached := fun _ => none, counted := fun _ => false, procs := fun _ => 0, linked := none, next := 0 }

/-- One step; `proc t` is the process of caller `t`; `none` = the step is not possible.
* `init`  /repo/src/arch/shm/impl.c:44-47 (`threads++`; first or not);
* `map`   impl.c:76-99 (open with O_CREAT and map: the existing segment or a new zeroed one, /repo/src/utils/system.c);
* `join`  /repo/src/core/arax_pipe.c:10 (`processes++`);
* `ready` impl.c:114 (`initialized = 1`), the call returns;
* `wait`  impl.c:45: the spin on `initialized` ends, the call returns;
* `exit`  impl.c:161 (`threads--`), only issued for a caller's own earlier `arax_init`;
* `leave` /repo/src/core/arax_pipe.c:243 (`processes--`);
* `unmap` impl.c:173-175;
* `unlink` impl.c:181-183, 193-207; `abs` says that the configured `shm_file` starts with '/': then the segment was created
  with `open` (/repo/src/utils/system.c:40-43), but is still removed with `shm_unlink`, which looks in another
  directory and fails;
* `api`   an API call that uses `arax_ptr_valid` (arax_data_ref, arax_data_ref_offset, the controller's worker for
  every task): /repo/src/core/arax_ptr.c:6 calls `arax_init` and never `arax_exit`; the calling process is initialised. -/
def step (abs : Bool) (proc : Nat → Nat) (a : Act) (s : St) : Option St :=
  match a with
  | .init t =>
    if s.pc t = .idle then
      some { s with threads := upd s.threads (proc t) (s.threads (proc t) + 1),
                    pc := upd s.pc t (if s.threads (proc t) = 0 then .i1 else .iw) }
    else none
  | .map t =>
    if s.pc t = .i1 then
      match s.linked with
      | some g => some { s with attached := upd s.attached (proc t) (some g), pc := upd s.pc t .i2 }
      | none => some { s with linked := some s.next, next := s.next + 1, procs := upd s.procs s.next 0,
                              attached := upd s.attached (proc t) (some s.next), pc := upd s.pc t .i2 }
    else none
  | .join t =>
    if s.pc t = .i2 then
      match s.attached (proc t) with
      | some g => some { s with procs := upd s.procs g (s.procs g + 1), counted := upd s.counted (proc t) true,
                                pc := upd s.pc t .i3 }
      | none => none
    else none
  | .ready t =>
    if s.pc t = .i3 then
      some { s with inited := upd s.inited (proc t) true, depth := upd s.depth t (s.depth t + 1), pc := upd s.pc t .idle }
    else none
  | .wait t =>
    if s.pc t = .iw ∧ s.inited (proc t) = true then
      some { s with depth := upd s.depth t (s.depth t + 1), pc := upd s.pc t .idle }
    else none
  | .exit t =>
    if s.pc t = .idle ∧ 0 < s.depth t then
      some { s with threads := upd s.threads (proc t) (s.threads (proc t) - 1), depth := upd s.depth t (s.depth t - 1),
                    pc := upd s.pc t (if s.threads (proc t) = 1 then .e1 else .idle) }
    else none
  | .leave t =>
    if s.pc t = .e1 then
      match s.attached (proc t) with
      | some g => some { s with procs := upd s.procs g (s.procs g - 1), counted := upd s.counted (proc t) false,
                                pc := upd s.pc t (.e2 (decide (s.procs g = 1))) }
      | none => none
    else none
  | .unmap t =>
    match s.pc t with
    | .e2 l => some { s with attached := upd s.attached (proc t) none, pc := upd s.pc t (if l then .e3 else .idle) }
    | _ => none
  | .unlink t =>
    if s.pc t = .e3 then some { s with linked := if abs then s.linked else none, pc := upd s.pc t .idle } else none
  | .api t =>
    if s.pc t = .idle ∧ 0 < s.depth t then
      some { s with threads := upd s.threads (proc t) (s.threads (proc t) + 1) }
    else none

/-- The caller of a step. (No code of its own.) -/
def Act.caller : Act → Nat
  | .init t | .map t | .join t | .ready t | .wait t | .exit t | .leave t | .unmap t | .unlink t | .api t => t

/-- States reachable by `T` callers in `P` processes when every step satisfies `ok`. (No code of its own.) -/
inductive Reach (abs : Bool) (T P : Nat) (proc : Nat → Nat) (ok : St → Act → Prop) : St → Prop where
  | init : Reach abs T P proc ok init0
  | step {s s' : St} {a : Act} : Reach abs T P proc ok s → a.caller < T → proc a.caller < P → ok s a → step abs proc a s = some s' →
      Reach abs T P proc ok s'

/-- Inside `_arax_init` as first thread. (No code of its own.) -/
def PC.isI : PC → Bool
  | .i1 | .i2 | .i3 => true
  | _ => false
/-- Inside `arax_exit` as last thread. (No code of its own.) -/
def PC.isE : PC → Bool
  | .e1 | .e2 _ | .e3 => true
  | _ => false

end Arax.Life
