import Verif.Outcome
/-!
# Model for C72: the size and the place of the shared segment (`/repo/src/arch/shm/impl.c` `_arax_init`, `arax_exit`; `/repo/src/utils/system.c` `system_mmap`)

One segment name; any number of processes, each with its own configuration (`shm_size`, `shm_trunc`) and its own address space. Addresses and sizes are in pages.

Simplifications: joining and leaving are atomic steps (their races are C43 and C44); the process map answers "map" for every joining process (C42); sizes are at least the header; opening, `ftruncate`
and access rights do not fail; a process that fails is gone with its address space, and what it had in the segment stays.
-/
namespace Arax.Segment

/-- What an address of a process holds: nothing, a page of the segment, or memory of the process itself. (No code of its own.) (The kernel.) -/
inductive Use where
  | free | seg | own
  deriving DecidableEq

/-- The shared file: its size, contents, and the header fields `shm_size`, `self`, `processes` (/repo/include/core/arax_pipe.h; set in arax_pipe.c:12-25, 116-124, 165-173). -/
structure File where
  size : Nat := 0
  data : Nat → Nat := fun _ => 0
  shmSize : Nat := 0
  self : Option Nat := none
  users : Nat := 0

/-- A process: not joined; joined with the segment at `base`, `len` pages mapped (its own `shm_size`); ended by `exit(1)` in `_arax_init`; killed by SIGSEGV (page not mapped); killed by SIGBUS
(page behind the end of the file). (impl.c:122, 124-129; mmap(2).) -/
inductive PSt where
  | out | joined (base len : Nat) | failed | segv | bus
  deriving DecidableEq

/-- State. `file = none`: the name does not exist. (/repo/src/arch/shm/impl.c:17-31, and the kernel.) -/
structure St where
  file : Option File := none
  st : Nat → PSt := fun _ => .out
  mem : Nat → Nat → Use

/-- Function update. (No code of its own.) -/
def upd {α : Type} (f : Nat → α) (i : Nat) (v : α) : Nat → α := fun j => if j = i then v else f j

/-- Is `[a, a+n)` free? (Kernel, mmap(2).) -/
def rangeFree (m : Nat → Use) (a n : Nat) : Bool := (List.range n).all fun i => m (a + i) == .free

/-- The address space after mapping the segment at `a`. (Kernel, mmap(2).) -/
def mapAt (m : Nat → Use) (a n : Nat) : Nat → Use := fun x => if a ≤ x ∧ x < a + n then .seg else m x

/-- The address space after `munmap(a, n)`: whatever is there is unmapped. (Kernel, munmap(2).) -/
def unmapAt (m : Nat → Use) (a n : Nat) : Nat → Use := fun x => if a ≤ x ∧ x < a + n then .free else m x

/-- `mmap(hint, n)` without MAP_FIXED (system.c:54-58): at the hint if that range is free, otherwise at `alt`, the choice of the kernel, if free. -/
def mmap (m : Nat → Use) (hint n alt : Nat) : Option Nat :=
  if rangeFree m hint n then some hint else if rangeFree m alt n then some alt else none

/-- `ftruncate(fd, n)`: pages behind `n` are lost; new pages are zero. (Kernel.) -/
def File.trunc (f : File) (n : Nat) : File := { f with size := n, data := fun i => if i < n ∧ i < f.size then f.data i else 0 }

/-- What a process or its environment does. `join`: `arax_init` with this configuration; `alt`, `alt2` are the kernel's choices. `grab`: the process allocates memory of its own. (/repo/src/arch/shm/impl.c:33-101, 156-191.) -/
inductive Act where
  | join (p size : Nat) (trunc : Bool) (alt alt2 : Nat)
  | exit (p : Nat)
  | write (p off val : Nat)
  | grab (p a n : Nat)

/-- Address where the segment should be: CONF_ARAX_MMAP_BASE (impl.c:27, 175). -/
abbrev Base := Nat

/-- `_arax_init` of process `p` (impl.c:76-101) on the opened file `f` (created empty by `O_CREAT`, system.c:39-44). -/
def joinFile (B : Base) (s : St) (p size : Nat) (trunc : Bool) (alt alt2 : Nat) (f0 : File) : St :=
  let f := if trunc then f0.trunc size else f0                                       -- system.c:49-52
  match mmap (s.mem p) B size alt with
  | none => { s with file := some f, st := upd s.st p .failed }                      -- impl.c:81-82
  | some v =>
    if f.size = 0 then { s with file := some f, st := upd s.st p .bus }              -- impl.c:85: the header is behind the end of the file
    else
      let self := f.self.getD v                                                      -- impl.c:85, arax_pipe.c:165-173
      let f := { f with self := some self }
      let m1 := mapAt (s.mem p) v size
      if self = v then
        let f' := { f with users := f.users + 1, shmSize := if f.users = 0 then size else f.shmSize }   -- impl.c:101, arax_pipe.c:10-25
        { s with file := some f', st := upd s.st p (.joined v size), mem := upd s.mem p m1 }
      else
        let m2 := unmapAt m1 v f.shmSize                                             -- impl.c:89
        match mmap m2 self size alt2 with
        | none => { s with file := some f, st := upd s.st p .failed }
        | some w =>
          if w = self then
            let f' := { f with users := f.users + 1, shmSize := if f.users = 0 then size else f.shmSize }
            { s with file := some f', st := upd s.st p (.joined w size), mem := upd s.mem p (mapAt m2 w size) }
          else { s with file := some f, st := upd s.st p .failed }                   -- impl.c:93-95

/-- One step. `exit`: impl.c:161-185 for the last thread of the process. `write`: an access of the process to page `off` of the segment (through any pointer in it). -/
def step (B : Base) (s : St) : Act → St
  | .join p size trunc alt alt2 =>
    if s.st p = .out then joinFile B s p size trunc alt alt2 (s.file.getD {}) else s
  | .exit p =>
    match s.st p, s.file with
    | .joined b _, some f =>
      { file := if f.users = 1 then none else some { f with users := f.users - 1 },        -- 162, 181-184
        st := upd s.st p .out, mem := upd s.mem p (unmapAt (s.mem p) b f.shmSize) }         -- 173-175
    | _, _ => s
  | .write p off val =>
    match s.st p, s.file with
    | .joined b _, some f =>
      if s.mem p (b + off) ≠ .seg then { s with st := upd s.st p .segv }
      else if off < f.size then { s with file := some { f with data := upd f.data off val } }
      else { s with st := upd s.st p .bus }
    | _, _ => s
  | .grab p a n => if rangeFree (s.mem p) a n then { s with mem := upd s.mem p (fun x => if a ≤ x ∧ x < a + n then .own else s.mem p x) } else s

/-- A history. (No code of its own.) -/
def exec (B : Base) (s : St) (h : List Act) : St := h.foldl (step B) s

end Arax.Segment
