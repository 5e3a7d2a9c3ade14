/-!
# Model for C93: `arax_init` that cannot join (`/repo/src/arch/shm/impl.c` `_arax_init`, `arax_exit`; `/repo/src/utils/system.c` `system_mmap`; `/repo/src/core/arax_pipe.c` `arax_pipe_init`)

One call of `_arax_init` by the first thread of a process, in an arbitrary environment: the configuration it reads and every answer the operating system and the segment can give.

Simplifications: `shm_off` is 0; the header of the segment is looked at once (races are C44); a mapping of the file is accessible up to the size of the file; waiting for the
controller after joining is C24; sizes that differ between processes are C72; the throttle, lists and key-value tables of a new pipe cannot fail to initialise (they only store into the header).
-/
namespace Arax.Startup

/-- What the process finds. `Nat` addresses; 0 is NULL.
`name`, `sizeCfg`: the values of `shm_file` and `shm_size` in the configuration (impl.c:54-60); `trunc`, `ivshmem`, `enforce`: impl.c:67-69; `total`: `system_total_memory` (system.c:13-19);
`openOk`, `truncOk`: do open/shm_open and ftruncate succeed (system.c:40-43, 50); `statSize`: what `stat(name)` says, 0 if it fails (system.c:68-76); `fileSize`: the size of the opened file;
`map1`, `map2`: the answers of the two `mmap` (system.c:55-57); `base`: CONF_ARAX_MMAP_BASE (impl.c:27); `ownAtBase`: memory of the process itself is there;
`self`: header field `self` of an existing segment (arax_pipe.c:165-173); `known`: the process number is in the process map (arax_pipe.c:126-146);
`users`: `processes` in the header; `rev`: the revision in the header, `none` as long as its first byte is 0 (arax_pipe.c:13); `myRev`: ARAX_GIT_REV;
`heapOk`: `arch_alloc_init_once` succeeds (arax_pipe.c:37); `header`: `sizeof(arax_pipe_s)`. -/
structure Env where
  name : Option String := some "arax"
  sizeCfg : Option Nat := none
  total : Nat := 1024
  trunc : Bool := true
  ivshmem : Bool := false
  enforce : Bool := true
  openOk : Bool := true
  truncOk : Bool := true
  statSize : Nat := 0
  fileSize : Nat := 0
  map1 : Option Nat := some 4096
  map2 : Option Nat := none
  base : Nat := 4096
  ownAtBase : Bool := false
  self : Option Nat := none
  known : Bool := false
  users : Nat := 0
  rev : Option String := none
  myRev : String := "r1"
  heapOk : Bool := true
  header : Nat := 8

/-- How the call ends. `returns a`: with the segment at `a`; `exits why`: the reason is printed, then `exit(1)`; `killed said`: by a signal, after printing `said` (if anything) to the buffer of stdout;
`hangs`: never returns; `wild`: goes on with memory of the process itself in place of the segment. (impl.c:33-130.) -/
inductive Result where
  | returns (a : Nat)
  | exits (why : String)
  | killed (said : Option String)
  | hangs
  | wild
  deriving DecidableEq

/-- The pointer `arax_state.vpipe`: NULL; CONF_ARAX_MMAP_BASE where nothing was mapped by this call; the place of a mapping of the file. (impl.c:17, 26-27, 76, 91.) -/
inductive Ptr where
  | null | base | mapped (v : Nat)
  deriving DecidableEq

/-- `shm_size` of this process (impl.c:58-60). -/
def Env.size (e : Env) : Nat := e.sizeCfg.getD (e.total / 4)

/-- `shm_trunc` after impl.c:71-74. -/
def Env.cut (e : Env) : Bool := e.trunc && !e.ivshmem

/-- Is the file cut or extended (system.c:49-52)? -/
def Env.truncates (e : Env) : Bool := e.cut && (e.statSize != e.size)

/-- Size of the file when it is mapped (system.c:49-58). -/
def Env.fileNow (e : Env) : Nat := if e.truncates && e.openOk && e.truncOk then e.size else e.fileSize

/-- `system_mmap` for the first time (system.c:37-66, called from impl.c:76): the value of `*base` and "does it report failure". The test of line 46 compares the pointer `fd`, not the descriptor,
and never succeeds, so a failed open is noticed by `ftruncate` or by `mmap`. -/
def sysMmap (e : Env) : Ptr × Bool :=
  if e.truncates && !(e.openOk && e.truncOk) then (.base, true)                 -- 50-51
  else if !e.openOk then (.null, true)                                          -- 60-62: mmap of descriptor -1
  else match e.map1 with
    | none => (.null, true)                                                     -- 60-62
    | some v => (.mapped v, false)

/-- Can the header be read through the pointer? (The kernel.) -/
def Env.readable (e : Env) : Ptr → Bool
  | .null => false
  | .base => e.ownAtBase
  | .mapped _ => decide (e.header ≤ e.fileNow)

/-- The label FAIL (impl.c:124-129): the reason is printed, then `arax_state.vpipe->shm_size` is read for `munmap`, then `exit(1)`. -/
def fail (e : Env) (p : Ptr) (why : String) : Result := if e.readable p then .exits why else .killed (some why)

/-- `arax_pipe_init` at the proper address `a` (arax_pipe.c:5-56, impl.c:101-104). -/
def pipeInit (e : Env) (a : Nat) : Result :=
  if e.users ≠ 0 then
    match e.rev with
    | none => .hangs                                                            -- 13
    | some r => if r ≠ e.myRev ∧ e.enforce then fail e .null "Could not initialize arax_pipe" else .returns a   -- 14-20
  else if e.heapOk then .returns a else fail e .null "Could not initialize arax_pipe"                          -- 37-38

/-- impl.c:85-104 with the file mapped at `v`. -/
def place (e : Env) (v : Nat) : Result :=
  if !e.readable (.mapped v) then .killed none                                  -- 85: the header is behind the end of the file
  else
    let a := e.self.getD v                                                      -- 85, arax_pipe.c:165-173
    if e.known then                                                             -- 87, 97-98
      if a = v then pipeInit e a else .killed none                              -- nothing was mapped at `a`
    else if a = v then pipeInit e a
    else match e.map2 with                                                      -- 89-95
      | none => fail e .null "Could not mmap shm_file in proper address"
      | some w => if w = a then pipeInit e a else fail e (.mapped w) "Could not mmap shm_file in proper address"

/-- `_arax_init` of the first thread (impl.c:49-114). -/
def start (e : Env) : Result :=
  match e.name with
  | none => fail e .base "No shm_file set in config"                            -- 54-55
  | some _ =>
    if e.size = 0 ∨ e.total < e.size then fail e .base "shm_size exceeds system memory"   -- 62-63
    else match sysMmap e with
      | (p, true) =>
        if !e.openOk then fail e p "Could not open shm_file"                    -- 79-80
        else match p with
          | .null => fail e .null "Could not first mmap shm_file"               -- 81-82
          | .base => if e.ownAtBase then .wild else .killed none                -- 85: goes on where nothing was mapped
          | .mapped v => place e v
      | (.mapped v, false) => place e v
      | (_, false) => .killed none

/-! ## Calls of one thread -/

/-- What the process knows: `arax_state.threads` (a `uint64_t`), `.initialized`, `.vpipe != 0`, and whether the segment is mapped. (impl.c:15-27.) -/
structure Proc where
  threads : Nat := 0
  initialized : Bool := false
  vpipe : Bool := true
  mapped : Bool := false
  deriving DecidableEq

/-- The two calls. (/repo/src/arch/shm/impl.c:132-136, 156-191.) -/
inductive Call where
  | init | exit
  deriving DecidableEq

/-- What a call does: returns with the segment mapped; leaves the segment mapped for others of the process (`exit`), or unmaps it; prints the warning; spins for ever; is killed.
(impl.c:44-47, 114-122, 156-190.) -/
inductive Ret where
  | joined | left | unmapped | warned | hangs | killed
  deriving DecidableEq

/-- `arax_state.threads` is a `uint64_t` (impl.c:19). -/
def W : Nat := 2 ^ 64

/-- One call of a process with a single thread whose environment lets it join. `arax_init`: impl.c:44-47 and, for the first, 49-114; then 116-121 uses the
segment. `arax_exit`: impl.c:156-191. -/
def call (s : Proc) : Call → Proc × Ret
  | .init =>
    let n := (s.threads + 1) % W
    if s.threads ≠ 0 then                                                        -- 44
      if s.initialized then                                                      -- 45
        ({ s with threads := n }, if s.mapped then .joined else .killed)         -- 115-122
      else ({ s with threads := n }, .hangs)
    else ({ threads := n, initialized := true, vpipe := true, mapped := true }, .joined)
  | .exit =>
    if s.vpipe then                                                              -- 160
      let n := (s.threads + W - 1) % W
      if s.threads = 1 then                                                      -- 161
        if s.mapped then ({ s with threads := n, mapped := false }, .unmapped)   -- 162-184: `vpipe` is CONF_ARAX_MMAP_BASE again
        else ({ s with threads := n }, .killed)
      else ({ s with threads := n }, .left)
    else (s, .warned)                                                            -- 186-190

/-- A history: what each call did. (No code of its own; the calls after one that does not return are not made.) -/
def run (s : Proc) : List Call → List Ret
  | [] => []
  | c :: cs =>
    let r := call s c
    if r.2 = .hangs ∨ r.2 = .killed then [r.2] else r.2 :: run r.1 cs

end Arax.Startup
