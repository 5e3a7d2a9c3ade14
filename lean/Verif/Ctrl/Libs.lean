import Verif.Outcome
/-!
# Model for C71: loading handler libraries (`/repo/controller/src/Core/araxLibMgr.cpp`)

Part 1: `loadFolder` at startup, on any file system. A path is the string the code builds. Part 2: the run-time loader thread and the inotify queue.

Simplifications: the file system does not change while `loadFolder` runs, and `readdir` lists every entry once; `opendir` fails for paths of `maxLen` or more characters
(ENAMETOOLONG), which is what ends loops of symbolic links; what a library registers when loaded is C53; `libs` remembers the paths with a handle (a `std::map`: the order here is
the order of loading).
-/
namespace Arax.Libs

/-- File names. /repo/controller/src/Core/araxLibMgr.cpp:160-260. -/
abbrev Path := List Char
/-- Names of entries of a folder. /repo/controller/src/Core/araxLibMgr.cpp:160-260. -/
abbrev Name := List Char

/-- `lib_path + "/" + itr->d_name` (araxLibMgr.cpp:166), `lib_fd_paths[wd] + "/" + name` (290). -/
def sub (d : Path) (n : Name) : Path := d ++ '/' :: n

/-- The file system as the loader sees it: `ls p` are the names `readdir` gives for the folder `p` (`none`: not a folder, or not readable); `good p`: the file is an ELF file with a
section `.ARAX_HANDLERS` that dlopen accepts (araxLibMgr.cpp:184-234). -/
structure FS where
  ls : Path → Option (List Name)
  good : Path → Bool

/-- `lib_file.rfind(".so") != npos` (araxLibMgr.cpp:178): the whole path is searched. -/
def hasSo : List Char → Bool
  | [] => false
  | c :: r => ['.', 's', 'o'].isPrefixOf (c :: r) || hasSo r

/-- `itr->d_name[0] == '.'` (araxLibMgr.cpp:163). -/
def hidden : Name → Bool
  | '.' :: _ => true
  | _ => false

/-- `lib_paths` and `libs` (AraxLibMgr.h). (/repo/controller/include/AraxLibMgr.h:35-37.) -/
structure St where
  paths : List Path := []
  libs : List Path := []

/-- `loadLibrary` (araxLibMgr.cpp:176-255). -/
def loadLibrary (fs : FS) (st : St) (p : Path) : St :=
  if hasSo p = true ∧ p ∉ st.libs ∧ fs.good p = true then { st with libs := st.libs ++ [p] } else st

/-- `loadFolder` (araxLibMgr.cpp:138-174): the new state, and whether it returned true. -/
def loadFolder (fs : FS) (maxLen : Nat) (st : St) (p : Path) : St × Bool :=
  if p ∈ st.paths then (st, true)                                            -- 144-145
  else if _h : maxLen ≤ p.length then (st, false)                            -- 147-153, ENAMETOOLONG
  else
    match fs.ls p with
    | none => (st, false)                                                    -- 149-153
    | some ns =>
      (ns.foldl (fun st n =>                                                 -- 160-170
        if hidden n then st
        else
          let r := loadFolder fs maxLen st (sub p n)
          if r.2 then r.1 else loadLibrary fs r.1 (sub p n)) { st with paths := p :: st.paths }, true)
termination_by maxLen - p.length
decreasing_by simp [sub]; omega

/-- The startup of the controller: the configured paths and BUILTINS_PATH in order; the first that cannot be opened ends it (arax_controller.cpp:153-158). -/
def startup (fs : FS) (maxLen : Nat) : List Path → St → St × Bool
  | [], st => (st, true)
  | p :: ps, st =>
    let r := loadFolder fs maxLen st p
    if r.2 then startup fs maxLen ps r.1 else (r.1, false)

/-! ### The run-time loader -/

/-- State of the run-time loader: watched folders, the good libraries on disk with their version, loaded libraries with the version loaded, pending inotify events (oldest first),
`run`, whether the thread has ended, whether it used an uninitialised event. araxLibMgr.cpp:136, 155, 270-307. -/
structure RSt where
  watched : List Path
  disk : Path → Option Nat := fun _ => none
  libs : List (Path × Nat) := []
  evq : List (Path × Name) := []
  run : Bool := true
  ended : Bool := false
  ub : Bool := false

/-- Size of an inotify event: the header of 16 bytes and the name with its terminating zero, padded to a multiple of 16 (inotify(7)). (inotify(7), as read by /repo/controller/src/Core/araxLibMgr.cpp.) -/
def evSize (e : Path × Name) : Nat := 16 + (e.2.length + 1 + 15) / 16 * 16

/-- `sizeof(InotifyEvent)` (araxLibMgr.cpp:275-278). -/
def bufSize : Nat := 256

/-- How many pending events one `read` of `room` bytes takes (inotify(7): as many whole events as fit). (As read by /repo/controller/src/Core/araxLibMgr.cpp.) -/
def batch : Nat → List (Path × Name) → Nat
  | _, [] => 0
  | room, e :: es => if evSize e ≤ room then batch (room - evSize e) es + 1 else 0

/-- What happens: somebody closes a file he had opened for writing (`ver`: the good library it now is, if any), renames a file into a folder, removes a file; the loader thread reads;
the destructor stops the thread (`ok`: it can create a file in the first folder). (The environment, and /repo/controller/src/Core/araxLibMgr.cpp.) -/
inductive Act where
  | close (d : Path) (n : Name) (ver : Option Nat)
  | rename (d : Path) (n : Name) (ver : Option Nat)
  | read
  | stop (ok : Bool)

/-- `loadLibrary` (araxLibMgr.cpp:176-255) at run time. -/
def loadAt (s : RSt) (p : Path) : RSt :=
  match s.disk p with
  | none => s
  | some v => if hasSo p = true ∧ (s.libs.any fun x => x.1 == p) = false then { s with libs := s.libs ++ [(p, v)] } else s

/-- One step. `close` and `rename`: the watch is for IN_CLOSE_WRITE only (/repo/controller/src/Core/araxLibMgr.cpp:155-156). `read`: 283-291; blocks without events; with a first event that does not fit it fails with EINVAL, and the
code uses an uninitialised structure. `stop`: 296-299, creates `run.false` in the first folder. -/
def rstep (s : RSt) : Act → RSt
  | .close d n v =>
    { s with disk := (fun q => if q = sub d n then v else s.disk q), evq := if d ∈ s.watched then s.evq ++ [(d, n)] else s.evq }
  | .rename d n v => { s with disk := fun q => if q = sub d n then v else s.disk q }
  | .read =>
    if s.ended then s
    else if s.run = false ∧ s.evq = [] then s
    else
      match s.evq with
      | [] => s
      | e :: es =>
        match batch bufSize (e :: es) with
        | 0 => { s with ub := true }
        | k + 1 =>
          let s' := loadAt { s with evq := (e :: es).drop (k + 1) } (sub e.1 e.2)
          { s' with ended := !s.run }
  | .stop ok =>
    match s.watched with
    | [] => { s with run := false }
    | d :: _ => { s with run := false, evq := if ok then s.evq ++ [(d, "run.false".toList)] else s.evq }

/-- A history of the run-time loader. (No code of its own.) -/
def rexec (s : RSt) (h : List Act) : RSt := h.foldl rstep s

end Arax.Libs
