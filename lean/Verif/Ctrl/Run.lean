/-!
# Model for C95: a whole run of the controller (`/repo/controller/src/Core/arax_controller.cpp` `main`, with `araxLibMgr.cpp` and `arax_exit`)

What a run leaves behind in the shared segment, for every way it can end. The steps in between are modelled elsewhere: reading the configuration (C85), joining (C44, C93), loading libraries (C53, C71),
workers (C70), the objects (C25, C26).

Simplifications: nothing else changes the segment during the run (other processes may hold it, but do not join, leave, or register anything); joining succeeds; the accelerators initialise and the
workers end when asked to; a procedure is its name.
-/
namespace Arax.Run

/-- The shared segment, as far as a run of the controller changes it: the number of processes that use it, the names of the registered procedures, the number of registered physical accelerators.
(/repo/include/arax_pipe.h; `arax_object_repo_s`.) -/
structure Seg where
  users : Nat := 0
  procs : List String := []
  accels : Nat := 0
  deriving DecidableEq

/-- A configured accelerator: is there a thread for its type (Factory.h:33-39), does `pthread_setaffinity_np` accept its cores (accelThread.cpp:67-69)? -/
structure Accel where
  known : Bool := true
  cores : Bool := true
  deriving DecidableEq

/-- A configuration that was read: `clean_shm`; the library folders in order, including the built-in one (arax_controller.cpp:133-135), each with the kernels of its libraries, `none` if it cannot be opened;
the accelerators. -/
structure Conf where
  clean : Bool := false
  folders : List (Option (List String)) := []
  accels : List Accel := []
  deriving DecidableEq

/-- What the run is given: is there an argument (122)? the configuration, or why it is wrong (`Config`'s constructor throws, Config.cpp:51-299). -/
structure Env where
  arg : Bool := true
  conf : Except String Conf

/-- How a process ends: by returning a status from `main` after printing something (or not), or by SIGABRT. (/repo/controller/src/Core/arax_controller.cpp:119-235.) -/
inductive End where
  | status (n : Int)
  | aborted
  deriving DecidableEq

/-- `arax_controller_init_start` (148): join; the first user initialises the segment anew, whatever was in it (arax_pipe.c:10-56). -/
def join : Option Seg → Seg
  | none => { users := 1 }
  | some s => if s.users = 0 then { users := 1 } else { s with users := s.users + 1 }

/-- `arax_proc_register` for a kernel of a library (araxLibMgr.cpp:249, impl.c:384-398): a procedure of that name is made if there is none. The result is not put into `AraxLibMgr::procs`. -/
def register (s : Seg) (k : String) : Seg := if k ∈ s.procs then s else { s with procs := k :: s.procs }

/-- The loop over the folders (/repo/controller/src/Core/arax_controller.cpp:153-158); `false`: a folder cannot be opened, and `main` returns -1. -/
def loadAll (s : Seg) : List (Option (List String)) → Seg × Bool
  | [] => (s, true)
  | none :: _ => (s, false)
  | some ks :: r => loadAll (ks.foldl register s) r

/-- The second loop of `spawnThreads` (86-90): every worker registers its accelerator (accelThread.cpp:334); `false`: an exception by value (accelThread.cpp:69). -/
def startAll (s : Seg) : List Accel → Seg × Bool
  | [] => (s, true)
  | a :: r => if a.cores then startAll { s with accels := s.accels + 1 } r else ({ s with accels := s.accels + 1 }, false)

/-- `unloadLibraries` (araxLibMgr.cpp:257-268): puts every procedure in `AraxLibMgr::procs`, a set that nothing is ever inserted into. -/
def unload (procsOfMgr : List String) (s : Seg) : Seg := { s with procs := s.procs.filter (· ∉ procsOfMgr) }

/-- `arax_exit` of the controller (impl.c:156-191). `before`: what was registered when this process joined. The last user asserts that the available memory is what it was then (165-166); the assertion fails
if there are procedures that were not there before, and aborts before the segment is removed (182). -/
def leave (before : List String) (s : Seg) : Option Seg × End :=
  if s.users = 1 then
    if s.procs.length = before.length ∧ s.accels = 0 then (none, .status 0) else (some { s with users := 0 }, .aborted)
  else (some { s with users := s.users - 1 }, .status 0)

/-- `main` (/repo/controller/src/Core/arax_controller.cpp:119-235), ended by SIGINT if it gets as far. `catch (exception *e)` (228) catches pointers; everything is thrown by value, so nothing is caught and the process is aborted. -/
def main (e : Env) (seg : Option Seg) : Option Seg × End :=
  if !e.arg then (seg, .status (-1))                                                -- 122-125
  else match e.conf with
    | .error _ => (seg, .aborted)                                                   -- 130
    | .ok c =>
      let seg := if c.clean then none else seg                                      -- 142-145, impl.c:202
      let s0 := join seg                                                            -- 148
      let l := loadAll s0 c.folders                                                 -- 153-158
      if !l.2 then (some l.1, .status (-1))                                         -- 157: without arax_exit
      else if c.accels.any (fun a => !a.known) then (some l.1, .status (-1))        -- 180-182: without arax_exit
      else
        let t := startAll l.1 c.accels
        if !t.2 then (some t.1, .aborted)
        else
          let s := { t.1 with accels := t.1.accels - c.accels.length }              -- 220-221
          leave s0.procs (unload [] s)                                              -- 224, 233

end Arax.Run
