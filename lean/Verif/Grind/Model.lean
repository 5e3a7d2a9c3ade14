import Verif.Json.Model
import Verif.Layout.Model
/-!
# Model of `araxgrind` (C90, C91)

The tool attaches to the segment and lists the objects that are still registered, grouped by size and name, or says what a given address is.
-/
namespace Arax.Grind

/-- `arax_object_type_e` without `ARAX_TYPE_COUNT` (/repo/src/core/arax_object.h:14-22). -/
inductive Kind where
  | phys | virt | proc | data | task
  deriving DecidableEq

/-- A registered object as the tool sees it: `name` = `obj.name`, `size` = the bytes that belong to it besides its struct (for data `arax_data_size`, for a task the arguments and the host data behind the struct, /repo/src/core/arax_task.c:13-19), `procName` = name of the procedure of a task (`none`: `task->proc` is 0), `refs` = `arax_object_refs` (/repo/src/core/arax_object.h:40-48, /repo/src/core/arax_object.c:237-246). -/
structure Obj where
  kind : Kind
  addr : Nat
  name : List Nat
  size : Nat
  procName : Option (List Nat)
  refs : Int
  deriving DecidableEq

/-- `sizeof` of the five structs. (/repo/src/core/{arax_accel,arax_vaccel,arax_proc,arax_data,arax_task}.h.) -/
structure Sizes where
  phys : Nat
  virt : Nat
  proc : Nat
  data : Nat
  task : Nat

/-- `getSizeOfAraxObject` (/repo/araxgrind/main.cpp:15-37), `size_t` arithmetic. -/
def sizeOf (S : Sizes) (o : Obj) : Nat :=
  match o.kind with
  | .phys => S.phys
  | .virt => S.virt
  | .proc => S.proc
  | .data => (S.data + o.size) % 2 ^ 64
  | .task => S.task

/-- "NULL PROC TASK" (/repo/araxgrind/main.cpp:45). -/
def nullProc : List Nat := [78, 85, 76, 76, 32, 80, 82, 79, 67, 32, 84, 65, 83, 75]

/-- `getNameOfAraxObject` (/repo/araxgrind/main.cpp:39-51). -/
def nameOf (o : Obj) : List Nat :=
  match o.kind with
  | .task => o.procName.getD nullProc
  | _ => o.name

/-- `class Leak` (/repo/araxgrind/main.cpp:97-104). -/
structure Leak where
  instances : List (Nat × Int)
  name : List Nat
  leaks : Nat
  size : Nat
  total : Nat
  maxRef : Int
  minRef : Int
  deriving DecidableEq

/-- `Leak()` (/repo/araxgrind/main.cpp:79-81). -/
def Leak.new : Leak := { instances := [], name := [], leaks := 0, size := 0, total := 0, maxRef := 0, minRef := 2 ^ 31 - 1 }

/-- `Leak::track` (/repo/araxgrind/main.cpp:83-95). -/
def Leak.track (S : Sizes) (l : Leak) (o : Obj) : Leak :=
  { instances := l.instances ++ [(o.addr, o.refs)], name := nameOf o, leaks := (l.leaks + 1) % 2 ^ 64, size := sizeOf S o, total := (l.total + sizeOf S o) % 2 ^ 64, maxRef := max l.maxRef o.refs, minRef := min l.minRef o.refs }

/-- `m[k]` of a `std::map` with an update of the element: a new element is `d`. The map is the list of its pairs in the order of the keys. (C++ library; used in /repo/araxgrind/main.cpp:75-210.) -/
def alter {K V : Type} [DecidableEq K] (lt : K → K → Bool) (d : V) (k : K) (f : V → V) : List (K × V) → List (K × V)
  | [] => [(k, f d)]
  | (k', v) :: l => if k = k' then (k', f v) :: l else if lt k k' then (k, f d) :: (k', v) :: l else (k', v) :: alter lt d k f l

/-- Order of `std::size_t` keys. (C++ library.) -/
def ltN (a b : Nat) : Bool := decide (a < b)

/-- `std::map<std::size_t, std::map<std::string, Leak> >` (/repo/araxgrind/main.cpp:147). -/
abbrev Leaks := List (Nat × List (List Nat × Leak))

/-- The body of the loop, /repo/araxgrind/main.cpp:154. -/
def add (S : Sizes) (m : Leaks) (o : Obj) : Leaks :=
  alter ltN [] (sizeOf S o) (alter Json.lt Leak.new (nameOf o) (fun l => l.track S o)) m

/-- What `leak_check` prints: the header and the lines. (/repo/araxgrind/main.cpp:140-256.) -/
structure Report where
  count : Nat
  total : Nat
  sources : Nat
  lines : List Leak
  deriving DecidableEq

/-- The loop (/repo/araxgrind/main.cpp:151-157). -/
def collect (S : Sizes) : Nat × Nat × Leaks → List Obj → Nat × Nat × Leaks
  | s, [] => s
  | (c, t, m), o :: l => collect S ((c + 1) % 2 ^ 64, (t + sizeOf S o) % 2 ^ 64, add S m o) l

/-- `leak_check` (/repo/araxgrind/main.cpp:140-169) for the list of the objects of one type. The numbers are those printed (sizes through `printSize`). -/
def leakCheck (S : Sizes) (l : List Obj) : Report :=
  let r := collect S (0, 0, []) l
  { count := r.1, total := r.2.1, sources := r.2.2.length, lines := r.2.2.flatMap (fun p => p.2.map (·.2)) }

/-- The loop of `printSize` (/repo/araxgrind/main.cpp:65-69): number and power. -/
def shrink (size power : Nat) : Nat → Nat × Nat
  | 0 => (size, power)
  | fuel + 1 => if 1024 * 10 ≤ size ∧ power < 6 then shrink (size / 1024) (power + 1) fuel else (size, power)

/-- `printSize` (/repo/araxgrind/main.cpp:53-71): number and index in `unit[]`; `none`: `unit[6]` is beyond the array. (The loop runs at most six times.) -/
def printSize (size : Nat) : Option (Nat × Nat) :=
  let r := shrink size 0 7
  if r.2 < 6 then some r else none

/-! ## Pointers -/

/-- The segment: bytes, registered objects, offset of `obj.name`, offset of `task.proc` (/repo/src/core/arax_object.h:40-48). -/
structure Seg where
  L : Layout.Lay
  mem : Layout.Mem
  objs : List Obj
  offName : Nat
  offProc : Nat

/-- Value of the enumerator. (/repo/src/core/arax_object.h.) -/
def Kind.code : Kind → Nat
  | .phys => 0 | .virt => 1 | .proc => 2 | .data => 3 | .task => 4

/-- `getCertainType` (/repo/araxgrind/main.cpp:175-200): the kind whose list contains the address, tried for the kind that the bytes at the address spell; `none` is `ARAX_TYPE_COUNT`. -/
def certainType (g : Seg) (p : Nat) : Option Kind :=
  let t := Layout.typeOf g.L g.mem p
  if 5 ≤ t then none
  else ((g.objs.filter (fun o => o.kind.code = t)).find? (fun o => o.addr = p)).map (·.kind)

/-- A C string in memory, `fuel` bytes at most. (C.) -/
def cstr (m : Layout.Mem) (a : Nat) : Nat → List Nat
  | 0 => []
  | fuel + 1 => if m a = 0 then [] else (m a).toNat :: cstr m (a + 1) fuel

/-- `getNameOfAraxObject` applied to any address, as the bytes there say (/repo/araxgrind/main.cpp:39-51). `none`: a null pointer is given to `std::string`, or read (a null `task->proc` is not). Addresses outside of the segment are not told apart. -/
def nameAt (g : Seg) (p : Nat) : Option (List Nat) :=
  if Layout.typeOf g.L g.mem p = 4 then
    let pr := Layout.readLE g.mem (p + g.offProc) 8
    if pr = 0 then some nullProc
    else
      let n := Layout.readLE g.mem (pr + g.offName) 8
      if n = 0 then none else some (cstr g.mem n (2 ^ 64))
  else
    let n := Layout.readLE g.mem (p + g.offName) 8
    if n = 0 then none else some (cstr g.mem n (2 ^ 64))

/-- What `inspectPointer` says. (/repo/araxgrind/main.cpp:140-256.) -/
inductive Answer where
  | notArax
  | object (k : Kind) (name : List Nat)
  | inside (offset : Nat) (data : Nat) (name : List Nat)
  | nothing
  | crash
  deriving DecidableEq

/-- `ptrType` (/repo/araxgrind/main.cpp:215-247). -/
def inspect (g : Seg) (p : Nat) : Answer :=
  if Layout.ptrValid g.L p = false then .notArax
  else match certainType g p with
    | some k => (match nameAt g p with | some n => .object k n | none => .crash)
    | none =>
      match Layout.refOffset g.L g.mem ((g.objs.filter (fun o => o.kind = .data)).map (·.addr)) p with
      | .ok none => .nothing
      | .ok (some d) =>
        (match Layout.deref g.L g.mem d with
        | .ok b => (match nameAt g p with | some n => .inside ((p + (2 ^ 64 - b)) % 2 ^ 64) d n | none => .crash)
        | _ => .crash)
      | _ => .crash

end Arax.Grind
