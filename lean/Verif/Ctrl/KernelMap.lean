/-!
# Model for C94: the table of kernels the controller prints (`/repo/controller/src/Core/araxLibMgr.cpp`:17-134, `/repo/controller/include/AraxLibMgr.h`:16-25)

Simplifications: the escape sequences (colours) and the padding of the cells are left out: a row is its list of cell texts and its text in the column "Operation".
-/
namespace Arax.KernelMap

/-- Names of kernels and architectures, and texts made of them (`std::string`). (Used throughout /repo/controller/src/Core/araxLibMgr.cpp:17-134.) -/
abbrev Str := List Char

/-- `operator<` of `std::string`, by characters. (C++ library.) (Order of the map that /repo/controller/src/Core/araxLibMgr.cpp:37-123 walks.) -/
def lt : Str → Str → Bool
  | _, [] => false
  | [], _ :: _ => true
  | a :: as, b :: bs => if a.toNat < b.toNat then true else if b.toNat < a.toNat then false else lt as bs

/-- A `std::map` keyed by strings: pairs in the order of the keys. (AraxLibMgr.h:23; C++ library.) -/
abbrev Map (α : Type) := List (Str × α)

/-- `m[k] = v`. (C++ library.) (Used in /repo/controller/src/Core/araxLibMgr.cpp:125-134.) -/
def ins {α : Type} (k : Str) (v : α) : Map α → Map α
  | [] => [(k, v)]
  | (k', v') :: r => if k = k' then (k, v) :: r else if lt k k' then (k, v) :: (k', v') :: r else (k', v') :: ins k v r

/-- `m.find(k)`. (C++ library.) (Used in /repo/controller/src/Core/araxLibMgr.cpp:125-134.) -/
def get {α : Type} : Map α → Str → Option α
  | [], _ => none
  | (k', v) :: r, k => if k = k' then some v else get r k

/-- `m.erase(k)`. (C++ library.) (Used in /repo/controller/src/Core/araxLibMgr.cpp:91-93.) -/
def erase {α : Type} (k : Str) (m : Map α) : Map α := m.filter (fun p => p.1 ≠ k)

/-- Which architectures a kernel was registered for, and with what success. (/repo/controller/include/AraxLibMgr.h:16-24.) -/
abbrev States := Map Bool

/-- `class KernelMap` (AraxLibMgr.h:16-25). The set of architectures as a map to nothing. -/
structure KM where
  states : Map States := []
  archs : Map Unit := []

/-- `KernelMap::addKernel` (/repo/controller/src/Core/araxLibMgr.cpp:125-134); the second component: "duplicate registration!" is printed. -/
def addKernel (km : KM) (arch krnl : Str) (state : Bool) : KM × Bool :=
  let old := (get km.states krnl).getD []
  ({ states := ins krnl (ins arch state old) km.states, archs := ins arch () km.archs }, (get old arch).isSome)

/-- `find_last_of('_')`; `none` is `npos`. (C++ library.) (Used in /repo/controller/src/Core/araxLibMgr.cpp:17-29.) -/
def lastU : Str → Option Nat
  | [] => none
  | c :: r => match lastU r with
    | some i => some (i + 1)
    | none => if c = '_' then some 0 else none

/-- `commonPrefix` (/repo/controller/src/Core/araxLibMgr.cpp:17-29); `npos` is the largest number. -/
def commonPrefix (a b : Str) : Str :=
  let go (len : Nat) := if a.take (len + 1) = b.take (len + 1) then a.take (len + 1) else []
  match lastU a, lastU b with
  | none, none => []
  | some i, none => go i
  | none, some j => go j
  | some i, some j => go (min i j)

/-- `differentPostfix` (/repo/controller/src/Core/araxLibMgr.cpp:31-35). -/
def differentPostfix (c : Nat) (a b : Str) : Str := '<' :: a.drop c ++ ',' :: b.drop c ++ ['>']

/-- The text for two kernels (/repo/controller/src/Core/araxLibMgr.cpp:64-65, 68). -/
def pairText (a b : Str) : Str := commonPrefix a b ++ differentPostfix (commonPrefix a b).length a b

/-- The first loop (/repo/controller/src/Core/araxLibMgr.cpp:56-75): neighbours with equal states become one entry if that is shorter. -/
def pairUp : Map States → Map States → Map States
  | [], t => t
  | [x], t => ins x.1 x.2 t                                                                    -- 59-62
  | x :: y :: r, t =>
    if x.2 = y.2 ∧ (x.1 ++ y.1).length + 2 > (pairText x.1 y.1).length then pairUp r (ins (pairText x.1 y.1) x.2 t)   -- 64-71
    else pairUp (y :: r) (ins x.1 x.2 t)                                                       -- 73-74

/-- `cur->first + ", " + next->first` (/repo/controller/src/Core/araxLibMgr.cpp:90). -/
def joinText (a b : Str) : Str := a ++ ',' :: ' ' :: b

/-- The first pair of neighbours that the second loop joins (/repo/controller/src/Core/araxLibMgr.cpp:80-101). -/
def findJoin (w : Nat) : Map States → Option ((Str × States) × (Str × States))
  | x :: y :: r => if x.2 = y.2 ∧ (joinText x.1 y.1).length + w < 75 then some (x, y) else findJoin w (y :: r)
  | _ => none

/-- One round of the second loop: /repo/controller/src/Core/araxLibMgr.cpp:91-93. -/
def joinOnce (m : Map States) (x y : Str × States) : Map States := erase y.1 (erase x.1 (ins (joinText x.1 y.1) y.2 m))

/-- The second loop (/repo/controller/src/Core/araxLibMgr.cpp:78-101), which starts again after every change (94). `fuel` bounds the number of changes; that the number of entries is enough is proved (`compact_done`). -/
def compact (w : Nat) : Nat → Map States → Map States
  | 0, m => m
  | n + 1, m => match findJoin w m with
    | none => m
    | some (x, y) => compact w n (joinOnce m x y)

/-- `col_width` (/repo/controller/src/Core/araxLibMgr.cpp:40, 48). -/
def colWidth (archs : Map Unit) : Nat := 1 + (archs.map (fun a => max a.1.length 5 + 2)).sum

/-- A cell (/repo/controller/src/Core/araxLibMgr.cpp:105-118). -/
def cell : Option Bool → String
  | some true => "GOOD"
  | some false => "FAIL"
  | none => "----"

/-- A row of the printed table. (/repo/controller/src/Core/araxLibMgr.cpp:103-120.) -/
structure Row where
  cells : List String
  text : Str

/-- `operator<<` (/repo/controller/src/Core/araxLibMgr.cpp:37-123): the heading (42-49) and the rows (103-120). -/
def print (km : KM) : List Str × List Row :=
  let m := pairUp km.states []
  let m := compact (colWidth km.archs) m.length m
  (km.archs.map (·.1), m.map (fun kv => { cells := km.archs.map (fun a => cell (get kv.2 a.1)), text := kv.1 }))

/-- A registration: architecture, kernel, success. (/repo/controller/src/Core/araxLibMgr.cpp:238-252.) -/
abbrev Reg := Str × Str × Bool

/-- The registrations of a run, in order (/repo/controller/src/Core/araxLibMgr.cpp:238-252 for every library); also which of them printed the warning. -/
def addAll : KM → List Reg → KM × List Bool
  | km, [] => (km, [])
  | km, r :: rs =>
    let s := addKernel km r.1 r.2.1 r.2.2
    let t := addAll s.1 rs
    (t.1, s.2 :: t.2)

end Arax.KernelMap
