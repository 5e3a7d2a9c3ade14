/-!
# Model of `/repo/src/utils/list.c` / `list.h` (intrusive circular doubly linked list)

A heap of nodes addressed by `Nat`. A list's head node lives at the list's own address
(`utils_list_s.head` is the first member, list.h:16-20).
-/
namespace Arax.IList

/-- Heap cells: /repo/src/utils/list.h:10-20. `length` is the field of the list at that address. -/
structure Heap where
  next   : Nat → Nat
  prev   : Nat → Nat
  owner  : Nat → Nat
  length : Nat → Nat

/-- Model bookkeeping, no code of its own: one store. -/
def upd (f : Nat → Nat) (a v : Nat) : Nat → Nat := fun x => if x = a then v else f x

/-- `size_t` decrement. list.c:30. -/
def dec (n : Nat) : Nat := if n = 0 then 2 ^ 64 - 1 else n - 1

/-- /repo/src/utils/list.c:74-79 `utils_list_node_init`. -/
def nodeInit (h : Heap) (node owner : Nat) : Heap :=
  let h := { h with next := upd h.next node node }
  let h := { h with prev := upd h.prev node node }
  { h with owner := upd h.owner node owner }

/-- /repo/src/utils/list.c:3-10 `utils_list_init`. -/
def listInit (h : Heap) (l : Nat) : Heap :=
  let h := { h with length := upd h.length l 0 }
  nodeInit h l l

/-- /repo/src/utils/list.c:12-18 `utils_list_node_add`: four stores in order. -/
def nodeAdd (h : Heap) (head node : Nat) : Heap :=
  let h := { h with prev := upd h.prev (h.next head) node }
  let h := { h with next := upd h.next node (h.next head) }
  let h := { h with prev := upd h.prev node head }
  { h with next := upd h.next head node }

/-- /repo/src/utils/list.c:20-24 `utils_list_add`. -/
def add (h : Heap) (l node : Nat) : Heap :=
  let h := nodeAdd h l node
  { h with length := upd h.length l (h.length l + 1) }

/-- /repo/src/utils/list.c:26-34 `utils_list_del`. -/
def del (h : Heap) (l node : Nat) : Heap :=
  let h := { h with prev := upd h.prev (h.next node) (h.prev node) }
  let h := { h with next := upd h.next (h.prev node) (h.next node) }
  let h := { h with length := upd h.length l (dec (h.length l)) }
  let h := { h with next := upd h.next node node }
  { h with prev := upd h.prev node node }

/-- /repo/src/utils/list.c:36-45 `utils_list_pop_head` (0 = NULL). -/
def popHead (h : Heap) (l : Nat) : Heap × Nat :=
  if h.length l = 0 then (h, 0) else (del h l (h.next l), h.next l)

/-- /repo/src/utils/list.c:47-56 `utils_list_pop_tail`. -/
def popTail (h : Heap) (l : Nat) : Heap × Nat :=
  if h.length l = 0 then (h, 0) else (del h l (h.prev l), h.prev l)

/-- /repo/src/utils/list.h:96-97 `utils_list_for_each` (nodes visited, in order); `none` = the loop did not
end within `fuel` iterations. -/
def walk (nx : Nat → Nat) (stop : Nat) : (fuel itr : Nat) → Option (List Nat)
  | 0, _ => none
  | f + 1, itr => if itr = stop then some [] else (walk nx stop f (nx itr)).map (itr :: ·)

/-- /repo/src/utils/list.h:96-97 `utils_list_for_each`, starting at the first node. -/
def forEach (h : Heap) (l fuel : Nat) : Option (List Nat) := walk h.next l fuel (h.next l)

/-- /repo/src/utils/list.h:115-116 `utils_list_for_each_reverse`. -/
def forEachRev (h : Heap) (l fuel : Nat) : Option (List Nat) := walk h.prev l fuel (h.prev l)

/-- /repo/src/utils/list.c:58-72 `utils_list_to_array` with a non-NULL array: stored owners and the
returned count. -/
def toArray (h : Heap) (l fuel : Nat) : Option (List Nat × Nat) :=
  if h.length l ≠ 0 then (forEach h l fuel).map (fun ns => (ns.map h.owner, h.length l))
  else some ([], h.length l)

/-- /repo/src/utils/list.c:58-63 with a NULL array. -/
def toArrayNull (h : Heap) (l : Nat) : Nat := h.length l

/-- /repo/src/utils/list.c:81-84 `utils_list_node_linked`. -/
def linked (h : Heap) (node : Nat) : Bool := h.next node ≠ node

/-- A call on the heap. /repo/src/utils/list.c:3-56, 74-79. -/
inductive Op where
  | initList (l : Nat)
  | initNode (n owner : Nat)
  | add (l n : Nat)
  | del (l n : Nat)
  | popHead (l : Nat)
  | popTail (l : Nat)

/-- New heap and returned node (0 where nothing is returned). /repo/src/utils/list.c:3-56, 74-79. -/
def step (h : Heap) : Op → Heap × Nat
  | .initList l => (listInit h l, 0)
  | .initNode n o => (nodeInit h n o, 0)
  | .add l n => (add h l n, 0)
  | .del l n => (del h l n, n)
  | .popHead l => popHead h l
  | .popTail l => popTail h l

end Arax.IList
