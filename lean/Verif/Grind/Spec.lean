import Verif.Grind.Model
/-!
# Specification vocabulary for C90: what a leak report says
-/
namespace Arax.Grind

/-- Bytes of an object according to the tool: the struct, and for data the user's bytes. -/
def bytes (S : Sizes) (o : Obj) : Nat :=
  match o.kind with
  | .phys => S.phys
  | .virt => S.virt
  | .proc => S.proc
  | .data => S.data + o.size
  | .task => S.task

/-- The name under which an object is reported: a task is reported as its procedure. -/
def label (o : Obj) : List Nat :=
  if o.kind = .task then (match o.procName with | some n => n | none => "NULL PROC TASK".toList.map Char.toNat) else o.name

/-- Sum of the bytes. -/
def totalBytes (S : Sizes) (l : List Obj) : Nat := (l.map (bytes S)).sum

/-- The objects that a line with this size and name is about, in list order. -/
def group (S : Sizes) (l : List Obj) (size : Nat) (name : List Nat) : List Obj :=
  l.filter (fun o => bytes S o = size ∧ label o = name)

/-- `x` is a correct line for the objects `g`. -/
structure LineOf (S : Sizes) (g : List Obj) (x : Leak) : Prop where
  some : g ≠ []
  count : x.leaks = g.length
  total : x.total = totalBytes S g
  total_eq : x.total = x.leaks * x.size
  instances : x.instances = g.map (fun o => (o.addr, o.refs))
  max_ge : ∀ o ∈ g, o.refs ≤ x.maxRef
  max_mem : ∃ o ∈ g, o.refs = x.maxRef
  min_le : ∀ o ∈ g, x.minRef ≤ o.refs
  min_mem : ∃ o ∈ g, o.refs = x.minRef

/-- Lines in order of size, then of name. -/
def Before (a b : Leak) : Prop := a.size < b.size ∨ (a.size = b.size ∧ Json.lt a.name b.name = true)

/-- The report is right about the objects `l`, apart from the number of sources. -/
structure Right (S : Sizes) (l : List Obj) (r : Report) : Prop where
  count : r.count = l.length
  total : r.total = totalBytes S l
  order : r.lines.Pairwise Before
  covers : ∀ o ∈ l, ∃ x ∈ r.lines, x.size = bytes S o ∧ x.name = label o
  line : ∀ x ∈ r.lines, LineOf S (group S l x.size x.name) x
  count_sum : r.count = (r.lines.map (·.leaks)).sum
  total_sum : r.total = (r.lines.map (·.total)).sum

/-- The number of sources in the header is that of the lines that follow. -/
def SourcesRight (r : Report) : Prop := r.sources = r.lines.length

/-- The memory that an object really keeps from being reused: a task has its arguments and host data behind the struct. -/
def held (S : Sizes) (o : Obj) : Nat := if o.kind = .task then S.task + o.size else bytes S o

/-- Values of the enumerators in order, from 0 (/repo/src/core/arax_object.h:14-22). -/
def enumerator (k : Kind) : Nat := [Kind.phys, .virt, .proc, .data, .task].idxOf k

/-- The registered objects are in memory as `arax_object_register` (/repo/src/core/arax_object.c:109-114) and `arax_task_issue` leave them: type, name and procedure. -/
structure Consistent (g : Seg) : Prop where
  type : ∀ o ∈ g.objs, Layout.typeOf g.L g.mem o.addr = enumerator o.kind
  name : ∀ o ∈ g.objs, o.kind ≠ .task → Layout.readLE g.mem (o.addr + g.offName) 8 ≠ 0 ∧ cstr g.mem (Layout.readLE g.mem (o.addr + g.offName) 8) (2 ^ 64) = o.name
  proc : ∀ o ∈ g.objs, o.kind = .task → match o.procName with
    | none => Layout.readLE g.mem (o.addr + g.offProc) 8 = 0
    | some n => Layout.readLE g.mem (o.addr + g.offProc) 8 ≠ 0 ∧ Layout.readLE g.mem (Layout.readLE g.mem (o.addr + g.offProc) 8 + g.offName) 8 ≠ 0 ∧
        cstr g.mem (Layout.readLE g.mem (Layout.readLE g.mem (o.addr + g.offProc) 8 + g.offName) 8) (2 ^ 64) = n
  valid : ∀ o ∈ g.objs, Layout.ptrValid g.L o.addr = true
  distinct : g.objs.Pairwise (fun a b => a.addr ≠ b.addr)

/-- The unit's weight: B, KB, MB, GB, TB, PB. -/
def weight (u : Nat) : Nat := 1024 ^ u

end Arax.Grind
