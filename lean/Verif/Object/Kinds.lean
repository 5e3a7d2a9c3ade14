/-!
# C118: the kind of an object

Objects are kept in one list per kind; names, destructors and the lists are
found by using the kind as an index into tables.  Modelled: the tables, the five
functions that create objects, clearing of a new object on flat memory,
destruction of the last reference, and the report of what is still registered.

Simplifications: calls are one at a time (C110 is about calls that overlap);
what a destructor does is left to C27, here it only matters which one is called;
the allocator is one that gives blocks which overlap no other object (C73);
`strcpy` of the name goes to another block and is left out; the sizes of the
structs are parameters.
-/
namespace Arax.Kinds

/-! ## Specification -/

/-- The structs behind the handles: what the functions that create objects return. (Specification.) -/
inductive Struct where
  | accel | vaccel | proc | data | task
  deriving DecidableEq, Repr

/-- How a user calls them: the names vdf, vtop and araxgrind show. (Specification.) -/
def Struct.shown : Struct → String
  | .accel => "Phys.Accel"
  | .vaccel => "Virt.Accel"
  | .proc => "Procedures"
  | .data => "Arax--Data"
  | .task => "Arax-Tasks"

/-- The kinds in the order of `arax_object_type_e`. (Specification.) -/
def everyKind : List Struct := [.accel, .vaccel, .proc, .data, .task]

/-! ## Model -/

/-- arax_object_type_e (/repo/src/core/arax_object.h:14-22): `ARAX_TYPE_COUNT`. -/
def typeCount : Nat := 5

/-- /repo/src/core/arax_object.c:11-17 `type2str`. -/
def type2str : List String := ["Phys.Accel", "Virt.Accel", "Procedures", "Arax--Data", "Arax-Tasks"]

/-- /repo/src/core/arax_object.c:52-58 `dtor_table`: entry n is the destructor of this struct (/repo/src/core/arax_object.h:152-153 makes its name from the name of the struct). -/
def dtorTable : List Struct := [.accel, .vaccel, .proc, .data, .task]

/-- /repo/src/core/arax_object.c:90-96 `arax_object_type_to_str`; NULL is `none`. The type is unsigned. -/
def typeToStr (ty : Nat) : Option String := if ty < typeCount then type2str[ty]? else none

/-- The type each creating function passes to `arax_object_register`: /repo/src/core/arax_accel.c:8-10, arax_vaccel.c:6-7, arax_proc.c:6-8, arax_data.c:28-30, arax_task.c:17-19. -/
def typeOf : Struct → Nat
  | .accel => 0
  | .vaccel => 1
  | .proc => 2
  | .data => 3
  | .task => 4

/-- Sizes of the platform: `sizeof(arax_object_s)`, of each struct, and of the union of /repo/src/core/arax_object.c:19-25. -/
structure Sizes where
  hdr : Nat
  sz : Struct → Nat
  uni : Nat

/-- What C guarantees about them: every struct begins with an `arax_object_s` and is a member of the union. -/
structure Sizes.Ok (c : Sizes) : Prop where
  first : ∀ k, c.hdr ≤ c.sz k
  member : ∀ k, c.sz k ≤ c.uni

/-- An object: /repo/src/core/arax_object.h:40-48. `made` is a ghost: which function created it. -/
structure Obj where
  addr : Nat
  size : Nat          -- alloc_size
  ty : Nat            -- type
  refs : Nat          -- ref_count
  made : Struct
  deriving DecidableEq

/-- Memory, the lists of the repository (/repo/src/core/arax_object.h:27-35), and a ghost log of the destructors called. -/
structure St where
  mem : Nat → Nat
  objs : List Obj                   -- the objects not freed
  list : Nat → List Nat             -- repo[ty].list: addresses
  log : List (Obj × Option Struct)  -- destroyed objects, and the destructor; `none`: behind the end of the table
  born : List Struct                -- ghost: what was created

/-- An empty repository (/repo/src/core/arax_object.c:60-69 `arax_object_repo_init`) in memory with any contents. -/
def start (mem : Nat → Nat) : St := ⟨mem, [], fun _ => [], [], []⟩

/-- `memset(p, 0, n)`. -/
def clear (mem : Nat → Nat) (p n : Nat) : Nat → Nat := fun x => if p ≤ x ∧ x < p + n then 0 else mem x

/-- /repo/src/core/arax_object.c:120-123: what is cleared of an object of `size` bytes at `a`. -/
def clearNew (c : Sizes) (mem : Nat → Nat) (a size : Nat) : Nat → Nat :=
  if c.uni ≥ size then clear mem (a + c.hdr) (size - c.hdr) else clear mem (a + c.hdr) (c.uni - c.hdr)

/-- The header written at /repo/src/core/arax_object.c:109-115 has some contents `h`. -/
def header (c : Sizes) (mem : Nat → Nat) (a : Nat) (h : Nat → Nat) : Nat → Nat := fun x => if a ≤ x ∧ x < a + c.hdr then h (x - a) else mem x

/-- `list` of one kind replaced. (No code of its own.) -/
def upd (l : Nat → List Nat) (ty : Nat) (v : List Nat) : Nat → List Nat := fun t => if t = ty then v else l t

/-- /repo/src/core/arax_object.c:98-126 `arax_object_register`, the allocator having given the block at `a`. `extra`: bytes behind the struct (buffer of a data object, arguments of a task). -/
def register (c : Sizes) (s : St) (k : Struct) (a extra : Nat) (h : Nat → Nat) : St :=
  { mem := clearNew c (header c s.mem a h) a (c.sz k + extra)
    objs := ⟨a, c.sz k + extra, typeOf k, 1, k⟩ :: s.objs
    list := upd s.list (typeOf k) (a :: s.list (typeOf k))
    log := s.log
    born := k :: s.born }

/-- /repo/src/core/arax_object.c:145-159 `arax_object_ref_inc`. -/
def refInc (s : St) (o : Obj) : St := { s with objs := { o with refs := o.refs + 1 } :: s.objs.erase o }

/-- /repo/src/core/arax_object.c:161-209 `arax_object_ref_dec` and 211-235 `arax_object_ref_dec_pre_locked`: the last reference takes the object out of the list of its kind, calls the destructor of the table and frees the block. -/
def refDec (s : St) (o : Obj) : St :=
  if o.refs - 1 = 0 then
    { s with objs := s.objs.erase o, list := upd s.list o.ty ((s.list o.ty).erase o.addr), log := s.log ++ [(o, dtorTable[o.ty]?)] }
  else { s with objs := { o with refs := o.refs - 1 } :: s.objs.erase o }

/-- A block that overlaps no object. (Contract of the allocator, C73.) -/
def FreeAt (s : St) (a n : Nat) : Prop := ∀ o ∈ s.objs, a + n ≤ o.addr ∨ o.addr + o.size ≤ a

/-- Every history: objects are created, references taken and dropped by those who have one. -/
inductive Reach (c : Sizes) : St → Prop where
  | start (mem) : Reach c (start mem)
  | register {s} (k a extra h) : Reach c s → 0 < c.sz k → FreeAt s a (c.sz k + extra) → Reach c (register c s k a extra h)
  | inc {s} (o) : Reach c s → o ∈ s.objs → Reach c (refInc s o)
  | dec {s} (o) : Reach c s → o ∈ s.objs → 0 < o.refs → Reach c (refDec s o)

/-- `(int) n` for `size_t n`. -/
def toInt (n : Nat) : Int := if n % 4294967296 < 2147483648 then (n % 4294967296 : Nat) else ((n % 4294967296 : Nat) : Int) - 4294967296

/-- `%*s`: at least `w` characters, blanks in front. -/
def padded (w : Int) (s : String) : String := String.ofList (List.replicate (w.toNat - s.length) ' ') ++ s

/-- /repo/src/core/arax_object.c:78-85: the line for one list, if there is one. -/
def reportLine (n : Nat) (name : String) : Option String :=
  if toInt n = 0 then none
  else some (toString n ++ " " ++ padded ((name.length : Int) - (if toInt n = 1 then 1 else 0)) name ++ " still registered!\n")

/-- /repo/src/core/arax_object.c:71-88 `arax_object_repo_exit`: the lines printed and the value returned. (`r` runs over the types; overflow of `failed` is not modelled.) -/
def repoExit (s : St) : List String × Int :=
  ((List.range typeCount).filterMap (fun r => (type2str[r]?).bind (reportLine (s.list r).length)),
   ((List.range typeCount).map (fun r => toInt (s.list r).length)).sum)

/-! ## What is proved -/

/-- Number of objects of a kind that exist. (Specification: counts what was created as such, not what a list says.) -/
def live (s : St) (k : Struct) : Nat := s.objs.countP (fun o => o.made = k)

/-- **C118** (names). Each kind has its name, different kinds have different names, and what is not a kind has none. -/
theorem C118_names : (∀ k, typeToStr (typeOf k) = some k.shown) ∧ (∀ k k' : Struct, k.shown = k'.shown → k = k')
    ∧ (∀ ty, (∀ k, ty ≠ typeOf k) → typeToStr ty = none) := by
  refine ⟨?_, ?_, ?_⟩
  · intro k; cases k <;> rfl
  · intro k k' h; cases k <;> cases k' <;> first | rfl | (exfalso; revert h; decide)
  · intro ty h
    have h0 := h .accel; have h1 := h .vaccel; have h2 := h .proc; have h3 := h .data; have h4 := h .task
    simp only [typeOf] at h0 h1 h2 h3 h4
    unfold typeToStr typeCount
    rw [if_neg (by omega)]

theorem typeOf_inj {k k' : Struct} (h : typeOf k = typeOf k') : k = k' := by
  cases k <;> cases k' <;> first | rfl | (exfalso; revert h; decide)

/-- Invariant. -/
structure Inv (s : St) : Prop where
  ty : ∀ o ∈ s.objs, o.ty = typeOf o.made
  pos : ∀ o ∈ s.objs, 0 < o.size
  sep : s.objs.Pairwise (fun o p => o.addr ≠ p.addr)
  apart : ∀ o ∈ s.objs, ∀ p ∈ s.objs, o ≠ p → o.addr + o.size ≤ p.addr ∨ p.addr + p.size ≤ o.addr
  perm : ∀ t, (s.list t).Perm ((s.objs.filter (fun o => o.ty = t)).map (·.addr))
  log : ∀ e ∈ s.log, e.2 = some e.1.made
  count : ∀ k, s.born.count k = live s k + s.log.countP (fun e => e.1.made = k)

theorem filter_erase_perm (l : List Obj) (o : Obj) (h : o ∈ l) (p : Obj → Bool) :
    (l.filter p).Perm (if p o then o :: (l.erase o).filter p else (l.erase o).filter p) := by
  have := (List.perm_cons_erase h).filter p
  by_cases hp : p o <;> simpa [List.filter_cons, hp] using this

theorem countP_erase' (l : List Obj) (o : Obj) (h : o ∈ l) (p : Obj → Bool) :
    l.countP p = (l.erase o).countP p + if p o then 1 else 0 := by
  have := (List.perm_cons_erase h).countP_eq p
  rw [this, List.countP_cons]

theorem mem_erase_ne {s : St} (hi : s.objs.Pairwise (fun o p => o.addr ≠ p.addr)) {o p : Obj} (ho : o ∈ s.objs) (hp : p ∈ s.objs.erase o) : p.addr ≠ o.addr := by
  have hpm := List.mem_of_mem_erase hp
  have hperm := List.perm_cons_erase ho
  have := (hperm.pairwise_iff (R := fun (o p : Obj) => o.addr ≠ p.addr) (fun h => Ne.symm h)).mp hi
  rw [List.pairwise_cons] at this
  exact Ne.symm (this.1 p hp)

/-- What both `refInc` and a `refDec` that is not the last do. -/
theorem inv_refs {s : St} (hi : Inv s) {o : Obj} (ho : o ∈ s.objs) (n : Nat) :
    Inv { s with objs := { o with refs := n } :: s.objs.erase o } := by
  refine ⟨?_, ?_, ?_, ?_, ?_, hi.log, ?_⟩
  · intro p hp
    rcases List.mem_cons.mp hp with rfl | hp
    · exact hi.ty o ho
    · exact hi.ty p (List.mem_of_mem_erase hp)
  · intro p hp
    rcases List.mem_cons.mp hp with rfl | hp
    · exact hi.pos o ho
    · exact hi.pos p (List.mem_of_mem_erase hp)
  · refine List.pairwise_cons.mpr ⟨fun p hp => ?_, hi.sep.sublist List.erase_sublist⟩
    exact Ne.symm (mem_erase_ne (o := o) hi.sep ho hp)
  · have key : ∀ p ∈ s.objs.erase o, o.addr + o.size ≤ p.addr ∨ p.addr + p.size ≤ o.addr := by
      intro p hp
      have hne := mem_erase_ne hi.sep ho hp
      exact hi.apart o ho p (List.mem_of_mem_erase hp) (fun e => hne (by rw [e]))
    intro p hp q hq hpq
    rcases List.mem_cons.mp hp with rfl | hp <;> rcases List.mem_cons.mp hq with rfl | hq
    · exact absurd rfl hpq
    · exact key q hq
    · exact (key p hp).symm
    · exact hi.apart p (List.mem_of_mem_erase hp) q (List.mem_of_mem_erase hq) hpq
  · intro t
    refine (hi.perm t).trans ?_
    refine ((filter_erase_perm s.objs o ho _).map _).trans ?_
    by_cases e : o.ty = t <;> simp [e]
  · intro k
    rw [hi.count k]
    show live s k + _ = ({ o with refs := n } :: s.objs.erase o).countP (fun o => o.made = k) + _
    rw [List.countP_cons, live, countP_erase' s.objs o ho]

theorem inv_last {s : St} (hi : Inv s) {o : Obj} (ho : o ∈ s.objs) :
    Inv { s with objs := s.objs.erase o, list := upd s.list o.ty ((s.list o.ty).erase o.addr), log := s.log ++ [(o, dtorTable[o.ty]?)] } := by
  refine ⟨fun p hp => hi.ty p (List.mem_of_mem_erase hp), fun p hp => hi.pos p (List.mem_of_mem_erase hp),
    hi.sep.sublist List.erase_sublist,
    fun p hp q hq => hi.apart p (List.mem_of_mem_erase hp) q (List.mem_of_mem_erase hq), ?_, ?_, ?_⟩
  · intro t
    have h1 := (hi.perm t).trans ((filter_erase_perm s.objs o ho (fun o => o.ty = t)).map (·.addr))
    by_cases e : t = o.ty
    · subst e
      simp only [decide_true, if_true, List.map_cons] at h1
      have h2 := h1.erase o.addr
      simp only [List.erase_cons_head] at h2
      simpa [upd] using h2
    · have e' : ¬ o.ty = t := fun h => e h.symm
      simp only [e', decide_false] at h1
      simpa [upd, e] using h1
  · intro e he
    rcases List.mem_append.mp he with he | he
    · exact hi.log e he
    · rw [List.mem_singleton.mp he]
      show dtorTable[o.ty]? = some o.made
      rw [hi.ty o ho]
      cases o.made <;> rfl
  · intro k
    rw [hi.count k]
    show live s k + _ = (s.objs.erase o).countP (fun o => o.made = k) + (s.log ++ [(o, dtorTable[o.ty]?)]).countP (fun e => e.1.made = k)
    rw [List.countP_append, List.countP_singleton, live, countP_erase' s.objs o ho]
    dsimp only
    omega

theorem inv_register {c : Sizes} {s : St} (hi : Inv s) (k : Struct) (a extra : Nat) (h : Nat → Nat) (hp : 0 < c.sz k) (hf : FreeAt s a (c.sz k + extra)) :
    Inv (register c s k a extra h) := by
  refine ⟨?_, ?_, ?_, ?_, ?_, hi.log, ?_⟩
  · intro p hp
    rcases List.mem_cons.mp hp with rfl | hp
    · rfl
    · exact hi.ty p hp
  · intro p hp'
    rcases List.mem_cons.mp hp' with rfl | hp'
    · show 0 < c.sz k + extra
      omega
    · exact hi.pos p hp'
  · refine List.pairwise_cons.mpr ⟨fun p hp' => ?_, hi.sep⟩
    have h1 := hf p hp'
    have h2 := hi.pos p hp'
    show a ≠ p.addr
    omega
  · intro p hp q hq hpq
    rcases List.mem_cons.mp hp with rfl | hp <;> rcases List.mem_cons.mp hq with rfl | hq
    · exact absurd rfl hpq
    · exact hf q hq
    · exact (hf p hp).symm
    · exact hi.apart p hp q hq hpq
  · intro t
    show (upd s.list (typeOf k) (a :: s.list (typeOf k)) t).Perm _
    by_cases e : t = typeOf k
    · subst e
      simpa [upd, register, List.filter_cons] using (hi.perm (typeOf k))
    · have e' : ¬ typeOf k = t := fun h => e h.symm
      simpa [upd, register, List.filter_cons, e, e'] using (hi.perm t)
  · intro k'
    show (k :: s.born).count k' = (({ addr := a, size := c.sz k + extra, ty := typeOf k, refs := 1, made := k } : Obj) :: s.objs).countP (fun o => o.made = k') + s.log.countP (fun e => e.1.made = k')
    rw [List.countP_cons, List.count_cons, hi.count k', live]
    by_cases e : k = k' <;> simp [e] <;> omega

theorem inv_reach {c : Sizes} {s : St} (hr : Reach c s) : Inv s := by
  induction hr with
  | start mem =>
    exact ⟨by simp [start], by simp [start], by simp [start], by simp [start], by simp [start], by simp [start], by simp [start, live]⟩
  | register k a extra h _ hp hf ih => exact inv_register ih k a extra h hp hf
  | inc o _ ho ih => exact inv_refs ih ho _
  | dec o _ ho _ ih =>
    unfold refDec
    split
    · exact inv_last ih ho
    · exact inv_refs ih ho _

theorem refs_reach {c : Sizes} {s : St} (hr : Reach c s) : (∀ o ∈ s.objs, 0 < o.refs) ∧ ∀ e ∈ s.log, e.1.refs = 1 := by
  induction hr with
  | start mem => simp [start]
  | register k a extra h _ _ _ ih =>
    refine ⟨fun p hp => ?_, ih.2⟩
    rcases List.mem_cons.mp hp with rfl | hp
    · exact Nat.one_pos
    · exact ih.1 p hp
  | inc o _ ho ih =>
    refine ⟨fun p hp => ?_, ih.2⟩
    rcases List.mem_cons.mp hp with rfl | hp
    · exact Nat.succ_pos _
    · exact ih.1 p (List.mem_of_mem_erase hp)
  | dec o _ ho h0 ih =>
    unfold refDec
    split
    · rename_i h1
      refine ⟨fun p hp => ih.1 p (List.mem_of_mem_erase hp), fun e he => ?_⟩
      rcases List.mem_append.mp he with he | he
      · exact ih.2 e he
      · rw [List.mem_singleton.mp he]
        show o.refs = 1
        omega
    · rename_i h1
      refine ⟨fun p hp => ?_, ih.2⟩
      rcases List.mem_cons.mp hp with rfl | hp
      · exact Nat.pos_of_ne_zero h1
      · exact ih.1 p (List.mem_of_mem_erase hp)

/-- **C118** (destructor). In every history, whatever was destroyed was destroyed by the destructor of the struct it was created as, when its last reference was dropped; each object that was created either exists or was destroyed, once; and what exists has a reference. -/
theorem C118_destructor {c : Sizes} {s : St} (hr : Reach c s) :
    (∀ o d, (o, d) ∈ s.log → d = some o.made ∧ o.refs = 1) ∧ (∀ k, s.born.count k = live s k + s.log.countP (fun e => e.1.made = k))
    ∧ ∀ o ∈ s.objs, 0 < o.refs :=
  ⟨fun o d h => ⟨(inv_reach hr).log (o, d) h, (refs_reach hr).2 (o, d) h⟩, (inv_reach hr).count, (refs_reach hr).1⟩

/-- **C118** (lists). The list of a kind holds the objects created as that kind, each once, and nothing else. -/
theorem C118_lists {c : Sizes} {s : St} (hr : Reach c s) (k : Struct) :
    (s.list (typeOf k)).Nodup ∧ ∀ a, a ∈ s.list (typeOf k) ↔ ∃ o ∈ s.objs, o.made = k ∧ o.addr = a := by
  have hi := inv_reach hr
  have hp := hi.perm (typeOf k)
  refine ⟨?_, fun a => ?_⟩
  · rw [hp.nodup_iff]
    have h1 := hi.sep.sublist (List.filter_sublist (p := fun o => decide (o.ty = typeOf k)) (l := s.objs))
    exact List.Pairwise.map (R := fun o p : Obj => o.addr ≠ p.addr) (·.addr) (fun _ _ h => h) h1
  · rw [hp.mem_iff, List.mem_map]
    constructor
    · rintro ⟨o, ho, rfl⟩
      rw [List.mem_filter] at ho
      have := hi.ty o ho.1
      exact ⟨o, ho.1, typeOf_inj (by rw [← this]; simpa using ho.2), rfl⟩
    · rintro ⟨o, ho, rfl, rfl⟩
      exact ⟨o, by rw [List.mem_filter]; exact ⟨ho, by simpa using hi.ty o ho⟩, rfl⟩

/-- **C118** (a new object is empty). Whatever was in memory, all fields of a new object behind its header are zero, and no byte outside its block changes, in particular none of another object. -/
theorem C118_empty {c : Sizes} (hc : c.Ok) {s : St} (k : Struct) (a extra : Nat) (h : Nat → Nat) :
    (∀ x, a + c.hdr ≤ x → x < a + c.sz k → (register c s k a extra h).mem x = 0)
    ∧ (∀ x, (x < a ∨ a + (c.sz k + extra) ≤ x) → (register c s k a extra h).mem x = s.mem x)
    ∧ (∀ x, a ≤ x → x < a + c.hdr → (register c s k a extra h).mem x = h (x - a)) := by
  have h1 := hc.first k
  have h2 := hc.member k
  refine ⟨fun x hx hx' => ?_, fun x hx => ?_, fun x hx hx' => ?_⟩ <;> simp only [register, clearNew] <;> split <;> simp only [clear, header]
  · rw [if_pos (by omega)]
  · rw [if_pos (by omega)]
  · rw [if_neg (by omega), if_neg (by omega)]
  · rw [if_neg (by omega), if_neg (by omega)]
  · rw [if_neg (by omega), if_pos (by omega)]
  · rw [if_neg (by omega), if_pos (by omega)]

theorem list_length {c : Sizes} {s : St} (hr : Reach c s) (k : Struct) : (s.list (typeOf k)).length = live s k := by
  have hi := inv_reach hr
  rw [(hi.perm (typeOf k)).length_eq, List.length_map, ← List.countP_eq_length_filter, live]
  refine List.countP_congr (fun o ho => ?_)
  have := hi.ty o ho
  simp only [decide_eq_true_eq]
  exact ⟨fun e => typeOf_inj (by rw [← this]; exact e), fun e => by rw [this, e]⟩

theorem toInt_small {n : Nat} (h : n < 2147483648) : toInt n = n := by
  unfold toInt
  rw [Nat.mod_eq_of_lt (show n < 4294967296 by omega), if_pos h]

/-- What the report should say of one kind. (Specification.) -/
def saysOf (n : Nat) (name : String) : String := toString n ++ " " ++ name ++ " still registered!\n"

theorem padded_enough (w : Int) (s : String) (h : w ≤ s.length) : padded w s = s := by
  unfold padded
  have : w.toNat - s.length = 0 := by omega
  rw [this]
  simp

theorem reportLine_small {n : Nat} (h : n < 2147483648) (name : String) :
    reportLine n name = if n = 0 then none else some (saysOf n name) := by
  unfold reportLine saysOf
  rw [toInt_small h]
  by_cases e : n = 0
  · simp [e]
  · rw [if_neg (by omega), if_neg e, padded_enough _ _ (by split <;> omega)]

/-- **C118** (report). In every history, if there are fewer than 2^31 objects of each kind: one line, with the number and the name, for each kind of which there are objects, in order, and the number of all objects as result. -/
theorem C118_report_partial {c : Sizes} {s : St} (hr : Reach c s) (hn : ∀ k, live s k < 2147483648) :
    repoExit s = ((everyKind.filter (fun k => live s k ≠ 0)).map (fun k => saysOf (live s k) k.shown), (s.objs.length : Int)) := by
  have e : List.range typeCount = everyKind.map typeOf := by decide
  have en : ∀ k : Struct, type2str[typeOf k]? = some k.shown := by intro k; cases k <;> rfl
  have hlen : s.objs.length = (everyKind.map (live s)).sum := by
    simp only [everyKind, live, List.map_cons, List.map_nil, List.sum_cons, List.sum_nil]
    induction s.objs with
    | nil => rfl
    | cons o l ih =>
      simp only [List.length_cons, List.countP_cons, ih]
      cases o.made <;> simp <;> omega
  unfold repoExit
  rw [e, hlen]
  refine Prod.ext ?_ ?_
  · dsimp only
    rw [List.filterMap_map]
    have : ∀ l : List Struct, l.filterMap ((fun r => (type2str[r]?).bind (reportLine (s.list r).length)) ∘ typeOf)
        = (l.filter (fun k => live s k ≠ 0)).map (fun k => saysOf (live s k) k.shown) := by
      intro l
      induction l with
      | nil => rfl
      | cons k l ih =>
        have hk : ((fun r => (type2str[r]?).bind (reportLine (s.list r).length)) ∘ typeOf) k = if live s k = 0 then none else some (saysOf (live s k) k.shown) := by
          simp only [Function.comp, en, Option.bind_some, list_length hr, reportLine_small (hn k)]
        by_cases h0 : live s k = 0
        · rw [List.filterMap_cons_none (by rw [hk, if_pos h0]), ih]
          simp [h0]
        · rw [List.filterMap_cons_some (by rw [hk, if_neg h0]), ih]
          simp [h0]
    exact this everyKind
  · dsimp only
    simp only [everyKind, List.map_cons, List.map_nil, List.sum_cons, List.sum_nil, list_length hr, toInt_small (hn _)]
    omega

/-- Sizes of some platform; the header (/repo/src/core/arax_object.h:40-48) has 56 bytes where pointers have 8. -/
def plat : Sizes where
  hdr := 56
  sz := fun k => match k with | .accel => 240 | .vaccel => 360 | .proc => 144 | .data => 136 | .task => 200
  uni := 360

/-- There are such sizes. -/
theorem plat_ok : plat.Ok := ⟨by intro k; cases k <;> decide, by intro k; cases k <;> decide⟩

theorem many (n : Nat) : ∃ s, Reach plat s ∧ live s .proc = n ∧ s.objs.length = n ∧ ∀ o ∈ s.objs, o.addr + o.size ≤ 144 * n := by
  induction n with
  | zero => exact ⟨start (fun _ => 0), .start _, rfl, rfl, by simp [start]⟩
  | succ n ih =>
    obtain ⟨s, hr, hl, hlen, hb⟩ := ih
    refine ⟨register plat s .proc (144 * n) 0 (fun _ => 0), .register _ _ _ _ hr (by decide) (fun o ho => Or.inr (hb o ho)), ?_, ?_, ?_⟩
    · show List.countP _ (_ :: s.objs) = _
      rw [List.countP_cons]
      show live s .proc + _ = _
      rw [hl]
      simp
    · show s.objs.length + 1 = _
      rw [hlen]
    · intro o ho
      rcases List.mem_cons.mp ho with rfl | ho
      · show 144 * n + (144 + 0) ≤ _
        omega
      · have := hb o ho
        omega

/-- **C118** violated: the number is converted to `int`: there are histories after which 2^32 procedures are registered, and the report says nothing and the result is that nothing leaked. -/
theorem C118_violated_report : ∃ s, Reach plat s ∧ live s .proc = 4294967296 ∧ repoExit s = ([], 0) := by
  obtain ⟨s, hr, hl, hlen, _⟩ := many 4294967296
  refine ⟨s, hr, hl, ?_⟩
  have hlen' : s.objs.length = live s .accel + live s .vaccel + live s .proc + live s .data + live s .task := by
    simp only [live]
    generalize s.objs = l
    clear hr hl hlen
    induction l with
    | nil => rfl
    | cons o l ih =>
      simp only [List.length_cons, List.countP_cons, ih]
      cases o.made <;> simp <;> omega
  have z : live s .accel = 0 ∧ live s .vaccel = 0 ∧ live s .data = 0 ∧ live s .task = 0 := by omega
  have l0 := list_length hr .accel
  have l1 := list_length hr .vaccel
  have l2 := list_length hr .proc
  have l3 := list_length hr .data
  have l4 := list_length hr .task
  rw [z.1] at l0; rw [z.2.1] at l1; rw [hl] at l2; rw [z.2.2.1] at l3; rw [z.2.2.2] at l4
  simp only [typeOf] at l0 l1 l2 l3 l4
  have t0 : toInt 0 = 0 := by decide
  have t1 : toInt 4294967296 = 0 := by decide
  have e : List.range typeCount = [0, 1, 2, 3, 4] := by decide
  unfold repoExit
  rw [e]
  simp [l0, l1, l2, l3, l4, t0, t1, type2str, reportLine]

/-- One procedure and two data objects, one of them destroyed: a history that meets the hypotheses. -/
def sample : St :=
  let s1 := register plat (start (fun _ => 7)) .proc 0 0 (fun _ => 1)
  let s2 := register plat s1 .data 200 64 (fun _ => 1)
  let s3 := register plat s2 .data 400 512 (fun _ => 1)
  refDec s3 ⟨200, 200, 3, 1, .data⟩

example : Reach plat sample ∧ live sample .proc = 1 ∧ live sample .data = 1 ∧ sample.log = [(⟨200, 200, 3, 1, .data⟩, some .data)]
    ∧ sample.mem 500 = 0 ∧ sample.mem 800 = 7 ∧ sample.list 3 = [400] := by
  refine ⟨?_, by decide, by decide, by decide, by decide, by decide, by decide⟩
  refine .dec _ (.register _ _ _ _ (.register _ _ _ _ (.register _ _ _ _ (.start _) (by decide) ?_) (by decide) ?_) (by decide) ?_) (by decide) (by decide)
  · intro o ho; exact absurd ho (by simp [start])
  · intro o ho
    have : o ∈ [(⟨0, 144, 2, 1, .proc⟩ : Obj)] := ho
    simp at this
    subst this
    decide
  · intro o ho
    have : o ∈ [(⟨200, 200, 3, 1, .data⟩ : Obj), ⟨0, 144, 2, 1, .proc⟩] := ho
    simp at this
    rcases this with rfl | rfl <;> decide

example : (repoExit sample).1 = ["1 Procedures still registered!\n", "1 Arax--Data still registered!\n"] ∧ (repoExit sample).2 = 2 := by
  decide

end Arax.Kinds
