import Verif.Outcome
/-!
# C55: `arax_accel_list` and `arax_accel_list_free` (`/repo/src/arch/shm/impl.c`)

Sequential model. The repository keeps, per kind, the list of its live objects; a spinlock per kind protects each list. Acquiring a spinlock the caller itself holds spins for ever:
`hang`. Not modelled: the effect of destroying a virtual accelerator on the list of its physical one (C34) and the throttle (C26).
-/
namespace Arax.Listing

/-- How a call ends. `hang`: it waits for ever for a lock it holds. (No code of its own: spinning for ever is /repo/src/utils/spinlock.h:32-40 on a lock the caller holds.) -/
inductive Out (α : Type) where
  | ok (a : α)
  | abort
  | ub
  | hang
  deriving DecidableEq

/-- Sequencing. (C statements executed one after the other, as throughout /repo/src/arch/shm/impl.c.) -/
def Out.andThen {α β : Type} : Out α → (α → Out β) → Out β
  | .ok a, f => f a
  | .abort, _ => .abort
  | .ub, _ => .ub
  | .hang, _ => .hang

/-- `ARAX_TYPE_PHYS_ACCEL`, `ARAX_TYPE_VIRT_ACCEL` (/repo/src/core/arax_object.h:14-22). -/
inductive Kind | phys | virt
  deriving DecidableEq

/-- An accelerator object: kind, `type`, `ref_count`, and for a physical one its `free_vaq` (/repo/src/core/arax_accel.c:22). -/
structure Obj where
  kind : Kind
  type : Nat
  refs : Nat
  freeVaq : Option Nat
  deriving DecidableEq

/-- Objects by address, and the two lists of the repository, in iteration order. /repo/src/core/arax_object.h:25-39. -/
structure State where
  objs : Nat → Option Obj
  list : Kind → List Nat

/-- Model bookkeeping, no code of its own: store, allocation and release of the object at `id`. -/
def State.setObj (s : State) (id : Nat) (o : Option Obj) : State := { s with objs := fun x => if x = id then o else s.objs x }

/-- `utils_list_del` from the list of its kind. /repo/src/core/arax_object.c:177-187, /repo/src/utils/list.c:26-34. -/
def State.unlist (s : State) (k : Kind) (id : Nat) : State := { s with list := fun j => if j = k then (s.list k).erase id else s.list j }

/-- `arax_object_ref_inc` (/repo/src/core/arax_object.c:144-159). -/
def refInc (s : State) (id : Nat) : Out State :=
  match s.objs id with
  | none => .ub
  | some o => .ok (s.setObj id (some { o with refs := o.refs + 1 }))

/-- `arax_object_ref_dec` (/repo/src/core/arax_object.c:161-209) of a virtual accelerator; `held`: the list lock the caller holds, if any. -/
def refDecVirt (held : Option Kind) (s : State) (id : Nat) : Out State :=
  match s.objs id with
  | none => .ub
  | some o =>
    if o.refs = 0 then .abort
    else if held = some o.kind then .hang
    else if o.refs = 1 then .ok ((s.unlist o.kind id).setObj id none)
    else .ok (s.setObj id (some { o with refs := o.refs - 1 }))

/-- The destructors (/repo/src/core/arax_accel.c:180-194: a physical accelerator releases its `free_vaq`; /repo/src/core/arax_vaccel.c:113-123), then the memory is
freed. -/
def destroy (held : Option Kind) (s : State) (id : Nat) (o : Obj) : Out State :=
  match o.kind, o.freeVaq with
  | .phys, some v => (refDecVirt held s v).andThen (fun s => .ok (s.setObj id none))
  | _, _ => .ok (s.setObj id none)

/-- `arax_object_ref_dec` (/repo/src/core/arax_object.c:161-209); the lock is given up before the destructor runs. -/
def refDec (s : State) (id : Nat) : Out State :=
  match s.objs id with
  | none => .ub
  | some o =>
    if o.refs = 0 then .abort
    else if o.refs = 1 then destroy none (s.unlist o.kind id) id o
    else .ok (s.setObj id (some { o with refs := o.refs - 1 }))

/-- `arax_object_ref_dec_pre_locked` (/repo/src/core/arax_object.c:211-235): takes no lock; the caller of `arax_accel_list` holds the lock of kind `held`. -/
def refDecPre (held : Kind) (s : State) (id : Nat) : Out State :=
  match s.objs id with
  | none => .ub
  | some o =>
    if o.refs = 0 then .abort
    else if o.refs = 1 then destroy (some held) (s.unlist o.kind id) id o
    else .ok (s.setObj id (some { o with refs := o.refs - 1 }))

/-- The loop of `arax_accel_list_free` and `arax_accel_list_free_pre_locked` (/repo/src/arch/shm/impl.c:283-303): up to the NULL; running past the end of the array is an invalid access. -/
def freeLoop (dec : State → Nat → Out State) : State → List (Option Nat) → Out State
  | _, [] => .ub
  | s, none :: _ => .ok s
  | s, some id :: r => (dec s id).andThen (fun s => freeLoop dec s r)

/-- `arax_accel_list_free` (/repo/src/arch/shm/impl.c:283-292). -/
def listFree (s : State) (arr : List (Option Nat)) : Out State := freeLoop refDec s arr

/-- The iterations of /repo/src/arch/shm/impl.c:249-275 over the list. `arr` is `none` if the caller wants only the count; otherwise the block and the index `acl` points at. -/
def fill (t : Nat) : List Nat → State → Nat → Option (List (Option Nat) × Nat) → Out (State × Nat × Option (List (Option Nat) × Nat))
  | [], s, c, arr => .ok (s, c, arr)
  | id :: r, s, c, arr =>
    match s.objs id with
    | none => .ub
    | some o =>
      if t = 0 ∨ o.type = t then
        match arr with
        | none => fill t r s (c + 1) none
        | some (a, i) => (refInc s id).andThen (fun s' => if i < a.length then fill t r s' (c + 1) (some (a.set i (some id), i + 1)) else .ub)
      else fill t r s c arr

/-- `arax_accel_list` (/repo/src/arch/shm/impl.c:221-281). `accels`: `none` is a NULL argument, `some none` a pointer to NULL, `some (some a)` a pointer to an earlier array, which is
freed. Returns the state, the count and the new array. `malloc` does not clear: the fresh block is filled with `junk`. -/
def accelList (junk : Option Nat) (t : Nat) (k : Kind) (accels : Option (Option (List (Option Nat)))) (s : State) : Out (State × Nat × Option (List (Option Nat))) :=
  (match accels with
    | some (some old) => freeLoop (refDecPre k) s old
    | _ => .ok s).andThen fun s =>
  (fill t (s.list k) s 0 (match accels with
    | none => none
    | some _ => some (List.replicate ((s.list k).length + 1) junk, 0))).andThen fun r =>
  match r.2.2 with
  | none => .ok (r.1, r.2.1, none)
  | some (a, i) => if i < a.length then .ok (r.1, r.2.1, some (a.set i none)) else .ub

/-! ### Specification -/

/-- Listed objects are live, of their kind and referenced, and listed once (C25: an object is listed as long as its count is positive). -/
structure Wf (s : State) : Prop where
  live : ∀ k, ∀ id ∈ s.list k, ∃ o, s.objs id = some o ∧ o.kind = k ∧ 0 < o.refs
  nodup : ∀ k, (s.list k).Nodup

/-- The live accelerators of kind `k` and type `t` (0: any). -/
def matching (s : State) (t : Nat) (k : Kind) : List Nat :=
  (s.list k).filter (fun id => match s.objs id with | some o => t == 0 || o.type == t | none => false)

/-- `s` with one more reference on each of `ids`. -/
def referenced (s : State) (ids : List Nat) : State :=
  { s with objs := fun x => (s.objs x).map (fun o => if x ∈ ids then { o with refs := o.refs + 1 } else o) }

/-! ### Proofs -/

theorem referenced_nil (s : State) : referenced s [] = s := by
  unfold referenced
  congr 1
  funext x
  cases s.objs x <;> simp

theorem referenced_cons {s : State} {id : Nat} {o : Obj} {ids : List Nat} (ho : s.objs id = some o) (h : id ∉ ids) :
    referenced (s.setObj id (some { o with refs := o.refs + 1 })) ids = referenced s (id :: ids) := by
  unfold referenced State.setObj
  congr 1
  funext x
  dsimp only
  by_cases hx : x = id
  · subst hx
    rw [if_pos rfl, ho]
    simp [h]
  · rw [if_neg hx]
    cases s.objs x with
    | none => rfl
    | some o' => simp [hx]

theorem fill_none (t : Nat) (s : State) : ∀ (l : List Nat) (c : Nat), (∀ id ∈ l, ∃ o, s.objs id = some o) →
    fill t l s c none = .ok (s, c + (l.filter (fun id => match s.objs id with | some o => t == 0 || o.type == t | none => false)).length, none) := by
  intro l
  induction l with
  | nil => intro c _; simp [fill]
  | cons id l ih =>
    intro c h
    obtain ⟨o, ho⟩ := h id List.mem_cons_self
    have ih' := fun c => ih c (fun x hx => h x (List.mem_cons_of_mem _ hx))
    simp only [fill, ho, List.filter_cons]
    by_cases hm : t = 0 ∨ o.type = t
    · rw [if_pos hm, ih', if_pos (by simpa using hm), List.length_cons]
      congr 3; omega
    · rw [if_neg hm, ih', if_neg (by simpa using hm)]

theorem fill_some (t : Nat) : ∀ (l : List Nat) (s : State) (c i : Nat) (a : List (Option Nat)), (∀ id ∈ l, ∃ o, s.objs id = some o) → l.Nodup → i + l.length < a.length →
    ∃ a', fill t l s c (some (a, i)) =
      .ok (referenced s (l.filter (fun id => match s.objs id with | some o => t == 0 || o.type == t | none => false)),
        c + (l.filter (fun id => match s.objs id with | some o => t == 0 || o.type == t | none => false)).length,
        some (a', i + (l.filter (fun id => match s.objs id with | some o => t == 0 || o.type == t | none => false)).length)) ∧
      a'.length = a.length ∧ (∀ j < i, a'[j]? = a[j]?) ∧
      ∀ j (hj : j < (l.filter (fun id => match s.objs id with | some o => t == 0 || o.type == t | none => false)).length),
        a'[i + j]? = some (some ((l.filter (fun id => match s.objs id with | some o => t == 0 || o.type == t | none => false))[j])) := by
  intro l
  induction l with
  | nil => intro s c i a _ _ _; exact ⟨a, by simp [fill, referenced_nil], rfl, fun _ _ => rfl, by simp⟩
  | cons id l ih =>
    intro s c i a h hnd hlen
    obtain ⟨o, ho⟩ := h id List.mem_cons_self
    rw [List.nodup_cons] at hnd
    have hl : ∀ x ∈ l, ∃ o, s.objs x = some o := fun x hx => h x (List.mem_cons_of_mem _ hx)
    rw [List.length_cons] at hlen
    by_cases hm : t = 0 ∨ o.type = t
    · -- the type of every other object is unchanged by the increment
      have hsame : l.filter (fun id' => match (s.setObj id (some { o with refs := o.refs + 1 })).objs id' with | some o => t == 0 || o.type == t | none => false) =
          l.filter (fun id => match s.objs id with | some o => t == 0 || o.type == t | none => false) := by
        refine List.filter_congr ?_
        intro x hx
        have hne : x ≠ id := fun e => hnd.1 (e ▸ hx)
        simp [State.setObj, hne]
      obtain ⟨a', e, e1, e2, e3⟩ := ih (s.setObj id (some { o with refs := o.refs + 1 })) (c + 1) (i + 1) (a.set i (some id)) (by
        intro x hx
        have hne : x ≠ id := fun e => hnd.1 (e ▸ hx)
        simpa [State.setObj, hne] using hl x hx) hnd.2 (by rw [List.length_set]; omega)
      rw [hsame] at e e3
      rw [referenced_cons ho (fun hmem => hnd.1 (List.mem_filter.mp hmem).1)] at e
      have hf : (id :: l).filter (fun id => match s.objs id with | some o => t == 0 || o.type == t | none => false) =
          id :: l.filter (fun id => match s.objs id with | some o => t == 0 || o.type == t | none => false) := by
        rw [List.filter_cons, if_pos (by rw [ho]; simpa using hm)]
      refine ⟨a', ?_, by rw [e1, List.length_set], ?_, ?_⟩
      · simp only [fill, ho, if_pos hm, refInc, Out.andThen]
        rw [if_pos (by omega), e, hf, List.length_cons]
        congr 3
        · omega
        · congr 2; omega
      · intro j hj
        rw [e2 j (by omega), List.getElem?_set_ne (by omega)]
      · intro j hj
        cases j with
        | zero =>
          have := e2 i (by omega)
          rw [Nat.add_zero, this, List.getElem?_set_self (by omega)]
          simp [hf]
        | succ j =>
          rw [hf, List.length_cons] at hj
          have := e3 j (by omega)
          rw [show i + (j + 1) = i + 1 + j by omega, this]
          simp [hf]
    · have hf : (id :: l).filter (fun id => match s.objs id with | some o => t == 0 || o.type == t | none => false) =
          l.filter (fun id => match s.objs id with | some o => t == 0 || o.type == t | none => false) := by
        rw [List.filter_cons, if_neg (by rw [ho]; simpa using hm)]
      obtain ⟨a', e, e1, e2, e3⟩ := ih s c i a hl hnd.2 (by omega)
      refine ⟨a', ?_, e1, e2, ?_⟩
      · simp only [fill, ho, if_neg hm]
        rw [hf, e]
      · intro j hj
        have hj' : j < (l.filter (fun id => match s.objs id with | some o => t == 0 || o.type == t | none => false)).length := by rw [← hf]; exact hj
        rw [e3 j hj']
        simp [hf]

theorem arr_split {a : List (Option Nat)} {ids : List Nat} (hlen : ids.length < a.length) (h : ∀ j (hj : j < ids.length), a[j]? = some (some ids[j])) :
    ∃ rest, a.set ids.length none = ids.map some ++ none :: rest := by
  refine ⟨a.drop (ids.length + 1), ?_⟩
  apply List.ext_getElem?
  intro j
  rw [List.getElem?_set]
  by_cases h1 : ids.length = j
  · subst h1
    rw [if_pos rfl, if_pos hlen, List.getElem?_append_right (by simp)]
    simp
  · rw [if_neg h1]
    by_cases h2 : j < ids.length
    · rw [h j h2, List.getElem?_append_left (by simpa using h2)]
      simp [h2]
    · rw [List.getElem?_append_right (by simp; omega), List.length_map]
      obtain ⟨d, hd⟩ : ∃ d, j - ids.length = d + 1 := ⟨j - ids.length - 1, by omega⟩
      rw [hd, List.getElem?_cons_succ, List.getElem?_drop]
      congr 1; omega

/-- **C55.** In every state of the repository, whatever the memory obtained from `malloc` contains: `arax_accel_list(t, k, &a)` with `a == NULL` returns the number of live accelerators of that kind and type
(any type for 0), `a` is an array that holds exactly these, each once, followed by NULL, the caller has one more reference on each of them, and nothing else changed. With a NULL third argument
only the number is returned and nothing changes. -/
theorem C55_list (s : State) (wf : Wf s) (junk : Option Nat) (t : Nat) (k : Kind) :
    accelList junk t k none s = .ok (s, (matching s t k).length, none) ∧
    ∃ rest, accelList junk t k (some none) s =
      .ok (referenced s (matching s t k), (matching s t k).length, some ((matching s t k).map some ++ none :: rest)) := by
  have hlive : ∀ id ∈ s.list k, ∃ o, s.objs id = some o := fun id h => let ⟨o, ho, _⟩ := wf.live k id h; ⟨o, ho⟩
  constructor
  · simp only [accelList, Out.andThen, fill_none t s (s.list k) 0 hlive, Nat.zero_add]
    rfl
  · obtain ⟨a', e, e1, _, e3⟩ := fill_some t (s.list k) s 0 0 (List.replicate ((s.list k).length + 1) junk) hlive (wf.nodup k) (by simp)
    simp only [Nat.zero_add] at e e3
    have hle : (matching s t k).length < a'.length := by
      rw [e1, List.length_replicate]
      exact Nat.lt_succ_of_le (List.length_filter_le _ _)
    obtain ⟨rest, hr⟩ := arr_split (a := a') (ids := matching s t k) hle e3
    refine ⟨rest, ?_⟩
    simp only [accelList, Out.andThen, e]
    rw [show (List.filter (fun id => match s.objs id with | some o => t == 0 || o.type == t | none => false) (s.list k)) = matching s t k from rfl, if_pos hle]
    show Out.ok (referenced s (matching s t k), _, some (a'.set (matching s t k).length none)) = _
    rw [hr]

theorem freeLoop_spec (dec : State → Nat → Out State)
    (hdec : ∀ s id o, s.objs id = some o → 1 < o.refs → dec s id = .ok (s.setObj id (some { o with refs := o.refs - 1 }))) :
    ∀ (ids : List Nat) (s : State) (rest : List (Option Nat)), ids.Nodup → (∀ id ∈ ids, ∃ o, s.objs id = some o ∧ 0 < o.refs) →
    freeLoop dec (referenced s ids) (ids.map some ++ none :: rest) = .ok s := by
  intro ids
  induction ids with
  | nil => intro s rest _ _; simp [freeLoop, referenced_nil]
  | cons id ids ih =>
    intro s rest hnd hl
    rw [List.nodup_cons] at hnd
    obtain ⟨o, ho, hpos⟩ := hl id List.mem_cons_self
    have hobj : (referenced s (id :: ids)).objs id = some { o with refs := o.refs + 1 } := by simp [referenced, ho]
    rw [List.map_cons, List.cons_append, freeLoop, hdec _ _ _ hobj (by dsimp only; omega)]
    simp only [Out.andThen]
    have : (referenced s (id :: ids)).setObj id (some { o with refs := o.refs + 1 - 1 }) = referenced s ids := by
      unfold referenced State.setObj
      congr 1
      funext x
      dsimp only
      by_cases hx : x = id
      · subst hx
        rw [if_pos rfl, ho]
        simp [hnd.1]
      · rw [if_neg hx]
        cases s.objs x with
        | none => rfl
        | some o' => simp [hx]
    rw [this]
    exact ih s rest hnd.2 (fun x hx => hl x (List.mem_cons_of_mem _ hx))

/-- **C55** (free) `arax_accel_list_free` of a listing gives back exactly the references the listing took: the state is what it was before. -/
theorem C55_free (s : State) (wf : Wf s) (junk : Option Nat) (t : Nat) (k : Kind) (s' : State) (n : Nat) (a : List (Option Nat))
    (e : accelList junk t k (some none) s = .ok (s', n, some a)) : listFree s' a = .ok s := by
  obtain ⟨rest, e2⟩ := (C55_list s wf junk t k).2
  rw [e] at e2
  injection e2 with e2
  obtain ⟨rfl, rfl, e3⟩ := Prod.mk.inj e2 |>.imp_right Prod.mk.inj
  injection e3 with e3
  subst e3
  refine freeLoop_spec refDec ?_ _ _ _ ((wf.nodup k).filter _) ?_
  · intro s id o ho h
    simp only [refDec, ho]
    rw [if_neg (by omega), if_neg (by omega)]
  · intro id hid
    obtain ⟨o, ho, _, hr⟩ := wf.live k id (List.mem_filter.mp hid).1
    exact ⟨o, ho, hr⟩

/-- **C55** (listing again) Passing the array of an earlier listing (of any kind and type), with nothing having changed meanwhile, gives back its references before the new listing: the result is
that of a fresh listing in the state before the first one. -/
theorem C55_relist (s : State) (wf : Wf s) (junk junk' : Option Nat) (t t' : Nat) (k k' : Kind) (s' : State) (n : Nat) (a : List (Option Nat))
    (e : accelList junk t k (some none) s = .ok (s', n, some a)) :
    accelList junk' t' k' (some (some a)) s' = accelList junk' t' k' (some none) s := by
  obtain ⟨rest, e2⟩ := (C55_list s wf junk t k).2
  rw [e] at e2
  injection e2 with e2
  obtain ⟨rfl, rfl, e3⟩ := Prod.mk.inj e2 |>.imp_right Prod.mk.inj
  injection e3 with e3
  subst e3
  have hfree : freeLoop (refDecPre k') (referenced s (matching s t k)) ((matching s t k).map some ++ none :: rest) = .ok s := by
    refine freeLoop_spec (refDecPre k') ?_ _ _ _ ((wf.nodup k).filter _) ?_
    · intro s id o ho h
      simp only [refDecPre, ho]
      rw [if_neg (by omega), if_neg (by omega)]
    · intro id hid
      obtain ⟨o, ho, _, hr⟩ := wf.live k id (List.mem_filter.mp hid).1
      exact ⟨o, ho, hr⟩
  simp only [accelList, hfree]

/-! ### References given back later -/

/-- Whether giving back one reference on each of `ids` takes one from `x`: it is one of them, or the queue object of one that dies. -/
def given (s : State) (ids : List Nat) (x : Nat) : Bool :=
  decide (x ∈ ids) || ids.any (fun p => match s.objs p with | some o => o.refs == 1 && o.freeVaq == some x | none => false)

/-- `s` after one reference on each of `ids` has been given back: who loses the last one is gone, and so is the reference its queue object had from it. -/
def after (s : State) (ids : List Nat) : State where
  objs := fun x => match s.objs x with
    | none => none
    | some o => if given s ids x then (if o.refs = 1 then none else some { o with refs := o.refs - 1 }) else some o
  list := fun k => (s.list k).filter (fun x => !(given s ids x && (match s.objs x with | some o => o.refs == 1 | none => false)))

/-- Queue objects belong to one physical accelerator each and are virtual accelerators with a reference; virtual accelerators have none. (arax_accel.c:14-31, arax_vaccel.c.) -/
structure WfVaq (s : State) : Prop where
  vaq : ∀ p o v, s.objs p = some o → o.freeVaq = some v → o.kind = .phys ∧ ∃ ov, s.objs v = some ov ∧ ov.kind = .virt ∧ 0 < ov.refs
  own : ∀ p q o o' v, s.objs p = some o → s.objs q = some o' → o.freeVaq = some v → o'.freeVaq = some v → p = q

theorem given_snoc (s : State) (ids : List Nat) (id x : Nat) {o : Obj} (ho : s.objs id = some o) :
    given s (ids ++ [id]) x = (given s ids x || (x == id || (o.refs == 1 && o.freeVaq == some x))) := by
  rw [Bool.eq_iff_iff]
  simp only [given, List.mem_append, List.mem_singleton, List.any_append, List.any_cons, List.any_nil, ho, Bool.or_eq_true, decide_eq_true_eq, beq_iff_eq, Bool.or_false]
  grind

theorem not_given {s : State} (hv : WfVaq s) {k : Kind} {ids : List Nat} {id : Nat} {o : Obj} (ho : s.objs id = some o) (hk : o.kind = k)
    (hids : ∀ p ∈ ids, ∃ o, s.objs p = some o ∧ o.kind = k) (hn : id ∉ ids) : given s ids id = false := by
  rw [Bool.eq_false_iff]
  intro h
  simp only [given, Bool.or_eq_true, decide_eq_true_eq, List.any_eq_true] at h
  rcases h with h | ⟨p, hp, h⟩
  · exact hn h
  · obtain ⟨po, hpo, hpk⟩ := hids p hp
    rw [hpo] at h
    simp only [Bool.and_eq_true, beq_iff_eq] at h
    obtain ⟨h1, ov, h2, h3, _⟩ := hv.vaq p po id hpo h.2
    rw [ho] at h2
    injection h2 with h2
    subst h2
    rw [h3] at hk
    rw [h1, ← hk] at hpk
    cases hpk

/-- `arax_object_ref_dec` with or without the lock of kind `h` held (`refDec`, `refDecPre`). -/
def decAny (h : Option Kind) (s : State) (id : Nat) : Out State :=
  match s.objs id with
  | none => .ub
  | some o =>
    if o.refs = 0 then .abort
    else if o.refs = 1 then destroy h (s.unlist o.kind id) id o
    else .ok (s.setObj id (some { o with refs := o.refs - 1 }))

theorem state_ext {a b : State} (h1 : a.objs = b.objs) (h2 : a.list = b.list) : a = b := by
  cases a; cases b; simp only at h1 h2; subst h1; subst h2; rfl

theorem filter_erase {l : List Nat} (hl : l.Nodup) (p q : Nat → Bool) (id : Nat) (h : ∀ x, x ≠ id → p x = q x) (hq : q id = false) :
    (l.filter p).erase id = l.filter q := by
  have hnd : (l.filter p).Nodup := hl.filter p
  rw [List.Nodup.erase_eq_filter hnd, List.filter_filter]
  refine List.filter_congr ?_
  intro x _
  by_cases hx : x = id
  · subst hx; simp [hq]
  · simp [hx, h x hx]

theorem dec_after {s : State} (wf : Wf s) (hv : WfVaq s) {h : Option Kind} {k : Kind} {ids : List Nat} {id : Nat} {o : Obj} (ho : s.objs id = some o)
    (hk : o.kind = k) (hr : 0 < o.refs) (hids : ∀ p ∈ ids, ∃ o, s.objs p = some o ∧ o.kind = k) (hn : id ∉ ids)
    (hh : h ≠ some .virt ∨ (o.refs = 1 → o.freeVaq = none)) :
    decAny h (after s ids) id = .ok (after s (ids ++ [id])) := by
  have hg := not_given hv ho hk hids hn
  have hob : (after s ids).objs id = some o := by simp [after, ho, hg]
  have gs := fun x => given_snoc s ids id x ho
  simp only [decAny, hob]
  rw [if_neg (by omega)]
  by_cases h1 : o.refs = 1
  · rw [if_pos h1]
    cases hf : o.freeVaq with
    | none =>
      have e : destroy h ((after s ids).unlist o.kind id) id o = .ok (((after s ids).unlist o.kind id).setObj id none) := by
        unfold destroy
        rw [hf]
        cases o.kind <;> rfl
      rw [e]
      congr 1
      refine state_ext ?_ ?_
      · funext x
        simp only [State.setObj, State.unlist, after]
        by_cases hx : x = id
        · subst hx; simp [ho, gs, h1]
        · rw [if_neg hx]
          have : given s (ids ++ [id]) x = given s ids x := by rw [gs, hf]; simp [hx]
          rw [this]
      · funext j
        simp only [State.setObj, State.unlist, after]
        split
        · rename_i hj
          subst hj
          refine filter_erase (wf.nodup _) _ _ _ ?_ ?_
          · intro x hx
            have : given s (ids ++ [id]) x = given s ids x := by rw [gs, hf]; simp [hx]
            rw [this]
          · simp [ho, gs, h1]
        · rename_i hj
          refine List.filter_congr ?_
          intro x hx
          have hxi : x ≠ id := by
            rintro rfl
            obtain ⟨o', ho', hk', _⟩ := wf.live j x hx
            rw [ho] at ho'
            injection ho' with ho'
            subst ho'
            exact hj hk'.symm
          have : given s (ids ++ [id]) x = given s ids x := by rw [gs, hf]; simp [hxi]
          rw [this]
    | some v =>
      obtain ⟨hp, ov, hov, hvk, hvr⟩ := hv.vaq id o v ho hf
      have hh' : h ≠ some .virt := hh.resolve_right (fun h => by rw [h h1] at hf; cases hf)
      have hvid : v ≠ id := by rintro rfl; rw [ho] at hov; injection hov with hov; subst hov; rw [hp] at hvk; cases hvk
      have hgv : given s ids v = false := by
        rw [Bool.eq_false_iff]
        intro hgv
        simp only [given, Bool.or_eq_true, decide_eq_true_eq, List.any_eq_true] at hgv
        rcases hgv with hgv | ⟨p, hpm, hgv⟩
        · obtain ⟨o', ho', hk'⟩ := hids v hgv
          rw [hov] at ho'
          injection ho' with ho'
          subst ho'
          rw [hvk, ← hk, hp] at hk'
          cases hk'
        · obtain ⟨po, hpo, _⟩ := hids p hpm
          rw [hpo] at hgv
          simp only [Bool.and_eq_true, beq_iff_eq] at hgv
          exact hn (hv.own p id po o v hpo ho hgv.2 hf ▸ hpm)
      have hobv : ((after s ids).unlist .phys id).objs v = some ov := by simp [after, State.unlist, hov, hgv]
      have e : destroy h ((after s ids).unlist o.kind id) id o =
          (refDecVirt h ((after s ids).unlist .phys id) v).andThen (fun s => .ok (s.setObj id none)) := by
        unfold destroy
        rw [hf, hp]
      have hgs : ∀ x, x ≠ id → x ≠ v → given s (ids ++ [id]) x = given s ids x := by
        intro x hx hxv
        rw [gs, hf]
        have : ¬ v = x := fun e => hxv e.symm
        simp [hx, this]
      have hgid : given s (ids ++ [id]) id = true := by rw [gs]; simp
      have hgv' : given s (ids ++ [id]) v = true := by rw [gs, hf]; simp [h1]
      have hlp : ((after s ids).list .phys).erase id = (after s (ids ++ [id])).list .phys := by
        refine (filter_erase (wf.nodup _) _ (fun x => !(given s (ids ++ [id]) x && (match s.objs x with | some o => o.refs == 1 | none => false)) || x == v) id ?_ ?_).trans ?_
        · intro x hx
          by_cases hxv : x = v
          · subst hxv; simp [hgv]
          · rw [hgs x hx hxv]; simp [hxv]
        · simp [hgid, ho, h1, Ne.symm hvid]
        · refine List.filter_congr ?_
          intro x hx
          have : x ≠ v := by
            rintro rfl
            obtain ⟨o', ho', hk', _⟩ := wf.live .phys x hx
            rw [hov] at ho'
            injection ho' with ho'
            subst ho'
            rw [hvk] at hk'
            cases hk'
          simp [this]
      rw [e]
      unfold refDecVirt
      rw [hobv]
      dsimp only
      rw [if_neg (by omega), if_neg (by rw [hvk]; exact hh')]
      have hvirt : ∀ x ∈ s.list .virt, x ≠ id := by
        rintro x hx rfl
        obtain ⟨o', ho', hk', _⟩ := wf.live .virt x hx
        rw [ho] at ho'
        injection ho' with ho'
        subst ho'
        rw [hp] at hk'
        cases hk'
      by_cases hv1 : ov.refs = 1
      · rw [if_pos hv1]
        simp only [Out.andThen]
        congr 1
        refine state_ext ?_ ?_
        · funext x
          simp only [State.setObj, State.unlist]
          by_cases hx : x = id
          · subst hx; simp [after, hgid, ho, h1]
          · rw [if_neg hx]
            by_cases hxv : x = v
            · subst hxv; simp [after, hgv', hov, hv1]
            · rw [if_neg hxv]; simp only [after]; rw [hgs x hx hxv]
        · funext j
          simp only [State.setObj, State.unlist]
          rw [hvk]
          cases j with
          | phys => simpa using hlp
          | virt =>
            simp only [if_true, reduceCtorEq, if_false]
            refine (filter_erase (wf.nodup .virt) _ (fun x => !(given s (ids ++ [id]) x && (match s.objs x with | some o => o.refs == 1 | none => false)) || x == id) v ?_ ?_).trans ?_
            · intro x hxv
              by_cases hx : x = id
              · subst hx; simp [hg]
              · rw [hgs x hx hxv]; simp [hx]
            · simp [hgv', hov, hv1, hvid]
            · refine List.filter_congr ?_
              intro x hx
              simp [hvirt x hx]
      · rw [if_neg hv1]
        simp only [Out.andThen]
        congr 1
        refine state_ext ?_ ?_
        · funext x
          simp only [State.setObj, State.unlist]
          by_cases hx : x = id
          · subst hx; simp [after, hgid, ho, h1]
          · rw [if_neg hx]
            by_cases hxv : x = v
            · subst hxv; simp [after, hgv', hov, hv1]
            · rw [if_neg hxv]; simp only [after]; rw [hgs x hx hxv]
        · funext j
          simp only [State.setObj, State.unlist]
          cases j with
          | phys => simpa using hlp
          | virt =>
            simp only [reduceCtorEq, if_false, after]
            refine List.filter_congr ?_
            intro x hx
            by_cases hxv : x = v
            · subst hxv; simp [hov, beq_eq_false_iff_ne.mpr hv1]
            · rw [hgs x (hvirt x hx) hxv]
  · rw [if_neg h1]
    congr 1
    refine state_ext ?_ ?_
    · funext x
      simp only [State.setObj, after]
      by_cases hx : x = id
      · subst hx; simp [ho, gs, h1]
      · rw [if_neg hx]
        have : given s (ids ++ [id]) x = given s ids x := by rw [gs]; simp [hx, h1]
        rw [this]
    · funext j
      simp only [State.setObj, after]
      refine List.filter_congr ?_
      intro x _
      by_cases hx : x = id
      · subst hx; simp [ho, beq_eq_false_iff_ne.mpr h1]
      · have : given s (ids ++ [id]) x = given s ids x := by rw [gs]; simp [hx, h1]
        rw [this]

theorem freeLoop_after {s : State} (wf : Wf s) (hv : WfVaq s) (h : Option Kind) {k : Kind} : ∀ (ids fin : List Nat) (rest : List (Option Nat)),
    (fin ++ ids).Nodup → (∀ id ∈ fin ++ ids, ∃ o, s.objs id = some o ∧ o.kind = k ∧ 0 < o.refs ∧ (h ≠ some .virt ∨ (o.refs = 1 → o.freeVaq = none))) →
    freeLoop (decAny h) (after s fin) (ids.map some ++ none :: rest) = .ok (after s (fin ++ ids)) := by
  intro ids
  induction ids with
  | nil => intro fin rest _ _; simp [freeLoop]
  | cons id ids ih =>
    intro fin rest hnd hl
    obtain ⟨o, ho, hk, hr, hh⟩ := hl id (by simp)
    have hn : id ∉ fin := by
      intro hm
      rw [List.nodup_append] at hnd
      exact hnd.2.2 id hm id (by simp) rfl
    rw [List.map_cons, List.cons_append, freeLoop, dec_after wf hv ho hk hr (fun p hp => let ⟨o, a, b, _⟩ := hl p (by simp [hp]); ⟨o, a, b⟩) hn hh]
    simp only [Out.andThen]
    have := ih (fin ++ [id]) rest (by simpa using hnd) (by simpa using hl)
    simpa using this

theorem after_nil (s : State) : after s [] = s := by
  refine state_ext ?_ ?_
  · funext x
    simp only [after, given]
    cases s.objs x <;> simp
  · funext k
    simp [after, given]

/-- **C55** (free, whatever happened in between) `arax_accel_list_free` of an array of accelerators on each of which the caller has a reference takes exactly one from each: those who lose their last
one are gone from memory and from the listings, together with the reference their own queue object had from them; nothing else changes. -/
theorem C55_free_later (s : State) (wf : Wf s) (hv : WfVaq s) (k : Kind) (ids : List Nat) (hnd : ids.Nodup) (rest : List (Option Nat))
    (hl : ∀ id ∈ ids, ∃ o, s.objs id = some o ∧ o.kind = k ∧ 0 < o.refs) : listFree s (ids.map some ++ none :: rest) = .ok (after s ids) := by
  have h := freeLoop_after wf hv none (k := k) ids [] rest (by simpa using hnd) (by
    intro id hid
    obtain ⟨o, a, b, c⟩ := hl id (by simpa using hid)
    exact ⟨o, a, b, c, Or.inl (by decide)⟩)
  rw [after_nil, List.nil_append] at h
  exact h

/-- **C55 (partial: listing again, whatever happened in between)** With an earlier array, `arax_accel_list` first gives its references back and then lists what is left, for every state and array. Missing: virtual
accelerators are listed with an array that has the last reference of a physical one (`C55_violated_hang`). -/
theorem C55_relist_later_partial (s : State) (wf : Wf s) (hv : WfVaq s) (k : Kind) (ids : List Nat) (hnd : ids.Nodup) (rest : List (Option Nat)) (junk : Option Nat) (t' : Nat) (k' : Kind)
    (hl : ∀ id ∈ ids, ∃ o, s.objs id = some o ∧ o.kind = k ∧ 0 < o.refs ∧ (k' = .phys ∨ k = .virt ∨ o.refs ≠ 1)) :
    accelList junk t' k' (some (some (ids.map some ++ none :: rest))) s = accelList junk t' k' (some none) (after s ids) := by
  have h := freeLoop_after wf hv (some k') (k := k) ids [] rest (by simpa using hnd) (by
    intro id hid
    obtain ⟨o, a, b, c, d⟩ := hl id (by simpa using hid)
    refine ⟨o, a, b, c, ?_⟩
    rcases d with d | d | d
    · subst d; exact Or.inl (by decide)
    · refine Or.inr (fun _ => ?_)
      cases hf : o.freeVaq with
      | none => rfl
      | some v =>
        have := (hv.vaq id o v a hf).1
        rw [b, d] at this
        cases this
    · exact Or.inr (fun e => absurd e d))
  rw [after_nil, List.nil_append] at h
  have h' : freeLoop (refDecPre k') s (ids.map some ++ none :: rest) = .ok (after s ids) := h
  simp only [accelList, h']

theorem freeLoop_prefix (dec : State → Nat → Out State) : ∀ (ids : List Nat) (s s' : State) (r q : List (Option Nat)),
    freeLoop dec s (ids.map some ++ none :: q) = .ok s' → freeLoop dec s (ids.map some ++ r) = freeLoop dec s' r := by
  intro ids
  induction ids with
  | nil => intro s s' r q h; simp only [List.map_nil, List.nil_append, freeLoop, Out.ok.injEq] at h; subst h; rfl
  | cons id ids ih =>
    intro s s' r q h
    simp only [List.map_cons, List.cons_append, freeLoop] at h ⊢
    cases hd : dec s id with
    | ok s1 => rw [hd] at h; exact ih s1 s' r q h
    | abort => rw [hd] at h; cases h
    | ub => rw [hd] at h; cases h
    | hang => rw [hd] at h; cases h

/-- **C55 is violated in all the cases that `C55_relist_later_partial` leaves out**: if virtual accelerators are listed with an earlier array that has the last reference of a physical accelerator with a
queue object, the call never returns. -/
theorem C55_violated_hang_always (s : State) (wf : Wf s) (hv : WfVaq s) (pre post : List Nat) (id v : Nat) (o : Obj) (rest : List (Option Nat)) (junk : Option Nat) (t' : Nat)
    (hnd : (pre ++ id :: post).Nodup) (ho : s.objs id = some o) (h1 : o.refs = 1) (hf : o.freeVaq = some v)
    (hl : ∀ p ∈ pre, ∃ o, s.objs p = some o ∧ o.kind = .phys ∧ 1 < o.refs) :
    accelList junk t' .virt (some (some ((pre ++ id :: post).map some ++ none :: rest))) s = .hang := by
  obtain ⟨hp, ov, hov, hvk, hvr⟩ := hv.vaq id o v ho hf
  have hn : id ∉ pre := fun hm => (List.nodup_append.mp hnd).2.2 id hm id (by simp) rfl
  have h := freeLoop_after wf hv (some .virt) (k := .phys) pre [] rest (by simpa using (List.nodup_append.mp hnd).1) (by
    intro p hpm
    obtain ⟨o, a, b, c⟩ := hl p (by simpa using hpm)
    exact ⟨o, a, b, by omega, Or.inr (fun e => by omega)⟩)
  rw [after_nil, List.nil_append] at h
  have hkind : ∀ p ∈ pre, ∃ o, s.objs p = some o ∧ o.kind = .phys := fun p hp => let ⟨o, a, b, _⟩ := hl p hp; ⟨o, a, b⟩
  have hg := not_given hv ho hp hkind hn
  have hgv : given s pre v = false := by
    rw [Bool.eq_false_iff]
    intro hgv
    simp only [given, Bool.or_eq_true, decide_eq_true_eq, List.any_eq_true] at hgv
    rcases hgv with hgv | ⟨p, hpm, hgv⟩
    · obtain ⟨o', ho', hk'⟩ := hkind v hgv
      rw [hov] at ho'
      injection ho' with ho'
      subst ho'
      rw [hvk] at hk'
      cases hk'
    · obtain ⟨po, hpo, _⟩ := hkind p hpm
      rw [hpo] at hgv
      simp only [Bool.and_eq_true, beq_iff_eq] at hgv
      exact hn (hv.own p id po o v hpo ho hgv.2 hf ▸ hpm)
  have hd : decAny (some .virt) (after s pre) id = .hang := by
    have hob : (after s pre).objs id = some o := by simp [after, ho, hg]
    have hobv : ((after s pre).unlist .phys id).objs v = some ov := by simp [after, State.unlist, hov, hgv]
    simp only [decAny, hob]
    rw [if_neg (by omega), if_pos h1]
    unfold destroy
    rw [hf, hp]
    dsimp only
    unfold refDecVirt
    rw [hobv]
    dsimp only
    rw [if_neg (by omega), if_pos (by rw [hvk])]
    rfl
  have hfl : freeLoop (refDecPre .virt) s ((pre ++ id :: post).map some ++ none :: rest) = .hang := by
    rw [List.map_append, List.append_assoc]
    have e := freeLoop_prefix (decAny (some .virt)) pre s (after s pre) ((id :: post).map some ++ none :: rest) rest h
    refine Eq.trans e ?_
    simp only [List.map_cons, List.cons_append, freeLoop, hd]
    rfl
  simp only [accelList, hfl]
  rfl

/-- One physical accelerator (1) of type 3 with its `free_vaq` (2), and a virtual one (3). -/
def sample (r : Nat) : State where
  objs := fun id => if id = 1 then some ⟨.phys, 3, r, some 2⟩ else if id = 2 then some ⟨.virt, 3, 1, none⟩ else if id = 3 then some ⟨.virt, 4, 1, none⟩ else none
  list := fun k => match k with | .phys => [1] | .virt => [3, 2]

/-- Observation of an outcome: the count and the array, or how it ended. -/
def Out.view {α : Type} : Out (State × Nat × α) → Out (Nat × α)
  | .ok (_, n, a) => .ok (n, a)
  | .abort => .abort
  | .ub => .ub
  | .hang => .hang

/-- Non-vacuity: the state is well formed and the listings are as expected. -/
example : Wf (sample 1) ∧ (accelList (some 9) 3 .virt (some none) (sample 1)).view = .ok (1, some [some 2, none, some 9]) ∧
    (accelList (some 9) 0 .virt (some none) (sample 1)).view = .ok (2, some [some 3, some 2, none]) := by
  refine ⟨⟨?_, ?_⟩, by decide +kernel, by decide +kernel⟩
  · intro k id h
    cases k <;> simp [sample] at h
    · subst h; exact ⟨_, rfl, rfl, by decide⟩
    · rcases h with rfl | rfl
      · exact ⟨_, rfl, rfl, by decide⟩
      · exact ⟨_, rfl, rfl, by decide⟩
  · intro k; cases k <;> decide

theorem sample_vaq (r : Nat) : WfVaq (sample r) := by
  refine ⟨?_, ?_⟩
  · intro p o v hp hf
    simp only [sample] at hp
    split at hp
    · cases hp; cases hf; exact ⟨rfl, _, rfl, rfl, by decide⟩
    · split at hp
      · cases hp; cases hf
      · split at hp <;> cases hp; cases hf
  · intro p q o o' v hp hq hf hf'
    have one : ∀ p o, (sample r).objs p = some o → o.freeVaq = some v → p = 1 := by
      intro p o hp hf
      simp only [sample] at hp
      split at hp
      · assumption
      · split at hp
        · cases hp; cases hf
        · split at hp <;> cases hp; cases hf
    rw [one p o hp hf, one q o' hq hf']

/-- Non-vacuity of `C55_free_later` and `C55_relist_later_partial`: the array has the last reference of the physical accelerator; its queue object, referenced by nobody else, goes with it. -/
example : (∀ id ∈ [1], ∃ o, (sample 1).objs id = some o ∧ o.kind = .phys ∧ 0 < o.refs) ∧ (after (sample 1) [1]).list .virt = [3] ∧
    (accelList none 0 .phys (some (some [some 1, none])) (sample 1)).view = .ok (0, some [none]) := by
  refine ⟨?_, by decide +kernel, by decide +kernel⟩
  intro id h
  simp only [List.mem_singleton] at h
  subst h
  exact ⟨_, rfl, rfl, by decide⟩

/-- **C55 is violated by the code** when the earlier array holds the last reference of a physical accelerator (its owner released it) and virtual accelerators are listed: the call destroys it while
holding the lock of the virtual accelerators, which the destructor needs to release the accelerator's own queue. The call never returns, and neither does any later call that needs that lock. -/
theorem C55_violated_hang : (accelList none 0 .virt (some (some [some 1, none])) (sample 1)).view = .hang ∧
    -- the same release with `arax_accel_list_free` works
    (match listFree (sample 1) [some 1, none] with | .ok s => (s.objs 1).isNone && (s.objs 2).isNone && s.list .phys == [] && s.list .virt == [3] | _ => false) = true := by
  constructor <;> decide +kernel

end Arax.Listing
