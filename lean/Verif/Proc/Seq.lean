import Verif.Object.Props
import Verif.Object.User
/-!
# C28 and C29, one call at a time: procedures are found by name, registered, got and put

On top of the object machine (`Object.Model`).
-/
namespace Arax.Object

/-- `o` is a live procedure called `name`. (No code of its own.) -/
def IsProc (s : St) (o : Nat) (name : List Char) : Prop := ∃ x, s.obj o = some x ∧ x.kind = .proc name

/-- `strcmp(name, proc->obj.name) == 0` in the loop of /repo/src/core/arax_pipe.c:226-232. -/
def nameIs (s : St) (name : List Char) (o : Nat) : Bool :=
  match s.obj o with
  | some { kind := .proc n, .. } => n == name
  | _ => false

/-- /repo/src/core/arax_pipe.c:219-236 `arax_pipe_find_proc`: the first procedure of the repository's list with that name. -/
def findProc (s : St) (name : List Char) : Option Nat := (s.repo .proc).find? (nameIs s name)

/-- /repo/src/arch/shm/impl.c:384-398 `arax_proc_register`: no reference is taken on an existing procedure. -/
def procRegister (c : Conf) (s : St) (allocOk : Bool) (name : List Char) : Res (St × Option Nat) :=
  match findProc s name with
  | some p => .ok (s, some p)
  | none => (step c s allocOk (.newProc name)).map fun s' => (s', if allocOk then some s.next else none)

/-- /repo/src/arch/shm/impl.c:400-411 `arax_proc_get`. -/
def procGet (c : Conf) (s : St) (name : List Char) : Res (St × Option Nat) :=
  match findProc s name with
  | some p => (step c s true (.refInc p)).map fun s' => (s', some p)
  | none => .ok (s, none)

/-- /repo/src/arch/shm/impl.c:413-420 `arax_proc_put`. -/
def procPut (c : Conf) (s : St) (p : Nat) : Res St := step c s true (.refDec p)

theorem nameIs_iff (s : St) (name : List Char) (o : Nat) : nameIs s name o = true ↔ IsProc s o name := by
  unfold nameIs IsProc
  cases h : s.obj o with
  | none => simp
  | some x =>
    obtain ⟨k, r, n⟩ := x
    cases k <;> simp

/-- **C29** (exact). `arax_pipe_find_proc` returns a live procedure with exactly that name if there is one, and NULL otherwise. -/
theorem C29_lookup_exact {c : Conf} {s : St} (h : Reach c s) (name : List Char) :
    (∀ p, findProc s name = some p → IsProc s p name) ∧ (findProc s name = none ↔ ∀ p, ¬ IsProc s p name) := by
  unfold findProc
  refine ⟨?_, ?_⟩
  · intro p hp
    exact (nameIs_iff s name p).mp (List.find?_some hp)
  · rw [List.find?_eq_none]
    constructor
    · intro hn p hp
      obtain ⟨x, hx, hk⟩ := hp
      exact hn p (((C25_registered_iff_live h .proc).2 p).mpr ⟨x, hx, by rw [hk]; rfl⟩) ((nameIs_iff s name p).mpr ⟨x, hx, hk⟩)
    · intro hn p _ hp
      exact hn p ((nameIs_iff s name p).mp hp)

/-- The histories in which procedures are created by `arax_proc_register` only; every other call is any legal API call. (No code of its own.) -/
inductive PReach (c : Conf) : St → Prop where
  | init : PReach c (init c)
  | register {s s' : St} {b : Bool} {name : List Char} {p : Option Nat} : PReach c s → procRegister c s b name = .ok (s', p) → PReach c s'
  | api {s s' : St} {b : Bool} {op : Op} : PReach c s → (∀ n, op ≠ .newProc n) → Legal s op → step c s b op = .ok s' → PReach c s'

theorem PReach.reach {c : Conf} {s : St} (h : PReach c s) : Reach c s := by
  induction h with
  | init => exact Reach.init
  | @register s s' b name p _ e ih =>
    unfold procRegister at e
    split at e
    · cases e; exact ih
    · cases h1 : step c s b (.newProc name) with
      | ok t => rw [h1] at e; simp only [Res.map, Res.ok.injEq, Prod.mk.injEq] at e; obtain ⟨rfl, -⟩ := e; exact Reach.step (op := .newProc name) ih trivial h1
      | abort => rw [h1] at e; cases e
      | ub => rw [h1] at e; cases e
  | api _ _ hl e ih => exact Reach.step ih hl e

/-- Legal calls do not create or rename procedures, except `newProc`. -/
theorem procs_step {c : Conf} {s s' : St} {b : Bool} {op : Op} (e : step c s b op = .ok s')
    {o : Nat} {name : List Char} (hp : IsProc s' o name) : IsProc s o name ∨ (o = s.next ∧ op = .newProc name) := by
  have : Sigs (fun i nm _ => ∀ n, nm = some n → IsProc s i n ∨ (i = s.next ∧ op = .newProc n)) s' := by
    refine sigs_step ?_ ?_ e
    · intro i x hx n hn
      left
      refine ⟨x, hx, ?_⟩
      cases hk : x.kind <;> simp [hk, procName] at hn ⊢
      exact hn
    · cases op <;> simp [News]
  obtain ⟨x, hx, hk⟩ := hp
  exact this o x hx name (by rw [hk]; rfl)

/-- **C29** (unique). When procedures are only created by `arax_proc_register`, one call at a time, there is never more than one live procedure per name. -/
theorem C29_unique {c : Conf} {s : St} (h : PReach c s) {p q : Nat} {name : List Char} (hp : IsProc s p name) (hq : IsProc s q name) : p = q := by
  induction h generalizing p q name with
  | init => obtain ⟨x, hx, -⟩ := hp; simp [init] at hx
  | @register s s' b nm r hr e ih =>
    have hinv := inv_reach hr.reach
    unfold procRegister at e
    split at e
    · cases e; exact ih hp hq
    · next hf =>
      have hno := (C29_lookup_exact hr.reach nm).2.mp hf
      cases h1 : step c s b (.newProc nm) with
      | ok t =>
        rw [h1] at e; simp only [Res.map, Res.ok.injEq, Prod.mk.injEq] at e; obtain ⟨rfl, -⟩ := e
        rcases procs_step h1 hp with hp' | ⟨rfl, ep⟩ <;> rcases procs_step h1 hq with hq' | ⟨rfl, eq'⟩
        · exact ih hp' hq'
        · injection eq' with eq'; subst eq'; exact absurd hp' (hno p)
        · injection ep with ep; subst ep; exact absurd hq' (hno q)
        · rfl
      | abort => rw [h1] at e; cases e
      | ub => rw [h1] at e; cases e
  | @api s s' b op hr hne hl e ih =>
    have hinv := inv_reach hr.reach
    rcases procs_step e hp with hp' | ⟨-, ep⟩
    · rcases procs_step e hq with hq' | ⟨-, eq'⟩
      · exact ih hp' hq'
      · exact absurd eq' (hne name)
    · exact absurd ep (hne name)

/-- **C29** (get). `arax_proc_get` returns the one live procedure of that name with one more reference, or NULL if there is none. -/
theorem C29_get {c : Conf} {s : St} (h : PReach c s) (name : List Char) :
    (∀ p x, s.obj p = some x → x.kind = .proc name →
      ∃ s', procGet c s name = .ok (s', some p) ∧ s'.obj p = some { x with refs := x.refs + 1 } ∧ s'.user p = s.user p + 1) ∧
    ((∀ p, ¬ IsProc s p name) → procGet c s name = .ok (s, none)) := by
  refine ⟨?_, ?_⟩
  · intro p x hx hk
    cases hf : findProc s name with
    | none => exact absurd ⟨x, hx, hk⟩ ((C29_lookup_exact h.reach name).2.mp hf p)
    | some q =>
      have := C29_unique h ((C29_lookup_exact h.reach name).1 q hf) ⟨x, hx, hk⟩
      subst this
      refine ⟨_, by simp only [procGet, hf, step, refInc, hx, Res.map]; rfl, ?_, ?_⟩
      · simp [St.put, St.setUser]
      · simp [St.put, St.setUser]
  · intro hn
    have := (C29_lookup_exact h.reach name).2.mpr hn
    simp only [procGet, this]

/-! ### C28 -/

/-- The references the documentation grants (/repo/include/arax.h:148-180: "for every arax_proc_get()/arax_proc_register() there should be a matching
arax_proc_put()"): `G c s g` says that `s` is reached by calls in which every put is of a granted reference, `g p` being the number of references on `p`
granted and not yet put. Other calls do not touch references on procedures. -/
inductive Granted (c : Conf) : St → (Nat → Nat) → Prop where
  | init : Granted c (init c) (fun _ => 0)
  | register {s s' : St} {g : Nat → Nat} {b : Bool} {name : List Char} {p : Nat} : Granted c s g → procRegister c s b name = .ok (s', some p) →
      Granted c s' (fun i => if i = p then g i + 1 else g i)
  | registerFail {s s' : St} {g : Nat → Nat} {b : Bool} {name : List Char} : Granted c s g → procRegister c s b name = .ok (s', none) → Granted c s' g
  | get {s s' : St} {g : Nat → Nat} {name : List Char} {p : Nat} : Granted c s g → procGet c s name = .ok (s', some p) →
      Granted c s' (fun i => if i = p then g i + 1 else g i)
  | put {s s' : St} {g : Nat → Nat} {p : Nat} : Granted c s g → 1 ≤ g p → procPut c s p = .ok s' → Granted c s' (fun i => if i = p then g i - 1 else g i)
  | api {s s' : St} {g : Nat → Nat} {b : Bool} {op : Op} : Granted c s g → (∀ n, op ≠ .newProc n) → (∀ o n, IsProc s o n → op ≠ .refInc o ∧ op ≠ .refDec o) →
      Legal s op → step c s b op = .ok s' → Granted c s' g

/-- The same, with `arax_proc_register` called only for names that have no procedure. (No code of its own.) -/
inductive GrantedFresh (c : Conf) : St → (Nat → Nat) → Prop where
  | init : GrantedFresh c (init c) (fun _ => 0)
  | register {s s' : St} {g : Nat → Nat} {b : Bool} {name : List Char} {p : Nat} : GrantedFresh c s g → (∀ o, ¬ IsProc s o name) →
      procRegister c s b name = .ok (s', some p) → GrantedFresh c s' (fun i => if i = p then g i + 1 else g i)
  | registerFail {s s' : St} {g : Nat → Nat} {b : Bool} {name : List Char} : GrantedFresh c s g → procRegister c s b name = .ok (s', none) → GrantedFresh c s' g
  | get {s s' : St} {g : Nat → Nat} {name : List Char} {p : Nat} : GrantedFresh c s g → procGet c s name = .ok (s', some p) →
      GrantedFresh c s' (fun i => if i = p then g i + 1 else g i)
  | put {s s' : St} {g : Nat → Nat} {p : Nat} : GrantedFresh c s g → 1 ≤ g p → procPut c s p = .ok s' → GrantedFresh c s' (fun i => if i = p then g i - 1 else g i)
  | api {s s' : St} {g : Nat → Nat} {b : Bool} {op : Op} : GrantedFresh c s g → (∀ n, op ≠ .newProc n) → (∀ o n, IsProc s o n → op ≠ .refInc o ∧ op ≠ .refDec o) →
      Legal s op → step c s b op = .ok s' → GrantedFresh c s' g

theorem legal_put {s : St} {p : Nat} {x : Obj} {name : List Char} (hx : s.obj p = some x) (hk : x.kind = .proc name) (hu : 1 ≤ s.user p) : Legal s (.refDec p) := by
  refine ⟨hu, ?_⟩
  intro y f hy hf
  rw [hx] at hy; cases hy
  rw [hk] at hf; cases hf

/-- What the grants of a fresh history mean. (No code of its own.) -/
structure GInvP (c : Conf) (s : St) (g : Nat → Nat) : Prop where
  reach : Reach c s
  live  : ∀ p, 1 ≤ g p → ∃ n, IsProc s p n
  user  : ∀ p n, IsProc s p n → s.user p = g p

theorem proc_of_live {s : St} {p : Nat} {x : Obj} {n : List Char} (h : IsProc s p n) (hx : s.obj p = some x) : x.kind = .proc n := by
  obtain ⟨y, hy, hk⟩ := h; rw [hx] at hy; cases hy; exact hk

theorem proc_kept {c : Conf} {s s' : St} {b : Bool} {op : Op} (hr : Reach c s) (hl : Legal s op) (e : step c s b op = .ok s') {p : Nat} {n : List Char}
    (hp : IsProc s p n) (hu : 1 ≤ s'.user p) : IsProc s' p n := by
  obtain ⟨x, hx, hk⟩ := hp
  have hr' := Reach.step hr hl e
  obtain ⟨y, hy⟩ := Option.isSome_iff_exists.mp ((C25_live_iff_referenced hr' p).2.mpr (by omega))
  have : Sigs (fun i nm _ => i = p → nm = some n) s' := by
    refine sigs_step ?_ ?_ e
    · rintro i z hz rfl
      rw [hx] at hz; cases hz; rw [hk]; rfl
    · have hb := (inv_reach hr).g.bound p x hx
      cases op <;> simp [News] <;> omega
  have := this p y hy rfl
  refine ⟨y, hy, ?_⟩
  cases hk' : y.kind <;> simp [hk', procName] at this ⊢
  exact this

theorem ginvp {c : Conf} {s : St} {g : Nat → Nat} (h : GrantedFresh c s g) : GInvP c s g := by
  induction h with
  | init => exact ⟨Reach.init, fun p h => by simp at h, fun p n hp => by obtain ⟨x, hx, -⟩ := hp; simp [init] at hx⟩
  | @register s s' g b name p _ hno e ih =>
    have hb := (inv_reach ih.reach).g.bound
    have hf := (C29_lookup_exact ih.reach name).2.mpr hno
    simp only [procRegister, hf, step, Res.map, Res.ok.injEq, Prod.mk.injEq] at e
    obtain ⟨rfl, e2⟩ := e
    cases b with
    | false => simp at e2
    | true =>
      simp at e2; subst e2
      have hst : step c s true (.newProc name) = .ok (register s true (.proc name) c.szProc).1 := rfl
      have hg0 : g s.next = 0 := by
        apply Nat.le_zero.mp
        apply Nat.not_lt.mp
        intro h
        obtain ⟨n, x, hx, -⟩ := ih.live s.next h
        have := hb _ x hx
        omega
      have hu1 : (register s true (.proc name) c.szProc).1.user s.next = 1 := by simp [register, St.setUser]
      refine ⟨Reach.step (op := .newProc name) ih.reach trivial hst, ?_, ?_⟩
      · intro q hq
        by_cases e : q = s.next
        · subst e
          exact ⟨name, { kind := .proc name, refs := 1, size := c.szProc }, by simp [register, St.put, St.setRepo, St.setUser], rfl⟩
        · simp only [e, if_false] at hq
          obtain ⟨n, hn⟩ := ih.live q hq
          refine ⟨n, proc_kept (op := .newProc name) ih.reach trivial hst hn ?_⟩
          have hlt : q < s.next := by obtain ⟨x, hx, -⟩ := hn; exact hb q x hx
          rw [(user_register s true _ _).1 q hlt, ih.user q n hn]; exact hq
      · intro q n hq
        rcases procs_step hst hq with hq' | ⟨rfl, -⟩
        · have hlt : q < s.next := by obtain ⟨x, hx, -⟩ := hq'; exact hb q x hx
          rw [(user_register s true _ _).1 q hlt, ih.user q n hq', if_neg (by omega)]
        · rw [hu1, if_pos rfl, hg0]
  | @registerFail s s' g b name _ e ih =>
    have hb := (inv_reach ih.reach).g.bound
    unfold procRegister at e
    split at e
    · cases e
    · simp only [step, Res.map, Res.ok.injEq, Prod.mk.injEq] at e
      obtain ⟨rfl, e2⟩ := e
      cases b with
      | true => simp at e2
      | false =>
        exact ⟨Reach.step (allocOk := false) (op := .newProc name) ih.reach trivial rfl, ih.live, ih.user⟩
  | @get s s' g name p _ e ih =>
    have hb := (inv_reach ih.reach).g.bound
    unfold procGet at e
    split at e
    · next q hf =>
      obtain ⟨x, hx, hk⟩ := (C29_lookup_exact ih.reach name).1 q hf
      simp only [step, refInc, hx, Res.map, Res.ok.injEq, Prod.mk.injEq, Option.some.injEq] at e
      obtain ⟨rfl, rfl⟩ := e
      have hl : Legal s (.refInc q) := by simp [Legal, hx]
      have hst : step c s true (.refInc q) = .ok ((s.put q (some { x with refs := x.refs + 1 })).setUser q ((s.put q (some { x with refs := x.refs + 1 })).user q + 1)) := by
        simp only [step, refInc, hx, Res.map]
      have hus : ∀ i, ((s.put q (some { x with refs := x.refs + 1 })).setUser q ((s.put q (some { x with refs := x.refs + 1 })).user q + 1)).user i =
          if i = q then s.user q + 1 else s.user i := fun i => rfl
      refine ⟨Reach.step ih.reach hl hst, ?_, ?_⟩
      · intro r hr
        by_cases e : r = q
        · subst e; exact ⟨name, proc_kept ih.reach hl hst ⟨x, hx, hk⟩ (by rw [hus, if_pos rfl]; omega)⟩
        · simp only [e, if_false] at hr
          obtain ⟨n, hn⟩ := ih.live r hr
          exact ⟨n, proc_kept ih.reach hl hst hn (by rw [hus, if_neg e, ih.user r n hn]; exact hr)⟩
      · intro r n hr
        rw [hus]
        rcases procs_step hst hr with hr' | ⟨-, h⟩
        · have := ih.user r n hr'
          split
          · next e => subst e; omega
          · exact this
        · cases h
    · cases e
  | @put s s' g p _ hg e ih =>
    have hb := (inv_reach ih.reach).g.bound
    obtain ⟨name, x, hx, hk⟩ := ih.live p hg
    have hup := ih.user p name ⟨x, hx, hk⟩
    have hl : Legal s (.refDec p) := legal_put hx hk (by omega)
    have hus : ∀ i, s'.user i = if i = p then s.user p - 1 else s.user i := by
      have := (user_refDec 3 (s.setUser p (s.user p - 1)) s' p e).1
      intro i; rw [this]; rfl
    refine ⟨Reach.step (allocOk := true) ih.reach hl e, ?_, ?_⟩
    · intro r hr
      by_cases er : r = p
      · subst er
        simp only [if_true] at hr
        exact ⟨name, proc_kept (b := true) ih.reach hl e ⟨x, hx, hk⟩ (by rw [hus, if_pos rfl]; omega)⟩
      · simp only [er, if_false] at hr
        obtain ⟨n, hn⟩ := ih.live r hr
        exact ⟨n, proc_kept (b := true) ih.reach hl e hn (by rw [hus, if_neg er, ih.user r n hn]; exact hr)⟩
    · intro r n hr
      rw [hus]
      have e' : step c s true (.refDec p) = .ok s' := e
      rcases procs_step e' hr with hr' | ⟨-, h⟩
      · have := ih.user r n hr'
        split
        · next e => subst e; omega
        · exact this
      · cases h
  | @api s s' g b op _ hne hnp hl e ih =>
    have hb := (inv_reach ih.reach).g.bound
    have hus : ∀ r n, IsProc s r n → s'.user r = s.user r := by
      intro r n hr
      have hlt : r < s.next := by obtain ⟨x, hx, -⟩ := hr; exact hb r x hx
      exact (user_step e).1 r hlt (hnp r n hr).1 (hnp r n hr).2
    refine ⟨Reach.step ih.reach hl e, ?_, ?_⟩
    · intro r hr
      obtain ⟨n, hn⟩ := ih.live r hr
      exact ⟨n, proc_kept ih.reach hl e hn (by rw [hus r n hn, ih.user r n hn]; exact hr)⟩
    · intro r n hr
      rcases procs_step e hr with hr' | ⟨-, h⟩
      · rw [hus r n hr', ih.user r n hr']
      · exact absurd h (hne n)

/-- **C28** (balanced, one call at a time, partial). In histories that call `arax_proc_register` only for names without a procedure: a procedure with an outstanding
granted reference is live and keeps its name; putting a granted reference returns, and destroys the procedure exactly when it was the last granted one. -/
theorem C28_balanced_partial {c : Conf} {s : St} {g : Nat → Nat} (h : GrantedFresh c s g) {p : Nat} (hg : 1 ≤ g p) :
    (∃ n, IsProc s p n) ∧ ∃ s', procPut c s p = .ok s' ∧ (s'.obj p = none ↔ g p = 1) := by
  have hi := ginvp h
  obtain ⟨n, x, hx, hk⟩ := hi.live p hg
  refine ⟨⟨n, x, hx, hk⟩, ?_⟩
  have hu := hi.user p n ⟨x, hx, hk⟩
  obtain ⟨y, s', hy, e, h1, -⟩ := C25_destroyed_exactly_at_zero hi.reach true p (legal_put hx hk (by omega))
  refine ⟨s', e, h1.trans ?_⟩
  rw [hx] at hy; cases hy
  have hc := ((C25_live_iff_referenced hi.reach p).1 x hx).1
  have : holders s p = 0 := by
    rw [holders_eq (inv_reach hi.reach)]
    refine sumTo_zero _ _ ?_
    intro j hj
    cases hz : s.obj j with
    | none => rfl
    | some z =>
      have hl := (inv_reach hi.reach).ok.live j z hz
      simp only [hold, hl, if_false]
      rw [List.count_eq_zero]
      intro hm
      have hw := (inv_reach hi.reach).g.kids j z hz hl
      have key : ∀ t, isTy s p t → t = .proc := by rintro t ⟨w, hw, rfl⟩; rw [hx] at hw; cases hw; rw [hk]; rfl
      cases hkk : z.kind with
      | phys f => rw [hkk] at hw hm; have := key _ (hw p (by cases f <;> simp_all [Kind.children])); cases this
      | vaccel _ => rw [hkk] at hm; simp [Kind.children] at hm
      | proc _ => rw [hkk] at hm; simp [Kind.children] at hm
      | data a => rw [hkk] at hw hm; have := key _ (hw p (by cases a <;> simp_all [Kind.children])); cases this
      | task io a q =>
        rw [hkk] at hw hm
        simp only [Kind.children, List.mem_append] at hm
        rcases hm with hm | hm
        · have := key _ (hw.1 p hm); cases this
        · have := key _ (hw.2 p (by cases a <;> simp_all)); cases this
  rw [this] at hc
  constructor <;> intro _ <;> omega

/-- **C28 violated.** Registering a name twice grants two references but takes one: after the first put the procedure is gone, and the second, granted, put touches
freed memory. -/
theorem C28_violated : ∃ s g, Granted conf0 s g ∧ g 0 = 1 ∧ s.obj 0 = none ∧ procPut conf0 s 0 = .ub := by
  have h1 : Granted conf0 _ _ := Granted.register (b := true) (name := ['f']) (p := 0) (Granted.init (c := conf0)) rfl
  have h2 := Granted.register (b := true) (name := ['f']) (p := 0) h1 rfl
  have h3 := Granted.put (p := 0) h2 (by decide) rfl
  exact ⟨_, _, h3, rfl, rfl, rfl⟩

/-- Non-vacuity of C28/C29: register, get, put: one reference outstanding, the procedure is live and found. -/
example : ∃ s g, GrantedFresh conf0 s g ∧ g 0 = 1 ∧ findProc s ['f'] = some 0 ∧ findProc s ['g'] = none := by
  have h1 : GrantedFresh conf0 _ _ := GrantedFresh.register (b := true) (name := ['f']) (p := 0) (GrantedFresh.init (c := conf0))
    (by intro o ho; obtain ⟨x, hx, -⟩ := ho; simp [init] at hx) rfl
  have h2 := GrantedFresh.get (name := ['f']) (p := 0) h1 rfl
  have h3 := GrantedFresh.put (p := 0) h2 (by decide) rfl
  exact ⟨_, _, h3, rfl, rfl, rfl⟩

end Arax.Object
