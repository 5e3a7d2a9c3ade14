import Verif.Object.RefConc
/-!
# C110: proofs
-/
namespace Arax.RefConc

/-- The type of an object, while it is there. -/
def tyOf (s : St) (o : Nat) : Option Nat := (s.obj o).map (·.ty)

/-- The list locks a thread has at a point. -/
def holds : Pc → Nat → Prop
  | .regAdd _ ty, l => l = ty
  | .regUnlock ty, l => l = ty
  | .incAdd _ (some ty), l => l = ty
  | .decAdd _ ty, l => l = ty
  | .decDel _ ty, l => l = ty
  | .decUnlock _ ty _, l => l = ty
  | .walk ty, l => l = ty
  | .preAdd _ ty, l => l = ty
  | .preKill _ ty, l => l = ty
  | _, _ => False

/-- The object a thread is destroying. -/
def dying : Pc → Option Nat
  | .decDel o _ => some o
  | .decUnlock o _ true => some o
  | .kill o => some o
  | .preKill o _ => some o
  | _ => none

/-- What holds at a point of thread `t`. -/
def PcOk (s : St) (t : Nat) : Pc → Prop
  | .regLock o ty => tyOf s o = some ty ∧ (∀ l, o ∉ s.list l) ∧ 0 < nrefs s o ∧ ∀ r ∈ s.refs, r.2 = o → r.1 = .th t
  | .regAdd o ty => tyOf s o = some ty ∧ (∀ l, o ∉ s.list l) ∧ 0 < nrefs s o ∧ ∀ r ∈ s.refs, r.2 = o → r.1 = .th t
  | .incAdd o none => (Who.th t, o) ∈ s.refs
  | .incAdd o (some ty) => o ∈ s.list ty
  | .decLock o => (Who.th t, o) ∈ s.refs
  | .decAdd o ty => (Who.th t, o) ∈ s.refs ∧ tyOf s o = some ty
  | .preAdd o ty => (Who.th t, o) ∈ s.refs ∧ tyOf s o = some ty
  | .decDel o ty => tyOf s o = some ty ∧ nrefs s o = 0 ∧ o ∈ s.list ty
  | .preKill o ty => tyOf s o = some ty ∧ nrefs s o = 0 ∧ o ∈ s.list ty
  | .decUnlock o ty true => tyOf s o = some ty ∧ nrefs s o = 0 ∧ ∀ l, o ∉ s.list l
  | .decUnlock o ty false => tyOf s o = some ty ∧ 0 < nrefs s o
  | .kill o => (tyOf s o).isSome ∧ nrefs s o = 0 ∧ ∀ l, o ∉ s.list l
  | _ => True

structure Inv (dbg : Bool) (s : St) : Prop where
  lk : ∀ l t, s.lock l = some t ↔ holds (s.pc t) l
  pcs : ∀ t, PcOk s t (s.pc t)
  uniq : ∀ t t' o, dying (s.pc t) = some o → dying (s.pc t') = some o → t = t'
  cnt : ∀ o x, s.obj o = some x → x.cnt < W32 ∧ low dbg x.cnt = nrefs s o
  tok : ∀ r ∈ s.refs, (tyOf s r.2).isSome ∧ ∀ o', r.1 = .ob o' → (tyOf s o').isSome
  lst : ∀ l o, o ∈ s.list l → tyOf s o = some l ∧ (0 < nrefs s o ∨ ∃ t, s.pc t = .decDel o l ∨ s.pc t = .preKill o l)
  nd : ∀ l, (s.list l).Nodup
  all : ∀ o, (tyOf s o).isSome → 0 < nrefs s o ∨ ∃ t, dying (s.pc t) = some o
  lall : ∀ o l, tyOf s o = some l → 0 < nrefs s o → o ∈ s.list l ∨ ∃ t, s.pc t = .regLock o l ∨ s.pc t = .regAdd o l
  fresh : ∀ o, s.next ≤ o → s.obj o = none
  bnd : ∀ o, nrefs s o < cap dbg
  gone : ∀ o, o ∈ s.gone ↔ o < s.next ∧ s.obj o = none
  gnd : s.gone.Nodup

/-! ## Counting references -/

theorem nrefs_pos {s : St} {w : Who} {o : Nat} (h : (w, o) ∈ s.refs) : 0 < nrefs s o :=
  List.countP_pos_iff.mpr ⟨(w, o), h, by simp⟩

theorem countP_erase_self {l : List (Who × Nat)} {w : Who} {o : Nat} (h : (w, o) ∈ l) (p : Nat) :
    (l.erase (w, o)).countP (fun r => r.2 == p) + (if p = o then 1 else 0) = l.countP (fun r => r.2 == p) := by
  rw [(List.perm_cons_erase h).countP_eq, List.countP_cons]
  by_cases e : p = o
  · subst e; simp
  · have : (o == p) = false := by simp; exact fun h => e h.symm
    simp [e, this]

theorem countP_snoc (l : List (Who × Nat)) (w : Who) (o p : Nat) :
    (l ++ [(w, o)]).countP (fun r => r.2 == p) = l.countP (fun r => r.2 == p) + (if p = o then 1 else 0) := by
  rw [List.countP_append, List.countP_cons]
  by_cases e : p = o
  · subst e; simp
  · have : (o == p) = false := by simp; exact fun h => e h.symm
    simp [e, this]

theorem heir_snd (t o : Nat) (r : Who × Nat) : (heir t o r).2 = r.2 := by unfold heir; split <;> rfl

theorem countP_heir (t o p : Nat) (l : List (Who × Nat)) : (l.map (heir t o)).countP (fun r => r.2 == p) = l.countP (fun r => r.2 == p) := by
  rw [List.countP_map]; congr 1; funext r; simp [heir_snd]

/-! ## Arithmetic of the count -/

theorem low_up {dbg : Bool} {c n : Nat} (hc : c < W32) (h : low dbg c = n) (hb : n + 1 < cap dbg) : up dbg c < W32 ∧ low dbg (up dbg c) = n + 1 := by
  cases dbg <;> simp only [low, up, cap, W32, W16, W31, Bool.false_eq_true, if_true, if_false] at * <;> omega

theorem low_down {dbg : Bool} {c n : Nat} (hc : c < W32) (h : low dbg c = n + 1) : down dbg c < W32 ∧ low dbg (down dbg c) = n := by
  cases dbg <;> simp only [low, down, W32, W16, Bool.false_eq_true, if_true, if_false] at * <;> omega

theorem okInc_of {dbg : Bool} {c n : Nat} (h : low dbg c = n) (hb : n < cap dbg) : okInc dbg c = true := by
  cases dbg with
  | true => rfl
  | false => simp [low, okInc, cap] at *; omega

theorem okDec_of {dbg : Bool} {c n : Nat} (h : low dbg c = n) (h0 : 0 < n) (hb : n < cap dbg) : okDec dbg c = true := by
  cases dbg <;> simp [low, okDec, cap] at * <;> omega

theorem okPre_of {dbg : Bool} {c n : Nat} (h : low dbg c = n) (hb : n < cap dbg) : okPre dbg c = true := by
  cases dbg with
  | true => rfl
  | false => simp [low, okPre, cap] at *; omega

/-! ## The invariant gives safety -/

theorem tok_live {dbg : Bool} {s : St} (h : Inv dbg s) {w : Who} {o : Nat} (hm : (w, o) ∈ s.refs) : ∃ x, s.obj o = some x := by
  have := (h.tok _ hm).1
  simpa [tyOf, Option.isSome_iff_exists] using this

theorem ty_live {s : St} {o l : Nat} (h : tyOf s o = some l) : ∃ x, s.obj o = some x ∧ x.ty = l := by
  simpa [tyOf] using h

theorem locked_pos {dbg : Bool} {s : St} (h : Inv dbg s) {t o l : Nat} (hl : holds (s.pc t) l) (ho : o ∈ s.list l) (hd : dying (s.pc t) = none) :
    0 < nrefs s o := by
  rcases (h.lst l o ho).2 with h1 | ⟨t', h1⟩
  · exact h1
  · have hl' : holds (s.pc t') l := by rcases h1 with h1 | h1 <;> rw [h1] <;> rfl
    have e := (h.lk l t).mpr hl
    rw [(h.lk l t').mpr hl'] at e
    cases e
    rcases h1 with h1 | h1 <;> rw [h1] at hd <;> simp [dying] at hd

theorem touch_of {s : St} {o : Nat} {x : Ob} (h : s.obj o = some x) (k : Ob → Res) : s.touch o k = k x := by simp [St.touch, h]

theorem inv_safe {dbg : Bool} {s : St} (h : Inv dbg s) (t : Nat) (e : Ev) :
    step dbg s t e ≠ some .ub ∧ step dbg s t e ≠ some .abort := by
  have hp := h.pcs t
  cases e with
  | new ty => simp only [step]; split <;> simp
  | inc o =>
    simp only [step]
    split
    · next hc =>
      obtain ⟨x, hx⟩ := tok_live h hc.2
      rw [touch_of hx, if_pos (okInc_of (h.cnt o x hx).2 (h.bnd o))]
      simp
    · simp
  | dec o =>
    simp only [step]
    split
    · next hc =>
      obtain ⟨x, hx⟩ := tok_live h hc.2
      rw [touch_of hx, if_pos (okDec_of (h.cnt o x hx).2 (nrefs_pos hc.2) (h.bnd o))]
      simp
    · simp
  | lockList ty => simp only [step]; split <;> simp
  | look o =>
    simp only [step]
    split
    · next ty hpc =>
      split
      · next hm => obtain ⟨x, hx, -⟩ := ty_live (h.lst ty o hm).1; rw [touch_of hx]; simp
      · simp
    · simp
  | incW o =>
    simp only [step]
    split
    · next ty hpc =>
      split
      · next hm =>
        obtain ⟨x, hx, -⟩ := ty_live (h.lst ty o hm).1
        rw [touch_of hx, if_pos (okInc_of (h.cnt o x hx).2 (h.bnd o))]; simp
      · simp
    · simp
  | decW o =>
    simp only [step]
    split
    · split <;> simp
    · simp
  | unlockList =>
    simp only [step]
    split <;> simp
  | give o w => simp only [step]; split <;> simp
  | take o' o => simp only [step]; split <;> simp
  | go =>
    simp only [step, go]
    cases hpc : s.pc t with
    | idle => simp
    | regLock o ty => simp only; split <;> simp
    | regAdd o ty =>
      rw [hpc] at hp
      obtain ⟨x, hx, -⟩ := ty_live hp.1
      simp only; rw [touch_of hx]; simp
    | regUnlock ty => simp
    | incAdd o w =>
      rw [hpc] at hp
      have : ∃ x, s.obj o = some x := by
        cases w with
        | none => exact tok_live h hp
        | some ty => obtain ⟨x, hx, -⟩ := ty_live (h.lst ty o hp).1; exact ⟨x, hx⟩
      obtain ⟨x, hx⟩ := this
      simp only; rw [touch_of hx]; simp
    | decLock o =>
      rw [hpc] at hp
      obtain ⟨x, hx⟩ := tok_live h hp
      simp only [hx]
      split <;> simp
    | decAdd o ty =>
      rw [hpc] at hp
      obtain ⟨x, hx⟩ := tok_live h hp.1
      simp only; rw [touch_of hx]; simp
    | decDel o ty =>
      rw [hpc] at hp
      obtain ⟨x, hx, -⟩ := ty_live hp.1
      simp only; rw [touch_of hx]; simp
    | decUnlock o ty last =>
      rw [hpc] at hp
      have : tyOf s o = some ty := by cases last <;> exact hp.1
      obtain ⟨x, hx, -⟩ := ty_live this
      simp only; rw [touch_of hx]; simp
    | kill o =>
      rw [hpc] at hp
      obtain ⟨x, hx⟩ := Option.isSome_iff_exists.mp hp.1
      obtain ⟨x, hx, -⟩ := ty_live hx
      simp only; rw [touch_of hx]; simp
    | walk ty => simp
    | preAdd o ty =>
      rw [hpc] at hp
      obtain ⟨x, hx⟩ := tok_live h hp.1
      simp only; rw [touch_of hx]
      have hn := nrefs_pos hp.1
      have h2 := low_down (n := nrefs s o - 1) (h.cnt o x hx).1 (by rw [(h.cnt o x hx).2]; omega)
      have hb := h.bnd o
      have h3 : okPre dbg (down dbg x.cnt) = true := okPre_of h2.2 (by omega)
      rw [h3]
      split <;> simp
    | preKill o ty =>
      rw [hpc] at hp
      obtain ⟨x, hx, -⟩ := ty_live hp.1
      simp only; rw [touch_of hx]; simp


/-! ## The invariant is kept -/

theorem nrefs_eq {s s' : St} (h : s'.refs = s.refs) (o : Nat) : nrefs s' o = nrefs s o := by simp [nrefs, h]
theorem tyOf_eq {s s' : St} (h : s'.obj = s.obj) (o : Nat) : tyOf s' o = tyOf s o := by simp [tyOf, h]

theorem pcOk_congr {s s' : St} (ho : ∀ o, tyOf s' o = tyOf s o) (hl : s'.list = s.list) (hr : s'.refs = s.refs) (t : Nat) (p : Pc) :
    PcOk s t p → PcOk s' t p := by
  have hn := nrefs_eq hr
  cases p with
  | incAdd o w => cases w <;> simp only [PcOk, ho, hl, hr, hn] <;> exact id
  | decUnlock o ty b => cases b <;> simp only [PcOk, ho, hl, hr, hn] <;> exact id
  | _ => simp only [PcOk, ho, hl, hr, hn] <;> exact id

/-- Steps that only move the thread, and take or leave a lock. -/
theorem inv_move {dbg : Bool} {s : St} (h : Inv dbg s) (t : Nat) (lock : Nat → Option Nat) (p : Pc)
    (hlk : ∀ l t', lock l = some t' ↔ holds (if t' = t then p else s.pc t') l)
    (hp : PcOk s t p) (hd : dying p = dying (s.pc t))
    (h1 : ∀ o l, (s.pc t = .decDel o l ∨ s.pc t = .preKill o l) → (p = .decDel o l ∨ p = .preKill o l))
    (h2 : ∀ o l, (s.pc t = .regLock o l ∨ s.pc t = .regAdd o l) → (p = .regLock o l ∨ p = .regAdd o l)) :
    Inv dbg ({ s with lock := lock }.go t p) := by
  have hc : ∀ t p, PcOk s t p → PcOk ({ s with lock := lock }.go t p) t p := fun t p => pcOk_congr (fun _ => rfl) rfl rfl t p
  have hc' : ∀ t' q, PcOk s t' q → PcOk ({ s with lock := lock }.go t p) t' q := fun t' q => pcOk_congr (fun _ => rfl) rfl rfl t' q
  have hdy : ∀ t', dying (if t' = t then p else s.pc t') = dying (s.pc t') := by
    intro t'; split
    · next e => subst e; exact hd
    · rfl
  refine ⟨hlk, ?_, ?_, h.cnt, h.tok, ?_, h.nd, ?_, ?_, h.fresh, h.bnd, h.gone, h.gnd⟩
  · intro t'
    show PcOk _ t' (if t' = t then p else s.pc t')
    split
    · next e => subst e; exact hc _ _ hp
    · exact hc' _ _ (h.pcs t')
  · intro a b o ha hb
    have ha : dying (if a = t then p else s.pc a) = some o := ha
    have hb : dying (if b = t then p else s.pc b) = some o := hb
    rw [hdy] at ha hb
    exact h.uniq a b o ha hb
  · intro l o ho
    refine ⟨(h.lst l o ho).1, ?_⟩
    rcases (h.lst l o ho).2 with h3 | ⟨t', h3⟩
    · exact .inl h3
    · refine .inr ⟨t', ?_⟩
      show (if t' = t then p else s.pc t') = _ ∨ (if t' = t then p else s.pc t') = _
      split
      · next e => subst e; exact h1 o l h3
      · exact h3
  · intro o ho
    rcases h.all o ho with h3 | ⟨t', h3⟩
    · exact .inl h3
    · exact .inr ⟨t', by show dying (if t' = t then p else s.pc t') = _; rw [hdy]; exact h3⟩
  · intro o l ho hn
    rcases h.lall o l ho hn with h3 | ⟨t', h3⟩
    · exact .inl h3
    · refine .inr ⟨t', ?_⟩
      show (if t' = t then p else s.pc t') = _ ∨ (if t' = t then p else s.pc t') = _
      split
      · next e => subst e; exact h2 o l h3
      · exact h3

/-- The lock clause when the thread takes a free lock. -/
theorem lk_take {dbg : Bool} {s : St} (h : Inv dbg s) {t ty : Nat} {p : Pc} (hf : s.lock ty = none) (h0 : ∀ l, ¬ holds (s.pc t) l)
    (hp : ∀ l, holds p l ↔ l = ty) (l t' : Nat) : upd s.lock ty (some t) l = some t' ↔ holds (if t' = t then p else s.pc t') l := by
  unfold upd
  by_cases e : l = ty
  · subst e
    rw [if_pos rfl]
    by_cases e' : t' = t
    · subst e'; simp [hp]
    · rw [if_neg e']
      have := (h.lk l t')
      rw [hf] at this
      constructor
      · intro h; cases h; exact absurd rfl e'
      · intro h; exact absurd (this.mpr h) (by simp)
  · rw [if_neg e]
    by_cases e' : t' = t
    · subst e'
      rw [if_pos rfl, hp, h.lk]
      exact ⟨fun h => absurd h (h0 l), fun h => absurd h e⟩
    · rw [if_neg e']; exact h.lk l t'

/-- The lock clause when the thread leaves its lock. -/
theorem lk_leave {dbg : Bool} {s : St} (h : Inv dbg s) {t ty : Nat} {p : Pc} (h0 : ∀ l, holds (s.pc t) l ↔ l = ty)
    (hp : ∀ l, ¬ holds p l) (l t' : Nat) : upd s.lock ty none l = some t' ↔ holds (if t' = t then p else s.pc t') l := by
  unfold upd
  by_cases e : l = ty
  · subst e
    rw [if_pos rfl]
    by_cases e' : t' = t
    · subst e'; simp [hp]
    · rw [if_neg e']
      refine ⟨fun h => (by cases h), fun h1 => ?_⟩
      have a := (h.lk l t').mpr h1
      rw [(h.lk l t).mpr ((h0 l).mpr rfl)] at a
      cases a; exact absurd rfl e'
  · rw [if_neg e]
    by_cases e' : t' = t
    · subst e'
      rw [if_pos rfl, h.lk, h0]
      exact ⟨fun h => absurd h e, fun h => absurd h (hp l)⟩
    · rw [if_neg e']; exact h.lk l t'

/-- The lock clause when the thread takes and leaves nothing. -/
theorem lk_same {dbg : Bool} {s : St} (h : Inv dbg s) {t : Nat} {p : Pc} (hp : ∀ l, holds p l ↔ holds (s.pc t) l) (l t' : Nat) :
    s.lock l = some t' ↔ holds (if t' = t then p else s.pc t') l := by
  rw [h.lk]
  split
  · next e => subst e; exact (hp l).symm
  · rfl

/-- Two threads do not have the same lock. -/
theorem lock_one {dbg : Bool} {s : St} (h : Inv dbg s) {t t' l : Nat} (h1 : holds (s.pc t) l) (h2 : holds (s.pc t') l) : t = t' := by
  have a := (h.lk l t).mpr h1
  rw [(h.lk l t').mpr h2] at a
  exact ((Option.some.inj a).symm)


/-- The object a thread is busy with. -/
def mention : Pc → Option Nat
  | .incAdd o _ => some o
  | .decAdd o _ => some o
  | .preAdd o _ => some o
  | .decDel o _ => some o
  | .preKill o _ => some o
  | .decUnlock o _ _ => some o
  | .kill o => some o
  | _ => none

theorem pcOk_keep {s s' : St} {t : Nat} {p : Pc} (h : PcOk s t p)
    (hreg : ∀ o l, (p = .regLock o l ∨ p = .regAdd o l) → PcOk s t (.regAdd o l) → PcOk s' t (.regAdd o l))
    (htok : ∀ o, (Who.th t, o) ∈ s.refs → (Who.th t, o) ∈ s'.refs)
    (hty : ∀ o l, mention p = some o → tyOf s o = some l → tyOf s' o = some l)
    (hz : ∀ o, dying p = some o → nrefs s o = 0 → nrefs s' o = 0)
    (hin : ∀ o l, holds p l → mention p = some o → o ∈ s.list l → o ∈ s'.list l)
    (hout : ∀ o, dying p = some o → nrefs s o = 0 → (∀ l, o ∉ s.list l) → ∀ l, o ∉ s'.list l)
    (hpos : ∀ o l, p = .decUnlock o l false → 0 < nrefs s o → 0 < nrefs s' o) : PcOk s' t p := by
  cases p with
  | regLock o l => exact hreg o l (.inl rfl) h
  | regAdd o l => exact hreg o l (.inr rfl) h
  | incAdd o w =>
    cases w with
    | none => exact htok o h
    | some l => exact hin o l rfl rfl h
  | decLock o => exact htok o h
  | decAdd o l => exact ⟨htok o h.1, hty o l rfl h.2⟩
  | preAdd o l => exact ⟨htok o h.1, hty o l rfl h.2⟩
  | decDel o l => exact ⟨hty o l rfl h.1, hz o rfl h.2.1, hin o l rfl rfl h.2.2⟩
  | preKill o l => exact ⟨hty o l rfl h.1, hz o rfl h.2.1, hin o l rfl rfl h.2.2⟩
  | decUnlock o l b =>
    cases b with
    | false => exact ⟨hty o l rfl h.1, hpos o l rfl h.2⟩
    | true => exact ⟨hty o l rfl h.1, hz o rfl h.2.1, hout o rfl h.2.1 h.2.2⟩
  | kill o =>
    obtain ⟨l, hl⟩ := Option.isSome_iff_exists.mp h.1
    exact ⟨by rw [hty o l rfl hl]; rfl, hz o rfl h.2.1, hout o rfl h.2.1 h.2.2⟩
  | idle => trivial
  | regUnlock l => trivial
  | walk l => trivial

theorem ex_upd {f : Nat → Pc} {t : Nat} {p : Pc} {Q : Pc → Prop} {X : Prop} (h : ∃ t', Q (f t')) (hx : Q (f t) → X ∨ Q p) :
    X ∨ ∃ t', Q (upd f t p t') := by
  obtain ⟨t', h⟩ := h
  by_cases e : t' = t
  · subst e
    rcases hx h with hx | hx
    · exact .inl hx
    · exact .inr ⟨t', by simpa [upd] using hx⟩
  · exact .inr ⟨t', by simpa [upd, e] using h⟩

theorem ex_other {f : Nat → Pc} {t : Nat} {p : Pc} {Q : Pc → Prop} (h : ∃ t', Q (f t')) (hx : ¬ Q (f t)) :
    ∃ t', Q (upd f t p t') := by
  rcases ex_upd (X := False) (p := p) h (fun h => absurd h hx) with h | h
  · exact h.elim
  · exact h

theorem uniq_upd {f : Nat → Pc} {t : Nat} {p : Pc} (h : ∀ a b o, dying (f a) = some o → dying (f b) = some o → a = b)
    (hp : ∀ o, dying p = some o → dying (f t) = some o ∨ ∀ b, b ≠ t → dying (f b) ≠ some o) :
    ∀ a b o, dying (upd f t p a) = some o → dying (upd f t p b) = some o → a = b := by
  have key : ∀ b o, b ≠ t → dying p = some o → dying (f b) = some o → False := by
    intro b o hb h1 h2
    rcases hp o h1 with h3 | h3
    · exact hb (h b t o h2 h3)
    · exact h3 b hb h2
  intro a b o ha hb
  by_cases ea : a = t
  · by_cases eb : b = t
    · rw [ea, eb]
    · subst ea
      simp only [upd, if_true] at ha
      simp only [upd, eb, if_false] at hb
      exact (key b o eb ha hb).elim
  · by_cases eb : b = t
    · subst eb
      simp only [upd, if_true] at hb
      simp only [upd, ea, if_false] at ha
      exact (key a o ea hb ha).elim
    · simp only [upd, ea, eb, if_false] at ha hb
      exact h a b o ha hb

theorem pcs_upd {s s' : St} {t : Nat} {p : Pc} (hpc : s'.pc = upd s.pc t p) (mine : PcOk s' t p)
    (other : ∀ t', t' ≠ t → PcOk s' t' (s.pc t')) : ∀ t', PcOk s' t' (s'.pc t') := by
  intro t'
  rw [hpc]; unfold upd
  split
  · next e => subst e; exact mine
  · next e => exact other t' e

/-- A thread that registers an object has all references to it. -/
theorem reg_own {s : St} {t t' o l : Nat} {w : Who} (h : PcOk s t' (.regAdd o l)) (hr : (w, o) ∈ s.refs) (hw : ∀ t', w = .th t' → t' = t) (hn : t' ≠ t) : False := by
  have := h.2.2.2 _ hr rfl
  exact hn (hw t' this)

theorem inv_regAdd {dbg : Bool} {s s' : St} (h : Inv dbg s) {t o ty : Nat} (hpc : s.pc t = .regAdd o ty)
    (e : s' = { s with list := upd s.list ty (s.list ty ++ [o]) }.go t (.regUnlock ty)) : Inv dbg s' := by
  have hp := h.pcs t
  rw [hpc] at hp
  obtain ⟨hty, hnl, hpos, hown⟩ := hp
  have hlist : ∀ l q, q ∈ s'.list l ↔ q ∈ s.list l ∨ (l = ty ∧ q = o) := by
    intro l q; subst e; show q ∈ upd s.list ty _ l ↔ _; unfold upd
    split
    · next e => subst e; simp
    · next e => simp [e]
  have hpc' : s'.pc = upd s.pc t (.regUnlock ty) := by subst e; rfl
  have hR : s'.refs = s.refs := by subst e; rfl
  have hO : s'.obj = s.obj := by subst e; rfl
  have hN := nrefs_eq hR
  have hT := tyOf_eq hO
  have hnd : ∀ l, (s'.list l).Nodup := by
    intro l; subst e
    show (upd s.list ty (s.list ty ++ [o]) l).Nodup
    unfold upd
    split
    · next e =>
      subst e
      rw [List.nodup_append]
      exact ⟨h.nd l, by simp, by intro a ha b hb; simp at hb; subst hb; rintro rfl; exact hnl l ha⟩
    · exact h.nd l
  have hlock : s'.lock = s.lock := by subst e; rfl
  have hrest : s'.next = s.next ∧ s'.gone = s.gone := by subst e; exact ⟨rfl, rfl⟩
  refine ⟨?_, ?_, ?_, ?_, ?_, ?_, hnd, ?_, ?_, ?_, ?_, ?_, ?_⟩
  · rw [hpc', hlock]; exact lk_same h (by intro l; rw [hpc]; exact Iff.rfl)
  · refine pcs_upd hpc' trivial (fun t' ht => ?_)
    refine pcOk_keep (h.pcs t') ?_ (by rw [hR]; exact fun _ h => h) (by intro o l _ h; rw [hT]; exact h) (by intro o _ h; rw [hN]; exact h)
      (by intro o l _ _ h; exact (hlist l o).mpr (.inl h)) ?_ (by intro o l _ h; rw [hN]; exact h)
    · intro q l _ hq
      refine ⟨by rw [hT]; exact hq.1, ?_, by rw [hN]; exact hq.2.2.1, by rw [hR]; exact hq.2.2.2⟩
      intro l' hm
      rcases (hlist l' q).mp hm with hm | ⟨-, rfl⟩
      · exact hq.2.1 l' hm
      · obtain ⟨⟨w, r⟩, hr, hro⟩ := List.countP_pos_iff.mp hpos
        have hro : r = q := by simpa using hro
        subst hro
        have := hown _ hr rfl
        exact reg_own hq hr (t := t) (by rintro t'' rfl; cases this; rfl) ht
    · intro q _ hz hq l' hm
      rcases (hlist l' q).mp hm with hm | ⟨-, rfl⟩
      · exact hq l' hm
      · omega
  · rw [hpc']; exact uniq_upd h.uniq (by intro o h; cases h)
  · intro q x; rw [hO, hN]; exact h.cnt q x
  · rw [hR]; intro r hr; simp only [hT]; exact h.tok r hr
  · intro l q hq
    rw [hT, hN, hpc']
    rcases (hlist l q).mp hq with hq | ⟨rfl, rfl⟩
    · refine ⟨(h.lst l q hq).1, (h.lst l q hq).2.imp id (fun h => ex_other (Q := fun p => p = .decDel q l ∨ p = .preKill q l) h ?_)⟩
      rw [hpc]; simp
    · exact ⟨hty, .inl hpos⟩
  · intro q; rw [hT, hN, hpc']
    exact fun hq => (h.all q hq).imp id (fun h => ex_other (Q := fun p => dying p = some q) h (by rw [hpc]; simp [dying]))
  · intro q l; rw [hT, hN, hpc', hlist]
    intro h1 h2
    rcases h.lall q l h1 h2 with h3 | h3
    · exact .inl (.inl h3)
    · refine ex_upd (Q := fun p => p = .regLock q l ∨ p = .regAdd q l) h3 (fun h4 => ?_)
      rw [hpc] at h4
      rcases h4 with h4 | h4
      · cases h4
      · cases h4; exact .inl (.inr ⟨rfl, rfl⟩)
  · rw [hrest.1, hO]; exact h.fresh
  · intro q; rw [hN]; exact h.bnd q
  · rw [hrest.1, hrest.2, hO]; exact h.gone
  · rw [hrest.2]; exact h.gnd

theorem inv_incAdd {dbg : Bool} {s s' : St} (h : Inv dbg s) {t o : Nat} {w : Option Nat} {x : Ob} (hpc : s.pc t = .incAdd o w) (hx : s.obj o = some x)
    (e : s' = { s with obj := upd s.obj o (some { x with cnt := up dbg x.cnt }), refs := s.refs ++ [(Who.th t, o)] }.go t (back w)) (hb : ∀ q, nrefs s' q < cap dbg) : Inv dbg s' := by
  have hp := h.pcs t
  rw [hpc] at hp
  have hpos : 0 < nrefs s o := by
    cases w with
    | none => exact nrefs_pos hp
    | some ty => exact locked_pos h (t := t) (l := ty) (by rw [hpc]; rfl) hp (by rw [hpc]; rfl)
  have hreg : ∀ t' l, PcOk s t' (.regAdd o l) → t' ≠ t → False := by
    intro t' l hq hn
    cases w with
    | none => exact reg_own hq hp (t := t) (by rintro _ ⟨⟩; rfl) hn
    | some ty => exact hq.2.1 ty hp
  have hpc' : s'.pc = upd s.pc t (back w) := by subst e; rfl
  have hd0 : dying (back w) = none := by cases w <;> rfl
  have hR : s'.refs = s.refs ++ [(Who.th t, o)] := by subst e; rfl
  have hL : s'.list = s.list := by subst e; rfl
  have hT : ∀ q, tyOf s' q = tyOf s q := by
    intro q; subst e
    show (upd s.obj o _ q).map _ = (s.obj q).map _
    unfold upd; split
    · next e => subst e; rw [hx]; rfl
    · rfl
  have hN : ∀ q, nrefs s' q = nrefs s q + if q = o then 1 else 0 := by
    intro q; unfold nrefs; rw [hR]; exact countP_snoc _ _ _ _
  have hN0 : ∀ q, nrefs s' q = 0 ↔ nrefs s q = 0 := by
    intro q; rw [hN]; split
    · next e => subst e; omega
    · omega
  have hN1 : ∀ q, 0 < nrefs s' q ↔ 0 < nrefs s q := by
    intro q; have := hN0 q; omega
  have hlock : s'.lock = s.lock := by subst e; rfl
  have hrest : s'.next = s.next ∧ s'.gone = s.gone := by subst e; exact ⟨rfl, rfl⟩
  have hnone : ∀ q, s'.obj q = none ↔ s.obj q = none := by
    intro q; have := hT q; unfold tyOf at this
    cases h1 : s'.obj q <;> cases h2 : s.obj q <;> simp [h1, h2] at this ⊢
  refine ⟨?_, ?_, ?_, ?_, ?_, ?_, ?_, ?_, ?_, ?_, hb, ?_, ?_⟩
  · rw [hpc', hlock]; exact lk_same h (by intro l; rw [hpc]; cases w <;> exact Iff.rfl)
  · refine pcs_upd hpc' (by cases w <;> trivial) (fun t' ht => ?_)
    refine pcOk_keep (h.pcs t') ?_ (by rw [hR]; intro q hq; exact List.mem_append_left _ hq) (by intro q l _ h; rw [hT]; exact h) (by intro q _ h; exact (hN0 q).mpr h)
      (by rw [hL]; intro q l _ _ h; exact h) (by rw [hL]; intro q _ _ h; exact h) (by intro q l _ h; exact (hN1 q).mpr h)
    intro q l _ hq
    have hne : q ≠ o := by rintro rfl; exact hreg t' l hq ht
    refine ⟨by rw [hT]; exact hq.1, by rw [hL]; exact hq.2.1, (hN1 q).mpr hq.2.2.1, ?_⟩
    rw [hR]; intro r hr hrq
    rcases List.mem_append.mp hr with hr | hr
    · exact hq.2.2.2 r hr hrq
    · simp at hr; subst hr; exact absurd hrq.symm hne
  · rw [hpc']; exact uniq_upd h.uniq (by intro o h; rw [hd0] at h; cases h)
  · intro q y hy
    by_cases eq : q = o
    · subst eq
      have hy' : y = { x with cnt := up dbg x.cnt } := by subst e; simpa [St.go, upd] using hy.symm
      subst hy'
      have h1 := h.cnt q x hx
      have h2 := hb q
      rw [hN, if_pos rfl] at h2 ⊢
      exact low_up h1.1 h1.2 h2
    · have hy' : s.obj q = some y := by subst e; simpa [St.go, upd, eq] using hy
      rw [hN, if_neg eq]; exact h.cnt q y hy'
  · rw [hR]; intro r hr; simp only [hT]
    rcases List.mem_append.mp hr with hr | hr
    · exact h.tok r hr
    · simp at hr; subst hr
      exact ⟨by simp [tyOf, hx], fun o' h => by cases h⟩
  · intro l q; rw [hL, hT, hN1, hpc']
    intro hq
    exact ⟨(h.lst l q hq).1, (h.lst l q hq).2.imp id (fun h => ex_other (Q := fun p => p = .decDel q l ∨ p = .preKill q l) h (by rw [hpc]; simp))⟩
  · rw [hL]; exact h.nd
  · intro q; rw [hT, hN1, hpc']
    exact fun hq => (h.all q hq).imp id (fun h => ex_other (Q := fun p => dying p = some q) h (by rw [hpc]; simp [dying]))
  · intro q l; rw [hT, hN1, hpc', hL]
    intro h1 h2
    exact (h.lall q l h1 h2).imp id (fun h => ex_other (Q := fun p => p = .regLock q l ∨ p = .regAdd q l) h (by rw [hpc]; simp))
  · intro q; rw [hrest.1, hnone]; exact h.fresh q
  · intro q; rw [hrest.1, hrest.2, hnone]; exact h.gone q
  · rw [hrest.2]; exact h.gnd

/-- The new place of a thread that has just decremented the count of `o` to `n`. -/
def afterDown (o ty : Nat) (n : Nat) (p : Pc) : Prop :=
  (n = 0 ∧ (p = .decDel o ty ∨ p = .preKill o ty)) ∨ (0 < n ∧ (p = .decUnlock o ty false ∨ p = .walk ty))

theorem inv_down {dbg : Bool} {s s' : St} (h : Inv dbg s) {t o ty : Nat} {x : Ob} {p : Pc} (hpc : s.pc t = .decAdd o ty ∨ s.pc t = .preAdd o ty) (hx : s.obj o = some x)
    (e : s' = { s with obj := upd s.obj o (some { x with cnt := down dbg x.cnt }), refs := s.refs.erase (Who.th t, o) }.go t p)
    (hap : afterDown o ty (low dbg (down dbg x.cnt)) p) : Inv dbg s' := by
  have hp := h.pcs t
  have hp : (Who.th t, o) ∈ s.refs ∧ tyOf s o = some ty := by rcases hpc with e | e <;> rw [e] at hp <;> exact hp
  have hold : ∀ l, holds (s.pc t) l ↔ l = ty := by intro l; rcases hpc with e | e <;> rw [e] <;> exact Iff.rfl
  have holdp : ∀ l, holds p l ↔ l = ty := by
    intro l; rcases hap with ⟨-, e | e⟩ | ⟨-, e | e⟩ <;> rw [e] <;> exact Iff.rfl
  have hdy : dying (s.pc t) = none := by rcases hpc with e | e <;> rw [e] <;> rfl
  have hndel : ∀ q l, ¬ (s.pc t = .decDel q l ∨ s.pc t = .preKill q l) := by intro q l; rcases hpc with e | e <;> rw [e] <;> simp
  have hnreg : ∀ q l, ¬ (s.pc t = .regLock q l ∨ s.pc t = .regAdd q l) := by intro q l; rcases hpc with e | e <;> rw [e] <;> simp
  have hpos : 0 < nrefs s o := nrefs_pos hp.1
  have hlo := low_down (n := nrefs s o - 1) (h.cnt o x hx).1 (by rw [(h.cnt o x hx).2]; omega)
  have hpc' : s'.pc = upd s.pc t p := by subst e; rfl
  have hR : s'.refs = s.refs.erase (Who.th t, o) := by subst e; rfl
  have hL : s'.list = s.list := by subst e; rfl
  have hT : ∀ q, tyOf s' q = tyOf s q := by
    intro q; subst e
    show (upd s.obj o _ q).map _ = (s.obj q).map _
    unfold upd; split
    · next e => subst e; rw [hx]; rfl
    · rfl
  have hN : ∀ q, nrefs s' q + (if q = o then 1 else 0) = nrefs s q := by
    intro q; unfold nrefs; rw [hR]; exact countP_erase_self hp.1 q
  have hNo : nrefs s' o = nrefs s o - 1 := by have := hN o; rw [if_pos rfl] at this; omega
  have hNne : ∀ q, q ≠ o → nrefs s' q = nrefs s q := by intro q hq; have := hN q; rw [if_neg hq] at this; omega
  have hap : afterDown o ty (nrefs s' o) p := by rw [hNo, ← hlo.2]; exact hap
  have hinl : o ∈ s.list ty := by
    rcases h.lall o ty hp.2 hpos with h1 | ⟨t', h1⟩
    · exact h1
    · have h2 := h.pcs t'
      have h3 : PcOk s t' (.regAdd o ty) := by rcases h1 with h1 | h1 <;> rw [h1] at h2 <;> exact h2
      have ht : t' ≠ t := by rintro rfl; exact hnreg o ty h1
      exact (reg_own h3 hp.1 (t := t) (by rintro _ ⟨⟩; rfl) ht).elim
  have hlock : s'.lock = s.lock := by subst e; rfl
  have hrest : s'.next = s.next ∧ s'.gone = s.gone := by subst e; exact ⟨rfl, rfl⟩
  have hnone : ∀ q, s'.obj q = none ↔ s.obj q = none := by
    intro q; have := hT q; unfold tyOf at this
    cases h1 : s'.obj q <;> cases h2 : s.obj q <;> simp [h1, h2] at this ⊢
  have hmem : ∀ r, r ∈ s'.refs → r ∈ s.refs := by rw [hR]; intro r; exact List.mem_of_mem_erase
  refine ⟨?_, ?_, ?_, ?_, ?_, ?_, ?_, ?_, ?_, ?_, ?_, ?_, ?_⟩
  · rw [hpc', hlock]; exact lk_same h (by intro l; rw [holdp, hold])
  · refine pcs_upd hpc' ?_ (fun t' ht => ?_)
    · rcases hap with ⟨h0, e | e⟩ | ⟨h0, e | e⟩ <;> subst p
      · exact ⟨by rw [hT]; exact hp.2, h0, by rw [hL]; exact hinl⟩
      · exact ⟨by rw [hT]; exact hp.2, h0, by rw [hL]; exact hinl⟩
      · exact ⟨by rw [hT]; exact hp.2, h0⟩
      · trivial
    · refine pcOk_keep (h.pcs t') ?_ ?_ (by intro q l _ h; rw [hT]; exact h) (by intro q _ h; have := hN q; omega)
        (by rw [hL]; intro q l _ _ h; exact h) (by rw [hL]; intro q _ _ h; exact h) ?_
      · intro q l _ hq
        have hne : q ≠ o := by rintro rfl; exact reg_own hq hp.1 (t := t) (by rintro _ ⟨⟩; rfl) ht
        refine ⟨by rw [hT]; exact hq.1, by rw [hL]; exact hq.2.1, by rw [hNne q hne]; exact hq.2.2.1, ?_⟩
        intro r hr; exact hq.2.2.2 r (hmem r hr)
      · intro q hq
        rw [hR]
        exact (List.mem_erase_of_ne (by rintro ⟨⟩; exact ht rfl)).mpr hq
      · intro q l hpq hq
        have h2 := h.pcs t'
        rw [hpq] at h2
        have hne : q ≠ o := by
          rintro rfl
          have hl : l = ty := by have := h2.1; rw [hp.2] at this; cases this; rfl
          exact ht (lock_one h (l := ty) (by rw [hpq, hl]; rfl) ((hold ty).mpr rfl))
        rw [hNne q hne]; exact hq
  · rw [hpc']
    refine uniq_upd h.uniq ?_
    intro q hq
    refine .inr (fun b hb hdb => ?_)
    have hqo : q = o := by rcases hap with ⟨h0, e | e⟩ | ⟨h0, e | e⟩ <;> subst p <;> simp [dying] at hq <;> exact hq.symm
    subst hqo
    have hz : nrefs s q = 0 := by
      have h2 := h.pcs b
      revert hdb h2
      cases s.pc b with
      | decUnlock a l c => cases c <;> simp only [dying, PcOk] <;> grind
      | _ => simp only [dying, PcOk] <;> grind
    omega
  · intro q y hy
    by_cases eq : q = o
    · subst eq
      have hy' : y = { x with cnt := down dbg x.cnt } := by subst e; simpa [St.go, upd] using hy.symm
      subst hy'
      rw [hNo]; exact hlo
    · have hy' : s.obj q = some y := by subst e; simpa [St.go, upd, eq] using hy
      rw [hNne q eq]; exact h.cnt q y hy'
  · intro r hr; simp only [hT]; exact h.tok r (hmem r hr)
  · intro l q; rw [hL, hT, hpc']
    intro hq
    refine ⟨(h.lst l q hq).1, ?_⟩
    by_cases eq : q = o
    · subst eq
      have hl : l = ty := by have := (h.lst l q hq).1; rw [hp.2] at this; cases this; rfl
      rcases hap with ⟨h0, e⟩ | ⟨h0, -⟩
      · refine .inr ⟨t, ?_⟩; simp only [upd, if_true]; rw [hl]; exact e
      · exact .inl h0
    · rw [hNne q eq]
      exact (h.lst l q hq).2.imp id (fun h => ex_other (Q := fun p => p = .decDel q l ∨ p = .preKill q l) h (hndel q l))
  · rw [hL]; exact h.nd
  · intro q; rw [hT, hpc']
    intro hq
    by_cases eq : q = o
    · subst eq
      rcases hap with ⟨h0, e⟩ | ⟨h0, -⟩
      · refine .inr ⟨t, ?_⟩; simp only [upd, if_true]; rcases e with e | e <;> rw [e] <;> rfl
      · exact .inl h0
    · rw [hNne q eq]
      exact (h.all q hq).imp id (fun h => ex_other (Q := fun p => dying p = some q) h (by rw [hdy]; simp))
  · intro q l; rw [hT, hpc', hL]
    intro h1 h2
    have h2 : 0 < nrefs s q := by have := hN q; omega
    exact (h.lall q l h1 h2).imp id (fun h => ex_other (Q := fun p => p = .regLock q l ∨ p = .regAdd q l) h (hnreg q l))
  · intro q; rw [hrest.1, hnone]; exact h.fresh q
  · intro q; have := hN q; have := h.bnd q; omega
  · intro q; rw [hrest.1, hrest.2, hnone]; exact h.gone q
  · rw [hrest.2]; exact h.gnd

theorem inv_decDel {dbg : Bool} {s s' : St} (h : Inv dbg s) {t o ty : Nat} (hpc : s.pc t = .decDel o ty)
    (e : s' = { s with list := upd s.list ty ((s.list ty).erase o) }.go t (.decUnlock o ty true)) : Inv dbg s' := by
  have hp := h.pcs t
  rw [hpc] at hp
  obtain ⟨hty, hz, hin⟩ := hp
  have hlist : ∀ l q, q ∈ s'.list l ↔ q ∈ s.list l ∧ q ≠ o := by
    intro l q; subst e; show q ∈ upd s.list ty _ l ↔ _; unfold upd
    split
    · next e => subst e; rw [(h.nd l).mem_erase_iff]; exact and_comm
    · next e =>
      refine ⟨fun hq => ⟨hq, ?_⟩, fun hq => hq.1⟩
      rintro rfl
      have := (h.lst l q hq).1
      rw [hty] at this; cases this; exact e rfl
  have hpc' : s'.pc = upd s.pc t (.decUnlock o ty true) := by subst e; rfl
  have hR : s'.refs = s.refs := by subst e; rfl
  have hO : s'.obj = s.obj := by subst e; rfl
  have hN := nrefs_eq hR
  have hT := tyOf_eq hO
  have hnd : ∀ l, (s'.list l).Nodup := by
    intro l; subst e
    show (upd s.list ty _ l).Nodup
    unfold upd
    split
    · next e => subst e; exact (h.nd l).erase o
    · exact h.nd l
  have hlock : s'.lock = s.lock := by subst e; rfl
  have hrest : s'.next = s.next ∧ s'.gone = s.gone := by subst e; exact ⟨rfl, rfl⟩
  refine ⟨?_, ?_, ?_, ?_, ?_, ?_, hnd, ?_, ?_, ?_, ?_, ?_, ?_⟩
  · rw [hpc', hlock]; exact lk_same h (by intro l; rw [hpc]; exact Iff.rfl)
  · refine pcs_upd hpc' ?_ (fun t' ht => ?_)
    · exact ⟨by rw [hT]; exact hty, by rw [hN]; exact hz, fun l hm => ((hlist l o).mp hm).2 rfl⟩
    · refine pcOk_keep (h.pcs t') ?_ (by rw [hR]; exact fun _ h => h) (by intro o l _ h; rw [hT]; exact h) (by intro o _ h; rw [hN]; exact h)
        ?_ (by intro q _ _ hq l hm; exact hq l ((hlist l q).mp hm).1) (by intro o l _ h; rw [hN]; exact h)
      · intro q l _ hq
        exact ⟨by rw [hT]; exact hq.1, fun l' hm => hq.2.1 l' ((hlist l' q).mp hm).1, by rw [hN]; exact hq.2.2.1, by rw [hR]; exact hq.2.2.2⟩
      · intro q l hl _ hq
        refine (hlist l q).mpr ⟨hq, ?_⟩
        rintro rfl
        have : l = ty := by have := (h.lst l q hq).1; rw [hty] at this; cases this; rfl
        subst this
        exact ht (lock_one h hl (by rw [hpc]; rfl))
  · rw [hpc']; exact uniq_upd h.uniq (by intro q hq; left; rw [hpc]; exact hq)
  · intro q x; rw [hO, hN]; exact h.cnt q x
  · rw [hR]; intro r hr; simp only [hT]; exact h.tok r hr
  · intro l q hq
    rw [hT, hN, hpc']
    obtain ⟨hq, hne⟩ := (hlist l q).mp hq
    refine ⟨(h.lst l q hq).1, (h.lst l q hq).2.imp id (fun h => ex_other (Q := fun p => p = .decDel q l ∨ p = .preKill q l) h ?_)⟩
    rw [hpc]; simp; exact fun h => absurd h.symm hne
  · intro q; rw [hT, hN, hpc']
    intro hq
    rcases h.all q hq with h1 | h1
    · exact .inl h1
    · exact ex_upd (Q := fun p => dying p = some q) h1 (by rw [hpc]; exact fun h => .inr h)
  · intro q l; rw [hT, hN, hpc', hlist]
    intro h1 h2
    rcases h.lall q l h1 h2 with h3 | h3
    · refine .inl ⟨h3, ?_⟩; rintro rfl; omega
    · exact .inr (ex_other (Q := fun p => p = .regLock q l ∨ p = .regAdd q l) h3 (by rw [hpc]; simp))
  · rw [hrest.1, hO]; exact h.fresh
  · intro q; rw [hN]; exact h.bnd q
  · rw [hrest.1, hrest.2, hO]; exact h.gone
  · rw [hrest.2]; exact h.gnd

theorem dying_zero {dbg : Bool} {s : St} (h : Inv dbg s) {t o : Nat} (hd : dying (s.pc t) = some o) : nrefs s o = 0 := by
  have h2 := h.pcs t
  revert hd h2
  cases s.pc t with
  | decUnlock a l c => cases c <;> simp only [dying, PcOk] <;> grind
  | _ => simp only [dying, PcOk] <;> grind

theorem mention_pos {dbg : Bool} {s : St} (h : Inv dbg s) {t o : Nat} (hm : mention (s.pc t) = some o) (hd : dying (s.pc t) = none) : 0 < nrefs s o := by
  have h2 := h.pcs t
  cases hp : s.pc t with
  | incAdd a w =>
    rw [hp] at h2 hm
    cases hm
    cases w with
    | none => exact nrefs_pos h2
    | some l => exact locked_pos h (t := t) (l := l) (by rw [hp]; rfl) h2 hd
  | decAdd a l => rw [hp] at h2 hm; cases hm; exact nrefs_pos h2.1
  | preAdd a l => rw [hp] at h2 hm; cases hm; exact nrefs_pos h2.1
  | decUnlock a l c =>
    rw [hp] at h2 hm hd
    cases c with
    | true => simp [dying] at hd
    | false => cases hm; exact h2.2
  | _ => rw [hp] at hm hd; simp [dying, mention] at hm hd

theorem inv_destroy {dbg : Bool} {s s' : St} (h : Inv dbg s) {t o : Nat} {p : Pc} (hdy : dying (s.pc t) = some o) (hlive : ∃ x, s.obj o = some x)
    (hp : (p = .idle ∧ s.pc t = .kill o) ∨ ∃ ty, p = .walk ty ∧ s.pc t = .preKill o ty) (ls : Nat → List Nat)
    (hls : ∀ l q, q ∈ ls l ↔ q ∈ s.list l ∧ q ≠ o) (hndl : ∀ l, (ls l).Nodup)
    (e : s' = ({ s with list := ls }.destroy t o).go t p) : Inv dbg s' := by
  have hz := dying_zero h hdy
  have hp0 : dying p = none := by rcases hp with ⟨rfl, -⟩ | ⟨ty, rfl, -⟩ <;> rfl
  have hlist : ∀ l q, q ∈ s'.list l ↔ q ∈ s.list l ∧ q ≠ o := by subst e; exact hls
  have hpc' : s'.pc = upd s.pc t p := by subst e; rfl
  have hR : s'.refs = s.refs.map (heir t o) := by subst e; rfl
  have hN : ∀ q, nrefs s' q = nrefs s q := by intro q; unfold nrefs; rw [hR]; exact countP_heir t o q _
  have hT : ∀ q, q ≠ o → tyOf s' q = tyOf s q := by
    intro q hq; subst e
    show (upd s.obj o none q).map _ = _
    simp [upd, hq, tyOf]
  have hTo : tyOf s' o = none := by
    subst e
    show (upd s.obj o none o).map _ = _
    simp [upd]
  have hO : ∀ q, q ≠ o → s'.obj q = s.obj q := by
    intro q hq; subst e; show upd s.obj o none q = _; simp [upd, hq]
  have hOo : s'.obj o = none := by subst e; show upd s.obj o none o = _; simp [upd]
  have hne : ∀ w q, (w, q) ∈ s.refs → q ≠ o := by rintro w q hm rfl; have := nrefs_pos hm; omega
  have hmem : ∀ r, r ∈ s'.refs → ∃ r0 ∈ s.refs, r0.2 = r.2 ∧ (r.1 = r0.1 ∧ r0.1 ≠ .ob o ∨ r.1 = .th t ∧ r0.1 = .ob o) := by
    rw [hR]; intro r hr
    obtain ⟨r0, h0, rfl⟩ := List.mem_map.mp hr
    refine ⟨r0, h0, (heir_snd t o r0).symm, ?_⟩
    unfold heir
    split
    · next e => exact .inr ⟨rfl, e⟩
    · next e => exact .inl ⟨rfl, e⟩
  have hlock : s'.lock = s.lock := by subst e; rfl
  have hrest : s'.next = s.next ∧ s'.gone = s.gone ++ [o] := by subst e; exact ⟨rfl, rfl⟩
  have hndel : ∀ q l, q ≠ o → ¬ (s.pc t = .decDel q l ∨ s.pc t = .preKill q l) := by
    intro q l hq hd
    apply hq
    rcases hd with hd | hd <;> rw [hd] at hdy <;> simp [dying] at hdy <;> exact hdy
  have hnreg : ∀ q l, ¬ (s.pc t = .regLock q l ∨ s.pc t = .regAdd q l) := by
    intro q l hd; rcases hd with hd | hd <;> rw [hd] at hdy <;> simp [dying] at hdy
  refine ⟨?_, ?_, ?_, ?_, ?_, ?_, ?_, ?_, ?_, ?_, ?_, ?_, ?_⟩
  · rw [hpc', hlock]
    exact lk_same h (by intro l; rcases hp with ⟨rfl, e1⟩ | ⟨ty, rfl, e1⟩ <;> rw [e1] <;> exact Iff.rfl)
  · refine pcs_upd hpc' (by rcases hp with ⟨rfl, -⟩ | ⟨ty, rfl, -⟩ <;> trivial) (fun t' ht => ?_)
    have hother : ∀ q, mention (s.pc t') = some q → q ≠ o := by
      rintro q hm rfl
      cases hd : dying (s.pc t') with
      | none => have := mention_pos h hm hd; omega
      | some a =>
        have : a = q := by
          revert hm hd
          cases s.pc t' with
          | decUnlock a l c => cases c <;> simp [dying, mention] <;> grind
          | _ => simp [dying, mention] <;> grind
        subst this
        exact ht (h.uniq t' t a hd hdy)
    have hdm : ∀ q, dying (s.pc t') = some q → mention (s.pc t') = some q := by
      intro q
      cases s.pc t' with
      | decUnlock a l c => cases c <;> simp [dying, mention]
      | _ => simp [dying, mention]
    refine pcOk_keep (h.pcs t') ?_ ?_ (by intro q l hm h; rw [hT q (hother q hm)]; exact h) (by intro q _ h; rw [hN]; exact h)
      (by intro q l _ hm h; exact (hlist l q).mpr ⟨h, hother q hm⟩) (by intro q _ _ hq l hm; exact hq l ((hlist l q).mp hm).1) (by intro q l _ h; rw [hN]; exact h)
    · intro q l _ hq
      have hqo : q ≠ o := by rintro rfl; have := hq.2.2.1; omega
      refine ⟨by rw [hT q hqo]; exact hq.1, fun l' hm => hq.2.1 l' ((hlist l' q).mp hm).1, by rw [hN]; exact hq.2.2.1, ?_⟩
      intro r hr hrq
      obtain ⟨r0, h0, e0, h1 | h1⟩ := hmem r hr
      · rw [h1.1]; exact hq.2.2.2 r0 h0 (e0.trans hrq)
      · have := hq.2.2.2 r0 h0 (e0.trans hrq); rw [h1.2] at this; cases this
    · intro q hq
      rw [hR]
      exact List.mem_map.mpr ⟨_, hq, by simp [heir]⟩
  · rw [hpc']; exact uniq_upd h.uniq (by intro q hq; rw [hp0] at hq; cases hq)
  · intro q x hq
    by_cases eq : q = o
    · subst eq; rw [hOo] at hq; cases hq
    · rw [hO q eq] at hq; rw [hN]; exact h.cnt q x hq
  · intro r hr
    obtain ⟨r0, h0, e0, h1⟩ := hmem r hr
    have hr0 := h.tok r0 h0
    refine ⟨by rw [← e0, hT _ (hne r0.1 r0.2 h0)]; exact hr0.1, ?_⟩
    intro o' ho'
    rcases h1 with ⟨h1, h2⟩ | ⟨h1, h2⟩
    · rw [hT o' (by rintro rfl; exact h2 (h1 ▸ ho'))]; exact hr0.2 o' (h1 ▸ ho')
    · rw [h1] at ho'; cases ho'
  · intro l q hq
    obtain ⟨hq, hne⟩ := (hlist l q).mp hq
    rw [hT q hne, hN, hpc']
    exact ⟨(h.lst l q hq).1, (h.lst l q hq).2.imp id (fun h => ex_other (Q := fun p => p = .decDel q l ∨ p = .preKill q l) h (hndel q l hne))⟩
  · subst e; exact hndl
  · intro q hq
    by_cases eq : q = o
    · subst eq; rw [hTo] at hq; cases hq
    · rw [hT q eq] at hq
      rw [hN, hpc']
      exact (h.all q hq).imp id (fun h => ex_other (Q := fun p => dying p = some q) h (by rw [hdy]; simp; exact fun h => eq h.symm))
  · intro q l hq hn
    by_cases eq : q = o
    · subst eq; rw [hTo] at hq; cases hq
    · rw [hT q eq] at hq
      rw [hN] at hn
      rw [hlist, hpc']
      exact (h.lall q l hq hn).imp (fun h => ⟨h, eq⟩) (fun h => ex_other (Q := fun p => p = .regLock q l ∨ p = .regAdd q l) h (hnreg q l))
  · intro q hq
    by_cases eq : q = o
    · subst eq; exact hOo
    · rw [hO q eq]; exact h.fresh q (by rw [hrest.1] at hq; exact hq)
  · intro q; rw [hN]; exact h.bnd q
  · intro q
    rw [hrest.1, hrest.2, List.mem_append, h.gone]
    obtain ⟨x, hx⟩ := hlive
    by_cases eq : q = o
    · subst eq
      have : q < s.next := by
        rcases Nat.lt_or_ge q s.next with h1 | h1
        · exact h1
        · rw [h.fresh q h1] at hx; cases hx
      simp [hOo, this]
    · rw [hO q eq]; simp [eq]
  · rw [hrest.2, List.nodup_append]
    refine ⟨h.gnd, by simp, ?_⟩
    intro a ha b hb
    simp at hb; subst hb
    rintro rfl
    obtain ⟨x, hx⟩ := hlive
    rw [((h.gone a).mp ha).2] at hx; cases hx

theorem inv_new {dbg : Bool} {s s' : St} (h : Inv dbg s) {t ty : Nat} (hpc : s.pc t = .idle)
    (e : s' = { s with next := s.next + 1, obj := upd s.obj s.next (some ⟨1, ty⟩), refs := s.refs ++ [(Who.th t, s.next)] }.go t (.regLock s.next ty)) : Inv dbg s' := by
  have hfr : tyOf s s.next = none := by simp [tyOf, h.fresh s.next (Nat.le_refl _)]
  have hnr : ∀ w, (w, s.next) ∉ s.refs := by
    intro w hm; have := (h.tok _ hm).1; simp [hfr] at this
  have hz : nrefs s s.next = 0 := by
    refine Nat.eq_zero_of_not_pos (fun hp => ?_)
    obtain ⟨⟨w, q⟩, hr, hq⟩ := List.countP_pos_iff.mp hp
    have : q = s.next := by simpa using hq
    subst this; exact hnr w hr
  have hpc' : s'.pc = upd s.pc t (.regLock s.next ty) := by subst e; rfl
  have hR : s'.refs = s.refs ++ [(Who.th t, s.next)] := by subst e; rfl
  have hL : s'.list = s.list := by subst e; rfl
  have hO : ∀ q, q ≠ s.next → s'.obj q = s.obj q := by intro q hq; subst e; show upd s.obj s.next _ q = _; simp [upd, hq]
  have hOn : s'.obj s.next = some ⟨1, ty⟩ := by subst e; show upd s.obj s.next _ s.next = _; simp [upd]
  have hT : ∀ q, q ≠ s.next → tyOf s' q = tyOf s q := by intro q hq; simp [tyOf, hO q hq]
  have hTn : tyOf s' s.next = some ty := by simp [tyOf, hOn]
  have hN : ∀ q, nrefs s' q = nrefs s q + if q = s.next then 1 else 0 := by
    intro q; unfold nrefs; rw [hR]; exact countP_snoc _ _ _ _
  have hNne : ∀ q, q ≠ s.next → nrefs s' q = nrefs s q := by intro q hq; rw [hN, if_neg hq]; rfl
  have hNn : nrefs s' s.next = 1 := by rw [hN, if_pos rfl, hz]
  have hnl : ∀ l, s.next ∉ s.list l := by intro l hm; have := (h.lst l _ hm).1; rw [hfr] at this; cases this
  have hlock : s'.lock = s.lock := by subst e; rfl
  have hrest : s'.next = s.next + 1 ∧ s'.gone = s.gone := by subst e; exact ⟨rfl, rfl⟩
  refine ⟨?_, ?_, ?_, ?_, ?_, ?_, ?_, ?_, ?_, ?_, ?_, ?_, ?_⟩
  · rw [hpc', hlock]; exact lk_same h (by intro l; rw [hpc]; exact Iff.rfl)
  · refine pcs_upd hpc' ?_ (fun t' ht => ?_)
    · refine ⟨hTn, by rw [hL]; exact hnl, by omega, ?_⟩
      rw [hR]; intro r hr hq
      rcases List.mem_append.mp hr with hr | hr
      · obtain ⟨w, q⟩ := r; simp at hq; subst hq; exact absurd hr (hnr w)
      · simp at hr; subst hr; rfl
    · have hother : ∀ q, (tyOf s q).isSome → q ≠ s.next := by rintro q hq rfl; rw [hfr] at hq; cases hq
      refine pcOk_keep (h.pcs t') ?_ (by rw [hR]; intro q hq; exact List.mem_append_left _ hq)
        (by intro q l _ h; rw [hT q (hother q (by rw [h]; rfl))]; exact h) ?_
        (by rw [hL]; intro q l _ _ h; exact h) (by rw [hL]; intro q _ _ h; exact h) ?_
      · intro q l _ hq
        have hqn := hother q (by rw [hq.1]; rfl)
        refine ⟨by rw [hT q hqn]; exact hq.1, by rw [hL]; exact hq.2.1, by rw [hNne q hqn]; exact hq.2.2.1, ?_⟩
        rw [hR]; intro r hr hrq
        rcases List.mem_append.mp hr with hr | hr
        · exact hq.2.2.2 r hr hrq
        · simp at hr; subst hr; exact absurd hrq.symm hqn
      · intro q hd hq
        have : (tyOf s q).isSome := by
          have h2 := h.pcs t'
          revert hd h2
          cases s.pc t' with
          | decUnlock a l c => cases c <;> simp only [dying, PcOk] <;> grind
          | _ => simp only [dying, PcOk] <;> grind
        rw [hNne q (hother q this)]; exact hq
      · intro q l _ hq
        rw [hN]; omega
  · rw [hpc']; exact uniq_upd h.uniq (by intro q hq; cases hq)
  · intro q x hq
    by_cases eq : q = s.next
    · subst eq; rw [hOn] at hq; cases hq; rw [hNn]; exact ⟨(by decide : (1 : Nat) < W32), by cases dbg <;> rfl⟩
    · rw [hO q eq] at hq; rw [hNne q eq]; exact h.cnt q x hq
  · have hlive : ∀ q, (tyOf s q).isSome → (tyOf s' q).isSome := by
      intro q hq
      by_cases eq : q = s.next
      · subst eq; rw [hTn]; rfl
      · rw [hT q eq]; exact hq
    rw [hR]; intro r hr
    rcases List.mem_append.mp hr with hr | hr
    · exact ⟨hlive _ (h.tok r hr).1, fun o' ho => hlive _ ((h.tok r hr).2 o' ho)⟩
    · simp at hr; subst hr
      exact ⟨by rw [hTn]; rfl, fun o' h => by cases h⟩
  · intro l q; rw [hL, hpc']
    intro hq
    have eq : q ≠ s.next := by rintro rfl; exact hnl l hq
    rw [hT q eq, hNne q eq]
    exact ⟨(h.lst l q hq).1, (h.lst l q hq).2.imp id (fun h => ex_other (Q := fun p => p = .decDel q l ∨ p = .preKill q l) h (by rw [hpc]; simp))⟩
  · rw [hL]; exact h.nd
  · intro q hq
    by_cases eq : q = s.next
    · subst eq; left; omega
    · rw [hT q eq] at hq; rw [hNne q eq, hpc']
      exact (h.all q hq).imp id (fun h => ex_other (Q := fun p => dying p = some q) h (by rw [hpc]; simp [dying]))
  · intro q l hq hn
    by_cases eq : q = s.next
    · subst eq
      rw [hTn] at hq; cases hq
      exact .inr ⟨t, by rw [hpc']; simp [upd]⟩
    · rw [hT q eq] at hq; rw [hNne q eq] at hn; rw [hL, hpc']
      exact (h.lall q l hq hn).imp id (fun h => ex_other (Q := fun p => p = .regLock q l ∨ p = .regAdd q l) h (by rw [hpc]; simp))
  · intro q hq; rw [hrest.1] at hq; rw [hO q (by omega)]; exact h.fresh q (by omega)
  · intro q
    by_cases eq : q = s.next
    · subst eq; rw [hNn]; cases dbg <;> decide
    · rw [hNne q eq]; exact h.bnd q
  · intro q
    rw [hrest.1, hrest.2, h.gone]
    by_cases eq : q = s.next
    · subst eq; simp [hOn]
    · rw [hO q eq]; constructor
      · rintro ⟨h1, h2⟩; exact ⟨by omega, h2⟩
      · rintro ⟨h1, h2⟩; exact ⟨by omega, h2⟩
  · rw [hrest.2]; exact h.gnd

/-- A reference changes hands. -/
theorem inv_pass {dbg : Bool} {s s' : St} (h : Inv dbg s) {t o : Nat} {w w' : Who} (hpc : s.pc t = .idle) (hm : (w, o) ∈ s.refs)
    (hw : w = .th t ∨ ∃ o', w = .ob o') (hw' : ∀ o', w' = .ob o' → (tyOf s o').isSome)
    (e : s' = { s with refs := s.refs.erase (w, o) ++ [(w', o)] }) : Inv dbg s' := by
  have hR : s'.refs = s.refs.erase (w, o) ++ [(w', o)] := by subst e; rfl
  have hpc' : s'.pc = s.pc := by subst e; rfl
  have hO : s'.obj = s.obj := by subst e; rfl
  have hL : s'.list = s.list := by subst e; rfl
  have hT := tyOf_eq hO
  have hN : ∀ q, nrefs s' q = nrefs s q := by
    intro q; unfold nrefs; rw [hR, countP_snoc]; exact countP_erase_self hm q
  have hmem : ∀ r, r ∈ s'.refs → r ∈ s.refs ∨ r = (w', o) := by
    rw [hR]; intro r hr
    rcases List.mem_append.mp hr with hr | hr
    · exact .inl (List.mem_of_mem_erase hr)
    · simp at hr; exact .inr hr
  refine ⟨by subst e; exact h.lk, ?_, by subst e; exact h.uniq, ?_, ?_, ?_, by rw [hL]; exact h.nd, ?_, ?_, by subst e; exact h.fresh, ?_, by subst e; exact h.gone, by subst e; exact h.gnd⟩
  · intro t'
    rw [hpc']
    by_cases et : t' = t
    · subst et; rw [hpc]; trivial
    · refine pcOk_keep (h.pcs t') ?_ ?_ (by intro q l _ h; rw [hT]; exact h) (by intro q _ h; rw [hN]; exact h)
        (by rw [hL]; intro q l _ _ h; exact h) (by rw [hL]; intro q _ _ h; exact h) (by intro q l _ h; rw [hN]; exact h)
      · intro q l _ hq
        refine ⟨by rw [hT]; exact hq.1, by rw [hL]; exact hq.2.1, by rw [hN]; exact hq.2.2.1, ?_⟩
        intro r hr hrq
        rcases hmem r hr with hr | hr
        · exact hq.2.2.2 r hr hrq
        · subst hr
          have hrq : o = q := hrq
          subst hrq
          have := hq.2.2.2 _ hm rfl
          rcases hw with rfl | ⟨o', rfl⟩
          · cases this; exact absurd rfl et
          · cases this
      · intro q hq
        rw [hR]
        refine List.mem_append_left _ ((List.mem_erase_of_ne ?_).mpr hq)
        rintro ⟨⟩
        rcases hw with hw | ⟨o', hw⟩
        · cases hw; exact et rfl
        · cases hw
  · intro q x; rw [hO, hN]; exact h.cnt q x
  · intro r hr; simp only [hT]
    rcases hmem r hr with hr | hr
    · exact h.tok r hr
    · subst hr; exact ⟨(h.tok _ hm).1, hw'⟩
  · intro l q; rw [hL, hT, hN, hpc']; exact h.lst l q
  · intro q; rw [hT, hN, hpc']; exact h.all q
  · intro q l; rw [hT, hN, hpc', hL]; exact h.lall q l
  · intro q; rw [hN]; exact h.bnd q

theorem inv_init (dbg : Bool) : Inv dbg init := by
  refine ⟨?_, ?_, ?_, ?_, ?_, ?_, ?_, ?_, ?_, ?_, ?_, ?_, ?_⟩
  · intro l t; exact ⟨fun h => (by cases h), fun h => h.elim⟩
  · intro t; trivial
  · intro t t' o h; cases h
  · intro o x h; cases h
  · intro r h; cases h
  · intro l o h; cases h
  · intro l; exact List.nodup_nil
  · intro o h; cases h
  · intro o l h; cases h
  · intro o _; rfl
  · intro o; show 0 < cap dbg; cases dbg <;> decide
  · intro o; exact ⟨fun h => (by cases h), fun h => absurd h.1 (Nat.not_lt_zero _)⟩
  · exact List.nodup_nil

theorem go_same (s : St) (t : Nat) (p : Pc) : s.go t p = { s with lock := s.lock }.go t p := rfl

theorem inv_step {dbg : Bool} {s s' : St} {t : Nat} {e : Ev} (h : Inv dbg s) (hs : step dbg s t e = some (.ok s'))
    (hb : ∀ q, nrefs s' q < cap dbg) : Inv dbg s' := by
  have hp := h.pcs t
  cases e with
  | new ty =>
    simp only [step] at hs
    split at hs
    · next hi => injection hs with hs; injection hs with hs; exact inv_new h hi hs.symm
    · cases hs
  | inc o =>
    simp only [step] at hs
    split at hs
    · next hc =>
      obtain ⟨x, hx⟩ := tok_live h hc.2
      rw [touch_of hx] at hs
      split at hs
      · injection hs with hs; injection hs with hs; subst hs
        rw [go_same]
        exact inv_move h t _ _ (lk_same h (by intro l; rw [hc.1]; exact Iff.rfl)) hc.2 (by rw [hc.1]; rfl) (by rw [hc.1]; simp) (by rw [hc.1]; simp)
      · cases hs
    · cases hs
  | dec o =>
    simp only [step] at hs
    split at hs
    · next hc =>
      obtain ⟨x, hx⟩ := tok_live h hc.2
      rw [touch_of hx] at hs
      split at hs
      · injection hs with hs; injection hs with hs; subst hs
        rw [go_same]
        exact inv_move h t _ _ (lk_same h (by intro l; rw [hc.1]; exact Iff.rfl)) hc.2 (by rw [hc.1]; rfl) (by rw [hc.1]; simp) (by rw [hc.1]; simp)
      · cases hs
    · cases hs
  | lockList ty =>
    simp only [step] at hs
    split at hs
    · next hc =>
      injection hs with hs; injection hs with hs; subst hs
      exact inv_move h t _ _ (lk_take h hc.2 (by intro l; rw [hc.1]; exact id) (fun l => Iff.rfl)) trivial (by rw [hc.1]; rfl) (by rw [hc.1]; simp) (by rw [hc.1]; simp)
    · cases hs
  | look o =>
    simp only [step] at hs
    split at hs
    · next ty hpc =>
      split at hs
      · next hm =>
        obtain ⟨x, hx, -⟩ := ty_live (h.lst ty o hm).1
        rw [touch_of hx] at hs
        injection hs with hs; injection hs with hs; subst hs; exact h
      · cases hs
    · cases hs
  | incW o =>
    simp only [step] at hs
    split at hs
    · next ty hpc =>
      split at hs
      · next hm =>
        obtain ⟨x, hx, -⟩ := ty_live (h.lst ty o hm).1
        rw [touch_of hx] at hs
        split at hs
        · injection hs with hs; injection hs with hs; subst hs
          rw [go_same]
          exact inv_move h t _ _ (lk_same h (by intro l; rw [hpc]; exact Iff.rfl)) hm (by rw [hpc]; rfl) (by rw [hpc]; simp) (by rw [hpc]; simp)
        · cases hs
      · cases hs
    · cases hs
  | decW o =>
    simp only [step] at hs
    split at hs
    · next ty hpc =>
      split at hs
      · next hm =>
        injection hs with hs; injection hs with hs; subst hs
        rw [go_same]
        exact inv_move h t _ _ (lk_same h (by intro l; rw [hpc]; exact Iff.rfl)) hm (by rw [hpc]; rfl) (by rw [hpc]; simp) (by rw [hpc]; simp)
      · cases hs
    · cases hs
  | unlockList =>
    simp only [step] at hs
    split at hs
    · next ty hpc =>
      injection hs with hs; injection hs with hs; subst hs
      exact inv_move h t _ _ (lk_leave h (by intro l; rw [hpc]; exact Iff.rfl) (fun l => id)) trivial (by rw [hpc]; rfl) (by rw [hpc]; simp) (by rw [hpc]; simp)
    · cases hs
  | give o w =>
    simp only [step] at hs
    split at hs
    · next hc =>
      injection hs with hs; injection hs with hs
      refine inv_pass h hc.1 hc.2.1 (.inl rfl) ?_ hs.symm
      rintro o' rfl
      have := hc.2.2
      simp only [mayStore, decide_eq_true_eq] at this
      exact (h.tok _ (List.mem_of_mem_erase this)).1
    · cases hs
  | take o' o =>
    simp only [step] at hs
    split at hs
    · next hc =>
      injection hs with hs; injection hs with hs
      exact inv_pass h hc.1 hc.2.2 (.inr ⟨o', rfl⟩) (fun _ h => by cases h) hs.symm
    · cases hs
  | go =>
    simp only [step, go] at hs
    cases hpc : s.pc t with
    | idle => rw [hpc] at hs; cases hs
    | regLock o ty =>
      rw [hpc] at hs hp
      simp only at hs
      split at hs
      · next hl =>
        injection hs with hs; injection hs with hs; subst hs
        exact inv_move h t _ _ (lk_take h hl (by intro l; rw [hpc]; exact id) (fun l => Iff.rfl)) hp (by rw [hpc]; rfl) (by rw [hpc]; simp) (by rw [hpc]; simp)
      · cases hs
    | regAdd o ty =>
      rw [hpc] at hs hp
      obtain ⟨x, hx, -⟩ := ty_live hp.1
      simp only at hs
      rw [touch_of hx] at hs
      injection hs with hs; injection hs with hs
      exact inv_regAdd h hpc hs.symm
    | regUnlock ty =>
      rw [hpc] at hs
      injection hs with hs; injection hs with hs; subst hs
      exact inv_move h t _ _ (lk_leave h (by intro l; rw [hpc]; exact Iff.rfl) (fun l => id)) trivial (by rw [hpc]; rfl) (by rw [hpc]; simp) (by rw [hpc]; simp)
    | incAdd o w =>
      rw [hpc] at hs hp
      have : ∃ x, s.obj o = some x := by
        cases w with
        | none => exact tok_live h hp
        | some ty => obtain ⟨x, hx, -⟩ := ty_live (h.lst ty o hp).1; exact ⟨x, hx⟩
      obtain ⟨x, hx⟩ := this
      simp only at hs
      rw [touch_of hx] at hs
      injection hs with hs; injection hs with hs
      exact inv_incAdd h hpc hx hs.symm hb
    | decLock o =>
      rw [hpc] at hs hp
      obtain ⟨x, hx⟩ := tok_live h hp
      simp only [hx] at hs
      split at hs
      · next hl =>
        injection hs with hs; injection hs with hs; subst hs
        exact inv_move h t _ _ (lk_take h hl (by intro l; rw [hpc]; exact id) (fun l => Iff.rfl)) ⟨hp, by simp [tyOf, hx]⟩ (by rw [hpc]; rfl) (by rw [hpc]; simp) (by rw [hpc]; simp)
      · cases hs
    | decAdd o ty =>
      rw [hpc] at hs hp
      obtain ⟨x, hx⟩ := tok_live h hp.1
      simp only at hs
      rw [touch_of hx] at hs
      injection hs with hs; injection hs with hs
      refine inv_down h (.inl hpc) hx hs.symm ?_
      unfold afterDown
      split
      · next h0 => exact .inl ⟨h0, .inl rfl⟩
      · next h0 => exact .inr ⟨by omega, .inl rfl⟩
    | decDel o ty =>
      rw [hpc] at hs hp
      obtain ⟨x, hx, hxt⟩ := ty_live hp.1
      simp only at hs
      rw [touch_of hx] at hs
      injection hs with hs; injection hs with hs
      have h0 : low dbg x.cnt = 0 := by rw [(h.cnt o x hx).2]; exact hp.2.1
      rw [if_pos h0, hxt] at hs
      exact inv_decDel h hpc hs.symm
    | decUnlock o ty last =>
      rw [hpc] at hs hp
      have hty : tyOf s o = some ty := by cases last <;> exact hp.1
      obtain ⟨x, hx, hxt⟩ := ty_live hty
      simp only at hs
      rw [touch_of hx] at hs
      injection hs with hs; injection hs with hs; subst hs
      rw [hxt]
      cases last with
      | true =>
        exact inv_move h t _ _ (lk_leave h (by intro l; rw [hpc]; exact Iff.rfl) (fun l => id)) ⟨by rw [hty]; rfl, hp.2⟩ (by rw [hpc]; rfl) (by rw [hpc]; simp) (by rw [hpc]; simp)
      | false =>
        exact inv_move h t _ _ (lk_leave h (by intro l; rw [hpc]; exact Iff.rfl) (fun l => id)) trivial (by rw [hpc]; rfl) (by rw [hpc]; simp) (by rw [hpc]; simp)
    | kill o =>
      rw [hpc] at hs hp
      obtain ⟨l, hl⟩ := Option.isSome_iff_exists.mp hp.1
      obtain ⟨x, hx, -⟩ := ty_live hl
      simp only at hs
      rw [touch_of hx] at hs
      injection hs with hs; injection hs with hs
      exact inv_destroy h (by rw [hpc]; rfl) ⟨x, hx⟩ (.inl ⟨rfl, hpc⟩) s.list
        (fun l q => ⟨fun hq => ⟨hq, by rintro rfl; exact hp.2.2 l hq⟩, fun hq => hq.1⟩) h.nd hs.symm
    | walk ty => rw [hpc] at hs; cases hs
    | preAdd o ty =>
      rw [hpc] at hs hp
      obtain ⟨x, hx⟩ := tok_live h hp.1
      simp only at hs
      rw [touch_of hx] at hs
      split at hs
      · next h0 =>
        injection hs with hs; injection hs with hs
        exact inv_down h (.inr hpc) hx hs.symm (.inl ⟨h0, .inr rfl⟩)
      · next h0 =>
        split at hs
        · injection hs with hs; injection hs with hs
          exact inv_down h (.inr hpc) hx hs.symm (.inr ⟨by omega, .inr rfl⟩)
        · cases hs
    | preKill o ty =>
      rw [hpc] at hs hp
      obtain ⟨x, hx, hxt⟩ := ty_live hp.1
      simp only at hs
      rw [touch_of hx] at hs
      injection hs with hs; injection hs with hs
      rw [hxt] at hs
      refine inv_destroy h (by rw [hpc]; rfl) ⟨x, hx⟩ (.inr ⟨ty, rfl, hpc⟩) _ ?_ ?_ hs.symm
      · intro l q
        unfold upd
        split
        · next e => subst e; rw [(h.nd l).mem_erase_iff]; exact and_comm
        · next e =>
          refine ⟨fun hq => ⟨hq, ?_⟩, fun hq => hq.1⟩
          rintro rfl
          have := (h.lst l q hq).1
          rw [hp.1] at this; cases this; exact e rfl
      · intro l
        unfold upd
        split
        · next e => subst e; exact (h.nd l).erase o
        · exact h.nd l

theorem inv_reach {dbg : Bool} {s : St} (h : Reach dbg s) : Inv dbg s := by
  induction h with
  | init => exact inv_init dbg
  | step _ hs hb ih => exact inv_step ih hs hb

/-! ## Properties -/

/-- **C110** (safety). As long as no object has more references than its counter can count (2^31 - 1, or 2^16 - 1 in the build with
ARAX_REF_DEBUG): whatever the threads do at the same time, no step of any of them uses freed memory, and no assertion fails. -/
theorem C110_safe_partial {dbg : Bool} {s : St} (h : Reach dbg s) (t : Nat) (e : Ev) :
    step dbg s t e ≠ some .ub ∧ step dbg s t e ≠ some .abort := inv_safe (inv_reach h) t e

/-- **C110** (the count is right). What arax_object_refs returns is the number of references there are. -/
theorem C110_count_partial {dbg : Bool} {s : St} (h : Reach dbg s) (o : Nat) (x : Ob) (hx : s.obj o = some x) :
    low dbg x.cnt = nrefs s o := ((inv_reach h).cnt o x hx).2

/-- **C110** (destroyed exactly when the last reference goes). An object that has been destroyed has no references; none is destroyed twice;
one that has none any more has been destroyed, or exactly one thread is about to. -/
theorem C110_destroyed_exactly_partial {dbg : Bool} {s : St} (h : Reach dbg s) :
    (∀ o w, o ∈ s.gone → (w, o) ∉ s.refs) ∧ s.gone.Nodup ∧
    (∀ o, o < s.next → (∀ w, (w, o) ∉ s.refs) → o ∈ s.gone ∨ ∃ t, dying (s.pc t) = some o ∧ ∀ t', dying (s.pc t') = some o → t' = t) ∧
    (∀ t o w, dying (s.pc t) = some o → (w, o) ∉ s.refs) := by
  have hi := inv_reach h
  refine ⟨?_, hi.gnd, ?_, ?_⟩
  · intro o w hg hm
    obtain ⟨x, hx⟩ := tok_live hi hm
    rw [((hi.gone o).mp hg).2] at hx; cases hx
  · intro o ho hn
    cases hx : s.obj o with
    | none => exact .inl ((hi.gone o).mpr ⟨ho, hx⟩)
    | some x =>
      right
      rcases hi.all o (by simp [tyOf, hx]) with h1 | ⟨t, h1⟩
      · obtain ⟨⟨w, r⟩, hr, hq⟩ := List.countP_pos_iff.mp h1
        have : r = o := by simpa using hq
        subst this; exact absurd hr (hn w)
      · exact ⟨t, h1, fun t' h2 => hi.uniq t' t o h2 h1⟩
  · intro t o w hd hm
    have := dying_zero hi hd
    have := nrefs_pos hm
    omega

/-- How many steps a thread that is destroying an object has left. -/
def left : Pc → Nat
  | .decDel _ _ => 3
  | .decUnlock _ _ _ => 2
  | _ => 1

/-- **C110** (and the destruction happens). A thread that is about to destroy an object waits for nobody: its next step is possible whatever the others do,
and brings it nearer. -/
theorem C110_destroyer_goes_on {dbg : Bool} {s : St} (h : Reach dbg s) {t o : Nat} (hd : dying (s.pc t) = some o) :
    ∃ s', step dbg s t .go = some (.ok s') ∧ (o ∈ s'.gone ∨ (dying (s'.pc t) = some o ∧ left (s'.pc t) < left (s.pc t))) := by
  have hi := inv_reach h
  have hp := hi.pcs t
  simp only [step, go]
  cases hpc : s.pc t with
  | decDel a ty =>
    rw [hpc] at hp hd; cases hd
    obtain ⟨x, hx, -⟩ := ty_live hp.1
    simp only [touch_of hx]
    exact ⟨_, rfl, .inr (by simp [St.go, upd, dying, left])⟩
  | decUnlock a ty c =>
    rw [hpc] at hp hd
    cases c with
    | false => cases hd
    | true =>
      cases hd
      obtain ⟨x, hx, -⟩ := ty_live hp.1
      simp only [touch_of hx]
      exact ⟨_, rfl, .inr (by simp [St.go, upd, dying, left])⟩
  | kill a =>
    rw [hpc] at hp hd; cases hd
    obtain ⟨l, hl⟩ := Option.isSome_iff_exists.mp hp.1
    obtain ⟨x, hx, -⟩ := ty_live hl
    simp only [touch_of hx]
    exact ⟨_, rfl, .inl (by simp [St.go, St.destroy])⟩
  | preKill a ty =>
    rw [hpc] at hp hd; cases hd
    obtain ⟨x, hx, -⟩ := ty_live hp.1
    simp only [touch_of hx]
    exact ⟨_, rfl, .inl (by simp [St.go, St.destroy])⟩
  | _ => rw [hpc] at hd; simp [dying] at hd

/-- **C110** (the lists). Whoever has the lock of a list finds in it only objects that are there, of the right type, and that somebody has a reference
to; and every such object, but for those whose arax_object_register has not returned. -/
theorem C110_lists_partial {dbg : Bool} {s : St} (h : Reach dbg s) {t l : Nat} (hw : s.pc t = .walk l) (o : Nat) :
    (o ∈ s.list l → tyOf s o = some l ∧ ∃ w, (w, o) ∈ s.refs) ∧
    (tyOf s o = some l → (∃ w, (w, o) ∈ s.refs) → o ∈ s.list l ∨ ∃ t', s.pc t' = .regLock o l ∨ s.pc t' = .regAdd o l) := by
  have hi := inv_reach h
  constructor
  · intro ho
    refine ⟨(hi.lst l o ho).1, ?_⟩
    have := locked_pos hi (t := t) (l := l) (by rw [hw]; rfl) ho (by rw [hw]; rfl)
    obtain ⟨⟨w, r⟩, hr, hq⟩ := List.countP_pos_iff.mp this
    have : r = o := by simpa using hq
    subst this; exact ⟨w, hr⟩
  · rintro hty ⟨w, hm⟩
    exact hi.lall o l hty (nrefs_pos hm)

/-! ## A case -/

/-- Makes the steps of the threads in the given order. -/
def runEv (dbg : Bool) : St → List (Nat × Ev) → Option St
  | s, [] => some s
  | s, (t, e) :: r => match step dbg s t e with | some (.ok s') => runEv dbg s' r | _ => none

/-- Thread 0 makes a buffer (0, type 3) and a task (1, type 4), stores the reference to the buffer in the task, takes a second reference to the task and passes
it to thread 1. Both drop theirs at the same time; thread 2 walks through the list of tasks before. -/
def race : List (Nat × Ev) :=
  [(0, .new 3), (0, .go), (0, .go), (0, .go), (0, .new 4), (0, .go), (0, .go), (0, .go), (0, .give 0 (.ob 1)), (0, .inc 1), (0, .go), (0, .give 1 (.th 1)),
   (0, .dec 1), (2, .lockList 4), (2, .look 1), (1, .dec 1), (2, .unlockList), (1, .go), (1, .go), (1, .go), (0, .go), (0, .go), (0, .go), (0, .go)]

/-- Before its last step, the thread that drops the last reference destroys the task; then it has the task's reference to the buffer, and drops it. -/
example : ((runEv false init race).map fun s => (s.gone, s.refs, s.list 4, dying (s.pc 0))) = some ([], [(.ob 1, 0)], [], some 1) := by decide
example : ((runEv false init (race ++ [(0, .go)])).map fun s => (s.gone, s.refs)) = some ([1], [(.th 0, 0)]) := by decide
example : ((runEv false init (race ++ [(0, .go), (0, .dec 0), (0, .go), (0, .go), (0, .go), (0, .go), (0, .go)])).map fun s => (s.gone, s.refs)) = some ([1, 0], []) := by decide
/-- While thread 2 has the lock of the list, thread 0 cannot go on. -/
example : ((runEv false init (race.take 14)).map fun s => (step false s 0 .go).isNone) = some true := by decide

/-! ## The debug build -/

/-- What can have happened, with any number of references. -/
inductive Any (dbg : Bool) : St → Prop
  | init : Any dbg init
  | step {s s' : St} {t : Nat} {e : Ev} : Any dbg s → step dbg s t e = some (.ok s') → Any dbg s'

theorem many (k : Nat) : ∃ s, Any true s ∧ s.pc 0 = .idle ∧ (∃ c, s.obj 0 = some ⟨c, 0⟩ ∧ c < W32 ∧ c % W16 = (k + 1) % W16) ∧
    s.refs = List.replicate (k + 1) (.th 0, 0) ∧ s.lock 0 = none ∧ s.list 0 = [0] ∧ s.gone = [] := by
  induction k with
  | zero =>
    refine ⟨_, ((((Any.init.step (t := 0) (e := .new 0) rfl).step (t := 0) (e := .go) rfl).step (t := 0) (e := .go) rfl).step (t := 0) (e := .go) rfl),
      rfl, ⟨1, rfl, by decide, rfl⟩, rfl, rfl, rfl, rfl⟩
  | succ k ih =>
    obtain ⟨s, ha, hpc, ⟨c, hx, hc, hm⟩, hr, hl, hli, hg⟩ := ih
    have h1 : step true s 0 (.inc 0) = some (.ok (s.go 0 (.incAdd 0 none))) := by
      simp only [step]
      rw [if_pos ⟨hpc, by rw [hr]; simp⟩, touch_of hx]
      rfl
    have h2 : step true (s.go 0 (.incAdd 0 none)) 0 .go = some (.ok ({ s.go 0 (.incAdd 0 none) with obj := upd s.obj 0 (some ⟨up true c, 0⟩), refs := s.refs ++ [(Who.th 0, 0)] }.go 0 .idle)) := by
      simp [step, go, St.go, upd, St.touch, hx, back]
    refine ⟨_, (ha.step h1).step h2, by simp [St.go, upd], ⟨up true c, by simp [St.go, upd], ?_, ?_⟩, ?_, hl, hli, hg⟩
    · simp only [up, W32]; omega
    · simp only [up, W32, W16, if_true] at *; omega
    · show s.refs ++ [(Who.th 0, 0)] = _
      rw [hr, List.replicate_succ' (n := k + 1)]

theorem drop_last {dbg : Bool} {s : St} {c m : Nat} (ha : Any dbg s) (hpc : s.pc 0 = .idle) (hx : s.obj 0 = some ⟨c, 0⟩)
    (hr : s.refs = List.replicate (m + 1) (.th 0, 0)) (hl : s.lock 0 = none) (hg : s.gone = [])
    (hok : okDec dbg c = true) (hlow : low dbg (down dbg c) = 0) : ∃ s', Any dbg s' ∧ s'.gone = [0] ∧ s'.refs = List.replicate m (.th 0, 0) := by
  have h1 : step dbg s 0 (.dec 0) = some (.ok (s.go 0 (.decLock 0))) := by
    simp only [step]
    rw [if_pos ⟨hpc, by rw [hr]; simp⟩, touch_of hx]
    simp [hok]
  have h2 : ∃ s2, step dbg (s.go 0 (.decLock 0)) 0 .go = some (.ok s2) ∧ s2.pc 0 = .decAdd 0 0 ∧ s2.obj 0 = some ⟨c, 0⟩ ∧ s2.refs = s.refs ∧ s2.gone = [] := by
    refine ⟨_, by simp only [step, go, St.go, upd, if_true, hx, hl]; rfl, ?_⟩
    simp [upd, hx, hg]
  obtain ⟨s2, e2, p2, x2, r2, g2⟩ := h2
  have h3 : ∃ s3, step dbg s2 0 .go = some (.ok s3) ∧ s3.pc 0 = .decDel 0 0 ∧ s3.obj 0 = some ⟨down dbg c, 0⟩ ∧ s3.refs = List.replicate m (.th 0, 0) ∧ s3.gone = [] := by
    refine ⟨_, by simp only [step, go, p2, St.touch, x2]; rfl, ?_⟩
    rw [r2, hr]
    simp [St.go, upd, hlow, g2, List.replicate_succ]
  obtain ⟨s3, e3, p3, x3, r3, g3⟩ := h3
  have h4 : ∃ s4, step dbg s3 0 .go = some (.ok s4) ∧ s4.pc 0 = .decUnlock 0 0 true ∧ s4.obj 0 = some ⟨down dbg c, 0⟩ ∧ s4.refs = List.replicate m (.th 0, 0) ∧ s4.gone = [] := by
    refine ⟨_, by simp only [step, go, p3, St.touch, x3]; rfl, ?_⟩
    rw [if_pos hlow]
    simp [St.go, upd, x3, r3, g3]
  obtain ⟨s4, e4, p4, x4, r4, g4⟩ := h4
  have h5 : ∃ s5, step dbg s4 0 .go = some (.ok s5) ∧ s5.pc 0 = .kill 0 ∧ s5.obj 0 = some ⟨down dbg c, 0⟩ ∧ s5.refs = List.replicate m (.th 0, 0) ∧ s5.gone = [] := by
    refine ⟨_, by simp only [step, go, p4, St.touch, x4]; rfl, ?_⟩
    simp [St.go, upd, x4, r4, g4]
  obtain ⟨s5, e5, p5, x5, r5, g5⟩ := h5
  have h6 : ∃ s6, step dbg s5 0 .go = some (.ok s6) ∧ s6.refs = List.replicate m (.th 0, 0) ∧ s6.gone = [0] := by
    refine ⟨_, by simp only [step, go, p5, St.touch, x5]; rfl, ?_⟩
    simp [St.go, St.destroy, r5, g5, heir]
  obtain ⟨s6, e6, r6, g6⟩ := h6
  exact ⟨s6, ((((((ha.step h1).step e2).step e3).step e4).step e5).step e6), g6, r6⟩

/-- **C110 violated.** In the build with ARAX_REF_DEBUG an object with 65537 references is destroyed when one of them is dropped: 65536 references are left to
memory that is free. -/
theorem C110_violated_debug_build : ∃ s, Any true s ∧ s.gone = [0] ∧ s.refs = List.replicate W16 (.th 0, 0) := by
  obtain ⟨s, ha, hpc, ⟨c, hx, hc, hm⟩, hr, hl, -, hg⟩ := many W16
  have hm : c % W16 = 1 := by rw [hm]; decide
  exact drop_last ha hpc hx hr hl hg (by simp [okDec, hm]) (by simp only [low, down, W32, W16, if_true] at *; omega)

/-- A 32-bit word as the `int` it is in the code. -/
def asInt (c : Nat) : Int := if c < 2147483648 then (c : Int) else (c : Int) - 4294967296

/-- **C110 (the assertions).** The assertion at the start of `arax_object_ref_inc` fails exactly if the count is negative, that of `arax_object_ref_dec` exactly if it is not positive, that of
`arax_object_ref_dec_pre_locked` exactly if the new count is negative; with ARAX_REF_DEBUG, where the low half of the word is the count, only the second can fail, exactly at 0. -/
theorem C110_assertions (c : Nat) (h : c < 4294967296) :
    (okInc false c = true ↔ 0 ≤ asInt c) ∧ (okDec false c = true ↔ 0 < asInt c) ∧ (okPre false c = true ↔ 0 ≤ asInt c) ∧
    okInc true c = true ∧ okPre true c = true ∧ (okDec true c = true ↔ c % 65536 ≠ 0) := by
  unfold asInt okInc okDec okPre W31 W16
  refine ⟨?_, ?_, ?_, rfl, rfl, ?_⟩
  · simp only [Bool.false_or, decide_eq_true_eq]; split <;> omega
  · simp only [Bool.false_eq_true, if_false, decide_eq_true_eq]; split <;> omega
  · simp only [Bool.false_or, decide_eq_true_eq]; split <;> omega
  · simp only [if_true, decide_eq_true_eq]; omega

-- the boundaries
example : okInc false 2147483647 = true ∧ okInc false 2147483648 = false ∧ okDec false 0 = false ∧ okDec true 65536 = false := by decide

end Arax.RefConc
