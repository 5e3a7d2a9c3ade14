import Verif.Object.Spec
/-!
# What API calls do not change: the size of an object and the name of a procedure

`Sigs Q s`: every live object satisfies `Q` of its address, its procedure name (if it is a procedure) and its size. Every call preserves
`Sigs Q`, provided the objects it creates satisfy `Q`.
-/
namespace Arax.Object

def procName : Kind → Option (List Char)
  | .proc n => some n
  | _ => none

def Sigs (Q : Nat → Option (List Char) → Nat → Prop) (s : St) : Prop := ∀ i x, s.obj i = some x → Q i (procName x.kind) x.size

/-- The objects a call may create. -/
def News (Q : Nat → Option (List Char) → Nat → Prop) (c : Conf) (s : St) : Op → Prop
  | .newPhys => Q s.next none c.szPhys ∧ Q (s.next + 1) none c.szVaccel
  | .newVaccel _ => Q s.next none c.szVaccel
  | .newProc n => Q s.next (some n) c.szProc
  | .newData size align => Q s.next none (c.szData + (size + align + 8))
  | .issue _ _ ins outs h => Q s.next none (c.szTask + 8 * (ins ++ outs).length + h)
  | _ => True

/-- The same for the whole contents; reference counting preserves even that. -/
def Alls (R : Nat → Kind → Nat → Prop) (s : St) : Prop := ∀ i x, s.obj i = some x → R i x.kind x.size

variable {Q : Nat → Option (List Char) → Nat → Prop} {R : Nat → Kind → Nat → Prop}

theorem alls_put {s : St} {o : Nat} {x : Obj} (h : Alls R s) (hx : R o x.kind x.size) : Alls R (s.put o (some x)) := by
  intro i y hi
  by_cases e : i = o
  · subst e; simp [St.put] at hi; subst hi; exact hx
  · exact h i y (by simpa [St.put, e] using hi)

theorem alls_upd {s : St} {o : Nat} {x : Obj} (y : Obj) (h : Alls R s) (hx : s.obj o = some x) (e : y.size = x.size) (ek : y.kind = x.kind) : Alls R (s.put o (some y)) :=
  alls_put h (by rw [e, ek]; exact h o x hx)

theorem alls_register {s : St} (h : Alls R s) (b : Bool) (k : Kind) {size : Nat} (hs : R s.next k size) : Alls R (register s b k size).1 := by
  cases b with
  | false => exact h
  | true => exact alls_put (x := { kind := k, refs := 1, size := size }) h hs

theorem alls_refInc {s s' : St} {o : Nat} (h : Alls R s) (e : refInc s o = .ok s') : Alls R s' := by
  unfold refInc at e
  split at e
  · cases e
  · next x hx => cases e; exact alls_put h (h o x hx)

theorem alls_refDec : ∀ (d : Nat) (s s' : St) (o : Nat), Alls R s → refDec d s o = .ok s' → Alls R s'
  | 0, _, _, _, _, e => by simp [refDec] at e
  | d + 1, s, s', o, h, e => by
    have fold : ∀ (l : List Nat) (s s' : St), Alls R s → l.foldlM (refDec d) s = .ok s' → Alls R s' := by
      intro l
      induction l with
      | nil => intro s s' h e; simp at e; subst e; exact h
      | cons a r ih =>
        intro s s' h e
        rw [List.foldlM_cons] at e
        cases h1 : refDec d s a with
        | ok t => rw [h1, Res.bind_ok] at e; exact ih t s' (alls_refDec d s t a h h1) e
        | abort => rw [h1] at e; cases e
        | ub => rw [h1] at e; cases e
    unfold refDec at e
    split at e
    · cases e
    · next x hx =>
      split at e
      · cases e
      · split at e
        · dsimp only at e
          split at e
          · next hd =>
            have h1 : Alls R ((s.put o (some { x with refs := 0 })).setRepo x.kind.ty ((s.repo x.kind.ty).erase o)) :=
              alls_put (x := { x with refs := 0 }) h (h o x hx)
            generalize hf : x.kind.children.foldlM (refDec d) ((s.put o (some { x with refs := 0 })).setRepo x.kind.ty ((s.repo x.kind.ty).erase o)) = r at e
            cases r with
            | ok t =>
              simp only [Res.bind_ok, Res.ok.injEq] at e
              subst e
              have h2 := fold _ _ _ h1 hf
              intro i y hi
              by_cases e : i = o
              · subst e; simp [St.put] at hi
              · exact h2 i y (by simpa [St.put, e] using hi)
            | abort => cases e
            | ub => cases e
          · cases e
        · cases e; exact alls_put (x := { x with refs := x.refs - 1 }) h (h o x hx)

theorem sigs_upd {s : St} {o : Nat} {x : Obj} (y : Obj) (h : Sigs Q s) (hx : s.obj o = some x) (e : y.size = x.size)
    (ek : procName y.kind = procName x.kind) : Sigs Q (s.put o (some y)) :=
  alls_put (R := fun i k n => Q i (procName k) n) h (by rw [e, ek]; exact h o x hx)

theorem sigs_register {s : St} (h : Sigs Q s) (b : Bool) (k : Kind) {size : Nat} (hs : Q s.next (procName k) size) : Sigs Q (register s b k size).1 :=
  alls_register (R := fun i k n => Q i (procName k) n) h b k hs

theorem sigs_refInc {s s' : St} {o : Nat} (h : Sigs Q s) (e : refInc s o = .ok s') : Sigs Q s' :=
  alls_refInc (R := fun i k n => Q i (procName k) n) h e

theorem sigs_refDec {s s' : St} (d : Nat) {o : Nat} (h : Sigs Q s) (e : refDec d s o = .ok s') : Sigs Q s' :=
  alls_refDec (R := fun i k n => Q i (procName k) n) d s s' o h e

/-- `d` is not a procedure. -/
def NotProc (s : St) (d : Nat) : Prop := ∀ x, s.obj d = some x → procName x.kind = none

theorem notProc_iff (s : St) (d : Nat) : NotProc s d ↔ Alls (fun i k _ => i = d → procName k = none) s :=
  ⟨fun h i x hx e => by subst e; exact h x hx, fun h x hx => h d x hx rfl⟩

theorem res_bind {α β : Type} {r : Res α} {f : α → Res β} {b : β} (e : (r >>= f) = .ok b) : ∃ a, r = .ok a ∧ f a = .ok b := by
  cases r with
  | ok a => exact ⟨a, rfl, e⟩
  | abort => cases e
  | ub => cases e

theorem sigs_link {s1 s' : St} {d v : Nat} (h : Sigs Q s1) (hp : NotProc s1 d)
    (e : (match s1.obj d with | none => Res.ub | some x => .ok (s1.put d (some { x with kind := .data (some v) }))) = .ok s') : Sigs Q s' := by
  split at e
  · cases e
  · next x hx => cases e; exact sigs_upd { x with kind := .data (some v) } h hx rfl (hp x hx).symm

theorem sigs_migrate {s s' : St} {d v : Nat} (h : Sigs Q s) (e : migrate s d v = .ok s') : Sigs Q s' := by
  unfold migrate at e
  split at e
  · cases e
  · next x hx =>
    split at e
    · next acc hk =>
      have hn : NotProc s d := by intro y hy; rw [hx] at hy; cases hy; rw [hk]; rfl
      split at e
      · cases e; exact h
      · split at e
        · obtain ⟨s1, e1, e⟩ := res_bind e
          exact sigs_link (sigs_refInc h e1) ((notProc_iff _ _).mpr (alls_refInc ((notProc_iff _ _).mp hn) e1)) e
        · split at e
          · split at e
            · split at e
              · obtain ⟨s1, e1, e⟩ := res_bind e
                obtain ⟨s2, e2, e⟩ := res_bind e
                have hn' : NotProc (s.put d (some { x with kind := .data none })) d := by
                  intro y hy; simp [St.put] at hy; subst hy; rfl
                refine sigs_link (sigs_refInc (sigs_refDec 3 (sigs_upd { x with kind := .data none } h hx rfl (by rw [hk]; rfl)) e1) e2) ?_ e
                exact (notProc_iff _ _).mpr (alls_refInc (alls_refDec 3 _ _ _ ((notProc_iff _ _).mp hn') e1) e2)
              · cases e
            · cases e
          · cases e
    · cases e

theorem sigs_addIo {s s' : St} {t v d : Nat} (h : Sigs Q s) (e : addIo t v s d = .ok s') : Sigs Q s' := by
  unfold addIo at e
  obtain ⟨s1, e1, e⟩ := res_bind e
  have h1 := sigs_refInc h e1
  split at e
  · next io a p refs size ht => exact sigs_migrate (sigs_upd _ h1 ht (by rfl) (by rfl)) e
  · cases e

theorem sigs_fold {t v : Nat} : ∀ (l : List Nat) (s s' : St), Sigs Q s → l.foldlM (addIo t v) s = .ok s' → Sigs Q s' := by
  intro l
  induction l with
  | nil => intro s s' h e; simp at e; subst e; exact h
  | cons a r ih =>
    intro s s' h e
    rw [List.foldlM_cons] at e
    obtain ⟨s1, e1, e⟩ := res_bind e
    exact ih s1 s' (sigs_addIo h e1) e

theorem sigs_issue {c : Conf} {s : St} {b : Bool} {v p : Nat} {ins outs : List Nat} {hz : Nat} {r : St × Nat} (h : Sigs Q s) (hs : Q s.next none (c.szTask + 8 * (ins ++ outs).length + hz))
    (e : issue c s b v p ins outs hz = .ok r) : Sigs Q r.1 := by
  unfold issue at e
  obtain ⟨ok, -, e⟩ := res_bind e
  split at e
  · have h1 := sigs_register h b (.task [] none p) (size := c.szTask + 8 * (ins ++ outs).length + hz) hs
    split at e
    · cases e
    · next sr t hr =>
      rw [hr] at h1
      obtain ⟨s1, e1, e⟩ := res_bind e
      obtain ⟨s2, e2, e⟩ := res_bind e
      have h2 := sigs_refInc (sigs_fold _ _ _ h1 e1) e2
      split at e
      · next ht => cases e; exact sigs_upd _ h2 ht (by rfl) (by rfl)
      · cases e
  · cases e

theorem sigs_step {c : Conf} {s s' : St} {b : Bool} {op : Op} (h : Sigs Q s) (hc : News Q c s op) (e : step c s b op = .ok s') : Sigs Q s' := by
  cases op with
  | newPhys =>
    simp only [step] at e
    cases b with
    | false => simp at e; subst e; exact h
    | true =>
      simp at e
      subst e
      refine alls_put (R := fun i k n => Q i (procName k) n) (s := (register (register s true (.phys none) c.szPhys).1 true (.vaccel (some s.next)) c.szVaccel).1.setUser (s.next + 1) 0)
        (x := { kind := .phys (some (s.next + 1)), refs := 1, size := c.szPhys }) ?_ hc.1
      exact sigs_register (sigs_register h true (.phys none) hc.1) true (.vaccel (some s.next)) hc.2
  | newVaccel a =>
    cases a with
    | none => simp only [step, Res.ok.injEq] at e; subst e; exact sigs_register h b _ hc
    | some a =>
      simp only [step] at e
      split at e
      · cases e; exact sigs_register h b _ hc
      · cases e
  | newProc name => simp only [step, Res.ok.injEq] at e; subst e; exact sigs_register h b _ hc
  | newData size align =>
    simp only [step] at e
    split at e
    · cases e
    · cases e; exact sigs_register h b _ hc
  | issue v p ins outs hs =>
    simp only [step] at e
    cases h1 : issue c s b v p ins outs hs with
    | ok r => rw [h1] at e; simp only [Res.map, Res.ok.injEq] at e; subst e; exact sigs_issue h hc h1
    | abort => rw [h1] at e; cases e
    | ub => rw [h1] at e; cases e
  | refInc o =>
    simp only [step] at e
    cases h1 : refInc s o with
    | ok r => rw [h1] at e; simp only [Res.map, Res.ok.injEq] at e; subst e; exact fun i x hx => sigs_refInc h h1 i x hx
    | abort => rw [h1] at e; cases e
    | ub => rw [h1] at e; cases e
  | refDec o => exact sigs_refDec (s := s.setUser o (s.user o - 1)) 3 h e
  | setAssign d v =>
    simp only [step, setAssign] at e
    split at e
    · next hd =>
      have hn : NotProc s d := by intro y hy; rw [hd] at hy; cases hy; rfl
      split at e
      · cases e; exact h
      · split at e
        · obtain ⟨s1, e1, e⟩ := res_bind e
          have h1 := sigs_refInc h e1
          split at e
          · next ht => cases e; exact sigs_upd _ h1 ht (by rfl) ((notProc_iff _ _).mpr (alls_refInc ((notProc_iff _ _).mp hn) e1) _ ht).symm
          · cases e
        · cases e
    · cases e
  | setAccel d v =>
    simp only [step, setAccel] at e
    split at e
    · next hd =>
      split at e
      · cases e; exact h
      · exact sigs_refInc (sigs_upd _ h hd (by rfl) (by rfl)) e
    · cases e
  | assign v a =>
    simp only [step, assign] at e
    split at e
    · next hv _ =>
      split at e
      · cases e; exact h
      · split at e
        · cases e; exact sigs_upd _ h hv (by rfl) (by rfl)
        · cases e
    · cases e
  | unassign v =>
    simp only [step, unassign] at e
    split at e
    · next hv =>
      split at e
      · cases e; exact sigs_upd _ h hv (by rfl) (by rfl)
      · cases e
    · cases e


end Arax.Object
