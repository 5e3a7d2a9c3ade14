import Verif.Object.Sigs
/-!
# API calls change the references of a client only where they say so
-/
namespace Arax.Object

theorem user_refInc {s s' : St} {o : Nat} (e : refInc s o = .ok s') : s'.user = s.user ∧ s'.next = s.next := by
  unfold refInc at e
  split at e
  · cases e
  · cases e; exact ⟨rfl, rfl⟩

theorem user_refDec : ∀ (d : Nat) (s s' : St) (o : Nat), refDec d s o = .ok s' → s'.user = s.user ∧ s'.next = s.next
  | 0, _, _, _, e => by simp [refDec] at e
  | d + 1, s, s', o, e => by
    have fold : ∀ (l : List Nat) (s s' : St), l.foldlM (refDec d) s = .ok s' → s'.user = s.user ∧ s'.next = s.next := by
      intro l
      induction l with
      | nil => intro s s' e; simp at e; subst e; exact ⟨rfl, rfl⟩
      | cons a r ih =>
        intro s s' e
        rw [List.foldlM_cons] at e
        obtain ⟨t, h1, e⟩ := res_bind e
        have h2 := ih t s' e
        have h3 := user_refDec d s t a h1
        exact ⟨h2.1.trans h3.1, h2.2.trans h3.2⟩
    unfold refDec at e
    split at e
    · cases e
    · split at e
      · cases e
      · split at e
        · dsimp only at e
          split at e
          · obtain ⟨t, h1, e⟩ := res_bind e
            cases e
            have := fold _ _ _ h1
            exact this
          · cases e
        · cases e; exact ⟨rfl, rfl⟩

theorem user_link {s1 s' : St} {d v : Nat}
    (e : (match s1.obj d with | none => Res.ub | some x => .ok (s1.put d (some { x with kind := .data (some v) }))) = .ok s') :
    s'.user = s1.user ∧ s'.next = s1.next := by
  split at e
  · cases e
  · cases e; exact ⟨rfl, rfl⟩

theorem user_migrate {s s' : St} {d v : Nat} (e : migrate s d v = .ok s') : s'.user = s.user ∧ s'.next = s.next := by
  unfold migrate at e
  split at e
  · cases e
  · split at e
    · split at e
      · cases e; exact ⟨rfl, rfl⟩
      · split at e
        · obtain ⟨s1, e1, e⟩ := res_bind e
          have a := user_refInc e1
          have b := user_link e
          exact ⟨b.1.trans a.1, b.2.trans a.2⟩
        · split at e
          · split at e
            · split at e
              · obtain ⟨s1, e1, e⟩ := res_bind e
                obtain ⟨s2, e2, e⟩ := res_bind e
                have a := user_refDec _ _ _ _ e1
                have a2 := user_refInc e2
                have b := user_link e
                exact ⟨b.1.trans (a2.1.trans a.1), b.2.trans (a2.2.trans a.2)⟩
              · cases e
            · cases e
          · cases e
    · cases e

theorem user_addIo {s s' : St} {t v d : Nat} (e : addIo t v s d = .ok s') : s'.user = s.user ∧ s'.next = s.next := by
  unfold addIo at e
  obtain ⟨s1, e1, e⟩ := res_bind e
  have a := user_refInc e1
  split at e
  · have b := user_migrate e
    exact ⟨b.1.trans a.1, b.2.trans a.2⟩
  · cases e

theorem user_fold {t v : Nat} : ∀ (l : List Nat) (s s' : St), l.foldlM (addIo t v) s = .ok s' → s'.user = s.user ∧ s'.next = s.next := by
  intro l
  induction l with
  | nil => intro s s' e; simp at e; subst e; exact ⟨rfl, rfl⟩
  | cons a r ih =>
    intro s s' e
    rw [List.foldlM_cons] at e
    obtain ⟨s1, e1, e⟩ := res_bind e
    have h1 := user_addIo e1
    have h2 := ih s1 s' e
    exact ⟨h2.1.trans h1.1, h2.2.trans h1.2⟩

theorem user_register (s : St) (b : Bool) (k : Kind) (size : Nat) :
    (∀ i, i < s.next → (register s b k size).1.user i = s.user i) ∧ s.next ≤ (register s b k size).1.next := by
  cases b with
  | false => exact ⟨fun _ _ => rfl, Nat.le_refl _⟩
  | true =>
    refine ⟨fun i hi => ?_, Nat.le_succ _⟩
    show (if i = s.next then 1 else s.user i) = s.user i
    rw [if_neg (by omega)]

theorem user_issue {c : Conf} {s : St} {b : Bool} {v p : Nat} {ins outs : List Nat} {h : Nat} {r : St × Nat} (e : issue c s b v p ins outs h = .ok r) :
    (∀ i, i < s.next → r.1.user i = s.user i) ∧ s.next ≤ r.1.next := by
  unfold issue at e
  obtain ⟨ok, -, e⟩ := res_bind e
  split at e
  · have h1 := user_register s b (.task [] none p) (c.szTask + 8 * (ins ++ outs).length + h)
    split at e
    · cases e
    · next sr t hr =>
      rw [hr] at h1
      obtain ⟨s1, e1, e⟩ := res_bind e
      obtain ⟨s2, e2, e⟩ := res_bind e
      have a1 := user_fold _ _ _ e1
      have a2 := user_refInc e2
      split at e
      · cases e
        refine ⟨fun i hi => ?_, ?_⟩
        · show s2.user i = _
          rw [a2.1, a1.1]; exact h1.1 i hi
        · show s.next ≤ s2.next
          rw [a2.2, a1.2]; exact h1.2
      · cases e
  · cases e

/-- A call other than `arax_object_ref_inc`/`arax_object_ref_dec` leaves the clients' references on existing objects alone; no call forgets an address. -/
theorem user_step {c : Conf} {s s' : St} {b : Bool} {op : Op} (e : step c s b op = .ok s') :
    (∀ i, i < s.next → op ≠ .refInc i → op ≠ .refDec i → s'.user i = s.user i) ∧ s.next ≤ s'.next := by
  cases op with
  | newPhys =>
    simp only [step] at e
    cases b with
    | false => simp at e; subst e; exact ⟨fun _ _ _ _ => rfl, Nat.le_refl _⟩
    | true =>
      simp at e
      subst e
      have a1 := user_register s true (.phys none) c.szPhys
      have a2 := user_register (register s true (.phys none) c.szPhys).1 true (.vaccel (some s.next)) c.szVaccel
      refine ⟨fun i hi _ _ => ?_, Nat.le_trans a1.2 a2.2⟩
      show (if i = s.next + 1 then 0 else (register (register s true (.phys none) c.szPhys).1 true (.vaccel (some s.next)) c.szVaccel).1.user i) = _
      rw [if_neg (by omega), a2.1 i (Nat.lt_of_lt_of_le hi a1.2), a1.1 i hi]
  | newVaccel a =>
    cases a with
    | none => simp only [step, Res.ok.injEq] at e; subst e; exact ⟨fun i hi _ _ => (user_register _ _ _ _).1 i hi, (user_register _ _ _ _).2⟩
    | some a =>
      simp only [step] at e
      split at e
      · cases e; exact ⟨fun i hi _ _ => (user_register _ _ _ _).1 i hi, (user_register _ _ _ _).2⟩
      · cases e
  | newProc name => simp only [step, Res.ok.injEq] at e; subst e; exact ⟨fun i hi _ _ => (user_register _ _ _ _).1 i hi, (user_register _ _ _ _).2⟩
  | newData size align =>
    simp only [step] at e
    split at e
    · cases e
    · cases e; exact ⟨fun i hi _ _ => (user_register _ _ _ _).1 i hi, (user_register _ _ _ _).2⟩
  | issue v p ins outs hs =>
    simp only [step] at e
    cases h1 : issue c s b v p ins outs hs with
    | ok r => rw [h1] at e; simp only [Res.map, Res.ok.injEq] at e; subst e; exact ⟨fun i hi _ _ => (user_issue h1).1 i hi, (user_issue h1).2⟩
    | abort => rw [h1] at e; cases e
    | ub => rw [h1] at e; cases e
  | refInc o =>
    simp only [step] at e
    cases h1 : refInc s o with
    | ok r =>
      rw [h1] at e; simp only [Res.map, Res.ok.injEq] at e; subst e
      have := user_refInc h1
      refine ⟨fun i hi hne _ => ?_, Nat.le_of_eq this.2.symm⟩
      show (if i = o then r.user o + 1 else r.user i) = _
      rw [if_neg (by rintro rfl; exact hne rfl), this.1]
    | abort => rw [h1] at e; cases e
    | ub => rw [h1] at e; cases e
  | refDec o =>
    have := user_refDec 3 (s.setUser o (s.user o - 1)) s' o e
    refine ⟨fun i hi _ hne => ?_, Nat.le_of_eq this.2.symm⟩
    rw [this.1]
    show (if i = o then s.user o - 1 else s.user i) = _
    rw [if_neg (by rintro rfl; exact hne rfl)]
  | setAssign d v =>
    simp only [step, setAssign] at e
    split at e
    · split at e
      · cases e; exact ⟨fun _ _ _ _ => rfl, Nat.le_refl _⟩
      · split at e
        · obtain ⟨s1, e1, e⟩ := res_bind e
          have h1 := user_refInc e1
          split at e
          · cases e; exact ⟨fun i _ _ _ => by show s1.user i = _; rw [h1.1], Nat.le_of_eq h1.2.symm⟩
          · cases e
        · cases e
    · cases e
  | setAccel d v =>
    simp only [step, setAccel] at e
    split at e
    · split at e
      · cases e; exact ⟨fun _ _ _ _ => rfl, Nat.le_refl _⟩
      · have h1 := user_refInc e
        exact ⟨fun i _ _ _ => by rw [h1.1]; rfl, Nat.le_of_eq h1.2.symm⟩
    · cases e
  | assign v a =>
    simp only [step, assign] at e
    split at e
    · split at e
      · cases e; exact ⟨fun _ _ _ _ => rfl, Nat.le_refl _⟩
      · split at e
        · cases e; exact ⟨fun _ _ _ _ => rfl, Nat.le_refl _⟩
        · cases e
    · cases e
  | unassign v =>
    simp only [step, unassign] at e
    split at e
    · split at e
      · cases e; exact ⟨fun _ _ _ _ => rfl, Nat.le_refl _⟩
      · cases e
    · cases e

end Arax.Object
