import Verif.Outcome
/-!
# C62: releasing a physical accelerator (`/repo/src/core/arax_accel.c`, `/repo/src/core/arax_vaccel.c`)

Sequential model of attachment and destruction. A freed object is `none`; touching it is undefined behaviour. Queues, the throttle and the orphan list are not modelled.
-/
namespace Arax.PhysRelease

/-- A virtual accelerator: reference count and `phys` (`none`: NULL). /repo/src/core/arax_vaccel.h:29-41. -/
structure Vaccel where
  refs : Nat
  phys : Option Nat
  deriving DecidableEq

/-- A physical accelerator: reference count, attached virtual accelerators, `free_vaq`. /repo/src/core/arax_accel.h:14-27. -/
structure Accel where
  refs : Nat
  vaccels : List Nat
  freeVaq : Nat
  deriving DecidableEq

/-- The allocated accelerators of both kinds (/repo/src/core/arax_accel.h:14-27, /repo/src/core/arax_vaccel.h:29-41). -/
structure State where
  phys : Nat → Option Accel
  virt : Nat → Option Vaccel

/-- Model bookkeeping, no code of its own: store to, allocation or release of a physical accelerator. -/
def State.setPhys (s : State) (p : Nat) (a : Option Accel) : State := { s with phys := fun x => if x = p then a else s.phys x }
/-- Model bookkeeping, no code of its own: store to, allocation or release of a virtual accelerator. -/
def State.setVirt (s : State) (v : Nat) (a : Option Vaccel) : State := { s with virt := fun x => if x = v then a else s.virt x }

/-- `arax_accel_add_vaccel` (/repo/src/core/arax_accel.c:108-141). -/
def attach (s : State) (p v : Nat) : Res State :=
  match s.virt v, s.phys p with
  | some x, some a =>
    if x.phys = some p then .ok s
    else if x.phys ≠ none then .abort
    else .ok ((s.setPhys p (some { a with vaccels := v :: a.vaccels })).setVirt v (some { x with phys := some p }))
  | _, _ => .ub

/-- `arax_accel_del_vaccel` (/repo/src/core/arax_accel.c:156-178). -/
def detach (s : State) (p v : Nat) : Res State :=
  match s.virt v, s.phys p with
  | some x, some a =>
    if x.phys ≠ some p then .abort
    else .ok ((s.setPhys p (some { a with vaccels := a.vaccels.erase v })).setVirt v (some { x with phys := none }))
  | _, _ => .ub

/-- `arax_object_ref_dec` of a virtual accelerator with its destructor (/repo/src/core/arax_vaccel.c:113-123). -/
def releaseVirt (s : State) (v : Nat) : Res State :=
  match s.virt v with
  | none => .ub
  | some x =>
    if x.refs = 0 then .abort
    else if x.refs = 1 then
      match x.phys with
      | none => .ok (s.setVirt v none)
      | some p => do
        let s ← detach s p v
        .ok (s.setVirt v none)
    else .ok (s.setVirt v (some { x with refs := x.refs - 1 }))

/-- `arax_object_ref_dec` of a physical accelerator with its destructor (/repo/src/core/arax_accel.c:180-194): the assertion on attached virtual accelerators is given a string
literal, which is never false, so nothing is checked. -/
def releasePhys (s : State) (p : Nat) : Res State :=
  match s.phys p with
  | none => .ub
  | some a =>
    if a.refs = 0 then .abort
    else if a.refs = 1 then do
      let s ← releaseVirt s a.freeVaq
      .ok (s.setPhys p none)
    else .ok (s.setPhys p (some { a with refs := a.refs - 1 }))

/-- `arax_accel_init` (/repo/src/core/arax_accel.c:5-24) at fresh addresses `p`, `v`. -/
def initPhys (s : State) (p v : Nat) : State :=
  (s.setPhys p (some { refs := 1, vaccels := [v], freeVaq := v })).setVirt v (some { refs := 1, phys := some p })

/-- `arax_vaccel_add_task` (/repo/src/core/arax_vaccel.c:32-39) touches the physical accelerator. -/
def addTask (s : State) (v : Nat) : Res State :=
  match s.virt v with
  | none => .ub
  | some x => match x.phys with
    | none => .ok s
    | some p => match s.phys p with
      | none => .ub
      | some _ => .ok s

/-! ### Specification -/

/-- Every live virtual accelerator that has a physical one has a live one. -/
def NoDangling (s : State) : Prop := ∀ v x p, s.virt v = some x → x.phys = some p → ∃ a, s.phys p = some a

/-- The structure the operations keep: the attached list of `p` is exactly the live virtual accelerators whose `phys` is `p`, each once; the `free_vaq` is attached. -/
structure Wf (s : State) : Prop where
  att : ∀ p a, s.phys p = some a → ∀ v, v ∈ a.vaccels ↔ ∃ x, s.virt v = some x ∧ x.phys = some p
  nodup : ∀ p a, s.phys p = some a → a.vaccels.Nodup
  nodangling : NoDangling s

/-- States reached by creating accelerators at fresh addresses, attaching, detaching and releasing, where a physical accelerator is destroyed only if nothing but its `free_vaq` is attached. -/
inductive Reach : State → Prop
  | init : Reach { phys := fun _ => none, virt := fun _ => none }
  | newPhys {s : State} (p v : Nat) : Reach s → s.phys p = none → s.virt v = none → Reach (initPhys s p v)
  | newVirt {s : State} (v : Nat) : Reach s → s.virt v = none → Reach (s.setVirt v (some { refs := 1, phys := none }))
  | ref {s : State} (v : Nat) (x : Vaccel) : Reach s → s.virt v = some x → Reach (s.setVirt v (some { x with refs := x.refs + 1 }))
  | attach {s s' : State} (p v : Nat) : Reach s → attach s p v = .ok s' → Reach s'
  | detach {s s' : State} (p v : Nat) : Reach s → detach s p v = .ok s' → Reach s'
  | releaseVirt {s s' : State} (v : Nat) : Reach s → releaseVirt s v = .ok s' → Reach s'
  | releasePhys {s s' : State} (p : Nat) (a : Accel) (x : Vaccel) : Reach s → s.phys p = some a → (a.refs = 1 → a.vaccels = [a.freeVaq] ∧ s.virt a.freeVaq = some x ∧ x.refs = 1) →
      releasePhys s p = .ok s' → Reach s'

theorem wf_detach {s s' : State} {p v : Nat} (wf : Wf s) (e : detach s p v = .ok s') : Wf s' ∧ ∃ x, s'.virt v = some x ∧ x.phys = none := by
  unfold detach at e
  split at e
  · rename_i x a hx ha
    split at e
    · cases e
    · rename_i hxp
      have hxp : x.phys = some p := by simpa using hxp
      injection e with e
      subst e
      obtain ⟨w1, w2, w3⟩ := wf
      refine ⟨⟨?_, ?_, ?_⟩, ?_⟩
      · intro q b hb u
        simp only [State.setPhys, State.setVirt] at hb ⊢
        by_cases hq : q = p
        · subst hq
          rw [if_pos rfl] at hb
          injection hb with hb
          subst hb
          dsimp only
          rw [List.Nodup.mem_erase_iff (w2 q a ha), w1 q a ha u]
          by_cases hu : u = v
          · subst hu; simp
          · simp [hu]
        · rw [if_neg hq] at hb
          rw [w1 q b hb u]
          by_cases hu : u = v
          · subst hu
            rw [if_pos rfl, hx]
            simp [hxp]
            intro e; exact absurd e.symm hq
          · rw [if_neg hu]
      · intro q b hb
        simp only [State.setPhys, State.setVirt] at hb
        by_cases hq : q = p
        · subst hq
          rw [if_pos rfl] at hb
          injection hb with hb
          subst hb
          exact (w2 q a ha).erase v
        · rw [if_neg hq] at hb
          exact w2 q b hb
      · intro u y q hy hq
        simp only [State.setPhys, State.setVirt] at hy ⊢
        by_cases hu : u = v
        · subst hu
          rw [if_pos rfl] at hy
          injection hy with hy
          subst hy
          simp at hq
        · rw [if_neg hu] at hy
          obtain ⟨b, hb⟩ := w3 u y q hy hq
          by_cases hqp : q = p
          · exact ⟨_, by rw [if_pos hqp]⟩
          · exact ⟨b, by rw [if_neg hqp]; exact hb⟩
      · exact ⟨{ x with phys := none }, by simp [State.setVirt], rfl⟩
  · cases e

/-- Changing a virtual accelerator without changing where it is attached. -/
theorem wf_setVirt {s : State} (wf : Wf s) (v : Nat) (y : Option Vaccel) (h : (s.virt v).bind (·.phys) = y.bind (·.phys)) : Wf (s.setVirt v y) := by
  obtain ⟨w1, w2, w3⟩ := wf
  refine ⟨?_, w2, ?_⟩
  · intro q b hb u
    rw [w1 q b hb u]
    simp only [State.setVirt]
    by_cases hu : u = v
    · subst hu
      rw [if_pos rfl]
      cases hs : s.virt u with
      | none =>
        cases y with
        | none => simp
        | some z => rw [hs] at h; simp at h; simp [← h]
      | some w =>
        cases y with
        | none => rw [hs] at h; simp at h; simp [h]
        | some z => rw [hs] at h; simp at h; simp [h]
    · rw [if_neg hu]
  · intro u x q hx hq
    simp only [State.setVirt] at hx
    by_cases hu : u = v
    · subst hu
      rw [if_pos rfl] at hx
      cases hs : s.virt u with
      | none => rw [hs, hx] at h; simp at h; rw [hq] at h; cases h
      | some z => rw [hs, hx] at h; simp at h; exact w3 u z q hs (h.trans hq)
    · rw [if_neg hu] at hx
      exact w3 u x q hx hq

theorem wf_releaseVirt {s s' : State} {v : Nat} (wf : Wf s) (e : releaseVirt s v = .ok s') : Wf s' := by
  unfold releaseVirt at e
  split at e
  · cases e
  · rename_i x hx
    split at e
    · cases e
    · split at e
      · split at e
        · rename_i hp
          injection e with e
          subst e
          exact wf_setVirt wf v none (by rw [hx]; simpa using hp)
        · rename_i p hp
          cases hd : detach s p v with
          | ok s1 =>
            rw [hd] at e
            simp only [Res.bind_ok] at e
            injection e with e
            subst e
            obtain ⟨wf1, y, hy, hyp⟩ := wf_detach wf hd
            exact wf_setVirt wf1 v none (by rw [hy]; simpa using hyp)
          | abort => rw [hd] at e; cases e
          | ub => rw [hd] at e; cases e
      · injection e with e
        subst e
        exact wf_setVirt wf v _ (by rw [hx]; rfl)

theorem wf_attach {s s' : State} {p v : Nat} (wf : Wf s) (e : attach s p v = .ok s') : Wf s' := by
  unfold attach at e
  split at e
  · rename_i x a hx ha
    split at e
    · injection e with e; subst e; exact wf
    · split at e
      · cases e
      · rename_i hn
        have hn : x.phys = none := by simpa using hn
        injection e with e
        subst e
        obtain ⟨w1, w2, w3⟩ := wf
        have hnot : v ∉ a.vaccels := by
          intro h
          obtain ⟨y, hy, hyp⟩ := (w1 p a ha v).mp h
          rw [hx] at hy; injection hy with hy; subst hy; rw [hn] at hyp; cases hyp
        refine ⟨?_, ?_, ?_⟩
        · intro q b hb u
          simp only [State.setPhys, State.setVirt] at hb ⊢
          by_cases hq : q = p
          · subst hq
            rw [if_pos rfl] at hb
            injection hb with hb
            subst hb
            rw [List.mem_cons, w1 q a ha u]
            by_cases hu : u = v
            · subst hu; simp
            · simp [hu]
          · rw [if_neg hq] at hb
            rw [w1 q b hb u]
            by_cases hu : u = v
            · subst hu
              rw [if_pos rfl, hx]
              simp [hn]
              intro e; exact absurd e.symm hq
            · rw [if_neg hu]
        · intro q b hb
          simp only [State.setPhys, State.setVirt] at hb
          by_cases hq : q = p
          · subst hq
            rw [if_pos rfl] at hb
            injection hb with hb
            subst hb
            exact List.nodup_cons.mpr ⟨hnot, w2 q a ha⟩
          · rw [if_neg hq] at hb
            exact w2 q b hb
        · intro u y q hy hq
          simp only [State.setPhys, State.setVirt] at hy ⊢
          by_cases hqp : q = p
          · exact ⟨_, by rw [if_pos hqp]⟩
          · rw [if_neg hqp]
            by_cases hu : u = v
            · subst hu
              rw [if_pos rfl] at hy
              injection hy with hy
              subst hy
              dsimp only at hq
              injection hq with hq
              exact absurd hq.symm hqp
            · rw [if_neg hu] at hy
              exact w3 u y q hy hq
  · cases e

/-- Destroying a physical accelerator nothing is attached to. -/
theorem wf_freePhys {s : State} (wf : Wf s) {p : Nat} (h : ∀ v x, s.virt v = some x → x.phys ≠ some p) : Wf (s.setPhys p none) := by
  obtain ⟨w1, w2, w3⟩ := wf
  refine ⟨?_, ?_, ?_⟩
  · intro q b hb u
    simp only [State.setPhys] at hb
    split at hb
    · cases hb
    · exact w1 q b hb u
  · intro q b hb
    simp only [State.setPhys] at hb
    split at hb
    · cases hb
    · exact w2 q b hb
  · intro u y q hy hq
    obtain ⟨b, hb⟩ := w3 u y q hy hq
    refine ⟨b, ?_⟩
    simp only [State.setPhys]
    rw [if_neg (fun e : q = p => h u y hy (e ▸ hq))]
    exact hb

theorem reach_wf {s : State} (h : Reach s) : Wf s := by
  induction h with
  | init => exact ⟨by simp, by simp, by intro v x p h; simp at h⟩
  | @newPhys s p v hr hp hv ih =>
    obtain ⟨w1, w2, w3⟩ := ih
    refine ⟨?_, ?_, ?_⟩
    · intro q b hb u
      simp only [initPhys, State.setPhys, State.setVirt] at hb ⊢
      by_cases hq : q = p
      · subst hq
        rw [if_pos rfl] at hb
        injection hb with hb
        subst hb
        rw [List.mem_singleton]
        by_cases hu : u = v
        · simp [hu]
        · simp only [hu, if_false, false_iff]
          rintro ⟨x, hx, hxp⟩
          obtain ⟨b, hb⟩ := w3 u x q hx hxp
          rw [hp] at hb; cases hb
      · rw [if_neg hq] at hb
        rw [w1 q b hb u]
        by_cases hu : u = v
        · subst hu
          rw [if_pos rfl, hv]
          simp
          intro e; exact absurd e.symm hq
        · rw [if_neg hu]
    · intro q b hb
      simp only [initPhys, State.setPhys, State.setVirt] at hb
      split at hb
      · injection hb with hb; subst hb; simp
      · exact w2 q b hb
    · intro u y q hy hq
      simp only [initPhys, State.setPhys, State.setVirt] at hy ⊢
      by_cases hqp : q = p
      · exact ⟨_, by rw [if_pos hqp]⟩
      · rw [if_neg hqp]
        by_cases hu : u = v
        · subst hu
          rw [if_pos rfl] at hy
          injection hy with hy
          subst hy
          dsimp only at hq
          injection hq with hq
          exact absurd hq.symm hqp
        · rw [if_neg hu] at hy
          exact w3 u y q hy hq
  | newVirt v _ hv ih => exact wf_setVirt ih v _ (by rw [hv]; rfl)
  | ref v x _ hx ih => exact wf_setVirt ih v _ (by rw [hx]; rfl)
  | attach p v _ e ih => exact wf_attach ih e
  | detach p v _ e ih => exact (wf_detach ih e).1
  | releaseVirt v _ e ih => exact wf_releaseVirt ih e
  | @releasePhys s s' p a x _ ha hx e ih =>
    unfold releasePhys at e
    rw [ha] at e
    dsimp only at e
    split at e
    · cases e
    · split at e
      · rename_i h1
        obtain ⟨hv, hxv, hx1⟩ := hx h1
        cases hrel : PhysRelease.releaseVirt s a.freeVaq with
        | ok s1 =>
          rw [hrel] at e
          simp only [Res.bind_ok] at e
          injection e with e
          subst e
          refine wf_freePhys (wf_releaseVirt ih hrel) ?_
          have hxp : x.phys = some p := by
            obtain ⟨y, hy, hyp⟩ := (ih.att p a ha a.freeVaq).mp (by rw [hv]; exact List.mem_singleton.mpr rfl)
            rw [hxv] at hy; injection hy with hy; rw [hy]; exact hyp
          simp [PhysRelease.releaseVirt, hxv, hx1, hxp, PhysRelease.detach, ha] at hrel
          subst hrel
          intro v y hy hyp
          simp only [State.setVirt, State.setPhys] at hy
          by_cases hve : v = a.freeVaq
          · rw [if_pos hve] at hy; cases hy
          · rw [if_neg hve, if_neg hve] at hy
            have := (ih.att p a ha v).mpr ⟨y, hy, hyp⟩
            rw [hv] at this
            exact hve (List.mem_singleton.mp this)
        | abort => rw [hrel] at e; cases e
        | ub => rw [hrel] at e; cases e
      · injection e with e
        subst e
        obtain ⟨w1, w2, w3⟩ := ih
        refine ⟨?_, ?_, ?_⟩
        · intro q b hb u
          simp only [State.setPhys] at hb
          split at hb
          · rename_i hq; injection hb with hb; subst hb; subst hq; exact w1 q a ha u
          · exact w1 q b hb u
        · intro q b hb
          simp only [State.setPhys] at hb
          split at hb
          · rename_i hq; injection hb with hb; subst hb; subst hq; exact w2 q a ha
          · exact w2 q b hb
        · intro u y q hy hq
          obtain ⟨b, hb⟩ := w3 u y q hy hq
          simp only [State.setPhys]
          split
          · exact ⟨_, rfl⟩
          · exact ⟨b, hb⟩

/-- **C62** (partial) In every reachable state: releasing the last reference of a physical accelerator that has only its own `free_vaq` attached, which nobody else references, leaves no live virtual accelerator
with a dangling physical accelerator. Missing: other attached virtual accelerators (`C62_violated`). -/
theorem C62_release_partial (s : State) (reach : Reach s) (p : Nat) (a : Accel) (ha : s.phys p = some a) (h1 : a.refs = 1) (hv : a.vaccels = [a.freeVaq])
    (x : Vaccel) (hx : s.virt a.freeVaq = some x) (hr : x.refs = 1) :
    ∃ s', releasePhys s p = .ok s' ∧ NoDangling s' ∧ s'.phys p = none ∧ s'.virt a.freeVaq = none := by
  have wf := reach_wf reach
  have hxp : x.phys = some p := by
    obtain ⟨y, hy, hyp⟩ := (wf.att p a ha a.freeVaq).mp (by rw [hv]; exact List.mem_singleton.mpr rfl)
    rw [hx] at hy; injection hy with hy; rw [hy]; exact hyp
  have hrel : releaseVirt s a.freeVaq = .ok (((s.setPhys p (some { a with vaccels := a.vaccels.erase a.freeVaq })).setVirt a.freeVaq (some { x with phys := none })).setVirt a.freeVaq none) := by
    simp [releaseVirt, hx, hr, hxp, detach, ha]
  refine ⟨(((s.setPhys p (some { a with vaccels := a.vaccels.erase a.freeVaq })).setVirt a.freeVaq (some { x with phys := none })).setVirt a.freeVaq none).setPhys p none, ?_, ?_, ?_, ?_⟩
  · simp only [releasePhys, ha, h1, hrel, Res.bind_ok]
    rfl
  · intro v y q hy hq
    by_cases hve : v = a.freeVaq
    · subst hve; simp [State.setVirt, State.setPhys] at hy
    · simp [State.setVirt, State.setPhys, hve] at hy
      have hqp : q ≠ p := by
        intro e
        subst e
        have := (wf.att q a ha v).mpr ⟨y, hy, hq⟩
        rw [hv] at this
        exact hve (List.mem_singleton.mp this)
      obtain ⟨b, hb⟩ := wf.nodangling v y q hy hq
      exact ⟨b, by simp [State.setVirt, State.setPhys, hqp, hb]⟩
  · simp [State.setPhys]
  · simp [State.setPhys, State.setVirt]

/-- **C62** (partial) As long as physical accelerators are destroyed only so, no live virtual accelerator ever dangles. -/
theorem C62_invariant_partial (s : State) (reach : Reach s) : NoDangling s := (reach_wf reach).nodangling

/-- **C62 (not the last reference).** Giving back a reference of a physical accelerator that has others takes one of them away and changes nothing else: nothing is freed. -/
theorem C62_not_last (s : State) (p : Nat) (a : Accel) (ha : s.phys p = some a) (h1 : 1 < a.refs) :
    ∃ s', releasePhys s p = .ok s' ∧ s'.phys p = some { refs := a.refs - 1, vaccels := a.vaccels, freeVaq := a.freeVaq } ∧ (∀ q, q ≠ p → s'.phys q = s.phys q) ∧ ∀ v, s'.virt v = s.virt v := by
  refine ⟨s.setPhys p (some { a with refs := a.refs - 1 }), ?_, ?_, ?_, fun _ => rfl⟩
  · unfold releasePhys
    rw [ha]
    simp only
    rw [if_neg (by omega), if_neg (by omega)]
  · simp [State.setPhys]
  · intro q hq
    simp [State.setPhys, hq]

example : ∃ (s : State) (a : Accel), s.phys 1 = some a ∧ 1 < a.refs :=
  ⟨⟨fun p => if p = 1 then some { refs := 2, vaccels := [], freeVaq := 3 } else none, fun _ => none⟩, _, rfl, by decide⟩

/-- **C62 is violated by the code**, in every reachable state in which a virtual accelerator other than the `free_vaq` is attached: releasing the last reference of the physical accelerator does not abort but frees it;
the virtual accelerator stays live and points to freed memory, and the next task added to it is undefined behaviour. -/
theorem C62_violated (s : State) (reach : Reach s) (p : Nat) (a : Accel) (ha : s.phys p = some a) (h1 : a.refs = 1) (hf : a.freeVaq ∈ a.vaccels)
    (x : Vaccel) (hx : s.virt a.freeVaq = some x) (hr : 0 < x.refs) (v : Nat) (hv : v ∈ a.vaccels) (hne : v ≠ a.freeVaq) :
    ∃ s', releasePhys s p = .ok s' ∧ ¬ NoDangling s' ∧ addTask s' v = .ub := by
  have wf := reach_wf reach
  obtain ⟨y, hy, hyp⟩ := (wf.att p a ha v).mp hv
  have hxp : x.phys = some p := by
    obtain ⟨y, hy, hyp⟩ := (wf.att p a ha a.freeVaq).mp hf
    rw [hx] at hy; injection hy with hy; rw [hy]; exact hyp
  have hrel : ∃ s1, releaseVirt s a.freeVaq = .ok s1 ∧ s1.virt v = some y := by
    by_cases hr1 : x.refs = 1
    · refine ⟨((s.setPhys p (some { a with vaccels := a.vaccels.erase a.freeVaq })).setVirt a.freeVaq (some { x with phys := none })).setVirt a.freeVaq none, ?_, ?_⟩
      · simp [releaseVirt, hx, hr1, hxp, detach, ha]
      · simp [State.setVirt, State.setPhys, hne, hy]
    · refine ⟨s.setVirt a.freeVaq (some { x with refs := x.refs - 1 }), ?_, ?_⟩
      · simp only [releaseVirt, hx]
        rw [if_neg (by omega), if_neg hr1]
      · simp [State.setVirt, hne, hy]
  obtain ⟨s1, e1, e2⟩ := hrel
  refine ⟨s1.setPhys p none, ?_, ?_, ?_⟩
  · simp only [releasePhys, ha, h1, e1, Res.bind_ok]
    rfl
  · intro hnd
    obtain ⟨b, hb⟩ := hnd v y p e2 hyp
    simp [State.setPhys] at hb
  · have hvirt : (s1.setPhys p none).virt v = some y := e2
    have hphys : (s1.setPhys p none).phys p = none := by simp [State.setPhys]
    simp only [addTask, hvirt, hyp, hphys]

/-- A reachable instance: one physical accelerator (1, queue 2) and a virtual accelerator (3) created by a client and attached by the scheduler. -/
def sample : Res State := attach ((initPhys { phys := fun _ => none, virt := fun _ => none } 1 2).setVirt 3 (some { refs := 1, phys := none })) 1 3

/-- Non-vacuity: in the sample, releasing 1 succeeds and adding a task to 3 is then undefined behaviour; without the client's accelerator it is fine. -/
example : (sample >>= fun s => releasePhys s 1 >>= fun s => .ok (addTask s 3 matches .ub, (s.phys 1).isNone, (s.virt 3).isSome)) = .ok (true, true, true) ∧
    (releasePhys (initPhys { phys := fun _ => none, virt := fun _ => none } 1 2) 1 >>= fun s => .ok ((s.phys 1).isNone, (s.virt 2).isNone)) = .ok (true, true) := by
  constructor <;> decide +kernel

end Arax.PhysRelease
