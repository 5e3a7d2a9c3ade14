import Verif.Accel.Count
import Verif.Object.Props
/-! # C32 and C33: the pending-task counter -/
namespace Arax.Accel.Count
open Arax.Object (sumTo sumTo_congr sumTo_update sumTo_ge sumTo_zero sumTo_pos)

/-! ### Sums -/
theorem queued_upd {n : Nat} {s s' : St} (v : Nat) (hv : v < n) (h : ∀ j, j ≠ v → s'.on j = s.on j ∧ s'.q j = s.q j) :
    queued n s' + (if s.on v then s.q v else 0) = queued n s + (if s'.on v then s'.q v else 0) :=
  sumTo_update (fun v => if s.on v then s.q v else 0) (fun v => if s'.on v then s'.q v else 0) v (by intro j hj; simp [h j hj]) n hv

theorem sub_upd {n : Nat} {s s' : St} (v : Nat) (hv : v < n) (h : ∀ j, j ≠ v → s'.on j = s.on j ∧ s'.lock j = s.lock j) :
    submitting n s' + (if s.on v ∧ s.lock v then 1 else 0) = submitting n s + (if s'.on v ∧ s'.lock v then 1 else 0) :=
  sumTo_update (fun v => if s.on v ∧ s.lock v then 1 else 0) (fun v => if s'.on v ∧ s'.lock v then 1 else 0) v (by intro j hj; simp [h j hj]) n hv

theorem queued_same {n : Nat} {s s' : St} (h : s'.on = s.on) (h' : s'.q = s.q) : queued n s' = queued n s := by unfold queued; rw [h, h']
theorem sub_same {n : Nat} {s s' : St} (h : s'.on = s.on) (h' : s'.lock = s.lock) : submitting n s' = submitting n s := by unfold submitting; rw [h, h']

theorem queued_ge {n : Nat} {s : St} {v : Nat} (hv : v < n) (ho : s.on v = true) : s.q v ≤ queued n s := by
  have := sumTo_ge (fun v => if s.on v then s.q v else 0) v n hv
  simp only [ho, if_true] at this
  exact this

theorem queued_pos {n : Nat} {s : St} (h : queued n s ≠ 0) : ∃ v, v < n ∧ s.on v = true ∧ s.q v ≠ 0 := by
  obtain ⟨v, hv, hne⟩ := sumTo_pos _ n h
  by_cases ho : s.on v = true
  · simp only [ho, if_true] at hne; exact ⟨v, hv, ho, hne⟩
  · simp [ho] at hne

theorem upd_same {α : Type} (f : Nat → α) (i : Nat) (x : α) : upd f i x i = x := by simp [upd]
theorem upd_ne {α : Type} (f : Nat → α) (i j : Nat) (x : α) (h : j ≠ i) : upd f i x j = f j := by simp [upd, h]

/-! ### The effect of each step on the three sums -/

/-- What is enough without the worker's token. -/
def Enough (n : Nat) (s : St) : Prop := (queued n s : Int) ≤ s.tasks + submitting n s

theorem eff_push {n : Nat} {s s' : St} {v : Nat} (e : step n s (.push v) = some s') :
    v < n ∧ s.lock v = false ∧ s.dead v = false ∧ s' = { s with q := upd s.q v (s.q v + 1), lock := upd s.lock v true } ∧
    queued n s' = queued n s + (if s.on v then 1 else 0) ∧ submitting n s' = submitting n s + (if s.on v then 1 else 0) := by
  simp only [step] at e
  split at e
  · rename_i g
    obtain ⟨hv, hl, hd⟩ := g
    cases e
    refine ⟨hv, hl, hd, rfl, ?_, ?_⟩
    · have := queued_upd (s := s) (s' := { s with q := upd s.q v (s.q v + 1), lock := upd s.lock v true }) v hv
        (by intro j hj; exact ⟨rfl, upd_ne _ _ _ _ hj⟩)
      simp only [upd_same] at this
      split at this <;> rename_i ho <;> simp [ho] <;> omega
    · have := sub_upd (s := s) (s' := { s with q := upd s.q v (s.q v + 1), lock := upd s.lock v true }) v hv
        (by intro j hj; exact ⟨rfl, upd_ne _ _ _ _ hj⟩)
      simpa [upd_same, hl] using this
  · cases e

theorem eff_count {n : Nat} {s s' : St} {v : Nat} (e : step n s (.count v) = some s') :
    v < n ∧ s.lock v = true ∧ s' = { s with tasks := if s.on v then s.tasks + 1 else s.tasks, lock := upd s.lock v false } ∧
    queued n s' = queued n s ∧ submitting n s' + (if s.on v then 1 else 0) = submitting n s := by
  simp only [step] at e
  split at e
  · rename_i g
    obtain ⟨hv, hl⟩ := g
    cases e
    refine ⟨hv, hl, rfl, rfl, ?_⟩
    have := sub_upd (s := s) (s' := { s with tasks := if s.on v then s.tasks + 1 else s.tasks, lock := upd s.lock v false }) v hv
        (by intro j hj; exact ⟨rfl, upd_ne _ _ _ _ hj⟩)
    simpa [upd_same, hl] using this
  · cases e

theorem eff_assign {n : Nat} {s s' : St} {v : Nat} (e : step n s (.assign v) = some s') :
    v < n ∧ s.lock v = false ∧ s.dead v = false ∧ s.on v = false ∧ s' = { s with tasks := s.tasks + s.q v, on := upd s.on v true } ∧
    queued n s' = queued n s + s.q v ∧ submitting n s' = submitting n s := by
  simp only [step] at e
  split at e
  · rename_i g
    obtain ⟨hv, hl, hd, ho⟩ := g
    cases e
    refine ⟨hv, hl, hd, ho, rfl, ?_, ?_⟩
    · have := queued_upd (s := s) (s' := { s with tasks := s.tasks + s.q v, on := upd s.on v true }) v hv
        (by intro j hj; exact ⟨upd_ne _ _ _ _ hj, rfl⟩)
      simpa [upd_same, ho] using this
    · have := sub_upd (s := s) (s' := { s with tasks := s.tasks + s.q v, on := upd s.on v true }) v hv
        (by intro j hj; exact ⟨upd_ne _ _ _ _ hj, rfl⟩)
      simpa [upd_same, ho, hl] using this
  · cases e

theorem eff_del {n : Nat} {s : St} {v : Nat} (hv : v < n) (hl : s.lock v = false) (ho : s.on v = true) :
    queued n (del s v) + s.q v = queued n s ∧ submitting n (del s v) = submitting n s := by
  constructor
  · have := queued_upd (s := s) (s' := del s v) v hv (by intro j hj; exact ⟨upd_ne _ _ _ _ hj, rfl⟩)
    have h2 : (del s v).on v = false := upd_same _ _ _
    simpa [h2, ho] using this
  · have := sub_upd (s := s) (s' := del s v) v hv (by intro j hj; exact ⟨upd_ne _ _ _ _ hj, rfl⟩)
    have h2 : (del s v).on v = false := upd_same _ _ _
    simpa [h2, ho, hl] using this

theorem eff_pop {n : Nat} {s s' : St} {v : Nat} (hv : v < n) (h0 : s.q v ≠ 0) (hq : s'.q = upd s.q v (s.q v - 1)) (ho : s'.on = s.on) (hl : s'.lock = s.lock) :
    queued n s' + (if s.on v then 1 else 0) = queued n s ∧ submitting n s' = submitting n s := by
  refine ⟨?_, sub_same ho hl⟩
  have := queued_upd (s := s) (s' := s') v hv (by intro j hj; rw [hq, ho]; exact ⟨rfl, upd_ne _ _ _ _ hj⟩)
  rw [hq, ho, upd_same] at this
  split at this <;> rename_i hb <;> simp [hb] <;> omega

/-! ### C32 -/

/-- The histories of the theorem. The balancer does not take a virtual accelerator away behind the worker's back (ElasticScheduler.cpp:66 does), and
a virtual accelerator is removed with two or more queued tasks only while no submission to an assigned one is between its push and its count. -/
def Quiet (n : Nat) (s : St) : Ev → Prop
  | .delExt _ => False
  | .delSelf => ∀ v r, s.wk = .scan (v :: r) → s.q v ≤ 1 ∨ submitting n s = 0
  | .release v => s.q v ≤ 1 ∨ submitting n s = 0
  | _ => True

structure Inv (n : Nat) (s : St) : Prop where
  nonneg : 0 ≤ s.tasks
  enough : (queued n s : Int) ≤ s.tasks + unserved s + submitting n s
  deadOff : ∀ v, s.dead v = true → s.on v = false
  deadLock : ∀ v, s.dead v = true → s.lock v = false
  nodup : ∀ l, s.wk = .scan l → l.Nodup
  bound : ∀ l, s.wk = .scan l → ∀ v ∈ l, v < n
  offDead : ∀ l, s.wk = .scan l → ∀ v ∈ l, s.on v = false → s.dead v = true
  stale : ∀ l, s.wk = .scan l → ∀ v ∈ l, s.on v = false → s.q v ≠ 0 → Enough n s
  found : ∀ l, s.wk = .scan l → Enough n s ∨ ∃ w ∈ l, s.on w = true ∧ s.q w ≠ 0

theorem inv_init (n : Nat) : Inv n init where
  nonneg := Int.le_refl 0
  enough := by
    have : queued n init = 0 := sumTo_zero _ n (by intro i _; rfl)
    rw [this]; simp [init, unserved]
  deadOff := by intro v h; rfl
  deadLock := by intro v h; rfl
  nodup := by intro l h; cases h
  bound := by intro l h; cases h
  offDead := by intro l h; cases h
  stale := by intro l h; cases h
  found := by intro l h; cases h

theorem unserved_le (s : St) : unserved s ≤ 1 := by unfold unserved; split <;> omega

theorem inv_step {n : Nat} {s s' : St} {ev : Ev} (h : Inv n s) (hp : Quiet n s ev) (e : step n s ev = some s') : Inv n s' := by
  have hen := h.enough
  cases ev with
  | push v =>
    obtain ⟨hv, hl, hd, hs, hq, hsub⟩ := eff_push e
    have E : ∀ (x : Int), (queued n s : Int) ≤ x + submitting n s → (queued n s' : Int) ≤ x + submitting n s' := by
      intro x hx; rw [hq, hsub]; split <;> push_cast <;> omega
    subst hs
    exact {
      nonneg := h.nonneg
      enough := E _ hen
      deadOff := h.deadOff
      deadLock := by
        intro w hw
        have hw' : s.dead w = true := hw
        show upd s.lock v true w = false
        have hne : w ≠ v := by intro hc; rw [hc, hd] at hw'; cases hw'
        rw [upd_ne _ _ _ _ hne]; exact h.deadLock w hw'
      nodup := h.nodup
      bound := h.bound
      offDead := h.offDead
      stale := by
        intro l hl' w hw ho hne
        refine E _ (h.stale l hl' w hw ho ?_)
        have hne' : upd s.q v (s.q v + 1) w ≠ 0 := hne
        by_cases hc : w = v
        · have := h.offDead l hl' w hw ho
          rw [hc, hd] at this; cases this
        · rwa [upd_ne _ _ _ _ hc] at hne'
      found := by
        intro l hl'
        rcases h.found l hl' with h1 | ⟨w, hw, ho, hne⟩
        · exact .inl (E _ h1)
        · refine .inr ⟨w, hw, ho, ?_⟩
          show upd s.q v (s.q v + 1) w ≠ 0
          by_cases hc : w = v
          · subst hc; rw [upd_same]; omega
          · rwa [upd_ne _ _ _ _ hc] }
  | count v =>
    obtain ⟨hv, hl, hs, hq, hsub⟩ := eff_count e
    have E : ∀ (x : Int), (queued n s : Int) ≤ s.tasks + x + submitting n s → (queued n s' : Int) ≤ s'.tasks + x + submitting n s' := by
      intro x hx
      rw [hq, hs]
      rw [hs] at hsub
      show (queued n s : Int) ≤ (if s.on v then s.tasks + 1 else s.tasks) + x + _
      split <;> rename_i ho <;> simp [ho] at hsub <;> omega
    have E0 : Enough n s → Enough n s' := by
      intro hx; have := E 0 (by unfold Enough at hx; omega); unfold Enough; omega
    have hE := E _ hen
    subst hs
    exact {
      nonneg := by
        have := h.nonneg
        show 0 ≤ if s.on v then s.tasks + 1 else s.tasks
        split <;> omega
      enough := hE
      deadOff := h.deadOff
      deadLock := by
        intro w hw
        show upd s.lock v false w = false
        by_cases hc : w = v
        · subst hc; rw [upd_same]
        · rw [upd_ne _ _ _ _ hc]; exact h.deadLock w hw
      nodup := h.nodup
      bound := h.bound
      offDead := h.offDead
      stale := fun l hl' w hw ho hne => E0 (h.stale l hl' w hw ho hne)
      found := by
        intro l hl'
        rcases h.found l hl' with h1 | h1
        · exact .inl (E0 h1)
        · exact .inr h1 }
  | assign v =>
    obtain ⟨hv, hl, hd, hoff, hs, hq, hsub⟩ := eff_assign e
    have E : ∀ (x : Int), (queued n s : Int) ≤ s.tasks + x + submitting n s → (queued n s' : Int) ≤ s'.tasks + x + submitting n s' := by
      intro x hx
      rw [hq, hsub, hs]
      show ((queued n s + s.q v : Nat) : Int) ≤ (s.tasks + s.q v) + x + _
      push_cast; omega
    have E0 : Enough n s → Enough n s' := by
      intro hx; have := E 0 (by unfold Enough at hx; omega); unfold Enough; omega
    have hE := E _ hen
    have hns : ∀ l, s.wk = .scan l → v ∉ l := by
      intro l hl' hm
      have := h.offDead l hl' v hm hoff
      rw [hd] at this; cases this
    subst hs
    exact {
      nonneg := by have := h.nonneg; show 0 ≤ s.tasks + (s.q v : Int); omega
      enough := hE
      deadOff := by
        intro w hw
        have hw' : s.dead w = true := hw
        show upd s.on v true w = false
        have hne : w ≠ v := by intro hc; rw [hc, hd] at hw'; cases hw'
        rw [upd_ne _ _ _ _ hne]; exact h.deadOff w hw'
      deadLock := h.deadLock
      nodup := h.nodup
      bound := h.bound
      offDead := by
        intro l hl' w hw ho
        have hne : w ≠ v := by intro hc; exact hns l hl' (hc ▸ hw)
        have ho' : upd s.on v true w = false := ho
        rw [upd_ne _ _ _ _ hne] at ho'
        exact h.offDead l hl' w hw ho'
      stale := by
        intro l hl' w hw ho hne'
        have hne : w ≠ v := by intro hc; exact hns l hl' (hc ▸ hw)
        have ho' : upd s.on v true w = false := ho
        rw [upd_ne _ _ _ _ hne] at ho'
        exact E0 (h.stale l hl' w hw ho' hne')
      found := by
        intro l hl'
        rcases h.found l hl' with h1 | ⟨w, hw, ho, hne'⟩
        · exact .inl (E0 h1)
        · refine .inr ⟨w, hw, ?_, hne'⟩
          have hne : w ≠ v := by intro hc; exact hns l hl' (hc ▸ hw)
          show upd s.on v true w = true
          rw [upd_ne _ _ _ _ hne]; exact ho }
  | wait =>
    simp only [step] at e
    split at e
    · rename_i g
      cases e
      refine { nonneg := ?_, enough := ?_, deadOff := h.deadOff, deadLock := h.deadLock, nodup := ?_, bound := ?_, offDead := ?_, stale := ?_, found := ?_ }
      · have := h.nonneg; have := g.2; show 0 ≤ s.tasks - 1; omega
      · have hu : unserved s = 0 := by simp [unserved, g.1]
        have hq : queued n ({ s with tasks := s.tasks - 1, wk := .token } : St) = queued n s := rfl
        have hb : submitting n ({ s with tasks := s.tasks - 1, wk := .token } : St) = submitting n s := rfl
        rw [hq, hb]
        show (queued n s : Int) ≤ s.tasks - 1 + ((1 : Nat) : Int) + _
        rw [hu] at hen
        push_cast at *; omega
      all_goals (intro l hl; cases hl)
    · cases e
  | snapshot l =>
    simp only [step] at e
    split at e
    · rename_i g
      obtain ⟨hw, hnd, hin, hall⟩ := g
      cases e
      have hu : unserved s = 1 := by simp [unserved, hw]
      rw [hu] at hen
      refine { nonneg := ?_, enough := ?_, deadOff := h.deadOff, deadLock := h.deadLock, nodup := ?_, bound := ?_, offDead := ?_, stale := ?_, found := ?_ }
      · exact h.nonneg
      · exact hen
      · intro l' hl'; cases hl'; exact hnd
      · intro l' hl' v hv; cases hl'; exact (hin v hv).1
      · intro l' hl' v hv ho; cases hl'
        have := (hin v hv).2
        rw [show s.on v = false from ho] at this; cases this
      · intro l' hl' v hv ho; cases hl'
        have := (hin v hv).2
        rw [show s.on v = false from ho] at this; cases this
      · intro l' hl'; cases hl'
        by_cases hz : queued n s = 0 ∨ (queued n s : Int) ≤ s.tasks + submitting n s
        · refine .inl ?_
          have := h.nonneg
          show (queued n s : Int) ≤ s.tasks + submitting n s
          omega
        · refine .inr ?_
          obtain ⟨v, hv, ho, hne⟩ := queued_pos (n := n) (s := s) (by omega)
          exact ⟨v, hall v hv ho, ho, hne⟩
    · cases e
  | look =>
    simp only [step] at e
    split at e
    · rename_i v r hw
      have hu : unserved s = 1 := by simp [unserved, hw]
      rw [hu] at hen
      have hnd := h.nodup _ hw
      split at e
      · rename_i h0
        cases e
        refine { nonneg := h.nonneg, enough := hen, deadOff := h.deadOff, deadLock := h.deadLock, nodup := ?_, bound := ?_, offDead := ?_, stale := ?_, found := ?_ }
        · intro l hl; cases hl; exact (List.nodup_cons.1 hnd).2
        · intro l hl w hm; cases hl; exact h.bound _ hw w (List.mem_cons_of_mem _ hm)
        · intro l hl w hm ho; cases hl; exact h.offDead _ hw w (List.mem_cons_of_mem _ hm) ho
        · intro l hl w hm ho hne; cases hl; exact h.stale _ hw w (List.mem_cons_of_mem _ hm) ho hne
        · intro l hl; cases hl
          rcases h.found _ hw with h1 | ⟨w, hm, ho, hne⟩
          · exact .inl h1
          · rcases List.mem_cons.1 hm with rfl | hm
            · exact absurd h0 hne
            · exact .inr ⟨w, hm, ho, hne⟩
      · rename_i h0
        cases e
        have hv := h.bound _ hw v (List.mem_cons_self)
        obtain ⟨hq, hsub⟩ := eff_pop (s := s) (s' := { s with q := upd s.q v (s.q v - 1), wk := .idle }) hv h0 rfl rfl rfl
        refine { nonneg := h.nonneg, enough := ?_, deadOff := h.deadOff, deadLock := h.deadLock, nodup := ?_, bound := ?_, offDead := ?_, stale := ?_, found := ?_ }
        · show (_ : Int) ≤ s.tasks + ((0 : Nat) : Int) + _
          rw [hsub]
          by_cases ho : s.on v = true
          · simp only [ho, if_true] at hq
            push_cast at *; omega
          · have := h.stale _ hw v (List.mem_cons_self) (by simpa using ho) h0
            simp [ho] at hq
            unfold Enough at this
            push_cast at *; omega
        all_goals (intro l hl; cases hl)
    · cases e
  | done =>
    simp only [step] at e
    split at e
    · rename_i hw
      cases e
      refine { nonneg := h.nonneg, enough := ?_, deadOff := h.deadOff, deadLock := h.deadLock, nodup := ?_, bound := ?_, offDead := ?_, stale := ?_, found := ?_ }
      · rcases h.found _ hw with h1 | ⟨w, hm, _⟩
        · show (queued n s : Int) ≤ s.tasks + ((0 : Nat) : Int) + submitting n s
          unfold Enough at h1; push_cast; omega
        · cases hm
      all_goals (intro l hl; cases hl)
    · cases e
  | delSelf =>
    simp only [step] at e
    split at e
    · rename_i v r hw
      have hu : unserved s = 1 := by simp [unserved, hw]
      rw [hu] at hen
      have hnd := h.nodup _ hw
      split at e
      · rename_i g
        obtain ⟨hl, ho, h0⟩ := g
        cases e
        have hv := h.bound _ hw v (List.mem_cons_self)
        have hpq := hp v r hw
        have hge := queued_ge (n := n) (s := s) hv ho
        obtain ⟨hq, hsub⟩ := eff_del hv hl ho
        have ht : (del s v).tasks = s.tasks - (s.q v - 1) := by simp [del, h0]
        have hpn : 0 ≤ (del s v).tasks := by
          rw [ht]; have := h.nonneg; rcases hpq with hp | hp
          · omega
          · rw [hp] at hen; push_cast at hen; omega
        have hE : (queued n (del s v) : Int) ≤ (del s v).tasks + submitting n (del s v) := by
          rw [ht, hsub]; push_cast at hen; omega
        have hne : ∀ w ∈ r, w ≠ v := by rintro w hm rfl; exact (List.nodup_cons.1 hnd).1 hm
        refine { nonneg := hpn, enough := ?_, deadOff := ?_, deadLock := h.deadLock, nodup := ?_, bound := ?_, offDead := ?_, stale := ?_, found := ?_ }
        · show (queued n (del s v) : Int) ≤ (del s v).tasks + ((1 : Nat) : Int) + submitting n (del s v)
          push_cast; omega
        · intro w hd
          show upd s.on v false w = false
          by_cases hc : w = v
          · subst hc; rw [upd_same]
          · rw [upd_ne _ _ _ _ hc]; exact h.deadOff w hd
        · intro l hl; cases hl; exact (List.nodup_cons.1 hnd).2
        · intro l hl w hm; cases hl; exact h.bound _ hw w (List.mem_cons_of_mem _ hm)
        · intro l hl w hm ho'; cases hl
          have ho'' : upd s.on v false w = false := ho'
          rw [upd_ne _ _ _ _ (hne w hm)] at ho''
          exact h.offDead _ hw w (List.mem_cons_of_mem _ hm) ho''
        · intro l hl w hm ho' hne'; exact hE
        · intro l hl; exact .inl hE
      · cases e
    · cases e
  | release v =>
    simp only [step] at e
    split at e
    · rename_i g
      obtain ⟨hv, hl, hd⟩ := g
      have hp : s.q v ≤ 1 ∨ submitting n s = 0 := hp
      split at e
      · rename_i ho
        cases e
        have hge := queued_ge (n := n) (s := s) hv ho
        obtain ⟨hq, hsub⟩ := eff_del hv hl ho
        have hu := unserved_le s
        have hpn : 0 ≤ (del s v).tasks := by
          have := h.nonneg
          unfold del
          dsimp only
          split
          · rcases hp with hp | hp
            · omega
            · rw [hp] at hen; omega
          · omega
        have hE : ∀ x : Int, x ≤ 1 → (queued n s : Int) ≤ s.tasks + x + submitting n s → s.q v ≠ 0 →
            (queued n (del s v) : Int) ≤ (del s v).tasks + submitting n (del s v) := by
          intro x hx hq' h0
          have ht : (del s v).tasks = s.tasks - (s.q v - 1) := by simp [del, h0]
          rw [ht, hsub]; omega
        have hE0 : s.q v = 0 → ∀ x : Int, (queued n s : Int) ≤ s.tasks + x + submitting n s →
            (queued n (del s v) : Int) ≤ (del s v).tasks + x + submitting n (del s v) := by
          intro h0 x hq'
          have ht : (del s v).tasks = s.tasks := by simp [del, h0]
          rw [ht, hsub]; omega
        refine { nonneg := hpn, enough := ?_, deadOff := ?_, deadLock := ?_, nodup := h.nodup, bound := h.bound, offDead := ?_, stale := ?_, found := ?_ }
        · show (queued n (del s v) : Int) ≤ (del s v).tasks + ((unserved s : Nat) : Int) + submitting n (del s v)
          by_cases h0 : s.q v = 0
          · exact hE0 h0 _ hen
          · have := hE _ (by omega) hen h0; omega
        · intro w hd'
          show upd s.on v false w = false
          by_cases hc : w = v
          · subst hc; rw [upd_same]
          · have hd'' : upd s.dead v true w = true := hd'
            rw [upd_ne _ _ _ _ hc] at hd'' ⊢; exact h.deadOff w hd''
        · intro w hd'
          by_cases hc : w = v
          · subst hc; exact hl
          · have hd'' : upd s.dead v true w = true := hd'
            rw [upd_ne _ _ _ _ hc] at hd''; exact h.deadLock w hd''
        · intro l hw w hm ho'
          show upd s.dead v true w = true
          by_cases hc : w = v
          · subst hc; rw [upd_same]
          · have ho'' : upd s.on v false w = false := ho'
            rw [upd_ne _ _ _ _ hc] at ho'' ⊢
            exact h.offDead l hw w hm ho''
        · intro l hw w hm ho' hne
          by_cases hc : w = v
          · subst hc; exact hE _ (by omega) hen hne
          · have ho'' : upd s.on v false w = false := ho'
            rw [upd_ne _ _ _ _ hc] at ho''
            have h1 := h.stale l hw w hm ho'' hne
            unfold Enough at h1
            by_cases h0 : s.q v = 0
            · have := hE0 h0 0 (by omega); show (queued n (del s v) : Int) ≤ (del s v).tasks + submitting n (del s v); omega
            · exact hE 0 (by omega) (by omega) h0
        · intro l hw
          by_cases h0 : s.q v = 0
          · rcases h.found l hw with h1 | ⟨w, hm, ho', hne⟩
            · unfold Enough at h1
              refine .inl ?_
              have := hE0 h0 0 (by omega); show (queued n (del s v) : Int) ≤ (del s v).tasks + submitting n (del s v); omega
            · refine .inr ⟨w, hm, ?_, hne⟩
              have hc : w ≠ v := by rintro rfl; exact hne h0
              show upd s.on v false w = true
              rw [upd_ne _ _ _ _ hc]; exact ho'
          · exact .inl (hE _ (by omega) hen h0)
      · rename_i ho
        cases e
        refine { nonneg := h.nonneg, enough := hen, deadOff := ?_, deadLock := ?_, nodup := h.nodup, bound := h.bound, offDead := ?_, stale := h.stale, found := h.found }
        · intro w hd'
          by_cases hc : w = v
          · subst hc; simpa using ho
          · have hd'' : upd s.dead v true w = true := hd'
            rw [upd_ne _ _ _ _ hc] at hd''; exact h.deadOff w hd''
        · intro w hd'
          by_cases hc : w = v
          · subst hc; exact hl
          · have hd'' : upd s.dead v true w = true := hd'
            rw [upd_ne _ _ _ _ hc] at hd''; exact h.deadLock w hd''
        · intro l hw w hm ho'
          show upd s.dead v true w = true
          by_cases hc : w = v
          · subst hc; rw [upd_same]
          · rw [upd_ne _ _ _ _ hc]; exact h.offDead l hw w hm ho'
    · cases e
  | delExt v => exact hp.elim
  | envPop v =>
    simp only [step] at e
    split at e
    · rename_i g
      obtain ⟨hv, h0⟩ := g
      cases e
      obtain ⟨hq, hsub⟩ := eff_pop (s := s) (s' := { s with q := upd s.q v (s.q v - 1) }) hv h0 rfl rfl rfl
      have hle : queued n ({ s with q := upd s.q v (s.q v - 1) } : St) ≤ queued n s := by split at hq <;> omega
      have E0 : Enough n s → Enough n { s with q := upd s.q v (s.q v - 1) } := by
        intro hx; unfold Enough at *; rw [hsub]; show (_ : Int) ≤ s.tasks + _; omega
      refine { nonneg := h.nonneg, enough := ?_, deadOff := h.deadOff, deadLock := h.deadLock, nodup := h.nodup, bound := h.bound, offDead := h.offDead, stale := ?_, found := ?_ }
      · rw [hsub]; show (_ : Int) ≤ s.tasks + ((unserved s : Nat) : Int) + _; omega
      · intro l hw w hm ho' hne
        refine E0 (h.stale l hw w hm ho' ?_)
        intro hz
        have hne' : upd s.q v (s.q v - 1) w ≠ 0 := hne
        by_cases hc : w = v
        · subst hc; exact h0 hz
        · rw [upd_ne _ _ _ _ hc] at hne'; exact hne' hz
      · intro l hw
        have hw' : s.wk = .scan l := hw
        have hu : unserved s = 1 := by simp [unserved, hw']
        rw [hu] at hen
        rcases h.found l hw with h1 | ⟨w, hm, ho', hne⟩
        · exact .inl (E0 h1)
        · by_cases hc : w = v
          · subst hc
            refine .inl ?_
            simp only [ho', if_true] at hq
            unfold Enough; rw [hsub]; show (_ : Int) ≤ s.tasks + _; push_cast at hen; omega
          · refine .inr ⟨w, hm, ho', ?_⟩
            show upd s.q v (s.q v - 1) w ≠ 0
            rw [upd_ne _ _ _ _ hc]; exact hne
    · cases e

theorem inv_reach {n : Nat} {s : St} (h : Reach n (Quiet n) s) : Inv n s := by
  induction h with
  | init => exact inv_init n
  | step _ hp e ih => exact inv_step ih hp e

/-- C32 for every history in which virtual accelerators are only removed by the worker itself or by their own release, and no removal of one with two or
more queued tasks happens in the middle of a submission: the count never wraps, and it never under-reports. What is missing from the full
property are the other histories, for which it is false: `C32_wrap_violated`, `C32_elastic_violated`. -/
theorem C32_never_under_reports_partial {n : Nat} {s : St} (h : Reach n (Quiet n) s) :
    0 ≤ s.tasks ∧ (queued n s : Int) ≤ s.tasks + unserved s + submitting n s :=
  ⟨(inv_reach h).nonneg, (inv_reach h).enough⟩

/-- … so an idle worker with queued work (and no submission still about to count it and to notify) does not block. -/
theorem C32_queued_work_wakes_worker_partial {n : Nat} {s : St} (h : Reach n (Quiet n) s) (hi : s.wk = .idle) (hs : submitting n s = 0) (hq : queued n s ≠ 0) :
    ∃ s', step n s .wait = some s' := by
  have h1 := (inv_reach h).enough
  have hu : unserved s = 0 := by simp [unserved, hi]
  rw [hu, hs] at h1
  have hne : s.tasks ≠ 0 := by push_cast at h1; omega
  exact ⟨_, by simp only [step]; rw [if_pos ⟨hi, hne⟩]⟩

/-! ### C33 -/

/-- Histories under the round-robin scheduler: nothing is taken away from a worker, and a virtual accelerator is released only when its queue is empty. -/
def RoundRobin (s : St) : Ev → Prop
  | .delExt _ => False
  | .delSelf => False
  | .envPop v => s.on v = false
  | .release v => s.q v = 0
  | _ => True

theorem rr_quiet {n : Nat} {s : St} {e : Ev} (h : RoundRobin s e) : Quiet n s e := by
  cases e <;> simp only [RoundRobin, Quiet] at * <;> first | trivial | (exact h.elim) | (left; omega)

theorem reach_mono {n : Nat} {P Q : St → Ev → Prop} (hPQ : ∀ s e, P s e → Q s e) {s : St} (h : Reach n P s) : Reach n Q s := by
  induction h with
  | init => exact .init
  | step _ hp e ih => exact .step ih (hPQ _ _ hp) e

structure Exact (n : Nat) (s : St) : Prop where
  exact : s.tasks + unserved s + submitting n s = queued n s
  deadEmpty : ∀ l, s.wk = .scan l → ∀ v ∈ l, s.dead v = true → s.q v = 0
  found : ∀ l, s.wk = .scan l → ∃ w ∈ l, s.on w = true ∧ s.q w ≠ 0

theorem exact_init (n : Nat) : Exact n init where
  exact := by
    have h1 : queued n init = 0 := sumTo_zero _ n (by intro i _; rfl)
    have h2 : submitting n init = 0 := sumTo_zero _ n (by intro i _; rfl)
    rw [h1, h2]; simp [init, unserved]
  deadEmpty := by intro l h; cases h
  found := by intro l h; cases h

theorem exact_step {n : Nat} {s s' : St} {ev : Ev} (hi : Inv n s) (h : Exact n s) (hp : RoundRobin s ev) (e : step n s ev = some s') : Exact n s' := by
  have hex := h.exact
  cases ev with
  | push v =>
    obtain ⟨hv, hl, hd, hs, hq, hsub⟩ := eff_push e
    have E : s.tasks + unserved s + submitting n s' = queued n s' := by
      rw [hq, hsub]; split <;> push_cast <;> omega
    subst hs
    refine ⟨E, ?_, ?_⟩
    · intro l hw w hm hd'
      have hne : w ≠ v := by intro hc; have hd'' : s.dead w = true := hd'; rw [hc, hd] at hd''; cases hd''
      show upd s.q v (s.q v + 1) w = 0
      rw [upd_ne _ _ _ _ hne]; exact h.deadEmpty l hw w hm hd'
    · intro l hw
      obtain ⟨w, hm, ho, hne⟩ := h.found l hw
      refine ⟨w, hm, ho, ?_⟩
      show upd s.q v (s.q v + 1) w ≠ 0
      by_cases hc : w = v
      · subst hc; rw [upd_same]; omega
      · rwa [upd_ne _ _ _ _ hc]
  | count v =>
    obtain ⟨hv, hl, hs, hq, hsub⟩ := eff_count e
    have E : (if s.on v then s.tasks + 1 else s.tasks) + unserved s + submitting n s' = queued n s' := by
      rw [hq]; split <;> rename_i ho <;> simp [ho] at hsub <;> omega
    subst hs
    exact ⟨E, h.deadEmpty, h.found⟩
  | assign v =>
    obtain ⟨hv, hl, hd, hoff, hs, hq, hsub⟩ := eff_assign e
    have E : s.tasks + s.q v + unserved s + submitting n s' = queued n s' := by
      rw [hq, hsub]; push_cast; omega
    subst hs
    refine ⟨E, h.deadEmpty, ?_⟩
    intro l hw
    obtain ⟨w, hm, ho, hne⟩ := h.found l hw
    refine ⟨w, hm, ?_, hne⟩
    show upd s.on v true w = true
    by_cases hc : w = v
    · subst hc; rw [upd_same]
    · rwa [upd_ne _ _ _ _ hc]
  | wait =>
    simp only [step] at e
    split at e
    · rename_i g
      cases e
      refine ⟨?_, ?_, ?_⟩
      · have hu : unserved s = 0 := by simp [unserved, g.1]
        rw [hu] at hex
        show s.tasks - 1 + ((1 : Nat) : Int) + submitting n s = queued n s
        push_cast at *; omega
      all_goals (intro l hl; cases hl)
    · cases e
  | snapshot l =>
    simp only [step] at e
    split at e
    · rename_i g
      obtain ⟨hw, hnd, hin, hall⟩ := g
      cases e
      have hu : unserved s = 1 := by simp [unserved, hw]
      rw [hu] at hex
      refine ⟨hex, ?_, ?_⟩
      · intro l' hl' v hv hd; cases hl'
        have := hi.deadOff v hd
        rw [(hin v hv).2] at this; cases this
      · intro l' hl'; cases hl'
        have := hi.nonneg
        obtain ⟨v, hv, ho, hne⟩ := queued_pos (n := n) (s := s) (by push_cast at hex; omega)
        exact ⟨v, hall v hv ho, ho, hne⟩
    · cases e
  | look =>
    simp only [step] at e
    split at e
    · rename_i v r hw
      have hu : unserved s = 1 := by simp [unserved, hw]
      rw [hu] at hex
      split at e
      · rename_i h0
        cases e
        refine ⟨hex, ?_, ?_⟩
        · intro l hl w hm hd; cases hl; exact h.deadEmpty _ hw w (List.mem_cons_of_mem _ hm) hd
        · intro l hl; cases hl
          obtain ⟨w, hm, ho, hne⟩ := h.found _ hw
          rcases List.mem_cons.1 hm with rfl | hm
          · exact absurd h0 hne
          · exact ⟨w, hm, ho, hne⟩
      · rename_i h0
        cases e
        have hv := hi.bound _ hw v (List.mem_cons_self)
        obtain ⟨hq, hsub⟩ := eff_pop (s := s) (s' := { s with q := upd s.q v (s.q v - 1), wk := .idle }) hv h0 rfl rfl rfl
        refine ⟨?_, ?_, ?_⟩
        · show s.tasks + ((0 : Nat) : Int) + _ = _
          rw [hsub]
          by_cases ho : s.on v = true
          · simp only [ho, if_true] at hq
            push_cast at *; omega
          · have hd := hi.offDead _ hw v (List.mem_cons_self) (by simpa using ho)
            exact absurd (h.deadEmpty _ hw v (List.mem_cons_self) hd) h0
        all_goals (intro l hl; cases hl)
    · cases e
  | done =>
    simp only [step] at e
    split at e
    · rename_i hw
      obtain ⟨w, hm, _⟩ := h.found _ hw
      cases hm
    · cases e
  | delSelf => exact hp.elim
  | delExt v => exact hp.elim
  | release v =>
    have hp : s.q v = 0 := hp
    simp only [step] at e
    split at e
    · rename_i g
      obtain ⟨hv, hl, hd⟩ := g
      have hdead : ∀ l, s.wk = .scan l → ∀ w ∈ l, upd s.dead v true w = true → s.q w = 0 := by
        intro l hw w hm hd'
        by_cases hc : w = v
        · subst hc; exact hp
        · rw [upd_ne _ _ _ _ hc] at hd'; exact h.deadEmpty l hw w hm hd'
      split at e
      · rename_i ho
        cases e
        obtain ⟨hq, hsub⟩ := eff_del hv hl ho
        have ht : (del s v).tasks = s.tasks := by simp [del, hp]
        refine ⟨?_, hdead, ?_⟩
        · show (del s v).tasks + ((unserved s : Nat) : Int) + submitting n (del s v) = queued n (del s v)
          rw [ht, hsub]; omega
        · intro l hw
          obtain ⟨w, hm, ho', hne⟩ := h.found l hw
          refine ⟨w, hm, ?_, hne⟩
          have hc : w ≠ v := by rintro rfl; exact hne hp
          show upd s.on v false w = true
          rw [upd_ne _ _ _ _ hc]; exact ho'
      · cases e
        exact ⟨hex, hdead, h.found⟩
    · cases e
  | envPop v =>
    have hp : s.on v = false := hp
    simp only [step] at e
    split at e
    · rename_i g
      obtain ⟨hv, h0⟩ := g
      cases e
      obtain ⟨hq, hsub⟩ := eff_pop (s := s) (s' := { s with q := upd s.q v (s.q v - 1) }) hv h0 rfl rfl rfl
      refine ⟨?_, ?_, ?_⟩
      · show s.tasks + ((unserved s : Nat) : Int) + _ = _
        rw [hsub]; simp [hp] at hq; rw [hq]; exact hex
      · intro l hw w hm hd
        show upd s.q v (s.q v - 1) w = 0
        have := h.deadEmpty l hw w hm hd
        by_cases hc : w = v
        · subst hc; exact absurd this h0
        · rw [upd_ne _ _ _ _ hc]; exact this
      · intro l hw
        obtain ⟨w, hm, ho', hne⟩ := h.found l hw
        refine ⟨w, hm, ho', ?_⟩
        show upd s.q v (s.q v - 1) w ≠ 0
        have hc : w ≠ v := by rintro rfl; rw [show s.on w = true from ho'] at hp; cases hp
        rw [upd_ne _ _ _ _ hc]; exact hne
    · cases e

theorem exact_reach {n : Nat} {s : St} (h : Reach n RoundRobin s) : Inv n s ∧ Exact n s := by
  induction h with
  | init => exact ⟨inv_init n, exact_init n⟩
  | step _ hp e ih => exact ⟨inv_step ih.1 (rr_quiet hp) e, exact_step ih.1 ih.2 hp e⟩

/-- C33 for the round-robin scheduler: with the worker idle and no submission in progress, the count is exactly the number of queued tasks. Missing:
histories with removals of non-empty virtual accelerators, for which it is false (`C33_violated`). -/
theorem C33_exact_round_robin_partial {n : Nat} {s : St} (h : Reach n RoundRobin s) (hi : s.wk = .idle) (hs : submitting n s = 0) :
    s.tasks = queued n s := by
  have h1 := (exact_reach h).2.exact
  have hu : unserved s = 0 := by simp [unserved, hi]
  rw [hu, hs] at h1; push_cast at h1; omega

/-- … and each task the worker takes from the count is one it finds in a queue: it never gives up. -/
theorem C33_token_finds_task_partial {n : Nat} {s : St} (h : Reach n RoundRobin s) : step n s .done = none := by
  simp only [step]
  rw [if_neg]
  intro hw
  obtain ⟨w, hm, _⟩ := (exact_reach h).2.found _ hw
  cases hm

/-- Under the round-robin scheduler C32 needs no further condition. -/
theorem C32_round_robin {n : Nat} {s : St} (h : Reach n RoundRobin s) :
    0 ≤ s.tasks ∧ s.tasks + unserved s + submitting n s = queued n s :=
  ⟨(exact_reach h).1.nonneg, (exact_reach h).2.exact⟩

/-! ### Witnesses -/

theorem reach_run {n : Nat} {P : St → Ev → Prop} : ∀ {es : List Ev} {s s' : St}, Reach n P s → run n s es = some s' →
    (∀ (es1 : List Ev) (e : Ev) (es2 : List Ev) (s1 : St), es = es1 ++ e :: es2 → run n s es1 = some s1 → P s1 e) → Reach n P s'
  | [], s, s', h, hr, _ => by simp only [run] at hr; cases hr; exact h
  | e :: es, s, s', h, hr, hP => by
    simp only [run] at hr
    split at hr
    · rename_i s1 he
      refine reach_run (.step h (hP [] e es s rfl rfl) he) hr ?_
      intro es1 e' es2 s2 heq hr2
      refine hP (e :: es1) e' es2 s2 (by rw [heq]; rfl) ?_
      simp only [run, he]; exact hr2
    · cases hr

/-- Any step at all. -/
def Any (_ : St) (_ : Ev) : Prop := True

theorem reach_any {n : Nat} {es : List Ev} {s : St} (h : run n init es = some s) : Reach n Any s :=
  reach_run .init h (fun _ _ _ _ _ _ => trivial)

/-- Removals by the worker itself only (HeterogeneousScheduler). -/
def Hetero (_ : St) : Ev → Prop
  | .delExt _ => False
  | .release _ => False
  | _ => True

/-- What one can see of the counter in a state, for the witnesses. -/
def view (n : Nat) (s : St) : Int × Nat × Nat × Wk := (s.tasks, queued n s, submitting n s, s.wk)

def wrapRun : List Ev :=
  [.assign 0, .assign 1, .push 1, .count 1, .push 1, .count 1,            -- two tasks on 1, counted
   .wait, .push 0, .snapshot [0, 1], .look,                              -- the worker pops a task of 0 that its client has not counted yet
   .wait, .snapshot [0, 1], .look, .delSelf, .done,                      -- removes 1, with its two tasks
   .wait, .snapshot [0], .look, .done, .count 0]

/-- The property C32 as stated is false with the heterogeneous scheduler: the counter can wrap below zero, and stay wrapped when everything has settled
(the worker idle, no submission in progress, no task queued): it then reports 2^64-1 pending tasks and the worker never blocks. -/
theorem C32_wrap_violated : ∃ s, Reach 2 Hetero s ∧ s.tasks = -1 ∧ queued 2 s = 0 ∧ submitting 2 s = 0 ∧ s.wk = .idle := by
  have hr : (run 2 init wrapRun).map (view 2) = some (-1, 0, 0, .idle) := by decide +kernel
  cases hs : run 2 init wrapRun with
  | none => rw [hs] at hr; cases hr
  | some s =>
    rw [hs] at hr
    simp only [Option.map_some, view, Option.some.injEq, Prod.mk.injEq] at hr
    refine ⟨s, reach_run .init hs ?_, hr⟩
    intro es1 e es2 s1 he _
    have hm : e ∈ wrapRun := by rw [he]; simp
    have hall : ∀ e ∈ wrapRun, Hetero s1 e := by
      simp [wrapRun, Hetero]
    exact hall e hm

def elasticRun : List Ev :=
  [.assign 0, .assign 1, .push 1, .count 1, .wait, .snapshot [0, 1], .delExt 0, .push 0, .count 0, .look]

/-- C32 as stated is false when the balancer removes a virtual accelerator while the worker looks through its snapshot (ElasticScheduler): the worker
serves the removed one with the count of another; then a task is queued, the count is 0, and the worker blocks. -/
theorem C32_elastic_violated : ∃ s, Reach 2 Any s ∧ s.tasks = 0 ∧ queued 2 s = 1 ∧ submitting 2 s = 0 ∧ s.wk = .idle ∧ step 2 s .wait = none := by
  have hr : (run 2 init elasticRun).map (view 2) = some (0, 1, 0, .idle) := by decide +kernel
  cases hs : run 2 init elasticRun with
  | none => rw [hs] at hr; cases hr
  | some s =>
    rw [hs] at hr
    simp only [Option.map_some, view, Option.some.injEq, Prod.mk.injEq] at hr
    obtain ⟨h1, h2, h3, h4⟩ := hr
    exact ⟨s, reach_any hs, h1, h2, h3, h4, by simp [step, h1]⟩

def overRun : List Ev :=
  [.assign 0, .assign 1, .push 0, .count 0, .push 1, .count 1, .wait, .snapshot [0, 1], .delSelf, .delSelf, .done]

/-- C33 as stated is false: each removal of a non-empty virtual accelerator leaves one in the count. -/
theorem C33_violated : ∃ s, Reach 2 Hetero s ∧ s.tasks = 1 ∧ queued 2 s = 0 ∧ submitting 2 s = 0 ∧ s.wk = .idle := by
  have hr : (run 2 init overRun).map (view 2) = some (1, 0, 0, .idle) := by decide +kernel
  cases hs : run 2 init overRun with
  | none => rw [hs] at hr; cases hr
  | some s =>
    rw [hs] at hr
    simp only [Option.map_some, view, Option.some.injEq, Prod.mk.injEq] at hr
    refine ⟨s, reach_run .init hs ?_, hr⟩
    intro es1 e es2 s1 he _
    have hm : e ∈ overRun := by rw [he]; simp
    have hall : ∀ e ∈ overRun, Hetero s1 e := by
      simp [overRun, Hetero]
    exact hall e hm

/-! ### Non-vacuity -/

/-- A round-robin history that ends with two tasks queued (one submitted while the virtual accelerator was an orphan), one served, and the worker idle. -/
def rrRun : List Ev :=
  [.push 0, .count 0, .assign 0, .assign 1, .push 1, .count 1, .push 1, .count 1, .wait, .snapshot [1, 0], .look]

example : ∃ s, Reach 2 RoundRobin s ∧ s.wk = .idle ∧ submitting 2 s = 0 ∧ queued 2 s = 2 := by
  have hr : (run 2 init rrRun).map (view 2) = some (2, 2, 0, .idle) := by decide +kernel
  cases hs : run 2 init rrRun with
  | none => rw [hs] at hr; cases hr
  | some s =>
    rw [hs] at hr
    simp only [Option.map_some, view, Option.some.injEq, Prod.mk.injEq] at hr
    obtain ⟨h1, h2, h3, h4⟩ := hr
    refine ⟨s, reach_run .init hs ?_, h4, h3, h2⟩
    intro es1 e es2 s1 he _
    have hm : e ∈ rrRun := by rw [he]; simp
    have hall : ∀ e ∈ rrRun, RoundRobin s1 e := by
      simp [rrRun, RoundRobin]
    exact hall e hm

/-- `run`, checking a condition before each step. -/
def runIf (n : Nat) (p : St → Ev → Bool) : St → List Ev → Option St
  | s, [] => some s
  | s, e :: es => if p s e then (match step n s e with | some s' => runIf n p s' es | none => none) else none

theorem reach_runIf {n : Nat} {P : St → Ev → Prop} {p : St → Ev → Bool} (hp : ∀ s e, p s e = true → P s e) :
    ∀ {es : List Ev} {s s' : St}, Reach n P s → runIf n p s es = some s' → Reach n P s'
  | [], s, s', h, hr => by simp only [runIf] at hr; cases hr; exact h
  | e :: es, s, s', h, hr => by
    simp only [runIf] at hr
    split at hr
    · rename_i hpe
      split at hr
      · rename_i s1 he; exact reach_runIf hp (.step h (hp _ _ hpe) he) hr
      · cases hr
    · cases hr

def quietB (n : Nat) (s : St) : Ev → Bool
  | .delExt _ => false
  | .delSelf => match s.wk with | .scan (v :: _) => s.q v ≤ 1 || submitting n s = 0 | _ => false
  | .release v => s.q v ≤ 1 || submitting n s = 0
  | _ => true

theorem quietB_quiet {n : Nat} : ∀ (s : St) (e : Ev), quietB n s e = true → Quiet n s e := by
  intro s e h
  cases e <;> simp only [Quiet] <;> try trivial
  · intro v r hw; simp only [quietB, hw] at h; simpa using h
  · simpa [quietB] using h

/-- A quiet history with a removal of two queued tasks by the worker, a release of a non-empty virtual accelerator, and queued work left. -/
def quietRun : List Ev :=
  [.assign 0, .assign 1, .assign 2, .push 0, .count 0, .push 0, .count 0, .push 1, .count 1, .push 1, .count 1, .push 2, .count 2,
   .wait, .snapshot [0, 1, 2], .delSelf, .release 2, .look]

example : ∃ s, Reach 3 (Quiet 3) s ∧ s.wk = .idle ∧ submitting 3 s = 0 ∧ queued 3 s ≠ 0 := by
  have hr : (runIf 3 (quietB 3) init quietRun).map (view 3) = some (3, 1, 0, .idle) := by decide +kernel
  cases hs : runIf 3 (quietB 3) init quietRun with
  | none => rw [hs] at hr; cases hr
  | some s =>
    rw [hs] at hr
    simp only [Option.map_some, view, Option.some.injEq, Prod.mk.injEq] at hr
    obtain ⟨h1, h2, h3, h4⟩ := hr
    exact ⟨s, reach_runIf quietB_quiet .init hs, h4, h3, by omega⟩

end Arax.Accel.Count
