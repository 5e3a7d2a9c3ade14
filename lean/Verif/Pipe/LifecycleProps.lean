import Verif.Pipe.Lifecycle
/-!
# C43: the segment lives exactly as long as somebody uses it
-/
namespace Arax.Life
open Arax.Object (sumTo sumTo_update sumTo_ge sumTo_zero sumTo_pos sumTo_congr)

/-! ## Specification -/

/-- Caller `t` is between a returned `arax_init` and the matching `arax_exit`. -/
def Uses (s : St) (t : Nat) : Prop := 0 < s.depth t

/-- Every caller has returned from everything and has exited as often as it initialised. -/
def Quiet (s : St) : Prop := ∀ t, s.pc t = .idle ∧ s.depth t = 0

/-- The histories of the partial theorem:
no API call that leaks an `arax_init` (`api`); a process enters its first `arax_init` only while no process is
in its final `arax_exit`, and only once in its life; a final `arax_exit` starts only while no process is in
its first `arax_init`. -/
def Calm (proc : Nat → Nat) (s : St) : Act → Prop
  | .api _ => False
  | .init t => s.threads (proc t) = 0 → (∀ t', (s.pc t').isE = false) ∧ s.inited (proc t) = false
  | .exit t => s.threads (proc t) = 1 → ∀ t', (s.pc t').isI = false
  | _ => True

/-! ## Invariant -/

/-- Contribution of a caller to `threads` of its process. -/
def w (s : St) (t : Nat) : Nat :=
  s.depth t + (match s.pc t with | .i1 | .i2 | .i3 | .iw => 1 | _ => 0)

def b2n (b : Bool) : Nat := if b then 1 else 0

structure Inv (T P : Nat) (proc : Nat → Nat) (s : St) : Prop where
  out : ∀ t, T ≤ t → s.pc t = .idle ∧ s.depth t = 0
  pr : ∀ t, s.pc t ≠ .idle ∨ s.depth t ≠ 0 → proc t < P
  thr : ∀ p, s.threads p = sumTo (fun t => if proc t = p then w s t else 0) T
  excl : ∀ t t', (s.pc t).isI = true → (s.pc t').isE = false
  uniqI : ∀ t t', (s.pc t).isI = true → (s.pc t').isI = true → proc t = proc t' → t = t'
  uniqE : ∀ t t', (s.pc t).isE = true → (s.pc t').isE = true → proc t = proc t' → t = t'
  ini : ∀ t, (s.pc t).isI = true → s.inited (proc t) = false
  dep : ∀ t, s.inited (proc t) = false → s.depth t = 0
  eThr : ∀ t, (s.pc t).isE = true → s.threads (proc t) = 0
  i1 : ∀ t, s.pc t = .i1 → s.attached (proc t) = none ∧ s.counted (proc t) = false
  i2 : ∀ t, s.pc t = .i2 → s.attached (proc t) = s.linked ∧ s.linked ≠ none ∧ s.counted (proc t) = false
  i3 : ∀ t, s.pc t = .i3 → s.attached (proc t) = s.linked ∧ s.linked ≠ none ∧ s.counted (proc t) = true
  e1 : ∀ t, s.pc t = .e1 → s.attached (proc t) = s.linked ∧ s.linked ≠ none ∧ s.counted (proc t) = true
  e2 : ∀ t l, s.pc t = .e2 l → s.counted (proc t) = false
  e3 : ∀ t, s.pc t = .e3 → s.counted (proc t) = false ∧ s.attached (proc t) = none
  norm : ∀ p, (∀ t, proc t = p → (s.pc t).isI = false ∧ (s.pc t).isE = false) →
    (0 < s.threads p → s.counted p = true ∧ s.attached p = s.linked ∧ s.linked ≠ none) ∧
    (s.threads p = 0 → s.counted p = false ∧ s.attached p = none)
  cnt : ∀ g, s.linked = some g → s.procs g = sumTo (fun p => b2n (s.counted p)) P
  last : ∀ t, s.pc t = .e2 true ∨ s.pc t = .e3 → sumTo (fun p => b2n (s.counted p)) P = 0 ∧ s.linked ≠ none
  alive : s.linked ≠ none → (∃ p, s.counted p = true) ∨ (∃ t, s.pc t = .e2 true ∨ s.pc t = .e3) ∨ ∃ t, s.pc t = .i2
  oneLast : ∀ t t', (s.pc t = .e2 true ∨ s.pc t = .e3) → (s.pc t' = .e2 true ∨ s.pc t' = .e3) → t = t'
  cb : ∀ p, s.counted p = true → p < P

theorem inv_init (T P : Nat) (proc : Nat → Nat) : Inv T P proc init0 := by
  constructor <;> intros <;> simp_all [init0, PC.isI, PC.isE, w]
  · exact (sumTo_zero _ _ (by intro i _; simp [w, init0])).symm

theorem thr_ge {T P : Nat} {proc : Nat → Nat} {s : St} (inv : Inv T P proc s) {t : Nat} (ht : t < T) : w s t ≤ s.threads (proc t) := by
  rw [inv.thr (proc t)]
  have := sumTo_ge (fun t' => if proc t' = proc t then w s t' else 0) t T ht
  simpa using this

theorem thr_zero {T P : Nat} {proc : Nat → Nat} {s : St} (inv : Inv T P proc s) {t : Nat} (h : s.threads (proc t) = 0) : w s t = 0 := by
  by_cases ht : t < T
  · have := thr_ge inv ht; omega
  · have := inv.out t (by omega); simp [w, this.1, this.2]

theorem sum_zero_iff {s : St} {P : Nat} (h : sumTo (fun p => b2n (s.counted p)) P = 0) : ∀ p, p < P → s.counted p = false := by
  intro p hp
  have := sumTo_ge (fun p => b2n (s.counted p)) p P hp
  cases hc : s.counted p with
  | false => rfl
  | true => simp only [hc, b2n, if_true] at this; simp only [b2n] at h; omega

/-- `threads` of the caller's process after the caller's contribution changed. -/
theorem thr_upd {T P : Nat} {proc : Nat → Nat} {s s' : St} {t : Nat} (ht : t < T) (inv : Inv T P proc s)
    (hw : ∀ t', t' ≠ t → w s' t' = w s t') (p : Nat) :
    sumTo (fun t => if proc t = p then w s' t else 0) T + (if proc t = p then w s t else 0)
      = s.threads p + (if proc t = p then w s' t else 0) := by
  rw [inv.thr p]
  exact sumTo_update (fun t => if proc t = p then w s t else 0) (fun t => if proc t = p then w s' t else 0) t
    (fun j hj => by simp only [hw j hj]) T ht

theorem cnt_upd {P : Nat} {s : St} {p : Nat} (b : Bool) (hp : p < P) :
    sumTo (fun q => b2n (upd s.counted p b q)) P + b2n (s.counted p) = sumTo (fun q => b2n (s.counted q)) P + b2n b := by
  have := sumTo_update (fun q => b2n (s.counted q)) (fun q => b2n (upd s.counted p b q)) p
    (fun j hj => by simp only [upd_ne _ _ _ _ hj]) P hp
  simpa [upd_same] using this

theorem norm_frame {proc : Nat → Nat} {pc : Nat → PC} {t p : Nat} {X : PC} (h : p ≠ proc t)
    (hy : ∀ t', proc t' = p → (upd pc t X t').isI = false ∧ (upd pc t X t').isE = false) :
    ∀ t', proc t' = p → (pc t').isI = false ∧ (pc t').isE = false := by
  intro t' ht'
  have := hy t' ht'
  rwa [upd_ne _ _ _ _ (by rintro rfl; exact h ht'.symm)] at this

theorem norm_own {proc : Nat → Nat} {pc : Nat → PC} {t : Nat} {X : PC} (hpc : (pc t).isI = false ∧ (pc t).isE = false)
    (hy : ∀ t', proc t' = proc t → (upd pc t X t').isI = false ∧ (upd pc t X t').isE = false) :
    ∀ t', proc t' = proc t → (pc t').isI = false ∧ (pc t').isE = false := by
  intro t' ht'
  by_cases h : t' = t
  · subst h; exact hpc
  · have := hy t' ht'
    rwa [upd_ne _ _ _ _ h] at this

theorem alive_frame {s : St} {t : Nat} {X : PC}
    (h1 : s.pc t = .e2 true ∨ s.pc t = .e3 → X = .e2 true ∨ X = .e3) (h2 : s.pc t = .i2 → X = .i2)
    (h : (∃ p, s.counted p = true) ∨ (∃ t, s.pc t = .e2 true ∨ s.pc t = .e3) ∨ ∃ t, s.pc t = .i2) :
    (∃ p, s.counted p = true) ∨ (∃ t', upd s.pc t X t' = .e2 true ∨ upd s.pc t X t' = .e3) ∨ ∃ t', upd s.pc t X t' = .i2 := by
  rcases h with h | ⟨t', h⟩ | ⟨t', h⟩
  · exact Or.inl h
  · refine Or.inr (Or.inl ⟨t', ?_⟩)
    by_cases e : t' = t
    · subst e; rw [upd_same]; exact h1 h
    · rw [upd_ne _ _ _ _ e]; exact h
  · refine Or.inr (Or.inr ⟨t', ?_⟩)
    by_cases e : t' = t
    · subst e; rw [upd_same]; exact h2 h
    · rw [upd_ne _ _ _ _ e]; exact h

theorem inv_ready {T P : Nat} {proc : Nat → Nat} {s s' : St} {t : Nat} (ht : t < T) (hp : proc t < P)
    (inv : Inv T P proc s) (e : step false proc (.ready t) s = some s') : Inv T P proc s' := by
  simp only [step] at e
  split at e
  · rename_i hpc
    have hge := thr_ge inv ht
    have hge : 1 ≤ s.threads (proc t) := by simp [w, hpc] at hge; omega
    have hthr := thr_upd (s' := s') ht inv (by
      intro t' h; have e := Option.some.inj e; subst e; simp [w, upd, h])
    have e := Option.some.inj e
    subst e
    obtain ⟨out, pr, thr, excl, uniqI, uniqE, ini, dep, eThr, i1, i2, i3, e1, e2, e3, norm, cnt, last, alive, oneLast, cb⟩ := inv
    constructor
    case thr =>
      intro p; have := hthr p
      show s.threads p = _
      by_cases h : proc t = p <;> simp [h, w, upd, hpc] at this ⊢ <;> omega
    case cnt => exact cnt
    case norm =>
      intro p hy
      by_cases h : p = proc t
      · subst h
        have := i3 t hpc; dsimp only; grind
      · have := norm p (norm_frame h hy)
        clear hthr thr
        dsimp only; grind [upd]
    all_goals (clear hthr thr; dsimp only; grind [upd, PC.isI, PC.isE])
  · simp at e

theorem inv_wait {T P : Nat} {proc : Nat → Nat} {s s' : St} {t : Nat} (ht : t < T) (hp : proc t < P)
    (inv : Inv T P proc s) (e : step false proc (.wait t) s = some s') : Inv T P proc s' := by
  simp only [step] at e
  split at e
  · rename_i hpc
    obtain ⟨hpc, hin⟩ := hpc
    have hge := thr_ge inv ht
    have hge : 1 ≤ s.threads (proc t) := by simp [w, hpc] at hge; omega
    have hthr := thr_upd (s' := s') ht inv (by
      intro t' h; have e := Option.some.inj e; subst e; simp [w, upd, h])
    have e := Option.some.inj e
    subst e
    obtain ⟨out, pr, thr, excl, uniqI, uniqE, ini, dep, eThr, i1, i2, i3, e1, e2, e3, norm, cnt, last, alive, oneLast, cb⟩ := inv
    constructor
    case thr =>
      intro p; have := hthr p
      show s.threads p = _
      by_cases h : proc t = p <;> simp [h, w, upd, hpc] at this ⊢ <;> omega
    case cnt => exact cnt
    case norm =>
      intro p hy
      by_cases h : p = proc t
      · subst h
        exact norm _ (norm_own (by simp [hpc, PC.isI, PC.isE]) hy)
      · have := norm p (norm_frame h hy)
        clear hthr thr
        dsimp only; grind [upd]
    all_goals (clear hthr thr; dsimp only; grind [upd, PC.isI, PC.isE])
  · simp at e

theorem inv_unmap {T P : Nat} {proc : Nat → Nat} {s s' : St} {t : Nat} (ht : t < T) (hp : proc t < P)
    (inv : Inv T P proc s) (e : step false proc (.unmap t) s = some s') : Inv T P proc s' := by
  simp only [step] at e
  split at e
  · rename_i l hpc
    have h0 := inv.eThr t (by simp [hpc, PC.isE])
    have hz : ∀ t', proc t' = proc t → w s t' = 0 := fun t' h => thr_zero inv (by rw [h]; exact h0)
    have hthr := thr_upd (s' := s') ht inv (by
      intro t' h; have e := Option.some.inj e; subst e; simp [w, upd, h])
    have e := Option.some.inj e
    subst e
    obtain ⟨out, pr, thr, excl, uniqI, uniqE, ini, dep, eThr, i1, i2, i3, e1, e2, e3, norm, cnt, last, alive, oneLast, cb⟩ := inv
    constructor
    case thr =>
      intro p; have := hthr p
      show s.threads p = _
      by_cases h : proc t = p <;> cases l <;> simp [h, w, upd, hpc] at this ⊢ <;> omega
    case cnt => exact cnt
    case norm =>
      intro p hy
      by_cases h : p = proc t
      · subst h
        have := e2 t l hpc; dsimp only; grind [upd]
      · have := norm p (norm_frame h hy)
        clear hthr thr
        dsimp only; grind [upd]
    case alive => intro hl; exact alive_frame (by cases l <;> simp [hpc]) (by simp [hpc]) (alive hl)
    all_goals (clear hthr thr hz; dsimp only; cases l <;> grind [upd, PC.isI, PC.isE])
  · simp at e

theorem inv_unlink {T P : Nat} {proc : Nat → Nat} {s s' : St} {t : Nat} (ht : t < T) (hp : proc t < P)
    (inv : Inv T P proc s) (e : step false proc (.unlink t) s = some s') : Inv T P proc s' := by
  simp only [step] at e
  split at e
  · rename_i hpc
    have h0 := inv.eThr t (by simp [hpc, PC.isE])
    have hl := inv.last t (Or.inr hpc)
    have hall : ∀ p, s.counted p = false := by
      intro p
      cases hc : s.counted p with
      | false => rfl
      | true => rw [sum_zero_iff hl.1 p (inv.cb p hc)] at hc; cases hc
    have hthr := thr_upd (s' := s') ht inv (by
      intro t' h; have e := Option.some.inj e; subst e; simp [w, upd, h])
    have e := Option.some.inj e
    subst e
    obtain ⟨out, pr, thr, excl, uniqI, uniqE, ini, dep, eThr, i1, i2, i3, e1, e2, e3, norm, cnt, last, alive, oneLast, cb⟩ := inv
    constructor
    case thr =>
      intro p; have := hthr p
      show s.threads p = _
      by_cases h : proc t = p <;> simp [h, w, upd, hpc] at this ⊢ <;> omega
    case cnt => intro g hg; simp at hg
    case norm =>
      intro p hy
      by_cases h : p = proc t
      · subst h
        have := e3 t hpc; dsimp only; grind [upd]
      · have := norm p (norm_frame h hy)
        clear hthr thr
        dsimp only; grind [upd]
    all_goals (clear hthr thr; dsimp only; grind [upd, PC.isI, PC.isE])
  · simp at e

theorem inv_leave {T P : Nat} {proc : Nat → Nat} {s s' : St} {t : Nat} (ht : t < T) (hp : proc t < P)
    (inv : Inv T P proc s) (e : step false proc (.leave t) s = some s') : Inv T P proc s' := by
  simp only [step] at e
  split at e
  · rename_i hpc
    have h0 := inv.eThr t (by simp [hpc, PC.isE])
    have h1 := inv.e1 t hpc
    split at e
    · rename_i g hg
      have hlk : s.linked = some g := by rw [← h1.1]; exact hg
      have hc := inv.cnt g hlk
      have hthr := thr_upd (s' := s') ht inv (by
        intro t' h; have e := Option.some.inj e; subst e; simp [w, upd, h])
      have hcu := cnt_upd (s := s) false hp
      simp only [h1.2.2, b2n] at hcu
      have e := Option.some.inj e
      subst e
      obtain ⟨out, pr, thr, excl, uniqI, uniqE, ini, dep, eThr, i1, i2, i3, e1, e2, e3, norm, cnt, last, alive, oneLast, cb⟩ := inv
      constructor
      case thr =>
        intro p; have := hthr p
        show s.threads p = _
        by_cases h : proc t = p <;> simp [h, w, upd, hpc] at this ⊢ <;> omega
      case cnt =>
        intro g' hg'
        have hgg : g' = g := by rw [hlk] at hg'; exact (Option.some.inj hg').symm
        subst hgg
        simp only [upd_same]
        simp only [b2n] at hc ⊢
        simp at hcu
        omega
      case last =>
        intro t' ht'
        simp only [b2n] at hc ⊢
        simp at hcu
        by_cases h : t' = t
        · subst h
          simp [upd_same] at ht'
          exact ⟨by omega, by rw [hlk]; simp⟩
        · simp [upd_ne _ _ _ _ h] at ht'
          have := last t' ht'
          simp only [b2n] at this
          omega
      case alive =>
        intro _
        by_cases hone : s.procs g = 1
        · exact Or.inr (Or.inl ⟨t, Or.inl (by simp [upd_same, hone])⟩)
        · left
          simp only [b2n] at hc
          simp at hcu
          obtain ⟨p, hp1, hp2⟩ := sumTo_pos (fun q => if upd s.counted (proc t) false q then 1 else 0) P (by omega)
          refine ⟨p, ?_⟩
          dsimp only at hp2 ⊢
          split at hp2
          · assumption
          · omega
      case oneLast =>
        have hno : ∀ t', ¬ (s.pc t' = .e2 true ∨ s.pc t' = .e3) := by
          intro t' ht'
          have := sum_zero_iff (last t' ht').1 (proc t) hp
          rw [h1.2.2] at this; cases this
        clear hthr thr
        dsimp only; grind [upd, PC.isI, PC.isE]
      case norm =>
        intro p hy
        by_cases h : p = proc t
        · subst h
          have := hy t rfl; simp [upd_same, PC.isI, PC.isE] at this
        · have := norm p (norm_frame h hy)
          clear hthr thr
          dsimp only; grind [upd]
      all_goals (clear hthr thr hcu; dsimp only; grind [upd, PC.isI, PC.isE])
    · simp at e
  · simp at e

theorem inv_join {T P : Nat} {proc : Nat → Nat} {s s' : St} {t : Nat} (ht : t < T) (hp : proc t < P)
    (inv : Inv T P proc s) (e : step false proc (.join t) s = some s') : Inv T P proc s' := by
  simp only [step] at e
  split at e
  · rename_i hpc
    have h1 := inv.i2 t hpc
    have hnoE : ∀ t', (s.pc t').isE = false := fun t' => inv.excl t t' (by simp [hpc, PC.isI])
    split at e
    · rename_i g hg
      have hlk : s.linked = some g := by rw [← h1.1]; exact hg
      have hc := inv.cnt g hlk
      have hthr := thr_upd (s' := s') ht inv (by
        intro t' h; have e := Option.some.inj e; subst e; simp [w, upd, h])
      have hcu := cnt_upd (s := s) true hp
      simp only [h1.2.2, b2n] at hcu
      have e := Option.some.inj e
      subst e
      obtain ⟨out, pr, thr, excl, uniqI, uniqE, ini, dep, eThr, i1, i2, i3, e1, e2, e3, norm, cnt, last, alive, oneLast, cb⟩ := inv
      constructor
      case thr =>
        intro p; have := hthr p
        show s.threads p = _
        by_cases h : proc t = p <;> simp [h, w, upd, hpc] at this ⊢ <;> omega
      case cnt =>
        intro g' hg'
        have hgg : g' = g := by rw [hlk] at hg'; exact (Option.some.inj hg').symm
        subst hgg
        simp only [upd_same]
        simp only [b2n] at hc ⊢
        simp at hcu
        omega
      case last =>
        clear hthr thr hcu
        dsimp only; grind [upd, PC.isI, PC.isE]
      case alive =>
        intro _; exact Or.inl ⟨proc t, by simp [upd_same]⟩
      case norm =>
        intro p hy
        by_cases h : p = proc t
        · subst h
          have := hy t rfl; simp [upd_same, PC.isI, PC.isE] at this
        · have := norm p (norm_frame h hy)
          clear hthr thr
          dsimp only; grind [upd]
      all_goals (clear hthr thr hcu; dsimp only; grind [upd, PC.isI, PC.isE])
    · simp at e
  · simp at e

theorem inv_map {T P : Nat} {proc : Nat → Nat} {s s' : St} {t : Nat} (ht : t < T) (hp : proc t < P)
    (inv : Inv T P proc s) (e : step false proc (.map t) s = some s') : Inv T P proc s' := by
  simp only [step] at e
  split at e
  · rename_i hpc
    have h1 := inv.i1 t hpc
    have hnoE : ∀ t', (s.pc t').isE = false := fun t' => inv.excl t t' (by simp [hpc, PC.isI])
    split at e
    · rename_i g hlk
      have hthr := thr_upd (s' := s') ht inv (by
        intro t' h; have e := Option.some.inj e; subst e; simp [w, upd, h])
      have e := Option.some.inj e
      subst e
      obtain ⟨out, pr, thr, excl, uniqI, uniqE, ini, dep, eThr, i1, i2, i3, e1, e2, e3, norm, cnt, last, alive, oneLast, cb⟩ := inv
      constructor
      case thr =>
        intro p; have := hthr p
        show s.threads p = _
        by_cases h : proc t = p <;> simp [h, w, upd, hpc] at this ⊢ <;> omega
      case cnt => exact cnt
      case norm =>
        intro p hy
        by_cases h : p = proc t
        · subst h
          have := hy t rfl; simp [upd_same, PC.isI, PC.isE] at this
        · have := norm p (norm_frame h hy)
          clear hthr thr
          dsimp only; grind [upd]
      case alive => intro _; exact Or.inr (Or.inr ⟨t, upd_same _ _ _⟩)
      all_goals (clear hthr thr; dsimp only; grind [upd, PC.isI, PC.isE])
    · rename_i hlk
      have hall : ∀ p, s.counted p = false := by
        intro p
        cases hc : s.counted p with
        | false => rfl
        | true =>
          exfalso
          have := inv.norm p
          have := inv.i1
          have := inv.i2
          have := inv.i3
          have := inv.e1
          by_cases hx : ∀ t, proc t = p → (s.pc t).isI = false ∧ (s.pc t).isE = false
          · have := inv.norm p hx
            rcases Nat.eq_zero_or_pos (s.threads p) with h | h
            · have := (this.2 h).1; rw [hc] at this; cases this
            · exact (this.1 h).2.2 hlk
          · obtain ⟨t', hx⟩ := Classical.not_forall.mp hx
            obtain ⟨hpt, hx⟩ := Classical.not_imp.mp hx
            subst hpt
            cases hpc' : s.pc t' with
            | idle => simp [hpc', PC.isI, PC.isE] at hx
            | iw => simp [hpc', PC.isI, PC.isE] at hx
            | i1 => have := (inv.i1 t' hpc').2; rw [hc] at this; cases this
            | i2 => exact (inv.i2 t' hpc').2.1 hlk
            | i3 => exact (inv.i3 t' hpc').2.1 hlk
            | e1 => exact (inv.e1 t' hpc').2.1 hlk
            | e2 l => have := inv.e2 t' l hpc'; rw [hc] at this; cases this
            | e3 => have := (inv.e3 t' hpc').1; rw [hc] at this; cases this
      have hthr := thr_upd (s' := s') ht inv (by
        intro t' h; have e := Option.some.inj e; subst e; simp [w, upd, h])
      have e := Option.some.inj e
      subst e
      obtain ⟨out, pr, thr, excl, uniqI, uniqE, ini, dep, eThr, i1, i2, i3, e1, e2, e3, norm, cnt, last, alive, oneLast, cb⟩ := inv
      constructor
      case thr =>
        intro p; have := hthr p
        show s.threads p = _
        by_cases h : proc t = p <;> simp [h, w, upd, hpc] at this ⊢ <;> omega
      case cnt =>
        intro g hg
        have hgg : g = s.next := (Option.some.inj hg).symm
        subst hgg
        show upd s.procs s.next 0 s.next = _
        rw [upd_same]
        exact (sumTo_zero _ _ (by intro i _; simp [hall, b2n])).symm
      case norm =>
        intro p hy
        by_cases h : p = proc t
        · subst h
          have := hy t rfl; simp [upd_same, PC.isI, PC.isE] at this
        · have := norm p (norm_frame h hy)
          clear hthr thr
          dsimp only; grind [upd]
      case alive => intro _; exact Or.inr (Or.inr ⟨t, upd_same _ _ _⟩)
      all_goals (clear hthr thr; dsimp only; grind [upd, PC.isI, PC.isE])
  · simp at e

theorem inv_init_step {T P : Nat} {proc : Nat → Nat} {s s' : St} {t : Nat} (ht : t < T) (hp : proc t < P)
    (inv : Inv T P proc s) (hok : Calm proc s (.init t)) (e : step false proc (.init t) s = some s') : Inv T P proc s' := by
  simp only [step] at e
  split at e
  · rename_i hpc
    simp only [Calm] at hok
    have hz : s.threads (proc t) = 0 → ∀ t', proc t' = proc t → w s t' = 0 := fun h0 t' h => thr_zero inv (by rw [h]; exact h0)
    have hz : s.threads (proc t) = 0 → ∀ t', proc t' = proc t → (s.pc t').isI = false ∧ s.depth t' = 0 := by
      intro h0 t' h
      have := hz h0 t' h
      cases hpt : s.pc t' <;> simp [w, hpt, PC.isI] at this ⊢ <;> omega
    have hthr := thr_upd (s' := s') ht inv (by
      intro t' h; have e := Option.some.inj e; subst e; simp [w, upd, h])
    have e := Option.some.inj e
    subst e
    obtain ⟨out, pr, thr, excl, uniqI, uniqE, ini, dep, eThr, i1, i2, i3, e1, e2, e3, norm, cnt, last, alive, oneLast, cb⟩ := inv
    by_cases h0 : s.threads (proc t) = 0
    · simp only [h0, if_true] at hthr ⊢
      have hok := hok h0
      have hz := hz h0
      constructor
      case thr =>
        intro p; have := hthr p
        by_cases h : proc t = p <;> simp [h, w, upd, hpc] at this ⊢
        · subst h; omega
        · rw [if_neg (by omega)]; omega
      case cnt => exact cnt
      case norm =>
        intro p hy
        by_cases h : p = proc t
        · subst h
          have := hy t rfl; simp [upd_same, PC.isI, PC.isE] at this
        · have := norm p (norm_frame h hy)
          clear hthr thr
          dsimp only; grind [upd]
      case alive => intro hl; exact alive_frame (by simp [hpc]) (by simp [hpc]) (alive hl)
      all_goals (clear hthr thr; dsimp only; grind [upd, PC.isI, PC.isE])
    · simp only [h0, if_false] at hthr ⊢
      clear hok hz
      constructor
      case thr =>
        intro p; have := hthr p
        by_cases h : proc t = p <;> simp [h, w, upd, hpc] at this ⊢
        · subst h; omega
        · rw [if_neg (by omega)]; omega
      case cnt => exact cnt
      case norm =>
        intro p hy
        by_cases h : p = proc t
        · subst h
          have := norm _ (norm_own (by simp [hpc, PC.isI, PC.isE]) hy); dsimp only; grind [upd]
        · have := norm p (norm_frame h hy)
          clear hthr thr
          dsimp only; grind [upd]
      case alive => intro hl; exact alive_frame (by simp [hpc]) (by simp [hpc]) (alive hl)
      all_goals (clear hthr thr; dsimp only; grind [upd, PC.isI, PC.isE])
  · simp at e

theorem inv_exit_step {T P : Nat} {proc : Nat → Nat} {s s' : St} {t : Nat} (ht : t < T) (hp : proc t < P)
    (inv : Inv T P proc s) (hok : Calm proc s (.exit t)) (e : step false proc (.exit t) s = some s') : Inv T P proc s' := by
  simp only [step] at e
  split at e
  · rename_i hpc
    obtain ⟨hpc, hd⟩ := hpc
    simp only [Calm] at hok
    have hge := thr_ge inv ht
    have hge : s.depth t ≤ s.threads (proc t) := by simp [w, hpc] at hge; omega
    have hin : s.inited (proc t) = true := by
      cases h : s.inited (proc t) with
      | true => rfl
      | false => have := inv.dep t h; omega
    have hnoI : ∀ t', proc t' = proc t → (s.pc t').isI = false := by
      intro t' h
      cases hi : (s.pc t').isI with
      | false => rfl
      | true => have := inv.ini t' hi; rw [h, hin] at this; cases this
    have hnoE : ∀ t', proc t' = proc t → (s.pc t').isE = false := by
      intro t' h
      cases hi : (s.pc t').isE with
      | false => rfl
      | true => have := inv.eThr t' hi; rw [h] at this; omega
    have hnm := inv.norm (proc t) (fun t' h => ⟨hnoI t' h, hnoE t' h⟩)
    have hthr := thr_upd (s' := s') ht inv (by
      intro t' h; have e := Option.some.inj e; subst e; simp [w, upd, h])
    have e := Option.some.inj e
    subst e
    obtain ⟨out, pr, thr, excl, uniqI, uniqE, ini, dep, eThr, i1, i2, i3, e1, e2, e3, norm, cnt, last, alive, oneLast, cb⟩ := inv
    by_cases h0 : s.threads (proc t) = 1
    · simp only [h0, if_true] at hthr ⊢
      have hok := hok h0
      constructor
      case thr =>
        intro p; have := hthr p
        by_cases h : proc t = p <;> simp [h, w, upd, hpc] at this ⊢
        · subst h; omega
        · rw [if_neg (by omega)]; omega
      case cnt => exact cnt
      case norm =>
        intro p hy
        by_cases h : p = proc t
        · subst h
          have := hy t rfl; simp [upd_same, PC.isI, PC.isE] at this
        · have := norm p (norm_frame h hy)
          clear hthr thr
          dsimp only; grind [upd]
      all_goals (clear hthr thr; dsimp only; grind [upd, PC.isI, PC.isE])
    · simp only [h0, if_false] at hthr ⊢
      clear hok
      constructor
      case thr =>
        intro p; have := hthr p
        by_cases h : proc t = p <;> simp [h, w, upd, hpc] at this ⊢
        · subst h; omega
        · rw [if_neg (by omega)]; omega
      case cnt => exact cnt
      case norm =>
        intro p hy
        by_cases h : p = proc t
        · subst h
          dsimp only; grind [upd]
        · have := norm p (norm_frame h hy)
          clear hthr thr
          dsimp only; grind [upd]
      all_goals (clear hthr thr; dsimp only; grind [upd, PC.isI, PC.isE])
  · simp at e

theorem inv_of_reach {T P : Nat} {proc : Nat → Nat} {s : St} (h : Reach false T P proc (Calm proc) s) : Inv T P proc s := by
  induction h with
  | init => exact inv_init T P proc
  | @step s s' a _ ht hp hok e ih =>
    cases a with
    | init t => exact inv_init_step ht hp ih hok e
    | map t => exact inv_map ht hp ih e
    | join t => exact inv_join ht hp ih e
    | ready t => exact inv_ready ht hp ih e
    | wait t => exact inv_wait ht hp ih e
    | exit t => exact inv_exit_step ht hp ih hok e
    | leave t => exact inv_leave ht hp ih e
    | unmap t => exact inv_unmap ht hp ih e
    | unlink t => exact inv_unlink ht hp ih e
    | api t => exact hok.elim

/-! ## The property -/

/-- **C43** (partial) In every calm history of any number of processes and callers: whoever is between its
`arax_init` and `arax_exit` is mapped to the segment that the name refers to ("until then it stays", and all
users share one segment); and when everybody has exited as often as initialised, the segment is gone
("the last user cleans up").  Missing (each shown false below): API calls that use `arax_ptr_valid`
(`C43_violated_api`), an initialisation that overlaps a final exit (`C43_violated_race`), a process that
initialises again after a final exit (`C43_violated_reinit`), a `shm_file` with an absolute path (`C43_violated_path`). -/
theorem C43_lifetime_partial {T P : Nat} {proc : Nat → Nat} {s : St} (h : Reach false T P proc (Calm proc) s) :
    (∀ t, Uses s t → ∃ g, s.attached (proc t) = some g ∧ s.linked = some g) ∧ (Quiet s → s.linked = none) := by
  have inv := inv_of_reach h
  constructor
  · intro t hu
    unfold Uses at hu
    have ht : t < T := by
      rcases Nat.lt_or_ge t T with h | h
      · exact h
      · have := (inv.out t h).2; omega
    have hge := thr_ge inv ht
    have hpos : 0 < s.threads (proc t) := by unfold w at hge; omega
    have hin : s.inited (proc t) = true := by
      cases hi : s.inited (proc t) with
      | true => rfl
      | false => have := inv.dep t hi; omega
    have hno : ∀ t', proc t' = proc t → (s.pc t').isI = false ∧ (s.pc t').isE = false := by
      intro t' ht'
      constructor
      · cases hi : (s.pc t').isI with
        | false => rfl
        | true => have := inv.ini t' hi; rw [ht', hin] at this; cases this
      · cases hi : (s.pc t').isE with
        | false => rfl
        | true => have := inv.eThr t' hi; rw [ht'] at this; omega
    have := (inv.norm (proc t) hno).1 hpos
    cases hl : s.linked with
    | none => exact absurd hl this.2.2
    | some g => exact ⟨g, by rw [this.2.1, hl], rfl⟩
  · intro hq
    cases hl : s.linked with
    | none => rfl
    | some g =>
      exfalso
      have hthr : ∀ p, s.threads p = 0 := by
        intro p
        rw [inv.thr p]
        apply sumTo_zero
        intro t _
        simp [w, (hq t).1, (hq t).2]
      rcases inv.alive (by rw [hl]; simp) with ⟨p, hp⟩ | ⟨t, ht⟩ | ⟨t, ht⟩
      · have := ((inv.norm p (fun t _ => by simp [(hq t).1, PC.isI, PC.isE])).2 (hthr p)).1
        rw [hp] at this; cases this
      · rw [(hq t).1] at ht; simp at ht
      · rw [(hq t).1] at ht; simp at ht

/-- The segment is only unlinked when nobody uses it. -/
theorem C43_unlink_only_unused_partial {T P : Nat} {proc : Nat → Nat} {s s' : St} {t : Nat} (h : Reach false T P proc (Calm proc) s)
    (ht : t < T) (hp : proc t < P) (e : step false proc (.unlink t) s = some s') : ∀ t', ¬ Uses s t' := by
  have h' := Reach.step (a := .unlink t) h ht hp trivial e
  intro t' hu
  simp only [step] at e
  split at e
  · have e := Option.some.inj e
    subst e
    obtain ⟨g, -, hg⟩ := (C43_lifetime_partial h').1 t' hu
    simp at hg
  · simp at e

/-! ## Runs for witnesses -/

/-- Execute a list of steps that all satisfy `ok`. -/
def runIf (abs : Bool) (proc : Nat → Nat) (ok : St → Act → Bool) : List Act → St → Option St
  | [], s => some s
  | a :: as, s => if ok s a then (step abs proc a s).bind (runIf abs proc ok as) else none

theorem reach_runIf {abs : Bool} {T P : Nat} {proc : Nat → Nat} {okb : St → Act → Bool} {ok : St → Act → Prop}
    (hok : ∀ s a, okb s a = true → ok s a) : ∀ (as : List Act) (s s' : St), (∀ a ∈ as, a.caller < T ∧ proc a.caller < P) →
    Reach abs T P proc ok s → runIf abs proc okb as s = some s' → Reach abs T P proc ok s' := by
  intro as
  induction as with
  | nil => intro s s' _ h e; simp only [runIf] at e; have e := Option.some.inj e; subst e; exact h
  | cons a as ih =>
    intro s s' hb h e
    simp only [runIf] at e
    split at e
    · rename_i ho
      cases hs : step abs proc a s with
      | none => rw [hs] at e; simp at e
      | some s1 =>
        rw [hs] at e
        exact ih s1 s' (fun a ha => hb a (List.mem_cons_of_mem _ ha))
          (Reach.step h (hb a List.mem_cons_self).1 (hb a List.mem_cons_self).2 (hok _ _ ho) hs) e
    · simp at e

/-- Callers that never act stay idle. -/
theorem idle_outside {abs : Bool} {T P : Nat} {proc : Nat → Nat} {ok : St → Act → Prop} {s : St} (h : Reach abs T P proc ok s) :
    ∀ t, T ≤ t → s.pc t = .idle ∧ s.depth t = 0 := by
  induction h with
  | init => intro t _; exact ⟨rfl, rfl⟩
  | @step s s' a _ ht _ _ e ih =>
    intro t hT
    have := ih t hT
    have hne : t ≠ a.caller := by omega
    cases a <;> simp only [step, Act.caller] at e hne <;> (repeat' split at e) <;>
      (first | (simp at e; done) | (have e := Option.some.inj e; subst e; simp [upd, hne, this]))

/-- All steps except the leaking API calls. -/
def noApi (_ : St) : Act → Prop
  | .api _ => False
  | _ => True
def noApiB (_ : St) : Act → Bool
  | .api _ => false
  | _ => true

theorem noApiB_ok : ∀ s a, noApiB s a = true → noApi s a := by
  intro s a h; cases a <;> simp [noApiB, noApi] at *

/-- What the witnesses look at. -/
def view (s : St) (t : Nat) : Bool × Nat × Bool × Bool :=
  (decide (s.pc t = .idle), s.depth t, s.linked.isSome, (s.attached 0).isSome)

theorem quiet_of_view {T P : Nat} {abs : Bool} {proc : Nat → Nat} {ok : St → Act → Prop} {s : St} (h : Reach abs T P proc ok s)
    (hv : ∀ t, t < T → (decide (s.pc t = .idle) = true ∧ s.depth t = 0)) : Quiet s := by
  intro t
  by_cases ht : t < T
  · have := hv t ht; exact ⟨of_decide_eq_true this.1, this.2⟩
  · exact idle_outside h t (by omega)

/-- One full session of caller 0. -/
def session (t : Nat) : List Act := [.init t, .map t, .join t, .ready t]
def fullExit (t : Nat) : List Act := [.exit t, .leave t, .unmap t, .unlink t]

/-- **C43 is violated by the code** (API calls): one process initialises, calls `arax_data_ref` once, exits. Everybody is done, the
segment is still there: `arax_ptr_valid` called `arax_init` without `arax_exit`. -/
theorem C43_violated_api : ∃ s, Reach false 1 1 (fun _ => 0) (fun _ _ => True) s ∧ Quiet s ∧ s.linked ≠ none := by
  have hrun : ((runIf false (fun _ => 0) (fun _ _ => true) (session 0 ++ [.api 0, .exit 0]) init0).map (fun s => view s 0))
      = some (true, 0, true, true) := by decide +kernel
  cases hs : runIf false (fun _ => 0) (fun _ _ => true) (session 0 ++ [.api 0, .exit 0]) init0 with
  | none => rw [hs] at hrun; simp at hrun
  | some s =>
    rw [hs] at hrun
    simp only [Option.map_some, view, Option.some.injEq, Prod.mk.injEq] at hrun
    have hr := reach_runIf (T := 1) (P := 1) (ok := fun _ _ => True) (fun _ _ _ => trivial) _ _ _
      (by intro a ha; simp [session] at ha; rcases ha with h | h | h | h | h | h <;> subst h <;> simp [Act.caller]) .init hs
    refine ⟨s, hr, quiet_of_view hr ?_, ?_⟩
    · intro t ht
      have : t = 0 := by omega
      subst this; exact ⟨hrun.1, hrun.2.1⟩
    · intro hl; have := hrun.2.2.1; rw [hl] at this; simp at this

/-- **C43 is violated by the code** (race): while process 0 is in its final `arax_exit` (it already found itself last),
process 1 initialises; then process 0 unlinks the segment process 1 is using. No leaking API call is involved. -/
theorem C43_violated_race : ∃ s, Reach false 2 2 id noApi s ∧ s.pc 1 = .idle ∧ Uses s 1 ∧ s.linked = none := by
  have hrun : ((runIf false id noApiB (session 0 ++ [.exit 0, .leave 0] ++ session 1 ++ [.unmap 0, .unlink 0]) init0).map (fun s => view s 1))
      = some (true, 1, false, false) := by decide +kernel
  cases hs : runIf false id noApiB (session 0 ++ [.exit 0, .leave 0] ++ session 1 ++ [.unmap 0, .unlink 0]) init0 with
  | none => rw [hs] at hrun; simp at hrun
  | some s =>
    rw [hs] at hrun
    simp only [Option.map_some, view, Option.some.injEq, Prod.mk.injEq] at hrun
    have hr := reach_runIf (T := 2) (P := 2) (ok := noApi) noApiB_ok _ _ _
      (by intro a ha; simp [session] at ha
          rcases ha with h | h | h | h | h | h | h | h | h | h | h | h <;> subst h <;> simp [Act.caller]) .init hs
    refine ⟨s, hr, of_decide_eq_true hrun.1, ?_, ?_⟩
    · unfold Uses; rw [hrun.2.1]; decide
    · have := hrun.2.2.1
      cases hl : s.linked with
      | none => rfl
      | some g => rw [hl] at this; simp at this

/-- **C43 is violated by the code** (second initialisation): a process that has exited initialises again with two threads. The second
thread returns from `arax_init` at once, because `initialized` was never reset, before the first one has
mapped the segment. -/
theorem C43_violated_reinit : ∃ s, Reach false 2 1 (fun _ => 0) noApi s ∧ s.pc 1 = .idle ∧ Uses s 1 ∧ s.attached 0 = none := by
  have hrun : ((runIf false (fun _ => 0) noApiB (session 0 ++ fullExit 0 ++ [.init 0, .init 1, .wait 1]) init0).map (fun s => view s 1))
      = some (true, 1, false, false) := by decide +kernel
  cases hs : runIf false (fun _ => 0) noApiB (session 0 ++ fullExit 0 ++ [.init 0, .init 1, .wait 1]) init0 with
  | none => rw [hs] at hrun; simp at hrun
  | some s =>
    rw [hs] at hrun
    simp only [Option.map_some, view, Option.some.injEq, Prod.mk.injEq] at hrun
    have hr := reach_runIf (T := 2) (P := 1) (ok := noApi) noApiB_ok _ _ _
      (by intro a ha; simp [session, fullExit] at ha
          rcases ha with h | h | h | h | h | h | h | h | h | h | h <;> subst h <;> simp [Act.caller]) .init hs
    refine ⟨s, hr, of_decide_eq_true hrun.1, ?_, ?_⟩
    · unfold Uses; rw [hrun.2.1]; decide
    · have := hrun.2.2.2
      cases hl : s.attached 0 with
      | none => rfl
      | some g => rw [hl] at this; simp at this

/-- **C43 is violated by the code** (absolute path): with `shm_file /path`, one session in a row leaves the segment file behind: it is
created with `open` and removed with `shm_unlink`. -/
theorem C43_violated_path : ∃ s, Reach true 1 1 (fun _ => 0) noApi s ∧ Quiet s ∧ s.linked ≠ none := by
  have hrun : ((runIf true (fun _ => 0) noApiB (session 0 ++ fullExit 0) init0).map (fun s => view s 0))
      = some (true, 0, true, false) := by decide +kernel
  cases hs : runIf true (fun _ => 0) noApiB (session 0 ++ fullExit 0) init0 with
  | none => rw [hs] at hrun; simp at hrun
  | some s =>
    rw [hs] at hrun
    simp only [Option.map_some, view, Option.some.injEq, Prod.mk.injEq] at hrun
    have hr := reach_runIf (T := 1) (P := 1) (ok := noApi) noApiB_ok _ _ _
      (by intro a ha; simp [session, fullExit] at ha
          rcases ha with h | h | h | h | h | h | h | h <;> subst h <;> simp [Act.caller]) .init hs
    refine ⟨s, hr, quiet_of_view hr ?_, ?_⟩
    · intro t ht
      have : t = 0 := by omega
      subst this; exact ⟨hrun.1, hrun.2.1⟩
    · intro hl; have := hrun.2.2.1; rw [hl] at this; simp at this

/-- `Calm` checked on callers 0, 1, 2. -/
def calm3 (proc : Nat → Nat) (s : St) : Act → Bool
  | .api _ => false
  | .init t => decide (s.threads (proc t) = 0 → ((s.pc 0).isE = false ∧ (s.pc 1).isE = false ∧ (s.pc 2).isE = false) ∧ s.inited (proc t) = false)
  | .exit t => decide (s.threads (proc t) = 1 → (s.pc 0).isI = false ∧ (s.pc 1).isI = false ∧ (s.pc 2).isI = false)
  | _ => true

/-- A run checked with `calm3` is calm. -/
theorem reach_calm3 {proc : Nat → Nat} {P : Nat} : ∀ (as : List Act) (s s' : St), (∀ a ∈ as, a.caller < 3 ∧ proc a.caller < P) →
    Reach false 3 P proc (Calm proc) s → runIf false proc (calm3 proc) as s = some s' → Reach false 3 P proc (Calm proc) s' := by
  intro as
  induction as with
  | nil => intro s s' _ h e; simp only [runIf] at e; have e := Option.some.inj e; subst e; exact h
  | cons a as ih =>
    intro s s' hb h e
    simp only [runIf] at e
    split at e
    · rename_i ho
      cases hs : step false proc a s with
      | none => rw [hs] at e; simp at e
      | some s1 =>
        rw [hs] at e
        refine ih s1 s' (fun a ha => hb a (List.mem_cons_of_mem _ ha))
          (Reach.step h (hb a List.mem_cons_self).1 (hb a List.mem_cons_self).2 ?_ hs) e
        have out := idle_outside h
        cases a <;> simp [calm3, Calm] at ho ⊢
        · intro h0
          have := ho.resolve_left (not_not_intro h0)
          refine ⟨?_, this.2⟩
          intro t'
          by_cases h3 : t' < 3
          · have : t' = 0 ∨ t' = 1 ∨ t' = 2 := by omega
            rcases this with rfl | rfl | rfl <;> simp_all
          · rw [(out t' (by omega)).1]; rfl
        · intro h0 t'
          have := ho.resolve_left (not_not_intro h0)
          by_cases h3 : t' < 3
          · have : t' = 0 ∨ t' = 1 ∨ t' = 2 := by omega
            rcases this with rfl | rfl | rfl <;> simp_all
          · rw [(out t' (by omega)).1]; rfl
    · simp at e

/-- Non-vacuity: two processes, three callers (0 and 1 in process 0, 2 in process 1) overlap their initialisations;
process 0 exits completely; caller 2 still uses the segment. -/
example : ∃ s, Reach false 3 2 (fun t => t / 2) (Calm (fun t => t / 2)) s ∧ Uses s 2 ∧ s.linked ≠ none ∧ ¬ Uses s 0 := by
  have hrun : ((runIf false (fun t => t / 2) (calm3 (fun t => t / 2)) [.init 0, .init 1, .init 2, .map 0, .map 2, .join 2, .join 0, .ready 0,
      .wait 1, .ready 2, .exit 0, .exit 1, .leave 1, .unmap 1] init0).map (fun s => (view s 2, s.depth 0)))
      = some ((true, 1, true, false), 0) := by decide +kernel
  cases hs : runIf false (fun t => t / 2) (calm3 (fun t => t / 2)) [.init 0, .init 1, .init 2, .map 0, .map 2, .join 2, .join 0, .ready 0,
      .wait 1, .ready 2, .exit 0, .exit 1, .leave 1, .unmap 1] init0 with
  | none => rw [hs] at hrun; simp at hrun
  | some s =>
    rw [hs] at hrun
    simp only [Option.map_some, view, Option.some.injEq, Prod.mk.injEq] at hrun
    have hr := reach_calm3 (P := 2) _ _ _ (by
      intro a ha; simp at ha
      rcases ha with h | h | h | h | h | h | h | h | h | h | h | h | h | h <;> subst h <;> simp [Act.caller]) .init hs
    refine ⟨s, hr, ?_, ?_, ?_⟩
    · unfold Uses; rw [hrun.1.2.1]; decide
    · intro hl; have := hrun.1.2.2.1; rw [hl] at this; simp at this
    · unfold Uses; rw [hrun.2]; decide

end Arax.Life
