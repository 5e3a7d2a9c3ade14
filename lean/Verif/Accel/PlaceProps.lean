import Verif.Accel.Place
/-! # C34: a virtual accelerator is in exactly one place -/
namespace Arax.Accel.Place

theorem upd_same {α : Type} (f : Nat → α) (i : Nat) (x : α) : upd f i x i = x := by simp [upd]
theorem upd_ne {α : Type} (f : Nat → α) (i j : Nat) (x : α) (h : j ≠ i) : upd f i x j = f j := by simp [upd, h]

/-- Nobody is doing anything with `v`. -/
def Untouched (s : St) (v : Nat) : Prop := ∀ t, ¬ Touches s t v

/-- The discipline under which the property holds: while a thread is moving a virtual accelerator, no other thread starts to move or release the same one;
arax_accel_set_physical is called on an orphan (or on one assigned there already); removal is of an assigned one; nothing is used after its release. -/
def OneMover (s : St) (_ : Nat) : Ev → Prop
  | .setPhys v a => s.live v = true ∧ (s.phys v = some a ∨ v ∈ s.orphans ∧ Untouched s v)
  | .pop => ∀ v r, s.orphans = v :: r → Untouched s v
  | .delCheck v => s.live v = true ∧ s.phys v ≠ none ∧ Untouched s v
  | .release v => s.live v = true ∧ Untouched s v
  | _ => True

/-- The virtual accelerator a program counter is about. -/
def about : PC → Option Nat
  | .idle => none
  | .has v => some v
  | .addRm v _ => some v
  | .addDo v _ => some v
  | .delDo v _ => some v

theorem touches_iff (s : St) (t v : Nat) : Touches s t v ↔ about (s.pc t) = some v := by
  unfold Touches
  cases s.pc t <;> simp [about]

/-- Only thread `t` is about `v`, at `c`. -/
def Only (s : St) (v t : Nat) (c : PC) : Prop := s.pc t = c ∧ ∀ t', about (s.pc t') = some v → t' = t
def Nobody (s : St) (v : Nat) : Prop := ∀ t, about (s.pc t) ≠ some v

theorem untouched_iff (s : St) (v : Nat) : Untouched s v ↔ Nobody s v := by
  unfold Untouched Nobody; simp only [touches_iff]

/-- `v` is in no list. -/
def Nowhere (s : St) (v : Nat) : Prop := s.orphans.count v = 0 ∧ ∀ a, (s.acc a).count v = 0
def AsOrphan (s : St) (v : Nat) : Prop := s.live v = true ∧ s.orphans.count v = 1 ∧ (∀ a, (s.acc a).count v = 0) ∧ s.phys v = none
def AsAssigned (na : Nat) (s : St) (v a : Nat) : Prop :=
  s.live v = true ∧ s.orphans.count v = 0 ∧ (s.acc a).count v = 1 ∧ (∀ b, b ≠ a → (s.acc b).count v = 0) ∧ s.phys v = some a ∧ a < na
def Loose (s : St) (v : Nat) : Prop := s.live v = true ∧ Nowhere s v ∧ s.phys v = none

/-- The possible situations of one virtual accelerator. -/
inductive VOk (na : Nat) (s : St) (v : Nat) : Prop where
  | gone : s.live v = false → Nowhere s v → Nobody s v → VOk na s v
  | orphan : AsOrphan s v → Nobody s v → VOk na s v
  | orphanRm (t a : Nat) : AsOrphan s v → a < na → Only s v t (.addRm v a) → VOk na s v
  | has (t : Nat) : Loose s v → Only s v t (.has v) → VOk na s v
  | looseRm (t a : Nat) : Loose s v → a < na → Only s v t (.addRm v a) → VOk na s v
  | looseDo (t a : Nat) : Loose s v → a < na → Only s v t (.addDo v a) → VOk na s v
  | assigned (a : Nat) : AsAssigned na s v a → Nobody s v → VOk na s v
  | delDo (t a : Nat) : AsAssigned na s v a → Only s v t (.delDo v a) → VOk na s v

structure Inv (na : Nat) (s : St) : Prop where
  ok : ∀ v, VOk na s v
  used : ∀ v, s.live v = true → s.used v = true

theorem inv_init (na : Nat) : Inv na init where
  ok := fun v => .gone rfl ⟨rfl, fun _ => rfl⟩ (by intro t h; cases h)
  used := by intro v h; cases h

/-- Nothing about `v` changes. -/
structure Same (s s' : St) (v : Nat) : Prop where
  live : s'.live v = s.live v
  phys : s'.phys v = s.phys v
  orph : s'.orphans.count v = s.orphans.count v
  acc : ∀ a, (s'.acc a).count v = (s.acc a).count v
  pc : ∀ t, (about (s'.pc t) = some v ↔ about (s.pc t) = some v) ∧ (about (s.pc t) = some v → s'.pc t = s.pc t)

theorem Same.only {s s' : St} {v t : Nat} {c : PC} (h : Same s s' v) (hc : about c = some v) (ho : Only s v t c) : Only s' v t c := by
  refine ⟨?_, fun t' ht' => ho.2 t' ((h.pc t').1.1 ht')⟩
  rw [(h.pc t).2 (by rw [ho.1, hc]), ho.1]

theorem Same.nobody {s s' : St} {v : Nat} (h : Same s s' v) (ho : Nobody s v) : Nobody s' v :=
  fun t ht => ho t ((h.pc t).1.1 ht)

theorem Same.ok {na : Nat} {s s' : St} {v : Nat} (h : Same s s' v) (ho : VOk na s v) : VOk na s' v := by
  have hn : Nowhere s v → Nowhere s' v := fun hn => ⟨by rw [h.orph]; exact hn.1, fun a => by rw [h.acc]; exact hn.2 a⟩
  have hl : Loose s v → Loose s' v := fun hl => ⟨by rw [h.live]; exact hl.1, hn hl.2.1, by rw [h.phys]; exact hl.2.2⟩
  have hao : AsOrphan s v → AsOrphan s' v := fun hl =>
    ⟨by rw [h.live]; exact hl.1, by rw [h.orph]; exact hl.2.1, fun a => by rw [h.acc]; exact hl.2.2.1 a, by rw [h.phys]; exact hl.2.2.2⟩
  have haa : ∀ a, AsAssigned na s v a → AsAssigned na s' v a := fun a hl =>
    ⟨by rw [h.live]; exact hl.1, by rw [h.orph]; exact hl.2.1, by rw [h.acc]; exact hl.2.2.1, fun b hb => by rw [h.acc]; exact hl.2.2.2.1 b hb,
      by rw [h.phys]; exact hl.2.2.2.2.1, hl.2.2.2.2.2⟩
  cases ho with
  | gone h1 h2 h3 => exact .gone (by rw [h.live]; exact h1) (hn h2) (h.nobody h3)
  | orphan h1 h2 => exact .orphan (hao h1) (h.nobody h2)
  | orphanRm t a h1 h2 h3 => exact .orphanRm t a (hao h1) h2 (h.only rfl h3)
  | has t h1 h2 => exact .has t (hl h1) (h.only rfl h2)
  | looseRm t a h1 h2 h3 => exact .looseRm t a (hl h1) h2 (h.only rfl h3)
  | looseDo t a h1 h2 h3 => exact .looseDo t a (hl h1) h2 (h.only rfl h3)
  | assigned a h1 h2 => exact .assigned a (haa a h1) (h.nobody h2)
  | delDo t a h1 h2 => exact .delDo t a (haa a h1) (h.only rfl h2)

theorem VOk.keep {na : Nat} {s s' : St} {v : Nat} (ho : VOk na s v) (h : Same s s' v) : VOk na s' v := h.ok ho

/-- A step of `t` about `v0` only. -/
theorem same_goto {s s' : St} {t v0 : Nat} {c : PC} (hc : about c = some v0 ∨ c = .idle) (ho : about (s.pc t) = some v0 ∨ s.pc t = .idle)
    (hpc : s'.pc = upd s.pc t c) {v : Nat} (hv : v ≠ v0) (h1 : s'.live v = s.live v) (h2 : s'.phys v = s.phys v)
    (h3 : s'.orphans.count v = s.orphans.count v) (h4 : ∀ a, (s'.acc a).count v = (s.acc a).count v) : Same s s' v := by
  refine ⟨h1, h2, h3, h4, ?_⟩
  intro t'
  rw [hpc]
  by_cases e : t' = t
  · subst e
    rw [upd_same]
    have n1 : about c ≠ some v := by
      rcases hc with hc | hc <;> rw [hc]
      · intro hx; cases hx; exact hv rfl
      · intro hx; cases hx
    have n2 : about (s.pc t') ≠ some v := by
      rcases ho with hc | hc <;> rw [hc]
      · intro hx; cases hx; exact hv rfl
      · intro hx; cases hx
    exact ⟨⟨fun h => absurd h n1, fun h => absurd h n2⟩, fun h => absurd h n2⟩
  · rw [upd_ne _ _ _ _ e]; exact ⟨Iff.rfl, fun _ => rfl⟩

theorem only_goto {s s' : St} {t v : Nat} {c : PC} (hpc : s'.pc = upd s.pc t c) (h : ∀ t', about (s.pc t') = some v → t' = t) : Only s' v t c := by
  refine ⟨by rw [hpc, upd_same], ?_⟩
  intro t' ht'
  by_cases e : t' = t
  · exact e
  · rw [hpc, upd_ne _ _ _ _ e] at ht'; exact h t' ht'

theorem nobody_goto {s s' : St} {t v : Nat} {c : PC} (hc : about c ≠ some v) (hpc : s'.pc = upd s.pc t c) (h : ∀ t', about (s.pc t') = some v → t' = t) :
    Nobody s' v := by
  intro t' ht'
  by_cases e : t' = t
  · subst e; rw [hpc, upd_same] at ht'; exact hc ht'
  · rw [hpc, upd_ne _ _ _ _ e] at ht'; exact e (h t' ht')

theorem count_cons_ne' {l : List Nat} {v w : Nat} (h : w ≠ v) : (v :: l).count w = l.count w := by
  rw [List.count_cons_of_ne]; exact fun hc => h hc.symm
theorem count_erase_ne {l : List Nat} {v w : Nat} (h : w ≠ v) : (l.erase v).count w = l.count w := by
  rw [List.count_erase_of_ne h]

theorem linked_iff {na : Nat} {s : St} {v : Nat} : linked na s v = true ↔ 0 < s.orphans.count v ∨ ∃ a, a < na ∧ 0 < (s.acc a).count v := by
  simp [linked, List.count_pos_iff]

/-- In `has`/`addRm`/`addDo`/`delDo`, the situation of the virtual accelerator the thread is about. -/
theorem ok_about {na : Nat} {s : St} {t v : Nat} (h : VOk na s v) (ht : about (s.pc t) = some v) :
    (Loose s v ∧ Only s v t (.has v)) ∨ (∃ a, (AsOrphan s v ∨ Loose s v) ∧ a < na ∧ Only s v t (.addRm v a)) ∨
    (∃ a, Loose s v ∧ a < na ∧ Only s v t (.addDo v a)) ∨ (∃ a, AsAssigned na s v a ∧ Only s v t (.delDo v a)) := by
  cases h with
  | gone h1 h2 h3 => exact absurd ht (h3 t)
  | orphan h1 h2 => exact absurd ht (h2 t)
  | orphanRm t' a h1 h2 h3 => have := h3.2 t ht; subst this; exact .inr (.inl ⟨a, .inl h1, h2, h3⟩)
  | has t' h1 h2 => have := h2.2 t ht; subst this; exact .inl ⟨h1, h2⟩
  | looseRm t' a h1 h2 h3 => have := h3.2 t ht; subst this; exact .inr (.inl ⟨a, .inr h1, h2, h3⟩)
  | looseDo t' a h1 h2 h3 => have := h3.2 t ht; subst this; exact .inr (.inr (.inl ⟨a, h1, h2, h3⟩))
  | assigned a h1 h2 => exact absurd ht (h2 t)
  | delDo t' a h1 h2 => have := h2.2 t ht; subst this; exact .inr (.inr (.inr ⟨a, h1, h2⟩))

theorem ok_has {na : Nat} {s : St} {t v : Nat} (h : VOk na s v) (ht : s.pc t = .has v) : Loose s v ∧ Only s v t (.has v) := by
  rcases ok_about (t := t) h (by rw [ht]; rfl) with h1 | ⟨a, _, _, h1⟩ | ⟨a, _, _, h1⟩ | ⟨a, _, h1⟩
  · exact h1
  all_goals (have := h1.1; rw [ht] at this; cases this)

theorem ok_addRm {na : Nat} {s : St} {t v a : Nat} (h : VOk na s v) (ht : s.pc t = .addRm v a) :
    (AsOrphan s v ∨ Loose s v) ∧ a < na ∧ Only s v t (.addRm v a) := by
  rcases ok_about (t := t) h (by rw [ht]; rfl) with ⟨_, h1⟩ | ⟨a, h0, h0', h1⟩ | ⟨a, _, _, h1⟩ | ⟨a, _, h1⟩
  · have := h1.1; rw [ht] at this; cases this
  · have := h1.1; rw [ht] at this; cases this; exact ⟨h0, h0', h1⟩
  · have := h1.1; rw [ht] at this; cases this
  · have := h1.1; rw [ht] at this; cases this

theorem ok_addDo {na : Nat} {s : St} {t v a : Nat} (h : VOk na s v) (ht : s.pc t = .addDo v a) : Loose s v ∧ a < na ∧ Only s v t (.addDo v a) := by
  rcases ok_about (t := t) h (by rw [ht]; rfl) with ⟨_, h1⟩ | ⟨a, h0, h0', h1⟩ | ⟨a, h0, h0', h1⟩ | ⟨a, _, h1⟩
  · have := h1.1; rw [ht] at this; cases this
  · have := h1.1; rw [ht] at this; cases this
  · have := h1.1; rw [ht] at this; cases this; exact ⟨h0, h0', h1⟩
  · have := h1.1; rw [ht] at this; cases this

theorem ok_delDo {na : Nat} {s : St} {t v a : Nat} (h : VOk na s v) (ht : s.pc t = .delDo v a) : AsAssigned na s v a ∧ Only s v t (.delDo v a) := by
  rcases ok_about (t := t) h (by rw [ht]; rfl) with ⟨_, h1⟩ | ⟨a, h0, h0', h1⟩ | ⟨a, h0, h0', h1⟩ | ⟨a, h0, h1⟩
  · have := h1.1; rw [ht] at this; cases this
  · have := h1.1; rw [ht] at this; cases this
  · have := h1.1; rw [ht] at this; cases this
  · have := h1.1; rw [ht] at this; cases this; exact ⟨h0, h1⟩

/-- A live one nobody is about is an orphan or assigned. -/
theorem ok_free {na : Nat} {s : St} {v : Nat} (h : VOk na s v) (hl : s.live v = true) (hn : Nobody s v) : AsOrphan s v ∨ ∃ a, AsAssigned na s v a := by
  cases h with
  | gone h1 h2 h3 => rw [h1] at hl; cases hl
  | orphan h1 h2 => exact .inl h1
  | orphanRm t' a h1 h2 h3 => exact .inl h1
  | has t' h1 h2 => exact absurd (by rw [h2.1]; rfl) (hn t')
  | looseRm t' a h1 h2 h3 => exact absurd (by rw [h3.1]; rfl) (hn t')
  | looseDo t' a h1 h2 h3 => exact absurd (by rw [h3.1]; rfl) (hn t')
  | assigned a h1 h2 => exact .inr ⟨a, h1⟩
  | delDo t' a h1 h2 => exact .inr ⟨a, h1⟩

/-- Under the discipline every step succeeds (no assertion, no corruption) and keeps the invariant. -/
theorem inv_step {na : Nat} {s : St} {r : Res St} {t : Nat} {ev : Ev} (h : Inv na s) (hp : OneMover s t ev) (e : step na s t ev = some r) :
    ∃ s', r = .ok s' ∧ Inv na s' := by
  cases ev with
  | create v =>
    simp only [step] at e
    split at e
    · rename_i g
      obtain ⟨hpc, hu⟩ := g
      cases e
      refine ⟨_, rfl, ?_, ?_⟩
      · intro w
        by_cases c : w = v
        · subst c
          have hl : s.live w = false := by
            cases hb : s.live w with
            | false => rfl
            | true => have := h.used w hb; rw [hu] at this; cases this
          cases h.ok w with
          | gone h1 h2 h3 =>
            refine .has t ⟨upd_same _ _ _, h2, upd_same _ _ _⟩ (only_goto rfl ?_)
            intro t' ht'; exact absurd ht' (h3 t')
          | orphan h1 _ => rw [h1.1] at hl; cases hl
          | orphanRm _ _ h1 => rw [h1.1] at hl; cases hl
          | has _ h1 => rw [h1.1] at hl; cases hl
          | looseRm _ _ h1 => rw [h1.1] at hl; cases hl
          | looseDo _ _ h1 => rw [h1.1] at hl; cases hl
          | assigned _ h1 => rw [h1.1] at hl; cases hl
          | delDo _ _ h1 => rw [h1.1] at hl; cases hl
        · exact (h.ok w).keep (same_goto (v0 := v) (c := .has v) (t := t) (.inl rfl) (.inr hpc) rfl c (upd_ne _ _ _ _ c) (upd_ne _ _ _ _ c) rfl (fun _ => rfl))
      · intro w hl
        show upd s.used v true w = true
        by_cases c : w = v
        · subst c; rw [upd_same]
        · rw [upd_ne _ _ _ _ c]
          have hl' : upd s.live v true w = true := hl
          rw [upd_ne _ _ _ _ c] at hl'; exact h.used w hl'
    · cases e
  | orphan =>
    simp only [step] at e
    split at e
    · rename_i v hpc
      cases e
      obtain ⟨⟨h1, h2, h3⟩, h4⟩ := ok_has (h.ok v) hpc
      have hlk : linked na s v = false := by
        cases hb : linked na s v with
        | false => rfl
        | true =>
          rcases linked_iff.1 hb with hb | ⟨a, _, hb⟩
          · rw [h2.1] at hb; omega
          · rw [h2.2] at hb; omega
      rw [if_neg (by rw [h1]; decide), if_neg (by rw [h3]; simp), if_neg (by rw [hlk]; decide)]
      refine ⟨_, rfl, ?_, h.used⟩
      intro w
      by_cases c : w = v
      · subst c
        refine .orphan ⟨h1, ?_, h2.2, h3⟩ (nobody_goto (c := .idle) (by simp [about]) rfl h4.2)
        show (w :: s.orphans).count w = 1
        rw [List.count_cons_self, h2.1]
      · exact (h.ok w).keep (same_goto (v0 := v) (c := .idle) (t := t) (.inr rfl) (.inl (by rw [hpc]; rfl)) rfl c rfl rfl (count_cons_ne' c) (fun _ => rfl))
    · cases e
  | place a =>
    simp only [step] at e
    split at e
    · rename_i v hpc
      split at e
      · rename_i ha
        cases e
        obtain ⟨⟨h1, h2, h3⟩, h4⟩ := ok_has (h.ok v) hpc
        rw [addCheck, if_neg (by rw [h1]; decide), if_neg (by rw [h3]; simp), if_neg (by rw [h3]; simp)]
        refine ⟨_, rfl, ?_, h.used⟩
        intro w
        by_cases c : w = v
        · subst c
          exact .looseRm t a ⟨h1, h2, h3⟩ ha (only_goto rfl h4.2)
        · exact (h.ok w).keep (same_goto (v0 := v) (c := .addRm v a) (t := t) (.inl rfl) (.inl (by rw [hpc]; rfl)) rfl c rfl rfl rfl (fun _ => rfl))
      · cases e
    · cases e
  | setPhys v a =>
    simp only [step] at e
    split at e
    · rename_i g
      obtain ⟨hpc, ha⟩ := g
      cases e
      obtain ⟨hl, hq⟩ := hp
      rw [addCheck, if_neg (by rw [hl]; decide)]
      by_cases hpa : s.phys v = some a
      · rw [if_pos hpa]
        refine ⟨_, rfl, ?_, h.used⟩
        intro w
        refine (h.ok w).keep ⟨rfl, rfl, rfl, fun _ => rfl, ?_⟩
        intro t'
        have : (s.goto t .idle).pc t' = s.pc t' := by
          show upd s.pc t .idle t' = s.pc t'
          by_cases c : t' = t
          · subst c; rw [upd_same, hpc]
          · rw [upd_ne _ _ _ _ c]
        rw [this]; exact ⟨Iff.rfl, fun _ => rfl⟩
      · rcases hq with hq | ⟨hm, hun⟩
        · exact absurd hq hpa
        · rw [untouched_iff] at hun
          rcases ok_free (h.ok v) hl hun with ho | ⟨b, hb⟩
          · rw [if_neg hpa, if_neg (by rw [ho.2.2.2]; simp)]
            refine ⟨_, rfl, ?_, h.used⟩
            intro w
            by_cases c : w = v
            · subst c
              exact .orphanRm t a ho ha (only_goto rfl (fun t' ht' => absurd ht' (hun t')))
            · exact (h.ok w).keep (same_goto (v0 := v) (c := .addRm v a) (t := t) (.inl rfl) (.inr hpc) rfl c rfl rfl rfl (fun _ => rfl))
          · have := List.count_pos_iff.2 hm; rw [hb.2.1] at this; omega
    · cases e
  | rmOrphan =>
    simp only [step] at e
    split at e
    · rename_i v a hpc
      cases e
      obtain ⟨h0, ha, h4⟩ := ok_addRm (h.ok v) hpc
      rcases h0 with ⟨h1, h2, h2', h3⟩ | ⟨h1, h2, h3⟩
      · have hlk : linked na s v = true := linked_iff.2 (.inl (by omega))
        have hc : s.orphans.contains v = true := by
          simp only [List.contains_iff_mem]; exact List.count_pos_iff.1 (by omega)
        rw [if_neg (by rw [h1]; decide), if_neg (by rw [hlk]; decide), if_pos hc]
        refine ⟨_, rfl, ?_, h.used⟩
        intro w
        by_cases c : w = v
        · subst c
          refine .looseDo t a ⟨h1, ⟨?_, h2'⟩, h3⟩ ha (only_goto rfl h4.2)
          show (s.orphans.erase w).count w = 0
          rw [List.count_erase_self, h2]
        · exact (h.ok w).keep (same_goto (v0 := v) (c := .addDo v a) (t := t) (.inl rfl) (.inl (by rw [hpc]; rfl)) rfl c rfl rfl (count_erase_ne c) (fun _ => rfl))
      · have hlk : linked na s v = false := by
          cases hb : linked na s v with
          | false => rfl
          | true =>
            rcases linked_iff.1 hb with hb | ⟨a, _, hb⟩
            · rw [h2.1] at hb; omega
            · rw [h2.2] at hb; omega
        rw [if_neg (by rw [h1]; decide), if_pos hlk]
        refine ⟨_, rfl, ?_, h.used⟩
        intro w
        by_cases c : w = v
        · subst c
          exact .looseDo t a ⟨h1, h2, h3⟩ ha (only_goto rfl h4.2)
        · exact (h.ok w).keep (same_goto (v0 := v) (c := .addDo v a) (t := t) (.inl rfl) (.inl (by rw [hpc]; rfl)) rfl c rfl rfl rfl (fun _ => rfl))
    · cases e
  | addLocked =>
    simp only [step] at e
    split at e
    · rename_i v a hpc
      cases e
      obtain ⟨⟨h1, h2, h3⟩, ha, h4⟩ := ok_addDo (h.ok v) hpc
      have hlk : linked na s v = false := by
        cases hb : linked na s v with
        | false => rfl
        | true =>
          rcases linked_iff.1 hb with hb | ⟨a, _, hb⟩
          · rw [h2.1] at hb; omega
          · rw [h2.2] at hb; omega
      rw [if_neg (by rw [h1]; decide), if_neg (by rw [h3]; simp), if_neg (by rw [hlk]; decide)]
      refine ⟨_, rfl, ?_, h.used⟩
      intro w
      by_cases c : w = v
      · subst c
        refine .assigned a ⟨h1, h2.1, ?_, ?_, upd_same _ _ _, ha⟩ (nobody_goto (c := .idle) (by simp [about]) rfl h4.2)
        · show (upd s.acc a (w :: s.acc a) a).count w = 1
          rw [upd_same, List.count_cons_self, h2.2]
        · intro b hb
          show (upd s.acc a (w :: s.acc a) b).count w = 0
          rw [upd_ne _ _ _ _ hb, h2.2]
      · refine (h.ok w).keep (same_goto (v0 := v) (c := .idle) (t := t) (.inr rfl) (.inl (by rw [hpc]; rfl)) rfl c rfl (upd_ne _ _ _ _ c) rfl ?_)
        intro b
        show (upd s.acc a (v :: s.acc a) b).count w = _
        by_cases cb : b = a
        · subst cb; rw [upd_same, count_cons_ne' c]
        · rw [upd_ne _ _ _ _ cb]
    · cases e
  | pop =>
    simp only [step] at e
    split at e
    · rename_i hpc
      split at e
      · cases e
      · rename_i v r hor
        cases e
        have hun := hp v r hor
        rw [untouched_iff] at hun
        have hpos : 0 < s.orphans.count v := by rw [hor]; simp
        have ho : AsOrphan s v := by
          cases h.ok v with
          | gone h1 h2 h3 => rw [h2.1] at hpos; omega
          | orphan h1 _ => exact h1
          | orphanRm _ _ h1 => exact h1
          | has _ h1 => rw [h1.2.1.1] at hpos; omega
          | looseRm _ _ h1 => rw [h1.2.1.1] at hpos; omega
          | looseDo _ _ h1 => rw [h1.2.1.1] at hpos; omega
          | assigned _ h1 => rw [h1.2.1] at hpos; omega
          | delDo _ _ h1 => rw [h1.2.1] at hpos; omega
        obtain ⟨h1, h2, h2', h3⟩ := ho
        rw [if_neg (by rw [h1]; decide), if_neg (by rw [h3]; simp)]
        refine ⟨_, rfl, ?_, h.used⟩
        intro w
        by_cases c : w = v
        · subst c
          refine .has t ⟨h1, ⟨?_, h2'⟩, h3⟩ (only_goto rfl (fun t' ht' => absurd ht' (hun t')))
          rw [hor, List.count_cons_self] at h2
          show r.count w = 0
          omega
        · refine (h.ok w).keep (same_goto (v0 := v) (c := .has v) (t := t) (.inl rfl) (.inr hpc) rfl c rfl rfl ?_ (fun _ => rfl))
          show r.count w = s.orphans.count w
          rw [hor, count_cons_ne' c]
    · cases e
  | delCheck v =>
    simp only [step] at e
    split at e
    · rename_i hpc
      cases e
      obtain ⟨hl, hne, hun⟩ := hp
      rw [untouched_iff] at hun
      rw [if_neg (by rw [hl]; decide)]
      rcases ok_free (h.ok v) hl hun with ho | ⟨a, ha⟩
      · exact absurd ho.2.2.2 hne
      · simp only [ha.2.2.2.2.1]
        refine ⟨_, rfl, ?_, h.used⟩
        intro w
        by_cases c : w = v
        · subst c
          exact .delDo t a ha (only_goto rfl (fun t' ht' => absurd ht' (hun t')))
        · exact (h.ok w).keep (same_goto (v0 := v) (c := .delDo v a) (t := t) (.inl rfl) (.inr hpc) rfl c rfl rfl rfl (fun _ => rfl))
    · cases e
  | delLocked =>
    simp only [step] at e
    split at e
    · rename_i v a hpc
      cases e
      obtain ⟨⟨h1, h2, h3, h3', h5, h6⟩, h4⟩ := ok_delDo (h.ok v) hpc
      have hc : (s.acc a).contains v = true := by
        simp only [List.contains_iff_mem]; exact List.count_pos_iff.1 (by omega)
      rw [if_neg (by rw [h1]; decide), if_pos hc]
      refine ⟨_, rfl, ?_, h.used⟩
      intro w
      by_cases c : w = v
      · subst c
        refine .has t ⟨h1, ⟨h2, ?_⟩, upd_same _ _ _⟩ (only_goto rfl h4.2)
        intro b
        show (upd s.acc a ((s.acc a).erase w) b).count w = 0
        by_cases cb : b = a
        · subst cb; rw [upd_same, List.count_erase_self, h3]
        · rw [upd_ne _ _ _ _ cb]; exact h3' b cb
      · refine (h.ok w).keep (same_goto (v0 := v) (c := .has v) (t := t) (.inl rfl) (.inl (by rw [hpc]; rfl)) rfl c rfl (upd_ne _ _ _ _ c) rfl ?_)
        intro b
        show (upd s.acc a ((s.acc a).erase v) b).count w = _
        by_cases cb : b = a
        · subst cb; rw [upd_same, count_erase_ne c]
        · rw [upd_ne _ _ _ _ cb]
    · cases e
  | release v =>
    simp only [step] at e
    split at e
    · rename_i hpc
      cases e
      obtain ⟨hl, hun⟩ := hp
      rw [untouched_iff] at hun
      rw [if_neg (by rw [hl]; decide)]
      have hu : ∀ w, upd s.live v false w = true → s.used w = true := by
        intro w hw
        by_cases c : w = v
        · subst c; rw [upd_same] at hw; cases hw
        · rw [upd_ne _ _ _ _ c] at hw; exact h.used w hw
      rcases ok_free (h.ok v) hl hun with ho | ⟨a, h1, h2, h3, h3', h5, h6⟩
      · obtain ⟨h1, h2, h2', h3⟩ := ho
        have hlk : linked na s v = true := linked_iff.2 (.inl (by omega))
        have hc : s.orphans.contains v = true := by
          simp only [List.contains_iff_mem]; exact List.count_pos_iff.1 (by omega)
        simp only [h3]
        rw [if_neg (by rw [hlk]; decide), if_pos hc]
        refine ⟨_, rfl, ?_, hu⟩
        intro w
        by_cases c : w = v
        · subst c
          refine .gone (upd_same _ _ _) ⟨?_, h2'⟩ hun
          show (s.orphans.erase w).count w = 0
          rw [List.count_erase_self, h2]
        · exact (h.ok w).keep ⟨upd_ne _ _ _ _ c, rfl, count_erase_ne c, fun _ => rfl, fun _ => ⟨Iff.rfl, fun _ => rfl⟩⟩
      · have hc : (s.acc a).contains v = true := by
          simp only [List.contains_iff_mem]; exact List.count_pos_iff.1 (by omega)
        simp only [h5]
        rw [if_pos hc]
        refine ⟨_, rfl, ?_, hu⟩
        intro w
        by_cases c : w = v
        · subst c
          refine .gone (upd_same _ _ _) ⟨h2, ?_⟩ hun
          intro b
          show (upd s.acc a ((s.acc a).erase w) b).count w = 0
          by_cases cb : b = a
          · subst cb; rw [upd_same, List.count_erase_self, h3]
          · rw [upd_ne _ _ _ _ cb]; exact h3' b cb
        · refine (h.ok w).keep ⟨upd_ne _ _ _ _ c, upd_ne _ _ _ _ c, rfl, ?_, fun _ => ⟨Iff.rfl, fun _ => rfl⟩⟩
          intro b
          show (upd s.acc a ((s.acc a).erase v) b).count w = _
          by_cases cb : b = a
          · subst cb; rw [upd_same, count_erase_ne c]
          · rw [upd_ne _ _ _ _ cb]
    · cases e

theorem inv_reach {na : Nat} {s : St} (h : Reach na OneMover s) : Inv na s := by
  induction h with
  | init => exact inv_init na
  | step _ hp e ih =>
    obtain ⟨s', hs, hi⟩ := inv_step ih hp e
    cases hs; exact hi

/-! ### The property -/

theorem only_hands {s : St} {v t : Nat} {c : PC} (h : Only s v t c) : ∀ t', HandsOver s t' v → t' = t := by
  intro t' ht'
  refine h.2 t' ((touches_iff s t' v).1 ?_)
  rcases ht' with h1 | ⟨h1, _⟩ | h1
  · exact .inl h1
  · exact .inr (.inl h1)
  · exact .inr (.inr (.inl h1))

theorem nobody_hands {s : St} {v : Nat} (h : Nobody s v) : ∀ t, ¬ HandsOver s t v := by
  intro t ht
  refine h t ((touches_iff s t v).1 ?_)
  rcases ht with h1 | ⟨h1, _⟩ | h1
  · exact .inl h1
  · exact .inr (.inl h1)
  · exact .inr (.inr (.inl h1))

theorem not_mem_of_count {l : List Nat} {v : Nat} (h : l.count v = 0) : v ∉ l := List.count_eq_zero.1 h

/-- C34 for all histories in which at most one thread at a time moves (or releases) any given virtual accelerator. Missing: the histories in which two
threads do, for which it is false (`C34_set_physical_violated`, `C34_release_violated`). -/
theorem C34_one_place_partial {na : Nat} {s : St} (h : Reach na OneMover s) {v : Nat} (hl : s.live v = true) : InOnePlace na s v := by
  cases (inv_reach h).ok v with
  | gone h1 _ _ => rw [h1] at hl; cases hl
  | orphan h1 h2 => exact .orphan h1.2.1 (fun a _ => not_mem_of_count (h1.2.2.1 a)) h1.2.2.2 (nobody_hands h2)
  | orphanRm t a h1 h2 h3 =>
    refine .orphan h1.2.1 (fun a _ => not_mem_of_count (h1.2.2.1 a)) h1.2.2.2 ?_
    intro t' ht'
    have := only_hands h3 t' ht'
    subst this
    rcases ht' with h4 | ⟨_, h4⟩ | ⟨b, h4⟩
    · rw [h3.1] at h4; cases h4
    · exact h4 (List.count_pos_iff.1 (by rw [h1.2.1]; omega))
    · rw [h3.1] at h4; cases h4
  | has t h1 h2 => exact .handed t (.inl h2.1) (only_hands h2) (not_mem_of_count h1.2.1.1) (fun a _ => not_mem_of_count (h1.2.1.2 a)) h1.2.2
  | looseRm t a h1 h2 h3 =>
    exact .handed t (.inr (.inl ⟨⟨a, h3.1⟩, not_mem_of_count h1.2.1.1⟩)) (only_hands h3) (not_mem_of_count h1.2.1.1) (fun a _ => not_mem_of_count (h1.2.1.2 a)) h1.2.2
  | looseDo t a h1 h2 h3 =>
    exact .handed t (.inr (.inr ⟨a, h3.1⟩)) (only_hands h3) (not_mem_of_count h1.2.1.1) (fun a _ => not_mem_of_count (h1.2.1.2 a)) h1.2.2
  | assigned a h1 h2 =>
    exact .assigned a h1.2.2.2.2.2 h1.2.2.1 (fun b _ hb => not_mem_of_count (h1.2.2.2.1 b hb)) (not_mem_of_count h1.2.1) h1.2.2.2.2.1 (nobody_hands h2)
  | delDo t a h1 h2 =>
    refine .assigned a h1.2.2.2.2.2 h1.2.2.1 (fun b _ hb => not_mem_of_count (h1.2.2.2.1 b hb)) (not_mem_of_count h1.2.1) h1.2.2.2.2.1 ?_
    intro t' ht'
    have := only_hands h2 t' ht'
    subst this
    rcases ht' with h4 | ⟨⟨b, h4⟩, _⟩ | ⟨b, h4⟩ <;> (rw [h2.1] at h4; cases h4)

/-- … and no step asserts or corrupts a list. -/
theorem C34_no_failure_partial {na : Nat} {s : St} (h : Reach na OneMover s) {t : Nat} {ev : Ev} (hp : OneMover s t ev) {r : Res St} (e : step na s t ev = some r) :
    ∃ s', r = .ok s' := by
  obtain ⟨s', hs, _⟩ := inv_step (inv_reach h) hp e
  exact ⟨s', hs⟩

/-- … and an orphan is handed to exactly one caller: after arax_pipe_get_orphan_vaccel returned `v` to `t`, `v` is in no list, and no other thread is
handing it over. -/
theorem C34_orphan_handed_once_partial {na : Nat} {s s' : St} (h : Reach na OneMover s) {t v : Nat} {r : List Nat} (ho : s.orphans = v :: r)
    (hp : OneMover s t .pop) (e : step na s t .pop = some (.ok s')) :
    s'.pc t = .has v ∧ (∀ t', HandsOver s' t' v → t' = t) ∧ v ∉ s'.orphans ∧ ∀ a, v ∉ s'.acc a := by
  have hi := inv_reach (.step h hp e)
  have hpc : s'.pc t = .has v := by
    simp only [step, ho] at e
    split at e
    · injection e with e
      split at e
      · cases e
      · split at e
        · cases e
        · cases e; exact upd_same _ _ _
    · cases e
  obtain ⟨h1, h2⟩ := ok_has (hi.ok v) hpc
  exact ⟨hpc, only_hands h2, not_mem_of_count h1.2.1.1, fun a => not_mem_of_count (h1.2.1.2 a)⟩

/-! ### Violations -/

def run (na : Nat) : St → List (Nat × Ev) → Option (Res St)
  | s, [] => some (.ok s)
  | s, (t, e) :: es => match step na s t e with | some (.ok s') => run na s' es | r => r

def isUb : Option (Res St) → Bool
  | some .ub => true
  | _ => false

theorem isUb_eq {r : Option (Res St)} (h : isUb r = true) : r = some .ub := by
  unfold isUb at h; split at h
  · rfl
  · cases h

/-- Any step at all. -/
def Any (_ : St) (_ : Nat) (_ : Ev) : Prop := True

theorem reach_run {na : Nat} {P : St → Nat → Ev → Prop} (hP : ∀ s t e, P s t e) : ∀ {es : List (Nat × Ev)} {s s' : St}, Reach na P s →
    run na s es = some (.ok s') → Reach na P s'
  | [], s, s', h, hr => by simp only [run] at hr; cases hr; exact h
  | (t, e) :: es, s, s', h, hr => by
    simp only [run] at hr
    split at hr
    · rename_i s1 he; exact reach_run hP (.step h (hP _ _ _) he) hr
    · rename_i r hne; exact absurd hr (by intro hc; exact hne s' hc)

/-- A client creates virtual accelerator 7; the balancer (thread 1) has popped it when the client (thread 0) calls arax_accel_set_physical(7, 1); the balancer
assigns it to 0. -/
def raceRun : List (Nat × Ev) :=
  [(0, .create 7), (0, .orphan), (1, .pop), (0, .setPhys 7 1), (1, .place 0), (0, .rmOrphan), (1, .rmOrphan), (1, .addLocked)]

/-- C34 is false when a client calls arax_accel_set_physical while the balancer assigns the same virtual accelerator (both pass the check that it is
unassigned): the second one links a linked node. -/
theorem C34_set_physical_violated : ∃ s, Reach 2 Any s ∧ step 2 s 0 .addLocked = some .ub := by
  have hr : (match run 2 init raceRun with | some (.ok s) => isUb (step 2 s 0 .addLocked) | _ => false) = true := by decide +kernel
  cases hs : run 2 init raceRun with
  | none => rw [hs] at hr; cases hr
  | some r =>
    cases r with
    | ok s =>
      rw [hs] at hr
      exact ⟨s, reach_run (fun _ _ _ => trivial) .init hs, isUb_eq hr⟩
    | abort => rw [hs] at hr; cases hr
    | ub => rw [hs] at hr; cases hr

/-- The balancer has popped it when the client releases it. -/
def releaseRun : List (Nat × Ev) := [(0, .create 7), (0, .orphan), (1, .pop), (0, .release 7)]

/-- C34 is false when a client releases a virtual accelerator that the balancer has just popped: no reference is held by the balancer, so
arax_accel_add_vaccel works on freed memory. -/
theorem C34_release_violated : ∃ s, Reach 2 Any s ∧ step 2 s 1 (.place 0) = some .ub := by
  have hr : (match run 2 init releaseRun with | some (.ok s) => isUb (step 2 s 1 (.place 0)) | _ => false) = true := by decide +kernel
  cases hs : run 2 init releaseRun with
  | none => rw [hs] at hr; cases hr
  | some r =>
    cases r with
    | ok s =>
      rw [hs] at hr
      exact ⟨s, reach_run (fun _ _ _ => trivial) .init hs, isUb_eq hr⟩
    | abort => rw [hs] at hr; cases hr
    | ub => rw [hs] at hr; cases hr

/-! ### Non-vacuity: two virtual accelerators; one assigned by the balancer, removed again by a worker and orphaned, the other placed by its client. -/
example : ∃ s, Reach 2 OneMover s ∧ s.live 7 = true ∧ s.live 8 = true ∧ s.orphans = [7] ∧ s.acc 1 = [8] := by
  have none7 : ∀ s : St, (∀ t, s.pc t = .idle) → ∀ v, Untouched s v := by
    intro s h v; rw [untouched_iff]; intro t; rw [h t]; simp [about]
  have idle : ∀ (l : List Nat) (s : St), (∀ t, (if t ∈ l then s.pc t else .idle) = s.pc t) → (∀ t ∈ l, s.pc t = .idle) → ∀ t, s.pc t = .idle := by
    intro l s h1 h2 t
    by_cases c : t ∈ l
    · exact h2 t c
    · rw [← h1 t, if_neg c]
  have e1 : Reach 2 OneMover _ := .step .init (t := 0) (e := .create 7) trivial rfl
  have e2 : Reach 2 OneMover _ := .step e1 (t := 0) (e := .orphan) trivial rfl
  have e3 : Reach 2 OneMover _ := .step e2 (t := 1) (e := .pop) (by
    intro v r _; apply none7; apply idle [0]
    · intro t; by_cases c : t = 0 <;> simp [c, St.goto, upd, init]
    · intro t ht; simp at ht; subst ht; rfl) rfl
  have e4 : Reach 2 OneMover _ := .step e3 (t := 1) (e := .place 0) trivial rfl
  have e5 : Reach 2 OneMover _ := .step e4 (t := 1) (e := .rmOrphan) trivial rfl
  have e6 : Reach 2 OneMover _ := .step e5 (t := 1) (e := .addLocked) trivial rfl
  have e7 : Reach 2 OneMover _ := .step e6 (t := 2) (e := .delCheck 7) (by
    refine ⟨rfl, by decide +kernel, ?_⟩
    apply none7; apply idle [0, 1]
    · intro t; by_cases c : t = 0 <;> by_cases c' : t = 1 <;> simp [c, c', St.goto, upd, init]
    · intro t ht; simp at ht; rcases ht with rfl | rfl <;> rfl) rfl
  have e8 : Reach 2 OneMover _ := .step e7 (t := 2) (e := .delLocked) trivial rfl
  have e9 : Reach 2 OneMover _ := .step e8 (t := 2) (e := .orphan) trivial rfl
  have e10 : Reach 2 OneMover _ := .step e9 (t := 0) (e := .create 8) trivial rfl
  have e11 : Reach 2 OneMover _ := .step e10 (t := 0) (e := .place 1) trivial rfl
  have e12 : Reach 2 OneMover _ := .step e11 (t := 0) (e := .rmOrphan) trivial rfl
  have e13 : Reach 2 OneMover _ := .step e12 (t := 0) (e := .addLocked) trivial rfl
  exact ⟨_, e13, rfl, rfl, rfl, rfl⟩

end Arax.Accel.Place
