import Verif.Attr.Props
/-!
# C87: what a user reads back
-/
namespace Arax.Attr
open Arax.Layout (Mem readLE writeLE readLE_congr read_write read_write_ne)

variable {k : K}

/-- **C87** (partial) After every history of creations, releases, assignments to and from physical accelerators and attribute changes of any number of accelerators, in any order and with any stores of other code between them: every
attribute of a virtual accelerator reads as the value last set (or its initial value), `arax_accel_type` returns the type of creation for both kinds of accelerator, and the revision of a physical accelerator is the number
of changes of its set of virtual accelerators (modulo 2^64).  Missing: `arax_accel_stat`, which does not do what the header promises (`C87_violated_stat`). -/
theorem C87_attributes_partial (hk : k.Ok) {m : Mem} {s : Abs} (h : Reach k m s) :
    (∀ a t o c q md p, s a = some (.virt t o c q md p) →
      accelType k m a = t ∧ getOrdering k m a = o ∧ getCid k m a = c ∧ getPriority k m a = q ∧ getMeta k m a = md) ∧
    (∀ a t r, s a = some (.phys t r) → accelType k m a = t ∧ getRevision k m a = r % 2 ^ 64) := by
  have hi := inv_reach hk h
  constructor
  · intro a t o c q md p ha
    obtain ⟨_, h2, h3, h4, h5, _, h7⟩ := hi.holds _ _ ha
    exact ⟨h2, h3, h4, h5, h7⟩
  · intro a t r ha
    obtain ⟨_, h2, _, h4⟩ := hi.holds _ _ ha
    exact ⟨h2, h4⟩

/-- **C87** `arax_vaccel_set_cid` and `arax_vaccel_set_job_priority` return the value they set. -/
theorem C87_setters_return (m : Mem) (a v : Nat) (hv : v < 2 ^ 64) : (setCid k m a v).2 = v ∧ (setPriority k m a v).2 = v := by
  constructor
  · have : (setCid k m a v).2 = readLE (writeLE m (a + off (vf k) 5 0) 8 v) (a + off (vf k) 5 0) 8 := rfl
    rw [this, read_write]; omega
  · have : (setPriority k m a v).2 = readLE (writeLE m (a + off (vf k) 6 0) 8 v) (a + off (vf k) 6 0) 8 := rfl
    rw [this, read_write]; omega

/-- **C87** No assertion fails: every legal call that has a meaning is carried out.  Adding a virtual accelerator that already has another physical accelerator, and removing one from an accelerator that it does not belong to, abort the
process. -/
theorem C87_assertions (hk : k.Ok) {m : Mem} {s : Abs} (h : Reach k m s) :
    (∀ op s', Legal k s op → Step s op s' → ∃ m', run k m op = some m') ∧
    (∀ a t o c q md p p', s a = some (.virt t o c q md p) → p ≠ 0 → p' ≠ p → run k m (.add p' a) = none) ∧
    (∀ a t o c q md p p', s a = some (.virt t o c q md p) → p' ≠ p → run k m (.del p' a) = none) := by
  have hi := inv_reach hk h
  refine ⟨?_, ?_, ?_⟩
  · intro op s' hl hs
    cases hs with
    | newPhys => exact ⟨_, rfl⟩
    | orphan => exact ⟨_, rfl⟩
    | @newVirt a t p hp =>
      have h1 := inv_newVirt hk (t := t) hi hl.1 hl.2.1
      have e := link_eq h1 (set_eq ..)
      refine ⟨incRevision k (st (vf k) 7 (vinit k m a t) a p) p, ?_⟩
      rw [run, vaccelInit_eq, if_neg hp, addVaccel, e, if_neg (fun e => hp e.symm), if_pos rfl]
    | cid => exact ⟨_, rfl⟩
    | priority => exact ⟨_, rfl⟩
    | ordering => exact ⟨_, rfl⟩
    | md => exact ⟨_, rfl⟩
    | @add v p t o c q md hv =>
      simp only [run, addVaccel, link_eq hi hv]
      split
      · exact ⟨_, rfl⟩
      · exact ⟨_, rfl⟩
    | again hv => simp only [run, addVaccel, link_eq hi hv]; exact ⟨_, rfl⟩
    | del hv => simp only [run, delVaccel, link_eq hi hv]; exact ⟨_, rfl⟩
    | free => exact ⟨_, rfl⟩
    | other => exact ⟨_, rfl⟩
  · intro a t o c q md p p' ha h0 hp
    rw [run, addVaccel, link_eq hi ha, if_neg (fun e => hp e.symm), if_neg h0]
  · intro a t o c q md p p' ha hp
    rw [run, delVaccel, link_eq hi ha, if_neg (fun e => hp e.symm)]

/-- **C87** (partial) What `arax_accel_stat` does: for a physical accelerator, and for a virtual one that has a physical accelerator, it returns `accel_idle` (1), whatever the accelerator does; for one that has none it dereferences NULL.
(There are no statistics: `arax_accel_stats_s` is empty, arax_types.h:24-30.) -/
theorem C87_stat_partial (hk : k.Ok) {m : Mem} {s : Abs} (h : Reach k m s) :
    (∀ a t r, s a = some (.phys t r) → accelStat k m a = some 1) ∧
    (∀ a t o c q md p, s a = some (.virt t o c q md p) → p ≠ 0 → accelStat k m a = some 1) ∧
    (∀ a t o c q md, s a = some (.virt t o c q md 0) → accelStat k m a = none) := by
  have hi := inv_reach hk h
  have ot : ∀ a v, readLE m (a + 40) 4 = v → objType m a = v := by
    intro a v h
    rw [objType, ld, of3]
    exact h
  have ph : ∀ a t r, s a = some (.phys t r) → ld (af k) 2 m a = 1 := fun a t r h => (hi.holds _ _ h).2.2.1
  refine ⟨?_, ?_, ?_⟩
  · intro a t r ha
    rw [accelStat, if_pos (ot a 0 (hi.holds _ _ ha).1), ph a t r ha]
  · intro a t o c q md p ha hp
    have e := ot a 1 (hi.holds _ _ ha).1
    obtain ⟨t', r', hp'⟩ := (hi.link _ _ _ _ _ _ _ ha).resolve_left hp
    rw [accelStat, if_neg (by omega), if_pos e]
    simp only [link_eq hi ha, if_neg hp, ph p t' r' hp']
  · intro a t o c q md ha
    have e := ot a 1 (hi.holds _ _ ha).1
    rw [accelStat, if_neg (by omega), if_pos e]
    simp only [link_eq hi ha, if_pos]

/-! ## A history -/

/-- Sizes of the x86-64 build with pthread conditions and a queue of 64 slots. -/
def k0 : K := ⟨8, 104, 8, 120, 704⟩

theorem k0_ok : k0.Ok := ⟨by decide, by decide⟩

def m0 : Mem := fun _ => 0xaa

theorem reach_run {m : Mem} {s s' : Abs} {op : Op} (hk : k.Ok) (h : Reach k m s) (hl : Legal k s op) (hs : Step s op s') : ∃ m', Reach k m' s' := by
  obtain ⟨m', hr⟩ := (C87_assertions hk h).1 op s' hl hs
  exact ⟨m', .step h hl hs hr⟩

theorem set_apply (s : Abs) (a x : Nat) (o : Option Obj) : s.set a o x = if x = a then o else s x := rfl

/-- A physical accelerator with its own queue is created (revision 1), an orphan is made (its state cannot be asked), gets a customer, a priority, an ordering and a metadata pointer, and is given to the accelerator; a byte of its lock
changes; then it is taken away again (revision 3). -/
theorem demo : ∃ m s, Reach k0 m s ∧ s 4096 = some (.phys 2 3) ∧ s 20480 = some (.virt 2 0 (2 ^ 64 - 1) (2 ^ 64 - 1) 0 4096) ∧ s 12288 = some (.virt 5 1 7 9 77 0) := by
  have z1 : size (af k0) = 352 := by decide
  have z2 : size (vf k0) = 832 := by decide
  obtain ⟨m, h⟩ := reach_run (op := .newPhys 4096 2) k0_ok (Reach.init (m := m0)) ⟨⟨by decide, by rw [z1]; omega, fun _ _ h => (nomatch h)⟩, by decide⟩ .newPhys
  obtain ⟨m, h⟩ := reach_run (op := .newVirt 20480 2 4096) k0_ok h
    ⟨⟨by decide, by rw [z2]; omega, by
      intro b o hb
      rw [set_apply] at hb
      split at hb
      · subst b; cases hb; simp only [Obj.size, z1]; omega
      · cases hb⟩, by decide, .inr ⟨2, 0, rfl⟩⟩ (.newVirt (by decide))
  rw [bump_eq (t := 2) (r := 0) rfl] at h
  obtain ⟨m, h⟩ := reach_run (op := .newVirt 12288 5 0) k0_ok h
    ⟨⟨by decide, by rw [z2]; omega, by
      intro b o hb
      rw [set_apply, set_apply, set_apply] at hb
      split at hb
      · subst b; cases hb; simp only [Obj.size, z1]; omega
      · split at hb
        · subst b; cases hb; simp only [Obj.size, z2]; omega
        · cases hb⟩, by decide, .inl rfl⟩ .orphan
  obtain ⟨m, h⟩ := reach_run (op := .cid 12288 7) k0_ok h (by show 7 < 2 ^ 64; omega) (.cid rfl)
  obtain ⟨m, h⟩ := reach_run (op := .priority 12288 9) k0_ok h (by show 9 < 2 ^ 64; omega) (.priority rfl)
  obtain ⟨m, h⟩ := reach_run (op := .ordering 12288 1) k0_ok h (by show 1 < 2 ^ 32; omega) (.ordering rfl)
  obtain ⟨m, h⟩ := reach_run (op := .md 12288 77) k0_ok h (by show 77 < 2 ^ 64; omega) (.md rfl)
  obtain ⟨m, h⟩ := reach_run (op := .add 4096 12288) k0_ok h ⟨2, 1, rfl⟩ (.add rfl)
  rw [bump_eq (t := 2) (r := 1) rfl] at h
  obtain ⟨m, h⟩ := reach_run (op := .del 4096 12288) k0_ok h ⟨2, 2, rfl⟩ (.del rfl)
  rw [bump_eq (t := 2) (r := 2) rfl] at h
  exact ⟨m, _, h, rfl, rfl, rfl⟩

/-- A store to the lock of a virtual accelerator hits no attribute: `other` is not vacuous. -/
example : ¬ IsAttr k0 (.virt 5 1 7 9 77 0) 64 := by
  rintro (h | ⟨i, hi, h⟩)
  · rw [of3] at h; omega
  · simp only [List.mem_cons, List.not_mem_nil, or_false] at hi
    rcases hi with rfl | rfl | rfl | rfl | rfl | rfl <;> revert h <;> decide

/-- The state reached by `demo` read back through the calls. -/
example : ∃ m, getRevision k0 m 4096 = 3 ∧ getCid k0 m 12288 = 7 ∧ getPriority k0 m 12288 = 9 ∧ getOrdering k0 m 12288 = 1 ∧ getMeta k0 m 12288 = 77 ∧ accelType k0 m 12288 = 5 ∧
    accelType k0 m 4096 = 2 ∧ getCid k0 m 20480 = 2 ^ 64 - 1 ∧ accelStat k0 m 4096 = some 1 ∧ accelStat k0 m 20480 = some 1 ∧ accelStat k0 m 12288 = none := by
  obtain ⟨m, s, h, h1, h2, h3⟩ := demo
  have c := C87_attributes_partial k0_ok h
  have d := C87_stat_partial k0_ok h
  exact ⟨m, (c.2 _ _ _ h1).2, (c.1 _ _ _ _ _ _ _ h3).2.2.1, (c.1 _ _ _ _ _ _ _ h3).2.2.2.1, (c.1 _ _ _ _ _ _ _ h3).2.1, (c.1 _ _ _ _ _ _ _ h3).2.2.2.2,
    (c.1 _ _ _ _ _ _ _ h3).1, (c.2 _ _ _ h1).1, (c.1 _ _ _ _ _ _ _ h2).2.2.1, d.1 _ _ _ h1, d.2.1 _ _ _ _ _ _ _ h2 (by decide), d.2.2 _ _ _ _ _ _ h3⟩

/-- **C87** violated: there is a reachable state in which `arax_accel_stat` of a valid descriptor (an orphan, as `arax_accel_list` returns them) dereferences NULL. -/
theorem C87_violated_stat : ∃ m s a t o c q md, Reach k0 m s ∧ s a = some (.virt t o c q md 0) ∧ accelStat k0 m a = none := by
  obtain ⟨m, s, h, _, _, h3⟩ := demo
  exact ⟨m, s, _, _, _, _, _, _, h, h3, (C87_stat_partial k0_ok h).2.2 _ _ _ _ _ _ h3⟩

end Arax.Attr
