import Verif.Pipe.Startup
/-!
# C93: `arax_init` joins, or says why not and ends the process

*Property.* `arax_init` and `arax_controller_init_start` either return with the segment of the configured name mapped at the address all its users use, or print the reason and end the process
with status 1. No configuration and no answer of the operating system makes them crash, hang, or go on without the segment. An `arax_exit` without a matching `arax_init` prints a warning and
changes nothing.
-/
namespace Arax.Startup

/-! ## Specification -/

/-- The environments in which the process can join, and the address. Stated without the steps of `start`. -/
structure CanJoin (e : Env) (a : Nat) : Prop where
  named : e.name ≠ none
  /-- the size is configured, or a quarter of the memory -/
  sized : ∃ n, (e.sizeCfg = some n ∨ e.sizeCfg = none ∧ n = e.total / 4) ∧ 0 < n ∧ n ≤ e.total ∧
    /- the file has or gets a size that holds the header -/
    (e.trunc = true ∧ e.ivshmem = false ∧ e.statSize ≠ n ∧ e.truncOk = true ∧ e.header ≤ n ∨
     ¬ (e.trunc = true ∧ e.ivshmem = false ∧ e.statSize ≠ n) ∧ e.header ≤ e.fileSize)
  opened : e.openOk = true
  /-- the segment ends up at `a`, its address for everyone: at once or at the second attempt -/
  placed : ∃ v, e.map1 = some v ∧ (e.self = some a ∨ e.self = none ∧ a = v) ∧ (a = v ∨ e.known = false ∧ e.map2 = some a)
  /-- a new pipe gets its heap; an existing one has the right revision, or it does not matter -/
  usable : if e.users = 0 then e.heapOk = true else ∃ r, e.rev = some r ∧ (r = e.myRev ∨ e.enforce = false)

/-- The property for one environment. -/
def Proper (e : Env) : Prop := (∃ a, start e = .returns a ∧ CanJoin e a) ∨ ((∀ a, ¬ CanJoin e a) ∧ ∃ why, start e = .exits why)

/-! ## What holds -/

theorem fail_ne_returns (e : Env) (p : Ptr) (w : String) (a : Nat) : fail e p w ≠ .returns a := by
  unfold fail; split <;> simp

theorem pipeInit_returns (e : Env) (a b : Nat) : pipeInit e a = .returns b ↔
    a = b ∧ (if e.users = 0 then e.heapOk = true else ∃ r, e.rev = some r ∧ (r = e.myRev ∨ e.enforce = false)) := by
  unfold pipeInit
  by_cases hu : e.users = 0
  · simp only [hu, ne_eq, not_true_eq_false, if_false, if_true]
    split <;> simp_all [fail_ne_returns]
  · simp only [hu, ne_eq, not_false_eq_true, if_true, if_false]
    cases hr : e.rev with
    | none => simp
    | some r =>
      simp only [Option.some.injEq, exists_eq_left']
      by_cases h1 : r = e.myRev <;> cases h2 : e.enforce <;> simp_all [fail_ne_returns]

theorem place_returns (e : Env) (v a : Nat) : place e v = .returns a ↔
    e.header ≤ e.fileNow ∧ (e.self = some a ∨ e.self = none ∧ a = v) ∧ (a = v ∨ e.known = false ∧ e.map2 = some a) ∧
    (if e.users = 0 then e.heapOk = true else ∃ r, e.rev = some r ∧ (r = e.myRev ∨ e.enforce = false)) := by
  unfold place
  by_cases hh : e.header ≤ e.fileNow
  · simp only [Env.readable, hh, decide_true, Bool.not_true, Bool.false_eq_true, if_false]
    cases hs : e.self with
    | none =>
      simp only [Option.getD_none, if_true, ite_self, pipeInit_returns]
      constructor
      · rintro ⟨rfl, h⟩; exact ⟨trivial, .inr ⟨trivial, rfl⟩, .inl rfl, h⟩
      · rintro ⟨-, h1, -, h⟩
        rcases h1 with h1 | h1
        · cases h1
        · exact ⟨h1.2.symm, h⟩
    | some b =>
      simp only [Option.getD_some]
      by_cases hb : b = v
      · subst hb
        simp only [if_true, ite_self, pipeInit_returns]
        constructor
        · rintro ⟨rfl, h⟩; exact ⟨trivial, .inl rfl, .inl rfl, h⟩
        · rintro ⟨-, h1, -, h⟩
          rcases h1 with h1 | h1
          · exact ⟨Option.some.inj h1, h⟩
          · cases h1.1
      · simp only [hb, if_false]
        cases hk : e.known with
        | true =>
          simp only [if_true]
          constructor
          · intro h; cases h
          · rintro ⟨-, h1, h2, -⟩
            rcases h1 with h1 | h1
            · rcases h2 with h2 | h2
              · exact absurd ((Option.some.inj h1).trans h2) hb
              · cases h2.1
            · cases h1.1
        | false =>
          simp only [Bool.false_eq_true, if_false]
          cases hm : e.map2 with
          | none =>
            simp only [fail_ne_returns, false_iff]
            rintro ⟨-, h1, h2, -⟩
            rcases h1 with h1 | h1
            · rcases h2 with h2 | h2
              · exact absurd ((Option.some.inj h1).trans h2) hb
              · cases h2.2
            · cases h1.1
          | some w =>
            by_cases hw : w = b
            · subst hw
              simp only [if_true, pipeInit_returns]
              constructor
              · rintro ⟨rfl, h⟩; exact ⟨trivial, .inl rfl, .inr ⟨trivial, rfl⟩, h⟩
              · rintro ⟨-, h1, -, h⟩
                rcases h1 with h1 | h1
                · exact ⟨Option.some.inj h1, h⟩
                · cases h1.1
            · simp only [hw, if_false, fail_ne_returns, false_iff]
              rintro ⟨-, h1, h2, -⟩
              rcases h1 with h1 | h1
              · rcases h2 with h2 | h2
                · exact absurd ((Option.some.inj h1).trans h2) hb
                · exact hw ((Option.some.inj h2.2).trans (Option.some.inj h1).symm)
              · cases h1.1
  · simp only [Env.readable, hh, decide_false, Bool.not_false, if_true, false_and, iff_false]
    intro h; cases h

theorem size_spec (e : Env) (n : Nat) : (e.sizeCfg = some n ∨ e.sizeCfg = none ∧ n = e.total / 4) ↔ n = e.size := by
  unfold Env.size
  cases h : e.sizeCfg with
  | none => simp
  | some m => simp [eq_comm]

theorem truncates_iff (e : Env) : e.truncates = true ↔ e.trunc = true ∧ e.ivshmem = false ∧ e.statSize ≠ e.size := by
  unfold Env.truncates Env.cut
  simp [and_assoc]

/-- **C93 (partial): it returns exactly when the process can join, with the address of the segment.** For every configuration and all answers of the system. -/
theorem C93_returns_iff_can_join_partial (e : Env) (a : Nat) : start e = .returns a ↔ CanJoin e a := by
  constructor
  · intro h
    unfold start at h
    cases hn : e.name with
    | none => rw [hn] at h; exact absurd h (fail_ne_returns _ _ _ _)
    | some nm =>
      simp only [hn] at h
      by_cases hsz : e.size = 0 ∨ e.total < e.size
      · rw [if_pos hsz] at h; exact absurd h (fail_ne_returns _ _ _ _)
      · rw [if_neg hsz] at h
        have key : e.openOk = true ∧ (e.truncates = true → e.truncOk = true) ∧ ∃ v, e.map1 = some v ∧ place e v = .returns a := by
          unfold sysMmap at h
          by_cases ho : e.openOk = true
          · by_cases ht : e.truncates = true
            · by_cases hk : e.truncOk = true
              · cases hm : e.map1 with
                | none => simp [ho, ht, hk, hm, fail_ne_returns] at h
                | some v => exact ⟨ho, fun _ => hk, v, rfl, by simpa [ho, ht, hk, hm] using h⟩
              · exfalso
                simp only [ho, ht, hk] at h
                simp at h
                split at h <;> cases h
            · cases hm : e.map1 with
              | none => simp [ho, ht, hm, fail_ne_returns] at h
              | some v => exact ⟨ho, fun hh => absurd hh ht, v, rfl, by simpa [ho, ht, hm] using h⟩
          · exfalso
            by_cases ht : e.truncates = true
            · simp [ho, ht, fail_ne_returns] at h
            · simp [ho, ht, fail_ne_returns] at h
        obtain ⟨ho, hk, v, hm, hp⟩ := key
        obtain ⟨h1, h2, h3, h4⟩ := (place_returns e v a).1 hp
        refine ⟨(by rw [hn]; simp), ⟨e.size, (size_spec e _).2 rfl, by omega, by omega, ?_⟩, ho, ⟨v, hm, h2, h3⟩, h4⟩
        unfold Env.fileNow at h1
        by_cases ht : e.truncates = true
        · simp only [ht, ho, hk ht, Bool.and_self, if_true] at h1
          obtain ⟨t1, t2, t3⟩ := (truncates_iff e).1 ht
          exact .inl ⟨t1, t2, t3, hk ht, h1⟩
        · simp only [ht, Bool.false_and, Bool.false_eq_true, if_false] at h1
          exact .inr ⟨fun hh => ht ((truncates_iff e).2 hh), h1⟩
  · rintro ⟨hn, ⟨n, hsz, hn0, hnt, hf⟩, ho, ⟨v, hm, h2, h3⟩, h4⟩
    rw [size_spec] at hsz
    subst hsz
    obtain ⟨nm, hnm⟩ := Option.ne_none_iff_exists'.1 hn
    unfold start
    simp only [hnm]
    rw [if_neg (by omega)]
    have hfile : e.header ≤ e.fileNow ∧ (e.truncates = true → e.truncOk = true) := by
      unfold Env.fileNow
      rcases hf with ⟨t1, t2, t3, t4, t5⟩ | ⟨t1, t2⟩
      · have ht := (truncates_iff e).2 ⟨t1, t2, t3⟩
        simp [ht, ho, t4, t5]
      · have ht : ¬ e.truncates = true := fun hh => t1 ((truncates_iff e).1 hh)
        simp only [Bool.not_eq_true] at ht
        simp [ht, t2]
    have hp := (place_returns e v a).2 ⟨hfile.1, h2, h3, h4⟩
    unfold sysMmap
    by_cases ht : e.truncates = true
    · simp [ht, ho, hfile.2 ht, hm, hp]
    · simp [ht, ho, hm, hp]

/-- **C93 (partial): a refusal is honest.** Whenever a reason is printed, the process cannot join, and the reason is the true one. (Whether the process then ends properly is another matter.) -/
theorem C93_reason_true_partial (e : Env) (why : String) (h : start e = .exits why ∨ start e = .killed (some why)) :
    (∀ a, ¬ CanJoin e a) ∧
    (why = "No shm_file set in config" ∧ e.name = none ∨
     why = "shm_size exceeds system memory" ∧ (e.size = 0 ∨ e.total < e.size) ∨
     why = "Could not open shm_file" ∧ e.openOk = false ∨
     why = "Could not first mmap shm_file" ∧ e.map1 = none ∨
     why = "Could not mmap shm_file in proper address" ∧ (∃ v a, e.map1 = some v ∧ e.self = some a ∧ a ≠ v ∧ e.map2 ≠ some a) ∨
     why = "Could not initialize arax_pipe" ∧ (e.users = 0 ∧ e.heapOk = false ∨ e.users ≠ 0 ∧ e.enforce = true ∧ e.rev ≠ some e.myRev)) := by
  refine ⟨fun a hc => ?_, ?_⟩
  · rw [← C93_returns_iff_can_join_partial] at hc
    rw [hc] at h
    rcases h with h | h <;> cases h
  · have hfail : ∀ p w, (fail e p w = .exits why ∨ fail e p w = .killed (some why)) → why = w := by
      intro p w hh
      unfold fail at hh
      split at hh <;> rcases hh with hh | hh <;> cases hh <;> rfl
    have hpi : ∀ a, (pipeInit e a = .exits why ∨ pipeInit e a = .killed (some why)) →
        why = "Could not initialize arax_pipe" ∧ (e.users = 0 ∧ e.heapOk = false ∨ e.users ≠ 0 ∧ e.enforce = true ∧ e.rev ≠ some e.myRev) := by
      intro a hh
      unfold pipeInit at hh
      by_cases hu : e.users = 0
      · simp only [hu, ne_eq, not_true_eq_false, if_false] at hh
        cases hk : e.heapOk
        · rw [hk] at hh; exact ⟨hfail _ _ (by simpa using hh), .inl ⟨hu, rfl⟩⟩
        · rw [hk] at hh; simp at hh
      · simp only [hu, ne_eq, not_false_eq_true, if_true] at hh
        cases hr : e.rev with
        | none => simp [hr] at hh
        | some r =>
          simp only [hr] at hh
          by_cases hc : ¬ r = e.myRev ∧ e.enforce = true
          · rw [if_pos hc] at hh
            exact ⟨hfail _ _ hh, .inr ⟨hu, hc.2, fun hx => hc.1 (Option.some.inj hx)⟩⟩
          · rw [if_neg hc] at hh; simp at hh
    have hpl : ∀ v, e.map1 = some v → (place e v = .exits why ∨ place e v = .killed (some why)) →
        why = "Could not mmap shm_file in proper address" ∧ (∃ v a, e.map1 = some v ∧ e.self = some a ∧ a ≠ v ∧ e.map2 ≠ some a) ∨
        why = "Could not initialize arax_pipe" ∧ (e.users = 0 ∧ e.heapOk = false ∨ e.users ≠ 0 ∧ e.enforce = true ∧ e.rev ≠ some e.myRev) := by
      intro v hm hh
      unfold place at hh
      split at hh
      · simp at hh
      · simp only at hh
        by_cases hv : e.self.getD v = v
        · simp only [hv, if_true, ite_self] at hh
          exact .inr (hpi _ hh)
        · simp only [hv, if_false] at hh
          have ha : e.self = some (e.self.getD v) := by
            cases hs : e.self with
            | none => simp [hs] at hv
            | some b => simp
          split at hh
          · simp at hh
          · cases hm2 : e.map2 with
            | none =>
              simp only [hm2] at hh
              exact .inl ⟨hfail _ _ hh, v, _, hm, ha, hv, by simp⟩
            | some w =>
              simp only [hm2] at hh
              by_cases hw : w = e.self.getD v
              · rw [if_pos hw] at hh; exact .inr (hpi _ hh)
              · rw [if_neg hw] at hh
                exact .inl ⟨hfail _ _ hh, v, _, hm, ha, hv, fun hx => hw (Option.some.inj hx)⟩
    unfold start at h
    cases hn : e.name with
    | none => rw [hn] at h; exact .inl ⟨hfail _ _ h, rfl⟩
    | some nm =>
      simp only [hn] at h
      by_cases hsz : e.size = 0 ∨ e.total < e.size
      · rw [if_pos hsz] at h; exact .inr (.inl ⟨hfail _ _ h, hsz⟩)
      · rw [if_neg hsz] at h
        refine .inr (.inr ?_)
        cases ho : e.openOk with
        | false =>
          refine .inl ⟨?_, rfl⟩
          unfold sysMmap at h
          cases ht : e.truncates <;> simp only [ht, ho, Bool.false_and, Bool.true_and, Bool.not_false, Bool.false_eq_true, if_true, if_false] at h <;> exact hfail _ _ h
        | true =>
          by_cases hb : e.truncates = true ∧ e.truncOk = false
          · exfalso
            unfold sysMmap at h
            simp only [hb.1, hb.2, ho, Bool.and_false, Bool.not_false, Bool.and_self, if_true, Bool.not_true, Bool.false_eq_true, if_false] at h
            split at h <;> simp at h
          · have hc : (e.truncates && !(e.openOk && e.truncOk)) = false := by
              cases h1 : e.truncates <;> cases h2 : e.truncOk <;> simp_all
            unfold sysMmap at h
            simp only [hc, Bool.false_eq_true, if_false] at h
            cases hm : e.map1 with
            | none =>
              simp only [hm, ho, Bool.not_true, Bool.false_eq_true, if_false] at h
              exact .inr (.inl ⟨hfail _ _ h, rfl⟩)
            | some v =>
              simp only [hm, ho, Bool.not_true, Bool.false_eq_true, if_false] at h
              rw [hm] at hpl
              rcases hpl v rfl h with hh | hh
              · exact .inr (.inr (.inl hh))
              · exact .inr (.inr (.inr hh))

/-- **C93 (partial): the one proper refusal.** The kernel puts the second mapping somewhere else; then the process ends with status 1. Missing: every other refusal ends badly (below). -/
theorem C93_ends_properly_partial (e : Env) (v a w : Nat) (hn : e.name ≠ none) (hs : 0 < e.size) (ht : e.size ≤ e.total) (ho : e.openOk = true) (hk : e.truncOk = true)
    (hf : e.header ≤ e.fileNow) (h1 : e.map1 = some v) (ha : e.self = some a) (hv : a ≠ v) (hp : e.known = false) (h2 : e.map2 = some w) (hw : w ≠ a) :
    start e = .exits "Could not mmap shm_file in proper address" := by
  obtain ⟨nm, hnm⟩ := Option.ne_none_iff_exists'.1 hn
  have hpl : place e v = .exits "Could not mmap shm_file in proper address" := by
    unfold place
    simp [Env.readable, hf, ha, hp, hv, h2, hw, fail]
  unfold start sysMmap
  simp only [hnm]
  rw [if_neg (by omega)]
  simp [ho, hk, h1, hpl]

/-! ## What does not hold -/

/-- **C93 violated, in general: a refusal kills the process.** If nothing of the process lies at the configured base address, the only refusal that ends the process properly is the one above; for every
other environment in which the process cannot join, it is killed by a signal or hangs. The cause: the label FAIL reads `shm_size` through a pointer that is NULL or not mapped (impl.c:128). -/
theorem C93_violated_refusals (e : Env) (hc : ∀ a, ¬ CanJoin e a) (hown : e.ownAtBase = false)
    (h2 : ∀ v a w, e.map1 = some v → e.self = some a → a ≠ v → e.map2 = some w → w = a) :
    ¬ Proper e ∧ (start e = .hangs ∨ ∃ said, start e = .killed said) := by
  have hres : start e = .hangs ∨ ∃ said, start e = .killed said := by
    have hret : ∀ a, start e ≠ .returns a := fun a h => hc a ((C93_returns_iff_can_join_partial e a).1 h)
    have hwild : start e ≠ .wild := by
      intro h
      have hpi : ∀ a, pipeInit e a ≠ .wild := by
        intro a; unfold pipeInit fail; repeat' split
        all_goals simp
      have hfw : ∀ p w, fail e p w ≠ .wild := by intro p w; unfold fail; split <;> simp
      have hpl : ∀ v, place e v ≠ .wild := by
        intro v; unfold place
        by_cases hr : e.readable (.mapped v) = true
        · simp only [hr, Bool.not_true, Bool.false_eq_true, if_false]
          by_cases hv : e.self.getD v = v
          · simp only [hv, if_true, ite_self]; exact hpi _
          · simp only [hv, if_false]
            repeat' split
            all_goals first | exact hpi _ | exact hfw _ _ | simp
        · simp [hr]
      unfold start fail at h
      rw [hown] at h
      repeat' split at h
      all_goals first | exact hpl _ h | simp_all
    cases hst : start e with
    | returns a => exact absurd hst (hret a)
    | hangs => exact .inl rfl
    | wild => exact absurd hst hwild
    | killed said => exact .inr ⟨said, rfl⟩
    | exits why =>
      exfalso
      have hfb : ∀ w x, fail e .base w ≠ .exits x := by intro w x; simp [fail, Env.readable, hown]
      have hfn : ∀ w x, fail e .null w ≠ .exits x := by intro w x; simp [fail, Env.readable]
      have hpi : ∀ a, pipeInit e a ≠ .exits why := by
        intro a; unfold pipeInit; repeat' split
        all_goals first | exact hfn _ _ | simp
      have hpl : ∀ v, e.map1 = some v → place e v ≠ .exits why := by
        intro v hm
        unfold place
        split
        · simp
        · simp only
          by_cases hv : e.self.getD v = v
          · simp only [hv, if_true, ite_self]; exact hpi _
          · simp only [hv, if_false]
            have ha : e.self = some (e.self.getD v) := by
              cases hs : e.self with
              | none => simp [hs] at hv
              | some b => simp
            split
            · simp
            · cases hm2 : e.map2 with
              | none => exact hfn _ _
              | some w =>
                have := h2 v _ w hm ha hv hm2
                simp only [this, if_true]; exact hpi _
      unfold start at hst
      cases hn : e.name with
      | none => rw [hn] at hst; exact hfb _ _ hst
      | some nm =>
        simp only [hn] at hst
        split at hst
        · exact hfb _ _ hst
        · unfold sysMmap at hst
          split at hst
          · rename_i p heq
            split at heq
            · cases heq
              split at hst
              · exact hfb _ _ hst
              · simp [hown] at hst
            · split at heq
              · cases heq
                split at hst
                · exact hfn _ _ hst
                · exact hfn _ _ hst
              · cases hm : e.map1 with
                | none =>
                  simp only [hm] at heq; cases heq
                  split at hst
                  · exact hfn _ _ hst
                  · exact hfn _ _ hst
                | some v => simp only [hm] at heq; cases heq
          · rename_i v heq
            split at heq
            · cases heq
            · split at heq
              · cases heq
              · cases hm : e.map1 with
                | none => simp only [hm] at heq; cases heq
                | some v' => simp only [hm] at heq; cases heq; exact hpl _ hm hst
          · cases hst
  refine ⟨fun hp => ?_, hres⟩
  rcases hp with ⟨a, -, hj⟩ | ⟨-, why, hw⟩
  · exact hc a hj
  · rcases hres with h | ⟨s, h⟩ <;> rw [h] at hw <;> cases hw

/-- **C93 violated: no `shm_file` in the configuration.** The process is killed, whatever else is true, unless memory of its own lies at the base address. -/
theorem C93_violated_no_name (e : Env) (hn : e.name = none) (hown : e.ownAtBase = false) : start e = .killed (some "No shm_file set in config") := by
  simp [start, hn, fail, Env.readable, hown]

/-- **C93 violated: `ftruncate` fails** (no space). Nothing is printed: the failure is overlooked and the process is killed at its first access, or takes its own memory for the segment. -/
theorem C93_violated_no_space (e : Env) (hn : e.name ≠ none) (hs : 0 < e.size) (ht : e.size ≤ e.total) (ho : e.openOk = true) (hk : e.truncOk = false) (hc : e.trunc = true)
    (hi : e.ivshmem = false) (hst : e.statSize ≠ e.size) : start e = if e.ownAtBase then .wild else .killed none := by
  obtain ⟨nm, hnm⟩ := Option.ne_none_iff_exists'.1 hn
  have htr := (truncates_iff e).2 ⟨hc, hi, hst⟩
  unfold start sysMmap
  simp only [hnm]
  rw [if_neg (by omega)]
  simp [htr, ho, hk]

/-- **C93 violated: another file of the name.** `system_file_size` asks for the configured name in the working directory, but a name without '/' is opened with `shm_open`. If a file of that name and of the
configured size lies there, a new segment is not extended, and the process is killed. -/
theorem C93_violated_other_file (e : Env) (v : Nat) (hn : e.name ≠ none) (hs : 0 < e.size) (ht : e.size ≤ e.total) (ho : e.openOk = true) (hst : e.statSize = e.size)
    (hnew : e.fileSize = 0) (hh : 0 < e.header) (hm : e.map1 = some v) : start e = .killed none := by
  obtain ⟨nm, hnm⟩ := Option.ne_none_iff_exists'.1 hn
  have htr : e.truncates = false := by simp [Env.truncates, hst]
  have hf : e.fileNow = 0 := by simp [Env.fileNow, htr, hnew]
  unfold start sysMmap
  simp only [hnm]
  rw [if_neg (by omega)]
  simp [htr, ho, hm, place, Env.readable, hf]
  omega

/-- **C93 violated: the creator of the segment died** between counting itself and writing the revision. Every later process waits for ever. -/
theorem C93_violated_waits (e : Env) (v : Nat) (hn : e.name ≠ none) (hs : 0 < e.size) (ht : e.size ≤ e.total) (ho : e.openOk = true) (hk : e.truncOk = true)
    (hf : e.header ≤ e.fileNow) (hm : e.map1 = some v) (hself : e.self = some v) (hu : e.users ≠ 0) (hr : e.rev = none) : start e = .hangs := by
  obtain ⟨nm, hnm⟩ := Option.ne_none_iff_exists'.1 hn
  have hpl : place e v = .hangs := by
    unfold place
    simp [Env.readable, hf, hself, pipeInit, hu, hr]
  unfold start sysMmap
  simp only [hnm]
  rw [if_neg (by omega)]
  simp [ho, hk, hm, hpl]

/-- **C93 violated: the number of a dead process.** A process whose number is still in the map (its former owner died) and that does not get the usual address is killed. -/
theorem C93_violated_old_number (e : Env) (v a : Nat) (hn : e.name ≠ none) (hs : 0 < e.size) (ht : e.size ≤ e.total) (ho : e.openOk = true) (hk : e.truncOk = true)
    (hf : e.header ≤ e.fileNow) (hm : e.map1 = some v) (hself : e.self = some a) (hav : a ≠ v) (hkn : e.known = true) : start e = .killed none := by
  obtain ⟨nm, hnm⟩ := Option.ne_none_iff_exists'.1 hn
  have hpl : place e v = .killed none := by
    unfold place
    simp [Env.readable, hf, hself, hkn, hav]
  unfold start sysMmap
  simp only [hnm]
  rw [if_neg (by omega)]
  simp [ho, hk, hm, hpl]

/-! ## Calls of one thread -/

/-- Inits minus exits, `none` once there was an exit too many. (Specification.) -/
def depth : Nat → List Call → Option Nat
  | d, [] => some d
  | d, .init :: cs => depth (d + 1) cs
  | 0, .exit :: _ => none
  | d + 1, .exit :: cs => depth d cs

/-- What balanced calls should do: every init returns with the segment mapped; the exit of the last user unmaps, an inner one does not. (Specification.) -/
def expect : Nat → List Call → List Ret
  | _, [] => []
  | d, .init :: cs => .joined :: expect (d + 1) cs
  | d, .exit :: cs => (if d = 1 then .unmapped else .left) :: expect (d - 1) cs

theorem W_pos : 1 < W := by decide

attribute [local irreducible] W in
theorem run_balanced (cs : List Call) : ∀ (d : Nat) (s : Proc), depth d cs ≠ none → d + cs.length < W → s.threads = d → s.vpipe = true →
    (0 < d → s.mapped = true ∧ s.initialized = true) → run s cs = expect d cs := by
  have hW := W_pos
  induction cs with
  | nil => intros; rfl
  | cons c cs ih =>
    intro d s hd hlen hth hv hm
    simp only [List.length_cons] at hlen
    cases c with
    | init =>
      have hmod : (s.threads + 1) % W = d + 1 := by rw [hth]; exact Nat.mod_eq_of_lt (by omega)
      by_cases h0 : s.threads = 0
      · have hc : call s .init = ({ threads := d + 1, initialized := true, vpipe := true, mapped := true }, .joined) := by
          simp only [call, h0, ne_eq, not_true_eq_false, if_false]
          rw [h0] at hmod; rw [hmod]
        simp only [run, hc, expect]
        rw [if_neg (by simp), ih (d + 1) _ hd (by omega) rfl rfl (fun _ => ⟨rfl, rfl⟩)]
      · obtain ⟨hmp, hin⟩ := hm (by omega)
        have hc : call s .init = ({ s with threads := d + 1 }, .joined) := by
          simp only [call, hmod, ne_eq, h0, not_false_eq_true, if_true, hin, hmp]
        simp only [run, hc, expect]
        rw [if_neg (by simp), ih (d + 1) { s with threads := d + 1 } hd (by omega) rfl hv (fun _ => ⟨hmp, hin⟩)]
    | exit =>
      cases d with
      | zero => simp [depth] at hd
      | succ d =>
        obtain ⟨hmp, hin⟩ := hm (by omega)
        have hmod : (s.threads + W - 1) % W = d := by
          have : s.threads + W - 1 = d + W := by omega
          rw [this, Nat.add_mod_right]; exact Nat.mod_eq_of_lt (by omega)
        simp only [depth] at hd
        by_cases h1 : s.threads = 1
        · have hd0 : d = 0 := by omega
          have hc : call s .exit = ({ s with threads := d, mapped := false }, .unmapped) := by
            simp only [call, hv, if_true, h1, hmp]
            rw [h1] at hmod; rw [hmod]
          simp only [run, hc, expect]
          rw [if_neg (by simp), if_pos (by omega), Nat.add_sub_cancel, ih d { s with threads := d, mapped := false } hd (by omega) rfl hv (by intro h; omega)]
        · have hc : call s .exit = ({ s with threads := d }, .left) := by
            simp only [call, hv, if_true, hmod, h1, if_false]
          simp only [run, hc, expect]
          rw [if_neg (by simp), if_neg (by omega), Nat.add_sub_cancel, ih d { s with threads := d } hd (by omega) rfl hv (fun _ => ⟨hmp, hin⟩)]

/-- **C93 (partial): balanced calls.** A program that never calls `arax_exit` more often than `arax_init` sees every init return with the segment mapped, whatever it has done before. -/
theorem C93_balanced_calls_partial (cs : List Call) (h : depth 0 cs ≠ none) (hl : cs.length < 2 ^ 64) : run {} cs = expect 0 cs :=
  run_balanced cs 0 {} h (by rw [Nat.zero_add]; exact hl) rfl rfl (by simp)

/-- **C93 violated: the warning for an `arax_exit` too many is never printed**, in no history of calls. -/
theorem C93_violated_warning (cs : List Call) : Ret.warned ∉ run {} cs := by
  suffices h : ∀ (cs : List Call) (s : Proc), s.vpipe = true → Ret.warned ∉ run s cs from h cs {} rfl
  intro cs
  induction cs with
  | nil => intro s _; simp [run]
  | cons c cs ih =>
    intro s hv
    have hc : (call s c).1.vpipe = true ∧ (call s c).2 ≠ .warned := by
      cases c with
      | init => simp only [call]; repeat' split
                all_goals simp_all
      | exit => simp only [call, hv, if_true]; repeat' split
                all_goals simp_all
    simp only [run]
    split
    · rename_i hh
      simp only [List.mem_singleton]
      exact fun hx => hc.2 hx.symm
    · simp only [List.mem_cons, not_or]
      exact ⟨fun hx => hc.2 hx.symm, ih _ hc.1⟩

/-- **C93 violated: one `arax_exit` too many.** The next `arax_init` never returns: it hangs in a program that has not initialised before, and is killed in one that has. -/
theorem C93_violated_extra_exit : run {} [.exit, .init] = [.left, .hangs] ∧ run {} [.init, .exit, .exit, .init] = [.joined, .unmapped, .left, .killed] := by
  decide

/-! ## Non-vacuity -/

/-- A first process with default configuration joins at the base address. -/
example : start {} = .returns 4096 ∧ CanJoin {} 4096 := ⟨by decide, (C93_returns_iff_can_join_partial _ _).1 (by decide)⟩
/-- A second process that first lands elsewhere and then at the proper address. -/
example : start { statSize := 256, fileSize := 256, users := 1, rev := some "r1", self := some 8192, map1 := some 4096, map2 := some 8192 } = .returns 8192 := by decide
/-- The proper refusal. -/
example : start { statSize := 256, fileSize := 256, users := 1, rev := some "r1", self := some 8192, map1 := some 4096, map2 := some 512 } =
    .exits "Could not mmap shm_file in proper address" := by decide
/-- Refusals that kill: no name; too large; cannot open; cannot map; wrong revision; no heap. -/
example : start { name := none } = .killed (some "No shm_file set in config") := by decide
example : start { sizeCfg := some 2000 } = .killed (some "shm_size exceeds system memory") := by decide
example : start { openOk := false } = .killed (some "Could not open shm_file") := by decide
example : start { map1 := none } = .killed (some "Could not first mmap shm_file") := by decide
example : start { statSize := 256, fileSize := 256, users := 1, rev := some "r0", self := some 4096 } = .killed (some "Could not initialize arax_pipe") := by decide
example : start { heapOk := false } = .killed (some "Could not initialize arax_pipe") := by decide
/-- Hypotheses of the other violations. -/
example : start { truncOk := false } = .killed none := C93_violated_no_space _ (by decide) (by decide) (by decide) rfl rfl rfl rfl (by decide)
example : start { statSize := 256 } = .killed none := C93_violated_other_file _ 4096 (by decide) (by decide) (by decide) rfl rfl rfl (by decide) rfl
example : start { statSize := 256, fileSize := 256, users := 1, self := some 4096 } = .hangs :=
  C93_violated_waits _ 4096 (by decide) (by decide) (by decide) rfl rfl (by decide) rfl rfl (by decide) rfl
example : start { statSize := 256, fileSize := 256, users := 1, self := some 8192, known := true } = .killed none :=
  C93_violated_old_number _ 4096 8192 (by decide) (by decide) (by decide) rfl rfl (by decide) rfl rfl (by decide) rfl
/-- Nested balanced calls. -/
example : run {} [.init, .init, .exit, .exit, .init] = [.joined, .joined, .left, .unmapped, .joined] := by decide

end Arax.Startup
