import Verif.Reclaim.Model
/-!
# C80: dropping the last reference of a data object comes to an end, and gives its device memory back
-/
namespace Arax.Reclaim

/-! ## The invariant -/

theorem first_perm {α : Type} {i : Nat} : ∀ {l : List (Nat × α)} {a : α} {r : List (Nat × α)}, first i l = some (a, r) → l.Perm ((i, a) :: r) := by
  intro l
  induction l with
  | nil => intro a r h; cases h
  | cons x l ih =>
    obtain ⟨j, b⟩ := x
    intro a r h
    simp only [first] at h
    split at h
    · rename_i hj; cases h; subst hj; exact .refl _
    · split at h
      · cases h
      · rename_i b' r' h1
        cases h
        exact ((ih h1).cons _).trans (.swap _ _ _)

/-- How many references of `d` the tasks that exist have. -/
def held (s : St) (d : Nat) : Nat := (s.live.map fun t => (s.args t).count d).sum

/-- The invariant. -/
structure Inv (s : St) : Prop where
  dcount : ∀ d, s.drefs d = (if s.user d = true then 1 else 0) + held s d + s.jobs.countP (fun x => x.2 = .drop d)
  mem : ∀ d, s.fq.count d + s.jobs.countP (fun x => x.2 = .push d) = if s.remote d = true ∧ s.drefs d = 0 then 1 else 0
  made : ∀ d, s.made d = false → s.user d = false ∧ s.remote d = false ∧ s.drefs d = 0
  tcount : ∀ t, s.trefs t = (if s.tuser t = true then 1 else 0) + (if s.run = some t then 1 else 0)
  alive : ∀ t, t ∈ s.live ↔ 0 < s.trefs t
  nodup : s.live.Nodup
  fresh : ∀ t, s.issued t = false → s.trefs t = 0 ∧ s.done t = false
  queued : ∀ x ∈ s.queue, s.tuser x.2 = true ∧ s.done x.2 = false ∧ s.run ≠ some x.2
  once : (s.queue.map Prod.snd).Nodup

theorem inv_start : Inv start := by
  refine ⟨?_, ?_, ?_, ?_, ?_, ?_, ?_, ?_, ?_⟩ <;> simp [start, held]

theorem held_erase {s : St} {t : Nat} (ht : t ∈ s.live) (d : Nat) : held s d = (s.args t).count d + ((s.live.erase t).map fun t => (s.args t).count d).sum := by
  have := ((List.perm_cons_erase ht).map fun t => (s.args t).count d).sum_nat
  simpa [held] using this

theorem held_pos {s : St} (hi : Inv s) {t d : Nat} (ht : t ∈ s.live) (hd : d ∈ s.args t) : 0 < s.drefs d := by
  have h1 := hi.dcount d
  have h2 := held_erase ht d
  have h3 := List.count_pos_iff.2 hd
  omega

theorem count_map_drop (i d : Nat) (l : List Nat) : (l.map fun d => (i, Job.drop d)).countP (fun x => x.2 = .drop d) = l.count d := by
  induction l with
  | nil => rfl
  | cons a l ih =>
    simp only [List.map_cons, List.countP_cons, List.count_cons, ih]
    by_cases h : a = d
    · subst h; simp
    · simp [h]
theorem count_map_push (i d : Nat) (l : List Nat) : (l.map fun d => (i, Job.drop d)).countP (fun x => x.2 = .push d) = 0 := by
  induction l with
  | nil => rfl
  | cons a l ih => simp [List.countP_cons]

/-- Dropping a reference of a task keeps the invariant; `s` lacks the reference already. -/
theorem inv_dropTask {s : St} {i t : Nat} (dcount : ∀ d, s.drefs d = (if s.user d = true then 1 else 0) + held s d + s.jobs.countP (fun x => x.2 = .drop d))
    (mem : ∀ d, s.fq.count d + s.jobs.countP (fun x => x.2 = .push d) = if s.remote d = true ∧ s.drefs d = 0 then 1 else 0)
    (made : ∀ d, s.made d = false → s.user d = false ∧ s.remote d = false ∧ s.drefs d = 0)
    (tc : ∀ u, s.trefs u = (if s.tuser u = true then 1 else 0) + (if s.run = some u then 1 else 0) + (if u = t then 1 else 0))
    (alive : ∀ t, t ∈ s.live ↔ 0 < s.trefs t) (nodup : s.live.Nodup)
    (fresh : ∀ u, s.issued u = false → s.trefs u = 0 ∧ s.done u = false) (queued : ∀ x ∈ s.queue, s.tuser x.2 = true ∧ s.done x.2 = false ∧ s.run ≠ some x.2)
    (once : (s.queue.map Prod.snd).Nodup) : Inv (s.dropTask i t) := by
  have ht : t ∈ s.live := (alive t).2 (by have := tc t; simp at this; omega)
  unfold St.dropTask
  split
  · rename_i h0
    refine ⟨fun d => ?_, fun d => ?_, made, fun u => ?_, fun u => ?_, nodup.erase t, fun u hu => ?_, queued, once⟩
    · have h1 := dcount d
      have h2 := held_erase ht d
      have h3 := count_map_drop i d (s.args t)
      simp only [held, List.countP_append] at h1 h2 ⊢
      omega
    · have h1 := mem d
      have h3 := count_map_push i d (s.args t)
      simp only [List.countP_append, h3, Nat.zero_add]
      exact h1
    · have h1 := tc u
      by_cases hu : u = t
      · subst hu; simp only [upd, if_true] at h1 ⊢; omega
      · simp only [upd, if_neg hu] at h1 ⊢; omega
    · have h1 := alive u
      by_cases hu : u = t
      · subst hu; simp [upd, List.Nodup.mem_erase_iff nodup]
      · simp [upd, hu, List.Nodup.mem_erase_iff nodup, h1]
    · have := fresh u hu
      refine ⟨?_, this.2⟩
      by_cases he : u = t
      · simp [upd, he]
      · simp [upd, he, this.1]
  · rename_i h0
    refine ⟨dcount, mem, made, fun u => ?_, fun u => ?_, nodup, fun u hu => ?_, queued, once⟩
    · have h1 := tc u
      by_cases hu : u = t
      · subst hu; simp only [upd, if_true] at h1 ⊢; omega
      · simp only [upd, if_neg hu] at h1 ⊢; omega
    · have h1 := alive u
      by_cases hu : u = t
      · subst hu; simp only [upd, if_true]; rw [h1]; omega
      · simp only [upd, if_neg hu]; exact h1
    · have := fresh u hu
      refine ⟨?_, this.2⟩
      by_cases he : u = t
      · subst he; simp [upd, this.1]
      · simp [upd, he, this.1]

theorem inv_step {cap : Nat} {s s' : St} (hi : Inv s) {a : Act} (h : s.step cap a = some s') : Inv s' := by
  cases a with
  | new d =>
    simp only [St.step] at h
    split at h
    · rename_i hm
      cases h
      obtain ⟨m1, m2, m3⟩ := hi.made d hm
      refine ⟨fun e => ?_, fun e => ?_, fun e he => ?_, hi.tcount, hi.alive, hi.nodup, hi.fresh, hi.queued, hi.once⟩
      · have h1 := hi.dcount e
        by_cases hd : e = d
        · subst hd
          simp only [m1, m3, held] at h1
          simp only [upd, if_true, held]
          simp at h1 ⊢
          omega
        · simpa [upd, hd, held] using h1
      · have h1 := hi.mem e
        by_cases hd : e = d
        · subst hd; simpa [upd, m2] using h1
        · simpa [upd, hd] using h1
      · by_cases hd : e = d
        · simp [upd, hd] at he
        · simp only [upd, if_neg hd] at he ⊢; exact hi.made e he
    · cases h
  | issue c v t ds a =>
    simp only [St.step] at h
    split at h
    · rename_i hc
      obtain ⟨_, _, hu, hds, _⟩ := hc
      cases h
      obtain ⟨ft, fd⟩ := hi.fresh t hu
      have hnl : t ∉ s.live := fun hm => by have := (hi.alive t).1 hm; omega
      have hnu : s.tuser t = false := by
        have := hi.tcount t; rw [ft] at this
        cases hx : s.tuser t
        · rfl
        · simp [hx] at this; omega
      have hnr : s.run ≠ some t := by
        intro hx; have := hi.tcount t; rw [ft] at this; simp [hx] at this
      have hmap : ∀ d, (s.live.map fun u => (upd s.args t ds u).count d) = s.live.map fun u => (s.args u).count d := by
        intro d
        apply List.map_congr_left
        intro u hu'
        have : u ≠ t := fun he => hnl (he ▸ hu')
        simp [upd, this]
      refine ⟨fun d => ?_, fun d => ?_, fun d hd => ?_, fun u => ?_, fun u => ?_, ?_, fun u hu' => ?_, ?_, ?_⟩
      · have h1 := hi.dcount d
        simp only [held, List.map_cons, List.sum_cons, hmap d] at h1 ⊢
        simp only [upd, if_true]
        omega
      · have h1 := hi.mem d
        have h2 : ds.count d = 0 ∨ 0 < s.drefs d := by
          by_cases hd : d ∈ ds
          · right; have h3 := hi.dcount d; rw [hds d hd] at h3; simp at h3; omega
          · left; exact List.count_eq_zero.2 hd
        rw [show (s.fq.count d + s.jobs.countP (fun x => x.2 = .push d)) = _ from h1]
        have h4 : (s.drefs d + ds.count d = 0) ↔ s.drefs d = 0 := by omega
        simp only [h4]
      · have h1 := hi.made d hd
        have : d ∉ ds := fun hm => by have := hds d hm; rw [h1.1] at this; cases this
        refine ⟨h1.1, h1.2.1, ?_⟩
        show s.drefs d + ds.count d = 0
        rw [h1.2.2, List.count_eq_zero.2 this]
      · by_cases he : u = t
        · subst he; simp [upd, hnr]
        · simpa [upd, he] using hi.tcount u
      · by_cases he : u = t
        · subst he; simp [upd]
        · simpa [upd, he] using hi.alive u
      · exact List.nodup_cons.2 ⟨hnl, hi.nodup⟩
      · by_cases he : u = t
        · simp [upd, he] at hu'
        · simp only [upd, if_neg he] at hu' ⊢; exact hi.fresh u hu'
      · intro x hx
        simp only [List.mem_append, List.mem_singleton] at hx
        rcases hx with hx | hx
        · have h1 := hi.queued x hx
          refine ⟨?_, h1.2⟩
          by_cases he : x.2 = t
          · simp [upd, he]
          · simp [upd, he, h1.1]
        · subst hx; exact ⟨by simp [upd], fd, hnr⟩
      · rw [List.map_append, List.nodup_append]
        refine ⟨hi.once, by simp, ?_⟩
        intro a ha b hb
        simp only [List.map_cons, List.map_nil, List.mem_singleton] at hb
        subst hb
        obtain ⟨x, hx, rfl⟩ := List.mem_map.1 ha
        intro he
        have := (hi.queued x hx).1
        rw [he, hnu] at this; cases this
    · cases h
  | pick v al =>
    simp only [St.step] at h
    split at h
    · rename_i hc
      split at h
      · cases h
      · rename_i t r hf
        split at h
        · rename_i hal
          cases h
          have hp := first_perm hf
          have hin : (v, t) ∈ s.queue := hp.mem_iff.2 (by simp)
          obtain ⟨q1, q2, q3⟩ := hi.queued _ hin
          have ht : t ∈ s.live := (hi.alive t).2 (by have := hi.tcount t; simp only at q1; rw [q1] at this; simp at this; omega)
          have hon := (hp.map Prod.snd).nodup_iff.1 hi.once
          simp only [List.map_cons, List.nodup_cons] at hon
          refine ⟨hi.dcount, fun d => ?_, fun d hd => ?_, fun u => ?_, fun u => ?_, hi.nodup, fun u hu => ?_, fun x hx => ?_, hon.2⟩
          · have h1 := hi.mem d
            rw [show (s.fq.count d + s.jobs.countP (fun x => x.2 = .push d)) = _ from h1]
            by_cases hd : d ∈ al
            · have := held_pos hi ht (hal d hd)
              rw [if_neg (by omega), if_neg (by simp; omega)]
            · simp [hd]
          · have h1 := hi.made d hd
            have : d ∉ al := fun hm => by have := held_pos hi ht (hal d hm); omega
            exact ⟨h1.1, by simp [h1.2.1, this], h1.2.2⟩
          · have h1 := hi.tcount u
            rw [hc.2] at h1
            by_cases he : u = t
            · subst he; simp [upd] at h1 ⊢; omega
            · simp [upd, he, Ne.symm he] at h1 ⊢; exact h1
          · by_cases he : u = t
            · subst he; simp [upd, ht]
            · simpa [upd, he] using hi.alive u
          · have h1 := hi.fresh u hu
            by_cases he : u = t
            · subst he; have := (hi.alive u).1 ht; omega
            · simpa [upd, he] using h1
          · have h1 := hi.queued x (hp.mem_iff.2 (List.mem_cons_of_mem _ hx))
            refine ⟨h1.1, h1.2.1, ?_⟩
            intro he
            cases he
            exact hon.1 (List.mem_map_of_mem hx)
        · cases h
    · cases h
  | handlerFree =>
    simp only [St.step] at h
    split at h
    · cases h
    · rename_i t hr
      split at h
      · rename_i hc
        cases h
        refine inv_dropTask (s := { s with tuser := upd s.tuser t false }) hi.dcount hi.mem hi.made (fun u => ?_) hi.alive hi.nodup hi.fresh (fun x hx => ?_) hi.once
        · have h1 := hi.tcount u
          by_cases he : u = t
          · subst he; simp [upd, hc.2, hr] at h1 ⊢; omega
          · simpa [upd, he] using h1
        · have h1 := hi.queued x hx
          have : x.2 ≠ t := fun he => h1.2.2 (by rw [hr, he])
          simpa [upd, this] using h1
      · cases h
  | mark =>
    simp only [St.step] at h
    split at h
    · cases h
    · rename_i t hr
      split at h
      · rename_i hc
        cases h
        refine ⟨hi.dcount, hi.mem, hi.made, hi.tcount, hi.alive, hi.nodup, fun u hu => ?_, fun x hx => ?_, hi.once⟩
        · have h1 := hi.fresh u hu
          have : u ≠ t := fun he => by subst he; have := hi.tcount u; rw [h1.1] at this; simp [hr] at this
          simpa [upd, this] using h1
        · have h1 := hi.queued x hx
          have : x.2 ≠ t := fun he => h1.2.2 (by rw [hr, he])
          simpa [upd, this] using h1
      · cases h
  | finish =>
    simp only [St.step] at h
    split at h
    · cases h
    · rename_i t hr
      split at h
      · rename_i hc
        cases h
        refine inv_dropTask (s := { s with run := none }) hi.dcount hi.mem hi.made (fun u => ?_) hi.alive hi.nodup hi.fresh (fun x hx => ?_) hi.once
        · have h1 := hi.tcount u
          rw [hr] at h1
          by_cases he : u = t
          · subst he; simp at h1 ⊢; omega
          · simp [he, Ne.symm he] at h1 ⊢; exact h1
        · have h1 := hi.queued x hx
          exact ⟨h1.1, h1.2.1, by simp⟩
      · cases h
  | pickFree =>
    simp only [St.step] at h
    split at h
    · split at h
      · cases h
      · rename_i d r hf
        cases h
        refine ⟨hi.dcount, fun e => ?_, fun e he => ?_, hi.tcount, hi.alive, hi.nodup, hi.fresh, hi.queued, hi.once⟩
        · have h1 := hi.mem e
          rw [hf] at h1
          by_cases he : e = d
          · subst he
            simp only [upd, if_true, List.count_cons_self] at h1 ⊢
            have : (if s.remote e = true ∧ s.drefs e = 0 then 1 else 0) ≤ 1 := by split <;> omega
            rw [if_neg (by simp)]
            omega
          · rw [List.count_cons_of_ne (Ne.symm he)] at h1
            simpa [upd, he] using h1
        · have h1 := hi.made e he
          refine ⟨h1.1, ?_, h1.2.2⟩
          by_cases hd : e = d
          · simp [upd, hd]
          · simp [upd, hd, h1.2.1]
    · cases h
  | taskFree c t =>
    simp only [St.step] at h
    split at h
    · rename_i hc
      cases h
      refine inv_dropTask (s := { s with tuser := upd s.tuser t false }) hi.dcount hi.mem hi.made (fun u => ?_) hi.alive hi.nodup hi.fresh (fun x hx => ?_) hi.once
      · have h1 := hi.tcount u
        by_cases he : u = t
        · subst he; simp [upd, hc.2.2.2.1] at h1 ⊢; omega
        · simpa [upd, he] using h1
      · have h1 := hi.queued x hx
        have : x.2 ≠ t := fun he => by rw [he, hc.2.2.2.2] at h1; cases h1.2.1
        simpa [upd, this] using h1
    · cases h
  | dataFree c d =>
    simp only [St.step] at h
    split at h
    · rename_i hc
      cases h
      refine ⟨fun e => ?_, fun e => ?_, fun e he => ?_, hi.tcount, hi.alive, hi.nodup, hi.fresh, hi.queued, hi.once⟩
      · have h1 := hi.dcount e
        by_cases he : e = d
        · subst he; simp [upd, hc.2.2, held] at h1 ⊢; omega
        · simpa [upd, he, held, Ne.symm he] using h1
      · simpa [List.countP_cons] using hi.mem e
      · have h1 := hi.made e he
        refine ⟨?_, h1.2⟩
        by_cases hd : e = d
        · simp [upd, hd]
        · simp [upd, hd, h1.1]
    · cases h
  | go i =>
    simp only [St.step] at h
    split at h
    · cases h
    · rename_i d r hf
      cases h
      have hp := first_perm hf
      have hpos : 0 < s.drefs d := by
        have h1 := hi.dcount d
        rw [hp.countP_eq] at h1
        simp at h1
        omega
      unfold St.dropData
      split
      · rename_i hc
        refine ⟨fun e => ?_, fun e => ?_, fun e he => ?_, hi.tcount, hi.alive, hi.nodup, hi.fresh, hi.queued, hi.once⟩
        · have h1 := hi.dcount e
          rw [hp.countP_eq] at h1
          by_cases he : e = d
          · subst he; simp [upd, held] at h1 ⊢; omega
          · simpa [upd, he, held, Ne.symm he] using h1
        · have h1 := hi.mem e
          rw [hp.countP_eq] at h1
          by_cases he : e = d
          · subst he
            rw [if_neg (by omega)] at h1
            simp only [upd, if_true]
            rw [if_pos ⟨hc.2, hc.1⟩]
            simp only [List.countP_cons] at h1 ⊢
            simp only [reduceCtorEq, decide_false, decide_true, if_true, Bool.false_eq_true, if_false] at h1 ⊢
            omega
          · simpa [upd, he, Ne.symm he] using h1
        · have h1 := hi.made e he
          refine ⟨h1.1, h1.2.1, ?_⟩
          by_cases hd : e = d
          · subst hd; omega
          · simp [upd, hd, h1.2.2]
      · rename_i hc
        refine ⟨fun e => ?_, fun e => ?_, fun e he => ?_, hi.tcount, hi.alive, hi.nodup, hi.fresh, hi.queued, hi.once⟩
        · have h1 := hi.dcount e
          rw [hp.countP_eq] at h1
          by_cases he : e = d
          · subst he; simp [upd, held] at h1 ⊢; omega
          · simpa [upd, he, held, Ne.symm he] using h1
        · have h1 := hi.mem e
          rw [hp.countP_eq] at h1
          by_cases he : e = d
          · subst he
            rw [if_neg (by omega)] at h1
            simp only [upd, if_true]
            rw [if_neg (fun hx => hc ⟨hx.2, hx.1⟩)]
            simp at h1 ⊢
            omega
          · simpa [upd, he, Ne.symm he] using h1
        · have h1 := hi.made e he
          refine ⟨h1.1, h1.2.1, ?_⟩
          by_cases hd : e = d
          · subst hd; omega
          · simp [upd, hd, h1.2.2]
    · rename_i d r hf
      split at h
      · cases h
        have hp := first_perm hf
        refine ⟨fun e => ?_, fun e => ?_, hi.made, hi.tcount, hi.alive, hi.nodup, hi.fresh, hi.queued, hi.once⟩
        · have h1 := hi.dcount e
          rw [hp.countP_eq] at h1
          simpa [held] using h1
        · have h1 := hi.mem e
          rw [hp.countP_eq] at h1
          by_cases he : e = d
          · subst he; simp at h1 ⊢; omega
          · simpa [List.count_append, Ne.symm he, List.count_singleton] using h1
      · cases h

theorem inv_act {cap : Nat} {s : St} (hi : Inv s) (a : Act) : Inv (s.act cap a) := by
  unfold St.act
  cases h : s.step cap a with
  | none => exact hi
  | some s' => exact inv_step hi h

theorem inv_exec {cap : Nat} (h : List Act) : ∀ {s : St}, Inv s → Inv (s.exec cap h) := by
  induction h with
  | nil => intro s hi; exact hi
  | cons a l ih => intro s hi; exact ih (inv_act hi a)

/-- The history of what was freed. -/
structure Past (s : St) : Prop where
  nodup : s.freed.Nodup
  gone : ∀ d ∈ s.freed, s.made d = true ∧ s.drefs d = 0 ∧ s.remote d = false

theorem past_dropTask {s : St} {i t : Nat} (hp : Past s) : Past (s.dropTask i t) := by
  unfold St.dropTask
  split <;> exact ⟨hp.nodup, hp.gone⟩

theorem past_step {cap : Nat} {s s' : St} (hi : Inv s) (hp : Past s) {a : Act} (h : s.step cap a = some s') : Past s' := by
  cases a with
  | new d =>
    simp only [St.step] at h
    split at h
    · rename_i hm
      cases h
      refine ⟨hp.nodup, fun e he => ?_⟩
      have h1 := hp.gone e he
      have : e ≠ d := fun hx => by subst hx; rw [hm] at h1; cases h1.1
      simpa [upd, this] using h1
    · cases h
  | issue c v t ds a =>
    simp only [St.step] at h
    split at h
    · rename_i hc
      cases h
      refine ⟨hp.nodup, fun e he => ?_⟩
      have h1 := hp.gone e he
      have : e ∉ ds := fun hx => by
        have h2 := hc.2.2.2.1 e hx
        have h3 := hi.dcount e; rw [h2] at h3; simp at h3; omega
      refine ⟨h1.1, ?_, h1.2.2⟩
      show s.drefs e + ds.count e = 0
      rw [h1.2.1, List.count_eq_zero.2 this]
    · cases h
  | pick v al =>
    simp only [St.step] at h
    split at h
    · split at h
      · cases h
      · rename_i t r hf
        split at h
        · rename_i hal
          cases h
          have hin : (v, t) ∈ s.queue := (first_perm hf).mem_iff.2 (by simp)
          have q1 := (hi.queued _ hin).1
          have ht : t ∈ s.live := (hi.alive t).2 (by have := hi.tcount t; simp only at q1; rw [q1] at this; simp at this; omega)
          refine ⟨hp.nodup, fun e he => ?_⟩
          have h1 := hp.gone e he
          have : e ∉ al := fun hm => by have := held_pos hi ht (hal e hm); omega
          exact ⟨h1.1, h1.2.1, by simp [h1.2.2, this]⟩
        · cases h
    · cases h
  | handlerFree =>
    simp only [St.step] at h
    split at h
    · cases h
    · split at h
      · cases h; exact past_dropTask ⟨hp.nodup, hp.gone⟩
      · cases h
  | mark =>
    simp only [St.step] at h
    split at h
    · cases h
    · split at h
      · cases h; exact ⟨hp.nodup, hp.gone⟩
      · cases h
  | finish =>
    simp only [St.step] at h
    split at h
    · cases h
    · split at h
      · cases h; exact past_dropTask ⟨hp.nodup, hp.gone⟩
      · cases h
  | pickFree =>
    simp only [St.step] at h
    split at h
    · split at h
      · cases h
      · rename_i d r hf
        cases h
        have h1 := hi.mem d
        rw [hf, List.count_cons_self] at h1
        have hd : s.remote d = true ∧ s.drefs d = 0 := by
          by_cases hx : s.remote d = true ∧ s.drefs d = 0
          · exact hx
          · rw [if_neg hx] at h1; omega
        have hm : s.made d = true := by
          cases hx : s.made d
          · rw [(hi.made d hx).2.1] at hd; cases hd.1
          · rfl
        refine ⟨?_, fun e he => ?_⟩
        · rw [List.nodup_append]
          refine ⟨hp.nodup, by simp, ?_⟩
          intro a ha b hb
          simp only [List.mem_singleton] at hb
          subst hb
          intro hx; subst hx
          rw [(hp.gone a ha).2.2] at hd; cases hd.1
        · simp only [List.mem_append, List.mem_singleton] at he
          by_cases hx : e = d
          · subst hx; exact ⟨hm, hd.2, by simp [upd]⟩
          · have := hp.gone e (he.resolve_right hx); simpa [upd, hx] using this
    · cases h
  | taskFree c t =>
    simp only [St.step] at h
    split at h
    · cases h; exact past_dropTask ⟨hp.nodup, hp.gone⟩
    · cases h
  | dataFree c d =>
    simp only [St.step] at h
    split at h
    · cases h; exact ⟨hp.nodup, hp.gone⟩
    · cases h
  | go i =>
    simp only [St.step] at h
    split at h
    · cases h
    · rename_i d r hf
      cases h
      unfold St.dropData
      split
      · refine ⟨hp.nodup, fun e he => ?_⟩
        have h1 := hp.gone e he
        by_cases hx : e = d
        · subst hx; simp [upd, h1]
        · simpa [upd, hx] using h1
      · refine ⟨hp.nodup, fun e he => ?_⟩
        have h1 := hp.gone e he
        by_cases hx : e = d
        · subst hx; simp [upd, h1]
        · simpa [upd, hx] using h1
    · split at h
      · cases h; exact ⟨hp.nodup, hp.gone⟩
      · cases h

/-- While the worker executes a task, it drops nothing. -/
def Calm (s : St) : Prop := s.run ≠ none → s.busy 0 = false

theorem busy_cons (s : St) (i : Nat) : s.busy i = s.jobs.any fun x => x.1 = i := rfl

theorem busy_false {s : St} {i : Nat} : s.busy i = false ↔ ∀ x ∈ s.jobs, x.1 ≠ i := by
  simp [St.busy]

theorem first_none {α : Type} {i : Nat} : ∀ {l : List (Nat × α)}, first i l = none ↔ ∀ x ∈ l, x.1 ≠ i := by
  intro l
  induction l with
  | nil => simp [first]
  | cons x l ih =>
    obtain ⟨j, b⟩ := x
    simp only [first]
    by_cases hj : j = i
    · simp [hj]
    · rw [if_neg hj]
      cases hf : first i l with
      | none => simp only [true_iff]; intro x hx; rcases List.mem_cons.1 hx with rfl | hx; exact hj; exact ih.1 hf x hx
      | some y =>
        simp only [reduceCtorEq, false_iff]
        intro hx
        have := ih.2 (fun y hy => hx y (List.mem_cons_of_mem _ hy))
        rw [hf] at this; cases this

/-- What thread `i` has to do, in order. -/
def mine (s : St) (i : Nat) : List Job := (s.jobs.filter fun x => x.1 = i).map Prod.snd

theorem first_mine {i : Nat} : ∀ {l : List (Nat × Job)} {a : Job} {r : List (Nat × Job)}, first i l = some (a, r) →
    (l.filter fun x => x.1 = i) = (i, a) :: (r.filter fun x => x.1 = i) ∧ ∀ k, k ≠ i → (l.filter fun x => x.1 = k) = r.filter fun x => x.1 = k := by
  intro l
  induction l with
  | nil => intro a r h; cases h
  | cons x l ih =>
    obtain ⟨j, b⟩ := x
    intro a r h
    simp only [first] at h
    split at h
    · rename_i hj
      cases h
      subst hj
      refine ⟨by simp, fun k hk => by simp [Ne.symm hk]⟩
    · rename_i hj
      split at h
      · cases h
      · rename_i b' r' h1
        cases h
        obtain ⟨h2, h3⟩ := ih h1
        refine ⟨by simp [hj, h2], fun k hk => ?_⟩
        have := h3 k hk
        by_cases hjk : j = k
        · simp [hjk, this]
        · simp [hjk, this]

theorem busy_mine {s : St} {i : Nat} : s.busy i = false ↔ mine s i = [] := by
  rw [busy_false]
  simp only [mine, List.map_eq_nil_iff, List.filter_eq_nil_iff, decide_eq_true_eq]

/-- The steps of a call that has `j` left, at most. -/
def Job.weight : Job → Nat
  | .drop _ => 2
  | .push _ => 1

/-- The steps of thread `i` until its call returns, at most. -/
def work (s : St) (i : Nat) : Nat := ((mine s i).map Job.weight).sum

theorem calm_step {cap : Nat} {s s' : St} (hi : Inv s) (hc : Calm s) {a : Act} (h : s.step cap a = some s') :
    Calm s' ∧ ∀ i, s.busy i = true → a ≠ .go i → mine s' i = mine s i := by
  have dt : ∀ (x : St) (j t : Nat), x.jobs = s.jobs → s.busy j = false → x.run = none ∨ (j ≠ 0 ∧ x.run = s.run) →
      Calm (x.dropTask j t) ∧ ∀ i, s.busy i = true → mine (x.dropTask j t) i = mine s i := by
    intro x j t hj hb hr
    have hfil : ∀ i, i ≠ j → ∀ l : List Nat, ((l.map fun d => (j, Job.drop d)).filter fun y => y.1 = i) = [] := by
      intro i hij l
      induction l with
      | nil => rfl
      | cons a l ih => simp [Ne.symm hij]
    have mj : ∀ i, s.busy i = true → mine (x.dropTask j t) i = mine s i := by
      intro i hi'
      have hij : i ≠ j := fun he => by subst he; rw [hb] at hi'; cases hi'
      unfold St.dropTask
      split
      · simp only [mine, List.filter_append, hj, hfil i hij, List.nil_append]
      · simp only [mine, hj]
    refine ⟨?_, mj⟩
    intro hrun
    have hrx : (x.dropTask j t).run = x.run := by unfold St.dropTask; split <;> rfl
    rw [hrx] at hrun
    rcases hr with hr | ⟨h0, hr⟩
    · exact absurd hr hrun
    · rw [hr] at hrun
      have h1 := hc hrun
      rw [busy_false] at h1 ⊢
      unfold St.dropTask
      split
      · intro y hy
        simp only [List.mem_append, List.mem_map] at hy
        rcases hy with ⟨d, _, rfl⟩ | hy
        · exact h0
        · exact h1 y (hj ▸ hy)
      · intro y hy; exact h1 y (hj ▸ hy)
  cases a with
  | new d =>
    simp only [St.step] at h
    split at h
    · cases h; exact ⟨hc, fun i _ _ => rfl⟩
    · cases h
  | issue c v t ds a =>
    simp only [St.step] at h
    split at h
    · cases h; exact ⟨hc, fun i _ _ => rfl⟩
    · cases h
  | pick v al =>
    simp only [St.step] at h
    split at h
    · rename_i hb
      split at h
      · cases h
      · split at h
        · cases h; exact ⟨fun _ => hb.1, fun i _ _ => rfl⟩
        · cases h
    · cases h
  | handlerFree =>
    simp only [St.step] at h
    split at h
    · cases h
    · rename_i t hr
      split at h
      · rename_i hx
        cases h
        have h2 : s.trefs t = 2 := by have := hi.tcount t; rw [hx.2, hr] at this; simpa using this
        have : ({ s with tuser := upd s.tuser t false } : St).dropTask 0 t = { s with tuser := upd s.tuser t false, trefs := upd s.trefs t 1 } := by
          simp [St.dropTask, h2]
        rw [this]
        exact ⟨hc, fun i _ _ => rfl⟩
      · cases h
  | mark =>
    simp only [St.step] at h
    split at h
    · cases h
    · split at h
      · cases h; exact ⟨hc, fun i _ _ => rfl⟩
      · cases h
  | finish =>
    simp only [St.step] at h
    split at h
    · cases h
    · rename_i t hr
      split at h
      · cases h
        have := dt { s with run := none } 0 t rfl (hc (by rw [hr]; simp)) (Or.inl rfl)
        exact ⟨this.1, fun i hi' _ => this.2 i hi'⟩
      · cases h
  | pickFree =>
    simp only [St.step] at h
    split at h
    · split at h
      · cases h
      · cases h; exact ⟨hc, fun i _ _ => rfl⟩
    · cases h
  | taskFree c t =>
    simp only [St.step] at h
    split at h
    · rename_i hx
      cases h
      have := dt { s with tuser := upd s.tuser t false } c t rfl hx.2.1 (Or.inr ⟨by omega, rfl⟩)
      exact ⟨this.1, fun i hi' _ => this.2 i hi'⟩
    · cases h
  | dataFree c d =>
    simp only [St.step] at h
    split at h
    · rename_i hx
      cases h
      refine ⟨fun hr => ?_, fun i hi' _ => ?_⟩
      · have h1 := hc hr
        rw [busy_false] at h1 ⊢
        intro y hy
        rcases List.mem_cons.1 hy with rfl | hy
        · show c ≠ 0; omega
        · exact h1 y hy
      · have : i ≠ c := fun he => by subst he; rw [hx.2.1] at hi'; cases hi'
        simp [mine, Ne.symm this]
    · cases h
  | go j =>
    simp only [St.step] at h
    have nz : ∀ {x : Job} {r : List (Nat × Job)}, first j s.jobs = some (x, r) → s.run ≠ none → j ≠ 0 := by
      intro x r hf hr he
      subst he
      have h1 := busy_false.1 (hc hr)
      have h2 := first_none.2 h1
      rw [h2] at hf; cases hf
    split at h
    · cases h
    · rename_i d r hf
      cases h
      obtain ⟨f1, f2⟩ := first_mine hf
      have hp := first_perm hf
      unfold St.dropData
      split
      · refine ⟨fun hr => ?_, fun i _ hne => ?_⟩
        · have h1 := busy_false.1 (hc hr)
          refine busy_false.2 fun y hy => ?_
          rcases List.mem_cons.1 hy with rfl | hy
          · exact nz hf hr
          · exact h1 y (hp.mem_iff.2 (List.mem_cons_of_mem _ hy))
        · have : i ≠ j := fun he => hne (by rw [he])
          simp [mine, f2 i this, Ne.symm this]
      · refine ⟨fun hr => ?_, fun i _ hne => ?_⟩
        · have h1 := busy_false.1 (hc hr)
          exact busy_false.2 fun y hy => h1 y (hp.mem_iff.2 (List.mem_cons_of_mem _ hy))
        · have : i ≠ j := fun he => hne (by rw [he])
          simp [mine, f2 i this]
    · rename_i d r hf
      split at h
      · cases h
        obtain ⟨f1, f2⟩ := first_mine hf
        have hp := first_perm hf
        refine ⟨fun hr => ?_, fun i _ hne => ?_⟩
        · have h1 := busy_false.1 (hc hr)
          exact busy_false.2 fun y hy => h1 y (hp.mem_iff.2 (List.mem_cons_of_mem _ hy))
        · have : i ≠ j := fun he => hne (by rw [he])
          simp [mine, f2 i this]
      · cases h

/-- All of it. -/
structure All (s : St) : Prop where
  inv : Inv s
  past : Past s
  calm : Calm s

theorem all_start : All start := ⟨inv_start, ⟨by simp [start], by simp [start]⟩, by simp [Calm, start]⟩

theorem all_act {cap : Nat} {s : St} (h : All s) (a : Act) : All (s.act cap a) := by
  unfold St.act
  cases hs : s.step cap a with
  | none => exact h
  | some s' => exact ⟨inv_step h.inv hs, past_step h.inv h.past hs, (calm_step h.inv h.calm hs).1⟩

theorem all_exec {cap : Nat} (h : List Act) : ∀ {s : St}, All s → All (s.exec cap h) := by
  induction h with
  | nil => intro s hi; exact hi
  | cons a l ih => intro s hi; exact ih (all_act hi a)

/-! ## The theorems -/

/-- Task `t` still matters: it waits in a queue, runs, or its issuer has not freed it. -/
def InUse (s : St) (t : Nat) : Prop := (∃ v, (v, t) ∈ s.queue) ∨ s.run = some t ∨ s.tuser t = true

/-- C80, not early: when the worker frees the device memory of a data object, or is going to, the user has given the data object up and no task that matters has it as an argument. -/
theorem C80_not_early (cap : Nat) (h : List Act) (d : Nat) (hd : d ∈ (start.exec cap h).fq ∨ d ∈ (start.exec cap h).freed) :
    (start.exec cap h).user d = false ∧ ∀ t, InUse (start.exec cap h) t → d ∉ (start.exec cap h).args t := by
  have ha := all_exec (cap := cap) h all_start
  generalize start.exec cap h = s at *
  have h0 : s.drefs d = 0 := by
    rcases hd with hd | hd
    · have h1 := ha.inv.mem d
      have h2 := List.count_pos_iff.2 hd
      by_cases hx : s.remote d = true ∧ s.drefs d = 0
      · exact hx.2
      · rw [if_neg hx] at h1; omega
    · exact (ha.past.gone d hd).2.1
  refine ⟨?_, fun t ht hm => ?_⟩
  · have h1 := ha.inv.dcount d
    cases hu : s.user d
    · rfl
    · rw [hu] at h1; simp at h1; omega
  · have hl : t ∈ s.live := by
      refine (ha.inv.alive t).2 ?_
      have h1 := ha.inv.tcount t
      rcases ht with ⟨v, hv⟩ | hr | hu
      · have := (ha.inv.queued _ hv).1; simp only at this; rw [this] at h1; simp at h1; omega
      · rw [hr] at h1; simp at h1; omega
      · rw [hu] at h1; simp at h1; omega
    have := held_pos ha.inv hl hm
    omega

/-- C80, not lost and not twice: device memory of a data object that nobody has a reference of is waiting to be freed exactly once, in the queue of `free_vaq` or in the hands of a thread that waits for room there; and no device memory is freed
twice. -/
theorem C80_once (cap : Nat) (h : List Act) :
    (∀ d, (start.exec cap h).remote d = true → (start.exec cap h).drefs d = 0 →
      (start.exec cap h).fq.count d + (start.exec cap h).jobs.countP (fun x => x.2 = .push d) = 1) ∧ (start.exec cap h).freed.Nodup := by
  have ha := all_exec (cap := cap) h all_start
  refine ⟨fun d h1 h2 => ?_, ha.past.nodup⟩
  have := ha.inv.mem d
  rw [if_pos ⟨h1, h2⟩] at this
  exact this

/-- At most `cap` data objects have device memory. -/
def Fits (cap : Nat) (s : St) : Prop := ∀ L : List Nat, L.Nodup → (∀ d ∈ L, s.remote d = true) → L.length ≤ cap

theorem fits_room {cap : Nat} {s : St} (ha : All s) (hf : Fits cap s) {i d : Nat} {r : List (Nat × Job)} (hj : first i s.jobs = some (.push d, r)) : s.fq.length < cap := by
  have hp := first_perm hj
  have hcnt : ∀ e, s.fq.count e ≤ 1 ∧ (e ∈ s.fq → s.remote e = true) := by
    intro e
    have h1 := ha.inv.mem e
    by_cases hx : s.remote e = true ∧ s.drefs e = 0
    · rw [if_pos hx] at h1; exact ⟨by omega, fun _ => hx.1⟩
    · rw [if_neg hx] at h1
      exact ⟨by omega, fun hm => by have := List.count_pos_iff.2 hm; omega⟩
  have hd := ha.inv.mem d
  rw [hp.countP_eq] at hd
  simp only [List.countP_cons, decide_true, if_true] at hd
  have hrd : s.remote d = true ∧ s.drefs d = 0 := by
    by_cases hx : s.remote d = true ∧ s.drefs d = 0
    · exact hx
    · rw [if_neg hx] at hd; omega
  rw [if_pos hrd] at hd
  have hnd : d ∉ s.fq := List.count_eq_zero.1 (by omega)
  have := hf (d :: s.fq) (List.nodup_cons.2 ⟨hnd, List.nodup_iff_count.2 fun e => (hcnt e).1⟩) (fun e he => by
    rcases List.mem_cons.1 he with rfl | he
    · exact hrd.1
    · exact (hcnt e).2 he)
  simp only [List.length_cons] at this
  omega

theorem go_work {cap : Nat} {s : St} (ha : All s) (hf : Fits cap s) {i : Nat} (hb : s.busy i = true) : ∃ s', s.step cap (.go i) = some s' ∧ work s' i < work s i := by
  cases hj : first i s.jobs with
  | none =>
    have := busy_false.2 (first_none.1 hj)
    rw [hb] at this; cases this
  | some x =>
    obtain ⟨j, r⟩ := x
    obtain ⟨f1, _⟩ := first_mine hj
    cases j with
    | drop d =>
      refine ⟨s.dropData i d r, by simp [St.step, hj], ?_⟩
      unfold St.dropData
      split
      · simp [work, mine, f1, Job.weight]
      · simp [work, mine, f1, Job.weight]
    | push d =>
      have := fits_room ha hf hj
      refine ⟨_, by simp only [St.step, hj]; rw [if_pos this], ?_⟩
      simp [work, mine, f1, Job.weight]

/-- C80: as long as at most as many data objects have device memory as the queue of `free_vaq` has places, a call that drops references (of the user, or of the worker) returns after at most as many of its own steps as `work` says: two
for each reference, whatever the others do and whether or not the worker runs. What is missing: see `C80_violated`. -/
theorem C80_returns_partial (cap : Nat) (h : List Act) (i : Nat) (rest : List Act)
    (hf : ∀ p q, rest = p ++ q → Fits cap ((start.exec cap h).exec cap p)) (hw : work (start.exec cap h) i ≤ rest.countP (· = .go i)) :
    ∃ p q, rest = p ++ q ∧ ((start.exec cap h).exec cap p).busy i = false := by
  have ha := all_exec (cap := cap) h all_start
  generalize start.exec cap h = s at *
  induction rest generalizing s with
  | nil =>
    refine ⟨[], [], rfl, ?_⟩
    cases hb : s.busy i with
    | false => exact hb
    | true =>
      obtain ⟨_, _, h2⟩ := go_work ha (hf [] [] rfl) hb
      simp at hw; omega
  | cons a l ih =>
    cases hb : s.busy i with
    | false => exact ⟨[], a :: l, rfl, hb⟩
    | true =>
      have hf' : ∀ p q, l = p ++ q → Fits cap ((s.act cap a).exec cap p) := fun p q hpq => hf (a :: p) q (by rw [hpq]; rfl)
      have key : work (s.act cap a) i ≤ l.countP (· = .go i) := by
        by_cases hag : a = .go i
        · subst hag
          obtain ⟨s', h1, h2⟩ := go_work ha (hf [] _ rfl) hb
          simp only [St.act, h1, Option.getD_some]
          simp at hw
          omega
        · have h3 : work (s.act cap a) i = work s i := by
            unfold St.act
            cases hs : s.step cap a with
            | none => rfl
            | some s' => simp only [Option.getD_some, work, (calm_step ha.inv ha.calm hs).2 i hb hag]
          rw [h3]
          simpa [List.countP_cons, hag] using hw
      obtain ⟨p, q, h1, h2⟩ := ih _ hf' key (all_act ha a)
      exact ⟨a :: p, q, by rw [h1]; rfl, h2⟩

/-- What was freed, then what waits in the queue: it only grows at the end. -/
theorem line_step {cap : Nat} {s s' : St} {a : Act} (h : s.step cap a = some s') : ∃ l, s'.freed ++ s'.fq = (s.freed ++ s.fq) ++ l := by
  have dt : ∀ (x : St) (j t : Nat), (x.dropTask j t).freed = x.freed ∧ (x.dropTask j t).fq = x.fq := by
    intro x j t; unfold St.dropTask; split <;> exact ⟨rfl, rfl⟩
  cases a with
  | new d => simp only [St.step] at h; split at h <;> cases h; exact ⟨[], by simp⟩
  | issue c v t ds a => simp only [St.step] at h; split at h <;> cases h; exact ⟨[], by simp⟩
  | pick v al =>
    simp only [St.step] at h
    split at h
    · split at h
      · cases h
      · split at h <;> cases h; exact ⟨[], by simp⟩
    · cases h
  | handlerFree =>
    simp only [St.step] at h
    split at h
    · cases h
    · split at h <;> cases h; exact ⟨[], by simp [dt]⟩
  | mark =>
    simp only [St.step] at h
    split at h
    · cases h
    · split at h <;> cases h; exact ⟨[], by simp⟩
  | finish =>
    simp only [St.step] at h
    split at h
    · cases h
    · split at h <;> cases h; exact ⟨[], by simp [dt]⟩
  | pickFree =>
    simp only [St.step] at h
    split at h
    · split at h
      · cases h
      · rename_i d r hf; cases h; exact ⟨[], by simp [hf]⟩
    · cases h
  | taskFree c t => simp only [St.step] at h; split at h <;> cases h; exact ⟨[], by simp [dt]⟩
  | dataFree c d => simp only [St.step] at h; split at h <;> cases h; exact ⟨[], by simp⟩
  | go i =>
    simp only [St.step] at h
    split at h
    · cases h
    · cases h; unfold St.dropData; split <;> exact ⟨[], by simp⟩
    · rename_i d r hf
      split at h <;> cases h; exact ⟨[d], by simp⟩

theorem line_exec {cap : Nat} (h : List Act) : ∀ {s : St}, ∃ l, (s.exec cap h).freed ++ (s.exec cap h).fq = (s.freed ++ s.fq) ++ l := by
  induction h with
  | nil => intro s; exact ⟨[], by simp [St.exec]⟩
  | cons a q ih =>
    intro s
    obtain ⟨l1, h1⟩ := ih (s := s.act cap a)
    have : ∃ l, (s.act cap a).freed ++ (s.act cap a).fq = (s.freed ++ s.fq) ++ l := by
      unfold St.act
      cases hs : s.step cap a with
      | none => exact ⟨[], by simp⟩
      | some s' => exact line_step hs
    obtain ⟨l2, h2⟩ := this
    refine ⟨l2 ++ l1, ?_⟩
    show ((s.act cap a).exec cap q).freed ++ ((s.act cap a).exec cap q).fq = _
    rw [h1, h2, List.append_assoc]

/-- C80, given back: device memory is freed in the order in which its `free` entered the queue: once the worker has executed as many tasks of `free_vaq` as are waiting now, all that waits now is freed. -/
theorem C80_given_back (cap : Nat) (s : St) (rest : List Act) (hn : s.freed.length + s.fq.length ≤ (s.exec cap rest).freed.length) :
    ∀ d ∈ s.fq, d ∈ (s.exec cap rest).freed := by
  obtain ⟨l, h⟩ := line_exec (cap := cap) rest (s := s)
  have h1 : (s.exec cap rest).freed.take (s.freed.length + s.fq.length) = s.freed ++ s.fq := by
    have := congrArg (List.take (s.freed.length + s.fq.length)) h
    rw [List.take_append_of_le_length hn, List.take_append_of_le_length (by simp), ← List.length_append, List.take_length] at this
    rw [← List.length_append]; exact this
  intro d hd
  have : d ∈ (s.exec cap rest).freed.take (s.freed.length + s.fq.length) := by rw [h1]; exact List.mem_append_right _ hd
  exact List.mem_of_mem_take this

/-- C80: when the worker is between two tasks and drops nothing, and device memory waits, it can free it. -/
theorem C80_serves (cap : Nat) (s : St) (h1 : s.busy 0 = false) (h2 : s.run = none) (h3 : s.fq ≠ []) : ∃ s', s.step cap .pickFree = some s' ∧ s'.freed.length = s.freed.length + 1 := by
  cases hf : s.fq with
  | nil => exact absurd hf h3
  | cons d r => exact ⟨_, by simp only [St.step, h1, h2, hf]; simp; rfl, by simp⟩

end Arax.Reclaim
