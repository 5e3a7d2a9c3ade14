import Verif.Reclaim.Props
/-!
# C80: the worker locks itself out, and examples
-/
namespace Arax.Reclaim

theorem exec_append (cap : Nat) (s : St) (a b : List Act) : s.exec cap (a ++ b) = (s.exec cap a).exec cap b := by simp [St.exec, List.foldl_append]
theorem exec_cons (cap : Nat) (s : St) (a : Act) (b : List Act) : s.exec cap (a :: b) = (s.act cap a).exec cap b := rfl

/-- The worker waits for room in its own queue, which is full. -/
structure Locked (cap : Nat) (s : St) : Prop where
  push : ∃ d m, mine s 0 = .push d :: m
  full : cap ≤ s.fq.length
  idle : s.run = none

theorem locked_act {cap : Nat} {s : St} (ha : All s) (hl : Locked cap s) (a : Act) : Locked cap (s.act cap a) ∧ (s.act cap a).freed = s.freed ∧ (s.act cap a).fq = s.fq ∧ (s.act cap a).done = s.done := by
  obtain ⟨d, m, hm⟩ := hl.push
  have hb : s.busy 0 = true := by
    cases hb : s.busy 0 with
    | true => rfl
    | false => rw [busy_mine.1 hb] at hm; cases hm
  unfold St.act
  cases hs : s.step cap a with
  | none => exact ⟨hl, rfl, rfl, rfl⟩
  | some s' =>
    simp only [Option.getD_some]
    have hne : a ≠ .go 0 := by
      intro he
      subst he
      simp only [St.step] at hs
      split at hs
      · cases hs
      · rename_i e r hf
        have := (first_mine hf).1
        rw [mine, this] at hm; cases hm
      · rw [if_neg (by have := hl.full; omega)] at hs; cases hs
    have hmine := (calm_step ha.inv ha.calm hs).2 0 hb hne
    have dt : ∀ (x : St) (j t : Nat), (x.dropTask j t).freed = x.freed ∧ (x.dropTask j t).fq = x.fq ∧ (x.dropTask j t).done = x.done ∧ (x.dropTask j t).run = x.run := by
      intro x j t; unfold St.dropTask; split <;> exact ⟨rfl, rfl, rfl, rfl⟩
    have fin : s'.freed = s.freed ∧ s'.fq = s.fq ∧ s'.done = s.done ∧ s'.run = none → Locked cap s' ∧ s'.freed = s.freed ∧ s'.fq = s.fq ∧ s'.done = s.done := by
      intro ⟨h1, h2, h3, h4⟩
      exact ⟨⟨⟨d, m, by rw [hmine, hm]⟩, by rw [h2]; exact hl.full, h4⟩, h1, h2, h3⟩
    apply fin
    have hr := hl.idle
    cases a with
    | new d => simp only [St.step] at hs; split at hs <;> cases hs; exact ⟨rfl, rfl, rfl, hr⟩
    | issue c v t ds a => simp only [St.step] at hs; split at hs <;> cases hs; exact ⟨rfl, rfl, rfl, hr⟩
    | pick v al => simp [St.step, hb] at hs
    | handlerFree => simp [St.step, hr] at hs
    | mark => simp [St.step, hr] at hs
    | finish => simp [St.step, hr] at hs
    | pickFree => simp [St.step, hb] at hs
    | taskFree c t =>
      simp only [St.step] at hs; split at hs <;> cases hs
      obtain ⟨h1, h2, h3, h4⟩ := dt { s with tuser := upd s.tuser t false } c t
      exact ⟨h1, h2, h3, by rw [h4]; exact hr⟩
    | dataFree c d => simp only [St.step] at hs; split at hs <;> cases hs; exact ⟨rfl, rfl, rfl, hr⟩
    | go i =>
      simp only [St.step] at hs
      split at hs
      · cases hs
      · cases hs; unfold St.dropData; split <;> exact ⟨rfl, rfl, rfl, hr⟩
      · rw [if_neg (by have := hl.full; omega)] at hs; cases hs

theorem locked_exec {cap : Nat} (rest : List Act) : ∀ {s : St}, All s → Locked cap s →
    Locked cap (s.exec cap rest) ∧ (s.exec cap rest).freed = s.freed ∧ (s.exec cap rest).fq = s.fq ∧ (s.exec cap rest).done = s.done := by
  induction rest with
  | nil => intro s _ hl; exact ⟨hl, rfl, rfl, rfl⟩
  | cons a q ih =>
    intro s ha hl
    obtain ⟨h1, h2, h3, h4⟩ := locked_act ha hl a
    obtain ⟨g1, g2, g3, g4⟩ := ih (all_act (cap := cap) ha a) h1
    rw [exec_cons]
    exact ⟨g1, by rw [g2, h2], by rw [g3, h3], by rw [g4, h4]⟩

/-! ## How it comes about -/

theorem step_act {cap : Nat} {s s' : St} {a : Act} (h : s.step cap a = some s') : s.act cap a = s' := by simp [St.act, h]

/-- `n` data objects. -/
theorem news (cap n : Nat) : start.exec cap ((List.range n).map .new) =
    { start with made := fun d => decide (d < n), user := fun d => decide (d < n), drefs := fun d => if d < n then 1 else 0 } := by
  induction n with
  | zero => simp [St.exec, start]
  | succ n ih =>
    rw [List.range_succ, List.map_append, exec_append, ih]
    have e1 : upd (fun d => decide (d < n)) n true = fun d => decide (d < n + 1) := by
      funext d; by_cases h : d = n
      · subst h; simp [upd]
      · have : d < n ↔ d < n + 1 := by omega
        simp [upd, h, this]
    have e2 : upd (fun d => if d < n then 1 else 0) n 1 = fun d => if d < n + 1 then 1 else 0 := by
      funext d; by_cases h : d = n
      · subst h; simp [upd]
      · have : d < n ↔ d < n + 1 := by omega
        simp [upd, h, this]
    simp [St.exec, St.act, St.step, e1, e2]

/-- A thread drops references that are not the last ones. -/
theorem drops (cap : Nat) (l : List Nat) : ∀ (s : St), s.jobs = l.map (fun d => (1, Job.drop d)) → l.Nodup → (∀ d ∈ l, 2 ≤ s.drefs d) →
    s.exec cap (List.replicate l.length (.go 1)) = { s with jobs := [], drefs := fun d => if d ∈ l then s.drefs d - 1 else s.drefs d } := by
  induction l with
  | nil => intro s hj _ _; cases s; simp only [List.map_nil] at hj; subst hj; simp [St.exec]
  | cons a l ih =>
    intro s hj hn h2
    have ha : s.act cap (.go 1) = { s with drefs := upd s.drefs a (s.drefs a - 1), jobs := l.map (fun d => (1, Job.drop d)) } := by
      apply step_act
      have h3 : s.drefs a - 1 ≠ 0 := by have := h2 a (by simp); omega
      simp [St.step, hj, first, St.dropData, h3]
    simp only [List.length_cons, List.replicate_succ, exec_cons, ha]
    rw [ih _ rfl (List.nodup_cons.1 hn).2]
    · have : (fun d => if d ∈ l then upd s.drefs a (s.drefs a - 1) d - 1 else upd s.drefs a (s.drefs a - 1) d) = fun d => if d ∈ a :: l then s.drefs d - 1 else s.drefs d := by
        funext d
        by_cases hd : d = a
        · subst hd; simp [upd, (List.nodup_cons.1 hn).1]
        · simp [upd, hd]
      simp only [this]
    · intro d hd
      have : d ≠ a := fun he => (List.nodup_cons.1 hn).1 (he ▸ hd)
      simpa [upd, this] using h2 d (List.mem_cons_of_mem _ hd)

/-- The user frees data objects with device memory. -/
theorem frees (cap : Nat) (l : List Nat) : ∀ (s : St), s.jobs = [] → l.Nodup → (∀ d ∈ l, s.user d = true ∧ s.remote d = true ∧ s.drefs d = 1) → s.fq.length + l.length ≤ cap →
    s.exec cap (l.flatMap fun d => [.dataFree 1 d, .go 1, .go 1]) =
      { s with user := fun d => if d ∈ l then false else s.user d, drefs := fun d => if d ∈ l then 0 else s.drefs d, fq := s.fq ++ l } := by
  induction l with
  | nil => intro s _ _ _ _; simp [St.exec]
  | cons a l ih =>
    intro s hj hn h2 hc
    obtain ⟨u1, u2, u3⟩ := h2 a (by simp)
    have h3 : s.fq.length < cap := by simp only [List.length_cons] at hc; omega
    have e1 : s.act cap (.dataFree 1 a) = { s with user := upd s.user a false, jobs := [(1, .drop a)] } := by
      apply step_act; simp [St.step, St.busy, hj, u1]
    have e2 : ({ s with user := upd s.user a false, jobs := [(1, .drop a)] } : St).act cap (.go 1) = { s with user := upd s.user a false, drefs := upd s.drefs a 0, jobs := [(1, .push a)] } := by
      apply step_act; simp [St.step, first, St.dropData, u2, u3]
    have e3 : ({ s with user := upd s.user a false, drefs := upd s.drefs a 0, jobs := [(1, .push a)] } : St).act cap (.go 1) =
        { s with user := upd s.user a false, drefs := upd s.drefs a 0, jobs := [], fq := s.fq ++ [a] } := by
      apply step_act; simp [St.step, first, h3]
    simp only [List.flatMap_cons, List.cons_append, List.nil_append, exec_cons, e1, e2, e3]
    rw [ih _ rfl (List.nodup_cons.1 hn).2]
    · have x1 : (fun d => if d ∈ l then false else upd s.user a false d) = fun d => if d ∈ a :: l then false else s.user d := by
        funext d; by_cases hd : d = a
        · subst hd; simp [upd]
        · simp [upd, hd]
      have x2 : (fun d => if d ∈ l then 0 else upd s.drefs a 0 d) = fun d => if d ∈ a :: l then 0 else s.drefs d := by
        funext d; by_cases hd : d = a
        · subst hd; simp [upd]
        · simp [upd, hd]
      simp only [x1, x2, hj, List.append_assoc, List.cons_append, List.nil_append]
    · intro d hd
      have : d ≠ a := fun he => (List.nodup_cons.1 hn).1 (he ▸ hd)
      simpa [upd, this] using h2 d (List.mem_cons_of_mem _ hd)
    · simp only [List.length_append, List.length_cons, List.length_nil] at hc ⊢; omega

/-- The history: the user makes `cap + 1` data objects, runs a task with the first `cap` of them, waits for it and frees it; issues another with the last one and waits for it, too. The worker has marked the task as done but not dropped it yet. The user
frees this task, its data object and all others. Then the worker drops the task. -/
def lockout (cap : Nat) : List Act :=
  (List.range (cap + 1)).map .new ++ [.issue 1 0 0 (List.range cap) false, .pick 0 (List.range cap), .mark, .finish, .taskFree 1 0] ++ List.replicate cap (.go 1) ++
  [.issue 1 0 1 [cap] false, .pick 0 [cap], .mark, .taskFree 1 1, .dataFree 1 cap, .go 1] ++ (List.range cap).flatMap (fun d => [.dataFree 1 d, .go 1, .go 1]) ++ [.finish, .go 0]

theorem range_count (cap d : Nat) : (List.range cap).count d = if d < cap then 1 else 0 := by
  by_cases hd : d < cap
  · rw [if_pos hd]
    have h1 := List.nodup_iff_count.1 (List.nodup_range (n := cap)) d
    have h2 := List.count_pos_iff.2 (List.mem_range.2 hd)
    omega
  · rw [if_neg hd]; exact List.count_eq_zero.2 (fun h => hd (List.mem_range.1 h))

theorem lockout_locked (cap : Nat) (hc : 1 ≤ cap) : Locked cap (start.exec cap (lockout cap)) ∧ (start.exec cap (lockout cap)).fq = List.range cap ∧ (start.exec cap (lockout cap)).freed = [] := by
  unfold lockout
  simp only [exec_append, news]
  let s0 : St := { start with made := fun d => decide (d < cap + 1), user := fun d => decide (d < cap + 1), drefs := fun d => if d < cap + 1 then 1 else 0 }
  let s1 : St := { s0 with issued := upd s0.issued 0 true, args := upd s0.args 0 (List.range cap), async := upd s0.async 0 false, trefs := upd s0.trefs 0 1, tuser := upd s0.tuser 0 true, live := [0], drefs := fun d => s0.drefs d + (List.range cap).count d, queue := [(0, 0)] }
  have e1 : s0.act cap (.issue 1 0 0 (List.range cap) false) = s1 := by
    apply step_act
    simp only [St.step]
    rw [if_pos]
    · rfl
    · refine ⟨by omega, rfl, rfl, fun d hd => ?_, ?_⟩
      · have := List.mem_range.1 hd; simp [s0]; omega
      · simp [s0, start]; omega
  let s2 : St := { s1 with queue := [], run := some 0, trefs := upd s1.trefs 0 (s1.trefs 0 + 1), remote := fun d => s1.remote d || decide (d ∈ List.range cap) }
  have e2 : s1.act cap (.pick 0 (List.range cap)) = s2 := by
    apply step_act
    simp only [St.step]
    rw [if_pos ⟨rfl, rfl⟩]
    show (if ∀ d ∈ List.range cap, d ∈ s1.args 0 then some s2 else none) = some s2
    exact if_pos (show ∀ d ∈ List.range cap, d ∈ s1.args 0 from fun d hd => hd)
  let s3 : St := { s2 with done := upd s2.done 0 true }
  have e3 : s2.act cap .mark = s3 := rfl
  let s4 : St := { s3 with run := none, trefs := upd s3.trefs 0 (s3.trefs 0 - 1) }
  have e4 : s3.act cap .finish = s4 := rfl
  let s5 : St := { s4 with tuser := upd s4.tuser 0 false, trefs := upd s4.trefs 0 0, live := [], jobs := (List.range cap).map fun d => (1, Job.drop d) }
  have e5 : s4.act cap (.taskFree 1 0) = s5 := by
    apply step_act
    show some _ = some s5
    simp only [Option.some.injEq]
    show St.dropTask _ _ _ = s5
    unfold St.dropTask
    rw [if_pos (show s4.trefs 0 - 1 = 0 from rfl)]
    show ({ s4 with tuser := upd s4.tuser 0 false, trefs := upd s4.trefs 0 0, live := [], jobs := ((List.range cap).map fun d => (1, Job.drop d)) ++ [] } : St) = s5
    rw [List.append_nil]
  have e6 := drops cap (List.range cap) s5 rfl List.nodup_range (fun d hd => by
    have h1 := List.mem_range.1 hd
    show 2 ≤ (if d < cap + 1 then 1 else 0) + (List.range cap).count d
    rw [range_count, if_pos h1, if_pos (by omega)]; omega)
  rw [List.length_range] at e6
  let s6 : St := { s5 with jobs := [], drefs := fun d => if d ∈ List.range cap then s5.drefs d - 1 else s5.drefs d }
  have d6 : ∀ d, d ≤ cap → s6.drefs d = 1 := by
    intro d hd
    show (if d ∈ List.range cap then (if d < cap + 1 then 1 else 0) + (List.range cap).count d - 1 else (if d < cap + 1 then 1 else 0) + (List.range cap).count d) = 1
    rw [range_count, if_pos (show d < cap + 1 by omega)]
    by_cases h : d < cap
    · rw [if_pos (List.mem_range.2 h), if_pos h]
    · rw [if_neg (fun hm => h (List.mem_range.1 hm)), if_neg h]
  have u6 : ∀ d, d ≤ cap → s6.user d = true := by intro d hd; simp [s6, s5, s4, s3, s2, s1, s0]; omega
  let s7 : St := { s6 with issued := upd s6.issued 1 true, args := upd s6.args 1 [cap], async := upd s6.async 1 false, trefs := upd s6.trefs 1 1, tuser := upd s6.tuser 1 true, live := [1], drefs := fun d => s6.drefs d + [cap].count d, queue := [(0, 1)] }
  have e7 : s6.act cap (.issue 1 0 1 [cap] false) = s7 := by
    apply step_act
    simp only [St.step]
    rw [if_pos]
    · rfl
    · refine ⟨by omega, rfl, rfl, fun d hd => ?_, ?_⟩
      · simp only [List.mem_singleton] at hd; subst hd; exact u6 d (by omega)
      · show List.countP _ ([] : List (Nat × Nat)) < cap
        simp; omega
  let s8 : St := { s7 with queue := [], run := some 1, trefs := upd s7.trefs 1 (s7.trefs 1 + 1), remote := fun d => s7.remote d || decide (d ∈ [cap]) }
  have e8 : s7.act cap (.pick 0 [cap]) = s8 := by
    apply step_act
    simp only [St.step]
    rw [if_pos ⟨rfl, rfl⟩]
    show (if ∀ d ∈ [cap], d ∈ s7.args 1 then some s8 else none) = some s8
    exact if_pos (show ∀ d ∈ [cap], d ∈ s7.args 1 from fun d hd => hd)
  let s9 : St := { s8 with done := upd s8.done 1 true }
  have e9 : s8.act cap .mark = s9 := rfl
  let s10 : St := { s9 with tuser := upd s9.tuser 1 false, trefs := upd s9.trefs 1 (s9.trefs 1 - 1) }
  have e10 : s9.act cap (.taskFree 1 1) = s10 := rfl
  let s11 : St := { s10 with user := upd s10.user cap false, jobs := [(1, .drop cap)] }
  have e11 : s10.act cap (.dataFree 1 cap) = s11 := by
    apply step_act
    simp only [St.step]
    rw [if_pos ⟨by omega, rfl, u6 cap (by omega)⟩]
  have d11 : s11.drefs cap = 2 := by
    show s6.drefs cap + [cap].count cap = 2
    rw [d6 cap (by omega)]; simp
  let s12 : St := { s11 with drefs := upd s11.drefs cap (s11.drefs cap - 1), jobs := [] }
  have e12 : s11.act cap (.go 1) = s12 := by
    apply step_act
    show some (s11.dropData 1 cap []) = some s12
    unfold St.dropData
    rw [if_neg (by rw [d11]; simp)]
  have d12 : ∀ d, d < cap → s12.user d = true ∧ s12.remote d = true ∧ s12.drefs d = 1 := by
    intro d hd
    refine ⟨?_, ?_, ?_⟩
    · show upd s10.user cap false d = true
      rw [upd, if_neg (by omega)]; exact u6 d (by omega)
    · show ((s1.remote d || decide (d ∈ List.range cap)) || decide (d ∈ [cap])) = true
      simp [hd]
    · show upd s11.drefs cap _ d = 1
      rw [upd, if_neg (by omega)]
      show s6.drefs d + [cap].count d = 1
      rw [d6 d (by omega), List.count_eq_zero.2 (by simp; omega)]
  have e13 := frees cap (List.range cap) s12 rfl List.nodup_range (fun d hd => d12 d (List.mem_range.1 hd)) (by show 0 + _ ≤ cap; simp)
  let s13 : St := { s12 with user := fun d => if d ∈ List.range cap then false else s12.user d, drefs := fun d => if d ∈ List.range cap then 0 else s12.drefs d, fq := List.range cap }
  let s14 : St := { s13 with run := none, trefs := upd s13.trefs 1 0, live := [], jobs := [(0, .drop cap)] }
  have e14 : s13.act cap .finish = s14 := rfl
  let s15 : St := { s14 with drefs := upd s14.drefs cap (s14.drefs cap - 1), jobs := [(0, .push cap)] }
  have e15 : s14.act cap (.go 0) = s15 := by
    apply step_act
    show some (s14.dropData 0 cap []) = some s15
    unfold St.dropData
    rw [if_pos]
    refine ⟨?_, ?_⟩
    · show (if cap ∈ List.range cap then 0 else upd s11.drefs cap (s11.drefs cap - 1) cap) - 1 = 0
      rw [if_neg (by simp), upd, if_pos rfl, d11]
    · show ((s1.remote cap || decide (cap ∈ List.range cap)) || decide (cap ∈ [cap])) = true
      simp
  have all : ((((((s0.exec cap [.issue 1 0 0 (List.range cap) false, .pick 0 (List.range cap), .mark, .finish, .taskFree 1 0]).exec cap (List.replicate cap (.go 1))).exec cap
      [.issue 1 0 1 [cap] false, .pick 0 [cap], .mark, .taskFree 1 1, .dataFree 1 cap, .go 1]).exec cap ((List.range cap).flatMap (fun d => [.dataFree 1 d, .go 1, .go 1]))).exec cap [.finish, .go 0])) = s15 := by
    have a1 : s0.exec cap [.issue 1 0 0 (List.range cap) false, .pick 0 (List.range cap), .mark, .finish, .taskFree 1 0] = s5 := by
      simp only [exec_cons, e1, e2, e3, e4, e5]; rfl
    have a2 : s6.exec cap [.issue 1 0 1 [cap] false, .pick 0 [cap], .mark, .taskFree 1 1, .dataFree 1 cap, .go 1] = s12 := by
      simp only [exec_cons, e7, e8, e9, e10, e11, e12]; rfl
    have a3 : s13.exec cap [.finish, .go 0] = s15 := by
      simp only [exec_cons, e14, e15]; rfl
    rw [a1, e6]
    show ((s6.exec cap _).exec cap _).exec cap _ = s15
    rw [a2, e13]
    exact a3
  show Locked cap ((((((s0.exec cap _).exec cap _).exec cap _).exec cap _).exec cap _)) ∧ _
  rw [show ((((((s0.exec cap _).exec cap _).exec cap _).exec cap _).exec cap _)) = s15 from all]
  exact ⟨⟨⟨cap, [], rfl⟩, by show cap ≤ (List.range cap).length; simp, rfl⟩, rfl, rfl⟩

/-- C80 fails: when as many data objects wait to be freed as the queue of `free_vaq` has places (512 as shipped), the worker, which is the only one that serves this queue, waits for room in it as soon as it drops the last reference of a data
object with device memory itself, for ever. The user did what the manual says: each task was waited for and freed, each data object freed once. From then on the accelerator executes no task, marks none as done and frees no memory. -/
theorem C80_violated (cap : Nat) (hc : 1 ≤ cap) : ∃ h : List Act, ∀ rest : List Act,
    ((start.exec cap h).exec cap rest).busy 0 = true ∧ ((start.exec cap h).exec cap rest).run = none ∧ ((start.exec cap h).exec cap rest).done = (start.exec cap h).done ∧
    ((start.exec cap h).exec cap rest).freed = [] ∧ ((start.exec cap h).exec cap rest).fq.length = cap := by
  refine ⟨lockout cap, fun rest => ?_⟩
  have ha := all_exec (cap := cap) (lockout cap) all_start
  obtain ⟨hl, hq, hfr⟩ := lockout_locked cap hc
  obtain ⟨h1, h2, h3, h4⟩ := locked_exec rest ha hl
  refine ⟨?_, h1.idle, h4, by rw [h2, hfr], by rw [h3, hq]; simp⟩
  obtain ⟨d, m, hm⟩ := h1.push
  cases hb : ((start.exec cap (lockout cap)).exec cap rest).busy 0 with
  | true => rfl
  | false => rw [busy_mine.1 hb] at hm; cases hm

/-! ## Examples -/

/-- Two places: after the history both are taken and the worker waits for a third. -/
example : (start.exec 2 (lockout 2)).fq = [0, 1] ∧ (start.exec 2 (lockout 2)).jobs = [(0, .push 2)] ∧ (start.exec 2 (lockout 2)).live = [] ∧
    (∀ d ∈ [0, 1, 2], (start.exec 2 (lockout 2)).user d = false ∧ (start.exec 2 (lockout 2)).drefs d = 0 ∧ (start.exec 2 (lockout 2)).remote d = true) := by decide

/-- With one place more nothing is lost: the worker goes on, and gives all three back. -/
example : (start.exec 3 (lockout 2 ++ [.go 0, .pickFree, .pickFree, .pickFree])).freed = [0, 1, 2] ∧ (start.exec 3 (lockout 2 ++ [.go 0, .pickFree, .pickFree, .pickFree])).busy 0 = false := by decide

/-- A history that meets the hypotheses of `C80_returns_partial`: the worker has to drop a task with a data object that has device memory, and does so. -/
def small : List Act := [.new 0, .issue 1 0 0 [0] false, .pick 0 [0], .mark, .taskFree 1 0, .dataFree 1 0, .go 1, .finish]

example : (start.exec 1 small).busy 0 = true ∧ work (start.exec 1 small) 0 = 2 := by decide

theorem small_remote (d : Nat) : (start.exec 1 small).remote d = decide (d = 0) := by
  simp [small, St.exec, St.act, St.step, start, first, St.busy, St.dropTask, St.dropData, upd]

theorem fits_one {s : St} (h : ∀ d, s.remote d = true → d = 0) : Fits 1 s := by
  intro L hn hr
  cases L with
  | nil => simp
  | cons a L =>
    cases L with
    | nil => simp
    | cons b L =>
      have h1 := h a (hr a (by simp))
      have h2 := h b (hr b (by simp))
      subst h1; subst h2
      simp at hn

theorem dropData_remote (s : St) (i d : Nat) (r : List (Nat × Job)) : (s.dropData i d r).remote = s.remote := by unfold St.dropData; split <;> rfl

theorem go_remote (cap : Nat) (s : St) (i : Nat) : (s.act cap (.go i)).remote = s.remote := by
  unfold St.act
  cases hs : s.step cap (.go i) with
  | none => rfl
  | some s' =>
    simp only [St.step] at hs
    split at hs
    · cases hs
    · cases hs; exact dropData_remote _ _ _ _
    · split at hs <;> cases hs; rfl

/-- The hypotheses of `C80_returns_partial` are met, with one place, after `small`. -/
example : ∃ p q, [Act.go 0, .go 0] = p ++ q ∧ ((start.exec 1 small).exec 1 p).busy 0 = false := by
  refine C80_returns_partial 1 small 0 [.go 0, .go 0] (fun p q hpq => ?_) (by decide)
  apply fits_one
  have hp : ∀ a ∈ p, a = Act.go 0 := by
    intro a ha
    have : a ∈ [Act.go 0, .go 0] := by rw [hpq]; exact List.mem_append_left _ ha
    simpa using this
  have : ∀ (p : List Act) (s : St), (∀ a ∈ p, a = Act.go 0) → (s.exec 1 p).remote = s.remote := by
    intro p
    induction p with
    | nil => intro s _; rfl
    | cons a l ih =>
      intro s h
      rw [exec_cons, ih _ (fun b hb => h b (List.mem_cons_of_mem _ hb)), h a (by simp), go_remote]
  rw [this p _ hp]
  intro d hd
  rw [small_remote] at hd
  simpa using hd

/-- `C80_given_back` and `C80_serves`: after `small` and the worker's two steps, the device memory waits, and is freed. -/
example : (start.exec 1 (small ++ [.go 0, .go 0])).fq = [0] ∧ (start.exec 1 (small ++ [.go 0, .go 0])).busy 0 = false ∧ (start.exec 1 (small ++ [.go 0, .go 0, .pickFree])).freed = [0] := by decide

/-- A task that its handler drops (nobody waits for it): the worker goes on after it, and what only it used is given back. -/
def handled : List Act := [.new 0, .issue 1 0 0 [0] true, .dataFree 1 0, .go 1, .pick 0 [0], .handlerFree, .mark, .finish, .go 0, .go 0, .pickFree]

example : (start.exec 1 handled).freed = [0] ∧ (start.exec 1 handled).live = [] ∧ (start.exec 1 handled).run = none ∧ (start.exec 1 handled).busy 0 = false ∧
    (start.exec 1 handled).drefs 0 = 0 := by decide

end Arax.Reclaim
