import Verif.Sched.Model
/-! # C35, C36, C37, C56: the schedulers -/
namespace Arax.Sched

/-! ### Specification -/

/-- Everything pushed on `v` before look `k`, oldest first. -/
def pushed (env : Pushes) (v : Nat) : Nat → List Nat
  | 0 => []
  | k + 1 => pushed env v k ++ env k v

theorem pushed_add (env : Pushes) (v k : Nat) : ∀ m, ∃ l, pushed env v (k + m) = pushed env v k ++ l
  | 0 => ⟨[], by simp⟩
  | m + 1 => by
    obtain ⟨l, h⟩ := pushed_add env v k m
    exact ⟨l ++ env (k + m) v, by rw [← Nat.add_assoc, pushed, h, List.append_assoc]⟩

/-- The oldest task stays the oldest whatever is pushed. -/
theorem head_stays {env : Pushes} {q0 : Queues} {v k t : Nat} {r : List Nat} (h : q0 v ++ pushed env v k = t :: r) (m : Nat) :
    ∃ l, q0 v ++ pushed env v (k + m) = t :: l := by
  obtain ⟨l, hl⟩ := pushed_add env v k m
  exact ⟨r ++ l, by rw [hl, ← List.append_assoc, h]; rfl⟩

theorem scan_spec (vacs : List Nat) (env : Pushes) : ∀ (is : List Nat) (k : Nat) (q0 q : Queues), (∀ i ∈ is, i < vacs.length) →
    (∀ v, q v = q0 v ++ pushed env v k) →
    match scan vacs env is k q with
    | (none, q') => (∀ i ∈ is, ∀ v, vacs[i]? = some v → q v = []) ∧ (∀ v, q' v = q0 v ++ pushed env v (k + is.length)) ∧
        ∀ i ∈ is, ∀ v, vacs[i]? = some v → q0 v = []
    | (some (i, t), q') => ∃ pre post v, is = pre ++ i :: post ∧ vacs[i]? = some v ∧ q0 v ++ pushed env v (k + pre.length + 1) = t :: q' v ∧
        (∀ w, w ≠ v → q' w = q0 w ++ pushed env w (k + pre.length + 1)) ∧ ∀ j ∈ pre, ∀ w, vacs[j]? = some w → q w = []
  | [], k, q0, q, _, hq => by
    simp only [scan]
    refine ⟨by simp, ?_, by simp⟩
    intro v; rw [hq v]; simp
  | i :: is, k, q0, q, hi, hq => by
    have hlt := hi i (by simp)
    have hv : vacs[i]? = some vacs[i] := List.getElem?_eq_getElem hlt
    have hq1 : ∀ v, arrive env k q v = q0 v ++ pushed env v (k + 1) := by
      intro v; simp only [arrive, pushed, hq v, List.append_assoc]
    simp only [scan, hv]
    cases hc : arrive env k q vacs[i] with
    | cons t r =>
      dsimp only
      refine ⟨[], is, vacs[i], rfl, hv, ?_, ?_, by simp⟩
      · simp only [setQ, if_true, List.length_nil, Nat.add_zero, ← hq1, hc]
      · intro w hw; simp only [setQ, if_neg hw, List.length_nil, Nat.add_zero]; exact hq1 w
    | nil =>
      dsimp only
      have ih := scan_spec vacs env is (k + 1) q0 (arrive env k q) (fun j hj => hi j (by simp [hj])) hq1
      have hqi : q vacs[i] = [] := by
        have : q vacs[i] ++ env k vacs[i] = [] := hc
        exact (List.append_eq_nil_iff.1 this).1
      have hsub : ∀ w, arrive env k q w = [] → q w = [] := fun w h => (List.append_eq_nil_iff.1 (show q w ++ env k w = [] from h)).1
      have hsub0 : ∀ w, q w = [] → q0 w = [] := fun w h => by rw [hq w] at h; exact (List.append_eq_nil_iff.1 h).1
      cases hs : scan vacs env is (k + 1) (arrive env k q) with
      | mk o q' =>
        rw [hs] at ih
        cases o with
        | none =>
          dsimp only at ih ⊢
          obtain ⟨h1, h2, h3⟩ := ih
          have h4 : ∀ j ∈ i :: is, ∀ v, vacs[j]? = some v → q v = [] := by
            intro j hj v hjv
            rcases List.mem_cons.1 hj with rfl | hj
            · rw [hv] at hjv; cases hjv; exact hqi
            · exact hsub v (h1 j hj v hjv)
          refine ⟨h4, ?_, fun j hj v hjv => hsub0 v (h4 j hj v hjv)⟩
          intro v; rw [h2 v, List.length_cons, show k + 1 + is.length = k + (is.length + 1) by omega]
        | some p =>
          obtain ⟨j, t⟩ := p
          dsimp only at ih ⊢
          obtain ⟨pre, post, v, h1, h2, h3, h4, h5⟩ := ih
          refine ⟨i :: pre, post, v, by rw [h1]; rfl, h2, ?_, ?_, ?_⟩
          · rw [List.length_cons, show k + (pre.length + 1) + 1 = k + 1 + pre.length + 1 by omega]; exact h3
          · intro w hw; rw [List.length_cons, show k + (pre.length + 1) + 1 = k + 1 + pre.length + 1 by omega]; exact h4 w hw
          · intro l hl w hlw
            rcases List.mem_cons.1 hl with rfl | hl
            · rw [hv] at hlw; cases hlw; exact hqi
            · exact hsub w (h5 l hl w hlw)

theorem mem_order {n c i : Nat} : i ∈ order n c ↔ i < n := by
  have h : i ∈ order n c ↔ i ∈ (List.range n).drop ((c + 1) % n) ∨ i ∈ (List.range n).take ((c + 1) % n) := List.mem_append
  rw [h]
  constructor
  · rintro (h | h)
    · exact List.mem_range.1 (List.mem_of_mem_drop h)
    · exact List.mem_range.1 (List.mem_of_mem_take h)
  · intro hi
    have : i ∈ List.range n := List.mem_range.2 hi
    rw [← List.take_append_drop ((c + 1) % n) (List.range n)] at this
    rcases List.mem_append.1 this with h | h
    · exact .inr h
    · exact .inl h

theorem order_length (n c : Nat) : (order n c).length = n := by
  unfold order
  have := List.take_append_drop ((c + 1) % n) (List.range n)
  have h2 := congrArg List.length this
  simp only [List.length_append, List.length_range] at h2 ⊢
  simp only [List.length_take, List.length_drop, List.length_range] at h2 ⊢
  omega

/-! ### C35 -/

/-- C35, soundness: a task returned is the oldest one of some assigned queue at that moment (`t` is what the queue of `v` holds first, after all pushes
that happened before the pop), exactly that task is removed, and no other queue loses anything. -/
theorem C35_select_sound {vacs : List Nat} {c : Nat} {env : Pushes} {q q' : Queues} {c' t : Nat} (h : selectTask vacs c env q = (some t, q', c')) :
    ∃ v k, v ∈ vacs ∧ vacs[c']? = some v ∧ k ≤ vacs.length ∧ q v ++ pushed env v k = t :: q' v ∧ ∀ w, w ≠ v → q' w = q w ++ pushed env w k := by
  unfold selectTask at h
  split at h
  · cases h
  · have hs := scan_spec vacs env (order vacs.length c) 0 q q (fun i hi => mem_order.1 hi) (fun v => by simp [pushed])
    cases hsc : scan vacs env (order vacs.length c) 0 q with
    | mk o q1 =>
      rw [hsc] at h hs
      cases o with
      | none => cases h
      | some p =>
        obtain ⟨i, t1⟩ := p
        dsimp only at h hs
        cases h
        obtain ⟨pre, post, v, h1, h2, h3, h4, _⟩ := hs
        refine ⟨v, 0 + pre.length + 1, List.mem_of_getElem? h2, h2, ?_, h3, h4⟩
        have := congrArg List.length h1
        rw [order_length, List.length_append, List.length_cons] at this
        omega

/-- C35, completeness: if any assigned queue has a task, one is returned. -/
theorem C35_select_complete {vacs : List Nat} {c : Nat} {env : Pushes} {q : Queues} {v : Nat} (hv : v ∈ vacs) (hq : q v ≠ []) :
    ∃ t, (selectTask vacs c env q).1 = some t := by
  unfold selectTask
  have hne : vacs.length ≠ 0 := by intro h; rw [List.length_eq_zero_iff] at h; subst h; cases hv
  rw [if_neg hne]
  have hs := scan_spec vacs env (order vacs.length c) 0 q q (fun i hi => mem_order.1 hi) (fun v => by simp [pushed])
  cases hsc : scan vacs env (order vacs.length c) 0 q with
  | mk o q1 =>
    rw [hsc] at hs
    cases o with
    | none =>
      dsimp only at hs
      obtain ⟨i, hi, hiv⟩ := List.getElem_of_mem hv
      exact absurd (hs.1 i (mem_order.2 hi) v (by rw [List.getElem?_eq_getElem hi, hiv])) hq
    | some p => obtain ⟨i, t⟩ := p; exact ⟨t, rfl⟩

/-- C35: when NULL is returned all assigned queues were empty when it began (and nothing was removed). -/
theorem C35_null_only_when_empty {vacs : List Nat} {c c' : Nat} {env : Pushes} {q q' : Queues} (h : selectTask vacs c env q = (none, q', c')) :
    (∀ v ∈ vacs, q v = []) ∧ c' = c ∧ ∃ k, ∀ w, q' w = q w ++ pushed env w k := by
  refine ⟨?_, ?_⟩
  · intro v hv
    cases hq : q v with
    | nil => rfl
    | cons a l =>
      obtain ⟨t, ht⟩ := C35_select_complete (c := c) (env := env) (q := q) hv (by rw [hq]; simp)
      rw [h] at ht; cases ht
  · unfold selectTask at h
    split at h
    · cases h; exact ⟨rfl, 0, fun w => by simp [pushed]⟩
    · have hs := scan_spec vacs env (order vacs.length c) 0 q q (fun i hi => mem_order.1 hi) (fun v => by simp [pushed])
      cases hsc : scan vacs env (order vacs.length c) 0 q with
      | mk o q1 =>
        rw [hsc] at hs h
        cases o with
        | none => dsimp only at hs h; cases h; exact ⟨rfl, _, hs.2.1⟩
        | some p => obtain ⟨i, t⟩ := p; cases h

example : (selectTask [5, 6, 7] 0 (fun _ _ => []) (fun v => if v = 5 then [50] else if v = 7 then [70, 71] else [])).1 = some 70 := by decide +kernel
example : (selectTask [5, 6] 1 (fun k v => if k = 1 ∧ v = 6 then [60] else []) (fun _ => [])).1 = some 60 := by decide +kernel

/-! ### C36 -/

/-- How far position `i` is from the position at which the next selection starts. -/
def dist (n c i : Nat) : Nat := (i + n - (c + 1) % n) % n

theorem dist_lt {n c i : Nat} (h : 0 < n) : dist n c i < n := Nat.mod_lt _ h

theorem order_get {n c : Nat} (hn : 0 < n) {d : Nat} (hd : d < n) : (order n c)[d]? = some (((c + 1) % n + d) % n) := by
  have hoff : (c + 1) % n < n := Nat.mod_lt _ hn
  show ((List.range n).drop ((c + 1) % n) ++ (List.range n).take ((c + 1) % n))[d]? = _
  generalize (c + 1) % n = off at *
  by_cases hlt : d < n - off
  · rw [List.getElem?_append_left (by simpa using hlt), List.getElem?_drop, List.getElem?_range (by omega), Nat.mod_eq_of_lt (by omega)]
  · rw [List.getElem?_append_right (by simp; omega)]
    simp only [List.length_drop, List.length_range]
    rw [List.getElem?_take, if_pos (by omega), List.getElem?_range (by omega)]
    have : off + d = (d - (n - off)) + n := by omega
    rw [this, Nat.add_mod_right, Nat.mod_eq_of_lt (by omega)]

/-- A selection with position `i` not empty chooses `i` or a position nearer to the start. -/
theorem select_near {vacs : List Nat} {c i v : Nat} {env : Pushes} {q : Queues} (hi : vacs[i]? = some v) (hq : q v ≠ []) :
    ∃ e t q', e ≤ dist vacs.length c i ∧ selectTask vacs c env q = (some t, q', ((c + 1) % vacs.length + e) % vacs.length) := by
  have hil : i < vacs.length := by
    by_cases h : i < vacs.length
    · exact h
    · rw [List.getElem?_eq_none (by omega)] at hi; cases hi
  have hn : 0 < vacs.length := by omega
  unfold selectTask
  rw [if_neg (by omega)]
  have hs := scan_spec vacs env (order vacs.length c) 0 q q (fun i hi => mem_order.1 hi) (fun v => by simp [pushed])
  cases hsc : scan vacs env (order vacs.length c) 0 q with
  | mk o q1 =>
    rw [hsc] at hs
    cases o with
    | none => exact absurd (hs.1 i (mem_order.2 hil) v hi) hq
    | some p =>
      obtain ⟨j, t⟩ := p
      dsimp only at hs ⊢
      obtain ⟨pre, post, w, h1, h2, _, _, h5⟩ := hs
      have hlen : pre.length < vacs.length := by
        have := congrArg List.length h1
        rw [order_length, List.length_append, List.length_cons] at this
        omega
      have hj : (order vacs.length c)[pre.length]? = some j := by rw [h1]; simp
      rw [order_get hn hlen] at hj
      injection hj with hj
      refine ⟨pre.length, t, q1, ?_, by rw [hj]⟩
      -- otherwise position `i` was among those found empty
      by_cases hle : pre.length ≤ dist vacs.length c i
      · exact hle
      · exfalso
        have hd : dist vacs.length c i < vacs.length := dist_lt hn
        have hg : (order vacs.length c)[dist vacs.length c i]? = some i := by
          rw [order_get hn hd]
          unfold dist
          have hoff : (c + 1) % vacs.length < vacs.length := Nat.mod_lt _ hn
          generalize (c + 1) % vacs.length = off at *
          congr 1
          by_cases hge : off ≤ i
          · have : i + vacs.length - off = (i - off) + vacs.length := by omega
            rw [this, Nat.add_mod_right, Nat.mod_eq_of_lt (show i - off < vacs.length by omega), show off + (i - off) = i by omega, Nat.mod_eq_of_lt hil]
          · rw [Nat.mod_eq_of_lt (show i + vacs.length - off < vacs.length by omega), show off + (i + vacs.length - off) = i + vacs.length by omega,
              Nat.add_mod_right, Nat.mod_eq_of_lt hil]
        have hmem : i ∈ pre := by
          rw [h1, List.getElem?_append_left (by omega)] at hg
          exact List.mem_of_getElem? hg
        exact hq (h5 i hmem v hi)

/-- Consecutive selections on the same assignment list: `qs j`/`env j` are the queues/arrivals at selection `j` (arbitrary), the counter is carried over. -/
def counters (vacs : List Nat) (env : Nat → Pushes) (qs : Nat → Queues) (c : Nat) : Nat → Nat
  | 0 => c
  | j + 1 => (selectTask vacs (counters vacs env qs c j) (env j) (qs j)).2.2

/-- Position `i` is served by selection `j`. -/
def Serves (vacs : List Nat) (env : Nat → Pushes) (qs : Nat → Queues) (c i j : Nat) : Prop :=
  ∃ t q', selectTask vacs (counters vacs env qs c j) (env j) (qs j) = (some t, q', i)

theorem dist_step {n c i e : Nat} (hn : 0 < n) (hi : i < n) (he : e ≤ dist n c i) (hne : ((c + 1) % n + e) % n ≠ i) :
    dist n (((c + 1) % n + e) % n) i + 1 ≤ dist n c i := by
  unfold dist at *
  have hoff : (c + 1) % n < n := Nat.mod_lt _ hn
  generalize (c + 1) % n = off at *
  by_cases hge : off ≤ i
  · have h1 : (i + n - off) % n = i - off := by
      rw [show i + n - off = (i - off) + n by omega, Nat.add_mod_right, Nat.mod_eq_of_lt (by omega)]
    rw [h1] at he ⊢
    rw [Nat.mod_eq_of_lt (show off + e < n by omega)] at hne ⊢
    rw [Nat.mod_eq_of_lt (show off + e + 1 < n by omega), show i + n - (off + e + 1) = (i - (off + e + 1)) + n by omega, Nat.add_mod_right,
      Nat.mod_eq_of_lt (by omega)]
    omega
  · have h1 : (i + n - off) % n = i + n - off := Nat.mod_eq_of_lt (by omega)
    rw [h1] at he ⊢
    by_cases hw : off + e < n
    · rw [Nat.mod_eq_of_lt hw]
      by_cases hw2 : off + e + 1 < n
      · rw [Nat.mod_eq_of_lt hw2, Nat.mod_eq_of_lt (show i + n - (off + e + 1) < n by omega)]
        omega
      · have : off + e + 1 = n := by omega
        rw [this, Nat.mod_self, Nat.sub_zero, Nat.add_mod_right, Nat.mod_eq_of_lt hi]
        omega
    · have h2 : (off + e) % n = off + e - n := by
        rw [show off + e = (off + e - n) + n by omega, Nat.add_mod_right, Nat.mod_eq_of_lt (by omega)]
        omega
      rw [h2] at hne ⊢
      rw [Nat.mod_eq_of_lt (show off + e - n + 1 < n by omega), show i + n - (off + e - n + 1) = (i - (off + e - n + 1)) + n by omega, Nat.add_mod_right,
        Nat.mod_eq_of_lt (by omega)]
      omega

/-- C36: with `n` assigned virtual accelerators, one that has a task whenever a selection is made is served within `n` selections, from any counter and
whatever the other queues hold and receive in between. -/
theorem C36_no_starvation {vacs : List Nat} {env : Nat → Pushes} {qs : Nat → Queues} {c i v : Nat} (hi : vacs[i]? = some v)
    (hq : ∀ j, j < vacs.length → qs j v ≠ []) : ∃ j, j < vacs.length ∧ Serves vacs env qs c i j := by
  have hil : i < vacs.length := by
    by_cases h : i < vacs.length
    · exact h
    · rw [List.getElem?_eq_none (by omega)] at hi; cases hi
  have hn : 0 < vacs.length := by omega
  -- after `j` selections without serving `i`, its distance is at most `d - j`
  have key : ∀ j, j ≤ vacs.length → (∃ j', j' < j ∧ Serves vacs env qs c i j') ∨ dist vacs.length (counters vacs env qs c j) i + j ≤ dist vacs.length c i := by
    intro j
    induction j with
    | zero => intro _; exact .inr (by simp [counters])
    | succ j ih =>
      intro hj
      rcases ih (by omega) with ⟨j', h1, h2⟩ | hd
      · exact .inl ⟨j', by omega, h2⟩
      · obtain ⟨e, t, q', he, hsel⟩ := select_near (c := counters vacs env qs c j) (env := env j) hi (hq j (by omega))
        by_cases hx : ((counters vacs env qs c j + 1) % vacs.length + e) % vacs.length = i
        · refine .inl ⟨j, by omega, t, q', ?_⟩
          rw [hsel, hx]
        · refine .inr ?_
          have := dist_step hn hil he hx
          have hc : counters vacs env qs c (j + 1) = ((counters vacs env qs c j + 1) % vacs.length + e) % vacs.length := by
            simp only [counters, hsel]
          rw [hc]; omega
  rcases key vacs.length (Nat.le_refl _) with h | h
  · exact h
  · have := dist_lt (n := vacs.length) (c := c) (i := i) hn
    omega

/-- Non-vacuity: three queues, the others always full; the third is served by the third selection. -/
example : Serves [5, 6, 7] (fun _ _ _ => []) (fun _ _ => [1]) 2 2 2 := ⟨_, _, rfl⟩

/-! ### C37 -/

/-- C37 as stated is false: whatever the configuration, the second virtual accelerator to arrive is assigned through an iterator into the destroyed local
vector of the first call. -/
theorem C37_violated (call1 call2 : Nat) (accels1 accels2 : List Nat) (hc : call1 ≠ call2) (a : Nat) (it : Iter)
    (h1 : assignVac call1 accels1 none = .ok (a, it)) : assignVac call2 accels2 (some it) = .ub := by
  have hv : it.vec = call1 := by
    cases accels1 with
    | nil => simp [assignVac] at h1
    | cons x l => simp [assignVac] at h1; rw [← h1.2]
  simp only [assignVac, Option.getD_some]
  have hne : ¬ it = (⟨call2, accels2.length⟩ : Iter) := by intro h; rw [h] at hv; exact hc hv.symm
  rw [if_neg hne, if_neg (by rw [hv]; exact hc)]

/-- The first arrival gets the first accelerator of its type; if there is none, the end iterator is dereferenced. -/
theorem C37_first_partial (call : Nat) (accels : List Nat) :
    assignVac call accels none = match accels with | [] => .ub | a :: _ => .ok (a, ⟨call, 1⟩) := by
  cases accels <;> simp [assignVac]

/-- Several arrivals, all with the same list of accelerators. -/
def assignMany (accels : List Nat) : Nat → Nat → Res (List Nat × Nat)
  | 0, st => .ok ([], st)
  | k + 1, st =>
    match assignVacReuse accels st with
    | .ok (a, st') => match assignMany accels k st' with | .ok (as, st'') => .ok (a :: as, st'') | r => r
    | .abort => .abort
    | .ub => .ub

theorem assignMany_cycle (accels : List Nat) (hne : 0 < accels.length) : ∀ k st, st ≤ accels.length →
    ∃ as st', assignMany accels k st = .ok (as, st') ∧ as.length = k ∧ ∀ j, j < k → as[j]? = accels[(st + j) % accels.length]?
  | 0, st, _ => ⟨[], st, rfl, rfl, fun j hj => by omega⟩
  | k + 1, st, hst => by
    have hp : (if st = accels.length then 0 else st) < accels.length := by split <;> omega
    have hpm : (if st = accels.length then 0 else st) = st % accels.length := by
      split
      · rename_i h; rw [h, Nat.mod_self]
      · rw [Nat.mod_eq_of_lt (by omega)]
    obtain ⟨as, st', h1, h2, h3⟩ := assignMany_cycle accels hne k ((if st = accels.length then 0 else st) + 1) (by omega)
    refine ⟨accels[if st = accels.length then 0 else st] :: as, st', ?_, by simp [h2], ?_⟩
    · simp only [assignMany, assignVacReuse, List.getElem?_eq_getElem hp, h1]
    · intro j hj
      cases j with
      | zero => simp only [List.getElem?_cons_zero, Nat.add_zero, ← hpm, List.getElem?_eq_getElem hp]
      | succ j =>
        rw [List.getElem?_cons_succ, h3 j (by omega), hpm]
        congr 1
        rw [Nat.add_assoc, Nat.mod_add_mod, show st + (j + 1) = st + (1 + j) by omega]

/-- C37, on a machine that gives each call's vector the same storage, for arrivals that all have the same non-empty list of accelerators: the `j`-th
arrival is assigned to accelerator `j mod n` of the list. Missing: everything else (see `C37_violated`, `C37_mixed_types_violated`). -/
theorem C37_cycles_partial (accels : List Nat) (hne : accels ≠ []) (k : Nat) :
    ∃ as st, assignMany accels k 0 = .ok (as, st) ∧ as.length = k ∧ ∀ j, j < k → as[j]? = accels[j % accels.length]? := by
  have := assignMany_cycle accels (List.length_pos_iff.2 hne) k 0 (by omega)
  simpa using this

/-- Even on such a machine, arrivals of different types break it: after two arrivals with three possible accelerators, one with a single possible
accelerator is assigned through an iterator past the end. -/
theorem C37_mixed_types_violated : ∃ as, assignMany [10, 11, 12] 2 0 = .ok (as, 2) ∧ assignVacReuse [20] 2 = .ub := ⟨_, rfl, rfl⟩

example : assignMany [10, 11] 5 0 = .ok ([10, 11, 10, 11, 10], 1) := rfl

/-! ### C56 -/

theorem hscan_spec (canRun : Nat → Bool) (vacs : List Nat) (env : Pushes) : ∀ (is : List Nat) (k : Nat) (q0 : Queues) (s : HSt), (∀ i ∈ is, i < vacs.length) →
    (∀ v, s.q v = q0 v ++ pushed env v k) →
    match hscan canRun vacs env is k s with
    | (none, s') =>
        (∀ v, s'.q v = q0 v ++ pushed env v (k + is.length)) ∧
        (∃ new, s'.orphaned = new ++ s.orphaned ∧
          (∀ v, v ∈ new → (∃ i ∈ is, vacs[i]? = some v) ∧ ∃ t l, s'.q v = t :: l ∧ canRun t = false) ∧
          (∀ i ∈ is, ∀ v, vacs[i]? = some v → s.q v ≠ [] → v ∈ new))
    | (some (i, t), s') => canRun t = true ∧
        ∃ pre post v, is = pre ++ i :: post ∧ vacs[i]? = some v ∧ q0 v ++ pushed env v (k + pre.length + 1) = t :: s'.q v ∧
        (∀ w, w ≠ v → s'.q w = q0 w ++ pushed env w (k + pre.length + 1)) ∧
        (∃ new, s'.orphaned = new ++ s.orphaned ∧
          (∀ w, w ∈ new → (∃ j ∈ pre, vacs[j]? = some w) ∧ ∃ t' l, q0 w ++ pushed env w (k + pre.length + 1) = t' :: l ∧ canRun t' = false) ∧
          (∀ j ∈ pre, ∀ w, vacs[j]? = some w → s.q w ≠ [] → w ∈ new))
  | [], k, q0, s, _, hq => by
    simp only [hscan]
    refine ⟨by intro v; rw [hq v]; simp, [], by simp, by simp, by simp⟩
  | i :: is, k, q0, s, hi, hq => by
    have hlt := hi i (by simp)
    have hv : vacs[i]? = some vacs[i] := List.getElem?_eq_getElem hlt
    have hq1 : ∀ v, arrive env k s.q v = q0 v ++ pushed env v (k + 1) := by
      intro v; simp only [arrive, pushed, hq v, List.append_assoc]
    have hmono : ∀ v, s.q v ≠ [] → arrive env k s.q v ≠ [] := by
      intro v h hc; exact h (List.append_eq_nil_iff.1 (show s.q v ++ env k v = [] from hc)).1
    simp only [hscan, hv]
    cases hc : arrive env k s.q vacs[i] with
    | nil =>
      dsimp only
      have hqi : s.q vacs[i] = [] := (List.append_eq_nil_iff.1 (show s.q vacs[i] ++ env k vacs[i] = [] from hc)).1
      have ih := hscan_spec canRun vacs env is (k + 1) q0 { s with q := arrive env k s.q } (fun j hj => hi j (by simp [hj])) hq1
      cases hs : hscan canRun vacs env is (k + 1) { s with q := arrive env k s.q } with
      | mk o s' =>
        rw [hs] at ih
        cases o with
        | none =>
          dsimp only at ih ⊢
          obtain ⟨h1, new, h2, h3, h4⟩ := ih
          refine ⟨?_, new, h2, ?_, ?_⟩
          · intro v; rw [h1 v, List.length_cons, show k + 1 + is.length = k + (is.length + 1) by omega]
          · intro v hv'; obtain ⟨⟨j, hj, hjv⟩, h5⟩ := h3 v hv'; exact ⟨⟨j, by simp [hj], hjv⟩, h5⟩
          · intro j hj v hjv hne
            rcases List.mem_cons.1 hj with rfl | hj
            · rw [hv] at hjv; cases hjv; exact absurd hqi hne
            · exact h4 j hj v hjv (hmono v hne)
        | some p =>
          obtain ⟨j, t⟩ := p
          dsimp only at ih ⊢
          obtain ⟨h0, pre, post, v, h1, h2, h3, h4, new, h5, h6, h7⟩ := ih
          have ek : k + (pre.length + 1) + 1 = k + 1 + pre.length + 1 := by omega
          refine ⟨h0, i :: pre, post, v, by rw [h1]; rfl, h2, by rw [List.length_cons, ek]; exact h3,
            fun w hw => by rw [List.length_cons, ek]; exact h4 w hw, new, h5, ?_, ?_⟩
          · intro w hw; obtain ⟨⟨j', hj', hjw⟩, h8⟩ := h6 w hw
            rw [List.length_cons, ek]; exact ⟨⟨j', by simp [hj'], hjw⟩, h8⟩
          · intro l hl w hlw hne
            rcases List.mem_cons.1 hl with rfl | hl
            · rw [hv] at hlw; cases hlw; exact absurd hqi hne
            · exact h7 l hl w hlw (hmono w hne)
    | cons t r =>
      dsimp only
      by_cases hr : canRun t = true
      · rw [if_pos hr]
        dsimp only
        refine ⟨hr, [], is, vacs[i], rfl, hv, ?_, ?_, [], rfl, by simp, by simp⟩
        · simp only [setQ, if_true, List.length_nil, Nat.add_zero, ← hq1, hc]
        · intro w hw; simp only [setQ, if_neg hw, List.length_nil, Nat.add_zero]; exact hq1 w
      · rw [if_neg hr]
        have hrf : canRun t = false := by simpa using hr
        have ih := hscan_spec canRun vacs env is (k + 1) q0 { q := arrive env k s.q, orphaned := vacs[i] :: s.orphaned } (fun j hj => hi j (by simp [hj])) hq1
        cases hs : hscan canRun vacs env is (k + 1) { q := arrive env k s.q, orphaned := vacs[i] :: s.orphaned } with
        | mk o s' =>
          rw [hs] at ih
          cases o with
          | none =>
            dsimp only at ih ⊢
            obtain ⟨h1, new, h2, h3, h4⟩ := ih
            refine ⟨?_, new ++ [vacs[i]], by rw [h2]; simp, ?_, ?_⟩
            · intro v; rw [h1 v, List.length_cons, show k + 1 + is.length = k + (is.length + 1) by omega]
            · intro v hv'
              rcases List.mem_append.1 hv' with hv' | hv'
              · obtain ⟨⟨j, hj, hjv⟩, h5⟩ := h3 v hv'; exact ⟨⟨j, by simp [hj], hjv⟩, h5⟩
              · simp only [List.mem_singleton] at hv'; subst hv'
                refine ⟨⟨i, by simp, hv⟩, ?_⟩
                obtain ⟨l, hl⟩ := head_stays (hq1 _ ▸ hc) is.length
                exact ⟨t, l, by rw [h1]; exact hl, hrf⟩
            · intro j hj v hjv hne
              rcases List.mem_cons.1 hj with rfl | hj
              · rw [hv] at hjv; cases hjv; simp
              · exact List.mem_append.2 (.inl (h4 j hj v hjv (hmono v hne)))
          | some p =>
            obtain ⟨j, t⟩ := p
            dsimp only at ih ⊢
            obtain ⟨h0, pre, post, v, h1, h2, h3, h4, new, h5, h6, h7⟩ := ih
            have ek : k + (pre.length + 1) + 1 = k + 1 + pre.length + 1 := by omega
            refine ⟨h0, i :: pre, post, v, by rw [h1]; rfl, h2, by rw [List.length_cons, ek]; exact h3,
              fun w hw => by rw [List.length_cons, ek]; exact h4 w hw, new ++ [vacs[i]], by rw [h5]; simp, ?_, ?_⟩
            · intro w hw
              rw [List.length_cons, ek]
              rcases List.mem_append.1 hw with hw | hw
              · obtain ⟨⟨j', hj', hjw⟩, h8⟩ := h6 w hw
                exact ⟨⟨j', by simp [hj'], hjw⟩, h8⟩
              · simp only [List.mem_singleton] at hw; subst hw
                refine ⟨⟨i, by simp, hv⟩, ?_⟩
                obtain ⟨l, hl⟩ := head_stays (hq1 _ ▸ hc) (pre.length + 1)
                exact ⟨_, l, hl, hrf⟩
            · intro l hl w hlw hne
              rcases List.mem_cons.1 hl with rfl | hl
              · rw [hv] at hlw; cases hlw; simp
              · exact List.mem_append.2 (.inl (h7 l hl w hlw (hmono w hne)))

/-- C56, the task: a returned task can run on this accelerator, was the oldest of an assigned queue, only it is removed; no queue loses anything else. -/
theorem C56_returns_runnable {canRun : Nat → Bool} {vacs : List Nat} {c c' t : Nat} {env : Pushes} {q : Queues} {s : HSt}
    (h : hselectTask canRun vacs c env q = (some t, s, c')) :
    canRun t = true ∧ ∃ v k, v ∈ vacs ∧ vacs[c']? = some v ∧ q v ++ pushed env v k = t :: s.q v ∧ ∀ w, w ≠ v → s.q w = q w ++ pushed env w k := by
  unfold hselectTask at h
  split at h
  · cases h
  · have hs := hscan_spec canRun vacs env (order vacs.length c) 0 q { q := q, orphaned := [] } (fun i hi => mem_order.1 hi) (fun v => by simp [pushed])
    cases hsc : hscan canRun vacs env (order vacs.length c) 0 { q := q, orphaned := [] } with
    | mk o s1 =>
      rw [hsc] at h hs
      cases o with
      | none => cases h
      | some p =>
        obtain ⟨i, t1⟩ := p
        dsimp only at h hs
        cases h
        obtain ⟨h0, pre, post, v, h1, h2, h3, h4, _⟩ := hs
        exact ⟨h0, v, 0 + pre.length + 1, List.mem_of_getElem? h2, h2, h3, h4⟩

/-- C56, the queues: only queues whose oldest task cannot run here are moved to the orphan list, and they keep all their tasks. -/
theorem C56_orphans_only_unrunnable {canRun : Nat → Bool} {vacs : List Nat} {c c' : Nat} {env : Pushes} {q : Queues} {s : HSt} {r : Option Nat}
    (h : hselectTask canRun vacs c env q = (r, s, c')) {v : Nat} (hv : v ∈ s.orphaned) :
    v ∈ vacs ∧ (∃ t l, s.q v = t :: l ∧ canRun t = false) ∧ ∃ k, s.q v = q v ++ pushed env v k := by
  unfold hselectTask at h
  split at h
  · cases h; cases hv
  · have hs := hscan_spec canRun vacs env (order vacs.length c) 0 q { q := q, orphaned := [] } (fun i hi => mem_order.1 hi) (fun v => by simp [pushed])
    cases hsc : hscan canRun vacs env (order vacs.length c) 0 { q := q, orphaned := [] } with
    | mk o s1 =>
      rw [hsc] at h hs
      cases o with
      | none =>
        dsimp only at h hs
        cases h
        obtain ⟨h1, new, h2, h3, _⟩ := hs
        rw [h2, List.append_nil] at hv
        obtain ⟨⟨i, hi, hiv⟩, h4⟩ := h3 v hv
        exact ⟨List.mem_of_getElem? hiv, h4, _, h1 v⟩
      | some p =>
        obtain ⟨i, t1⟩ := p
        dsimp only at h hs
        cases h
        obtain ⟨h0, pre, post, v1, h1, h2, h3, h4, new, h5, h6, h7⟩ := hs
        rw [h5, List.append_nil] at hv
        obtain ⟨⟨j, hj, hjv⟩, t', l, h8, h9⟩ := h6 v hv
        have hne : v ≠ v1 := by
          intro hc; subst hc
          rw [h3] at h8; cases h8; rw [h0] at h9; cases h9
        exact ⟨List.mem_of_getElem? hjv, ⟨t', l, by rw [h4 v hne]; exact h8, h9⟩, _, h4 v hne⟩

/-- C56: when nothing is returned, every assigned queue that had tasks has been moved to the orphan list. (The full property asks this for every call; the
code stops looking once it has found a runnable task: `C56_stops_early_violated`.) -/
theorem C56_all_moved_when_null_partial {canRun : Nat → Bool} {vacs : List Nat} {c c' : Nat} {env : Pushes} {q : Queues} {s : HSt}
    (h : hselectTask canRun vacs c env q = (none, s, c')) {v : Nat} (hv : v ∈ vacs) (hq : q v ≠ []) : v ∈ s.orphaned := by
  unfold hselectTask at h
  split at h
  · rename_i h0; rw [List.length_eq_zero_iff] at h0; subst h0; cases hv
  · have hs := hscan_spec canRun vacs env (order vacs.length c) 0 q { q := q, orphaned := [] } (fun i hi => mem_order.1 hi) (fun v => by simp [pushed])
    cases hsc : hscan canRun vacs env (order vacs.length c) 0 { q := q, orphaned := [] } with
    | mk o s1 =>
      rw [hsc] at h hs
      cases o with
      | some p => obtain ⟨i, t1⟩ := p; cases h
      | none =>
        dsimp only at h hs
        cases h
        obtain ⟨h1, new, h2, _, h4⟩ := hs
        rw [h2, List.append_nil]
        obtain ⟨i, hi, hiv⟩ := List.getElem_of_mem hv
        exact h4 i (mem_order.2 hi) v (by rw [List.getElem?_eq_getElem hi, hiv]) hq

/-- C56: the queues looked at before the one served (in round-robin order) that had a task were moved. -/
theorem C56_examined_moved {canRun : Nat → Bool} {vacs : List Nat} {c c' t : Nat} {env : Pushes} {q : Queues} {s : HSt}
    (h : hselectTask canRun vacs c env q = (some t, s, c')) :
    ∃ pre post, order vacs.length c = pre ++ c' :: post ∧ ∀ j ∈ pre, ∀ w, vacs[j]? = some w → q w ≠ [] → w ∈ s.orphaned := by
  unfold hselectTask at h
  split at h
  · cases h
  · have hs := hscan_spec canRun vacs env (order vacs.length c) 0 q { q := q, orphaned := [] } (fun i hi => mem_order.1 hi) (fun v => by simp [pushed])
    cases hsc : hscan canRun vacs env (order vacs.length c) 0 { q := q, orphaned := [] } with
    | mk o s1 =>
      rw [hsc] at h hs
      cases o with
      | none => cases h
      | some p =>
        obtain ⟨i, t1⟩ := p
        dsimp only at h hs
        cases h
        obtain ⟨h0, pre, post, v, h1, h2, h3, h4, new, h5, h6, h7⟩ := hs
        refine ⟨pre, post, h1, ?_⟩
        intro j hj w hjw hne
        rw [h5, List.append_nil]; exact h7 j hj w hjw hne

/-- C56 as stated is false in one point: a queue whose oldest task cannot run here stays assigned if a runnable task is found first. -/
theorem C56_stops_early_violated : ∃ (canRun : Nat → Bool) (q : Queues) (s : HSt),
    hselectTask canRun [5, 6] 1 (fun _ _ => []) q = (some 50, s, 0) ∧ q 6 = [60] ∧ canRun 60 = false ∧ s.orphaned = [] :=
  ⟨fun t => t == 50, fun v => if v = 5 then [50] else if v = 6 then [60] else [], _, rfl, rfl, rfl, rfl⟩

example : (hselectTask (fun t => t == 70) [5, 6, 7] 2 (fun _ _ => []) (fun v => if v = 5 then [50] else if v = 7 then [70, 71] else [])).1 = some 70 ∧
    (hselectTask (fun t => t == 70) [5, 6, 7] 2 (fun _ _ => []) (fun v => if v = 5 then [50] else if v = 7 then [70, 71] else [])).2.1.orphaned = [5] := by
  decide +kernel

/-- The heterogeneous assignVac (with reused storage, at most once round the list): it assigns to an accelerator that can run the oldest task (any, if the
queue is empty). -/
theorem C56_assign_runnable_partial {canRun : Nat → Nat → Bool} {accels : List Nat} {head : Option Nat} {st a st' : Nat}
    (h : hassignVac canRun accels head st = .ok (a, st')) : a ∈ accels ∧ ∀ t, head = some t → canRun a t = true := by
  unfold hassignVac at h
  generalize accels.length = fuel at h
  induction fuel generalizing st with
  | zero => cases h
  | succ n ih =>
    simp only [hassign] at h
    split at h
    · cases h
    · rename_i a' ha
      split at h
      · cases h; exact ⟨List.mem_of_getElem? ha, by intro t ht; cases ht⟩
      · rename_i t
        split at h
        · rename_i hr
          cases h; exact ⟨List.mem_of_getElem? ha, by intro t' ht'; cases ht'; exact hr⟩
        · exact ih h

/-- … and it finds one if there is one: the loop goes once round the whole list. -/
theorem hassign_none {canRun : Nat → Nat → Bool} {accels : List Nat} {t : Nat} (hne : 0 < accels.length) : ∀ (fuel st : Nat), st ≤ accels.length →
    (¬ ∃ a st', hassign canRun accels (some t) fuel st = .ok (a, st')) → ∀ j, j < fuel → ∀ a, accels[(st + j) % accels.length]? = some a → canRun a t = false
  | 0, st, _, _, j, hj, _, _ => by omega
  | fuel + 1, st, hst, h, j, hj, a, ha => by
    have hp : (if st = accels.length then 0 else st) < accels.length := by split <;> omega
    have hpm : (if st = accels.length then 0 else st) = st % accels.length := by
      split
      · rename_i h; rw [h, Nat.mod_self]
      · rw [Nat.mod_eq_of_lt (by omega)]
    simp only [hassign, List.getElem?_eq_getElem hp] at h
    by_cases hr : canRun accels[if st = accels.length then 0 else st] t = true
    · rw [if_pos hr] at h; exact absurd ⟨_, _, rfl⟩ h
    · rw [if_neg hr] at h
      cases j with
      | zero =>
        rw [Nat.add_zero, ← hpm, List.getElem?_eq_getElem hp] at ha
        cases ha; simpa using hr
      | succ j =>
        refine hassign_none hne fuel _ (by omega) h j (by omega) a ?_
        rw [hpm, Nat.add_assoc, Nat.mod_add_mod, show st + (1 + j) = st + (j + 1) by omega]; exact ha

theorem C56_assign_complete_partial {canRun : Nat → Nat → Bool} {accels : List Nat} {t a st : Nat} (hst : st ≤ accels.length) (ha : a ∈ accels)
    (hr : canRun a t = true) : ∃ b st', hassignVac canRun accels (some t) st = .ok (b, st') ∧ canRun b t = true := by
  have hne : 0 < accels.length := List.length_pos_of_mem ha
  by_cases h : ∃ b st', hassignVac canRun accels (some t) st = .ok (b, st')
  · obtain ⟨b, st', hb⟩ := h
    exact ⟨b, st', hb, (C56_assign_runnable_partial hb).2 t rfl⟩
  · exfalso
    obtain ⟨i, hi, hia⟩ := List.getElem_of_mem ha
    -- position i is visited at step j
    have : ∃ j, j < accels.length ∧ (st + j) % accels.length = i := by
      by_cases hc : st ≤ i
      · exact ⟨i - st, by omega, by rw [show st + (i - st) = i by omega, Nat.mod_eq_of_lt hi]⟩
      · exact ⟨i + accels.length - st, by omega, by rw [show st + (i + accels.length - st) = i + accels.length by omega, Nat.add_mod_right, Nat.mod_eq_of_lt hi]⟩
    obtain ⟨j, hj, hji⟩ := this
    have := hassign_none hne accels.length st hst h j hj a (by rw [hji, List.getElem?_eq_getElem hi, hia])
    rw [hr] at this; cases this

example : hassignVac (fun a _ => a == 12) [10, 11, 12] (some 5) 1 = .ok (12, 2) := rfl

end Arax.Sched
