import Verif.Exec.RealProps
/-!
# C86: the steps of the queues
-/
namespace Arax.Exec.Real
open Arax.Exec Arax.Queue Arax.Queue.Multi

section
variable {ph size : Nat → Nat} {cap : Nat} {m0 : Mem} {a : ASt G} {s : Exec.St}

/-- A step of client `c` in or around its push to queue `v`. -/
theorem cq_R (hr : R ph a s) (c v : Nat) (rc : RC) (x : Lin.ATh) (q' : Nat → List Nat) (s' : Exec.St)
    (hmem : s'.mem = s.mem) (hacc : s'.accel = s.accel) (htask : s'.task = s.task) (hnext : s'.next = s.next) (hfin : s'.fin = s.fin)
    (hhost : s'.host = s.host) (hret : s'.ret = s.ret) (hwk : s'.worker = s.worker) (hex : s'.exec = s.exec) (hlog : ∀ t ∈ s.log, t ∈ s'.log)
    (hq : ∀ u, q' u = (s'.queue u).map (· + 1)) (hsc : ∀ j, j ≠ c → s'.client j = s.client j)
    (hv : ∀ t, a.g.client c = .inPush t → (a.g.task t).vac = v) (hx : x = .out ∨ ∃ t, rc = .inPush t ∧ (a.g.task t).vac = v)
    (hc : CRel a.g (fun u => if u = v then x else a.th u (2 * c)) rc (s'.client c)) (hbusy : ∀ t, rc.busy = some t → t < a.g.next)
    (hpu : ∀ t, Pushed a.g (fun u => if u = v then x else a.th u (2 * c)) rc t → t ∈ s'.log) :
    R ph { g := { a.g with client := upd a.g.client c rc }, q := q', th := Multi.set a.th v (Multi.set (a.th v) (2 * c) x) } s' where
  mem := by rw [hmem]; exact hr.mem
  accel := by rw [hacc]; exact hr.accel
  task := by rw [htask]; exact hr.task
  next := by rw [hnext]; exact hr.next
  fin := by rw [hfin]; exact hr.fin
  host := by rw [hhost]; exact hr.host
  ret := by rw [hret]; exact hr.ret
  queue := hq
  client j := by
    by_cases hj : j = c
    · subst hj
      simp only [upd_same]
      have : (fun u => Multi.set a.th v (Multi.set (a.th v) (2 * j) x) u (2 * j)) = (fun u => if u = v then x else a.th u (2 * j)) := by
        funext u; rw [th_set]; simp
      rw [this]
      exact crel_congr (g := a.g) (fun _ _ => rfl) (fun _ _ => rfl) hc
    · simp only [upd_ne _ _ _ _ hj]
      rw [hsc j hj]
      refine crel_congr (g := a.g) (fun _ _ => rfl) (fun t _ => ?_) (hr.client j)
      rw [th_set, if_neg (fun h => hj (by omega))]
  worker p := by
    have := hr.worker p
    rw [hwk]
    have e : (fun u => Multi.set a.th v (Multi.set (a.th v) (2 * c) x) u (2 * p + 1)) = (fun u => a.th u (2 * p + 1)) := by
      funext u; rw [th_set, if_neg (fun h => by omega)]
    show WRel ph _ p (fun u => Multi.set a.th v (Multi.set (a.th v) (2 * c) x) u (2 * p + 1)) (a.g.worker p) (s.worker p)
    rw [e]
    cases hp : a.g.worker p with
    | inPop w => rw [hp] at this; exact this
    | free => rw [hp] at this; exact this
    | pick w => rw [hp] at this; exact this
    | run t pr => rw [hp] at this; exact this
  thc u j := by
    show Multi.set a.th v (Multi.set (a.th v) (2 * c) x) u (2 * j) = _ ∨ ∃ t, upd a.g.client c rc j = _ ∧ (a.g.task t).vac = u
    rw [th_set]
    by_cases hj : j = c
    · subst hj
      rw [upd_same]
      by_cases hu : u = v
      · subst hu; rw [if_pos ⟨rfl, rfl⟩]; exact hx
      · rw [if_neg (fun h => hu h.1)]
        rcases hr.thc u j with h | ⟨t, h1, h2⟩
        · exact .inl h
        · exact absurd ((h2.symm.trans (hv t h1))) hu
    · rw [if_neg (fun h => hj (by omega)), upd_ne _ _ _ _ hj]; exact hr.thc u j
  thw u p := by
    show Multi.set a.th v (Multi.set (a.th v) (2 * c) x) u (2 * p + 1) = _ ∨ _
    rw [th_set, if_neg (fun h => by omega)]; exact hr.thw u p
  low j t h := by
    have h : (upd a.g.client c rc j).busy = some t := h
    by_cases hj : j = c
    · subst hj; rw [upd_same] at h; exact hbusy t h
    · rw [upd_ne _ _ _ _ hj] at h; exact hr.low j t h
  issued t h := hlog t (hr.issued t h)
  pushed j t h := by
    have h : Pushed _ (fun u => Multi.set a.th v (Multi.set (a.th v) (2 * c) x) u (2 * j)) (upd a.g.client c rc j) t := h
    by_cases hj : j = c
    · subst hj
      rw [upd_same] at h
      have e : (fun u => Multi.set a.th v (Multi.set (a.th v) (2 * j) x) u (2 * j)) = (fun u => if u = v then x else a.th u (2 * j)) := by
        funext u; rw [th_set]; simp
      rw [e] at h
      exact hpu t (pushed_congr (g := a.g) (g' := { a.g with client := upd a.g.client j rc }) (th := fun u => if u = v then x else a.th u (2 * j)) (th' := fun u => if u = v then x else a.th u (2 * j)) (fun _ _ => rfl) (fun _ _ => rfl) h)
    · rw [upd_ne _ _ _ _ hj] at h
      refine hlog t (hr.pushed j t (pushed_congr (g := a.g) (g' := { a.g with client := upd a.g.client c rc }) (th := fun u => a.th u (2 * j)) (fun _ _ => rfl) (fun t _ => ?_) h))
      rw [th_set, if_neg (fun h => hj (by omega))]
  taken u := by
    show ofVac s'.task u s'.exec = a.g.taken u ++ pend (Multi.set a.th v (Multi.set (a.th v) (2 * c) x) u (2 * ph u + 1))
    rw [htask, hex, th_set, if_neg (fun h => by omega)]; exact hr.taken u

/-- A step of worker `p` in or around its pop from queue `v`. -/
theorem wq_R (hr : R ph a s) (p v : Nat) (rw' : RW) (x : Lin.ATh) (q' : Nat → List Nat) (tk : Nat → List Nat) (s' : Exec.St)
    (hmem : s'.mem = s.mem) (hacc : s'.accel = s.accel) (htask : s'.task = s.task) (hnext : s'.next = s.next) (hfin : s'.fin = s.fin)
    (hhost : s'.host = s.host) (hret : s'.ret = s.ret) (hcl : s'.client = s.client) (hlog : s'.log = s.log)
    (hq : ∀ u, q' u = (s'.queue u).map (· + 1)) (hsw : ∀ j, j ≠ p → s'.worker j = s.worker j)
    (hv : ∀ u, a.g.worker p = .inPop u → u = v) (hx : x = .out ∨ rw' = .inPop v)
    (hw : WRel ph a.g p (fun u => if u = v then x else a.th u (2 * p + 1)) rw' (s'.worker p))
    (ht1 : ∀ u, u ≠ v → tk u = a.g.taken u ∧ ofVac s.task u s'.exec = ofVac s.task u s.exec)
    (hpv : ph v = p) (ht2 : ofVac s.task v s'.exec = tk v ++ pend x) :
    R ph { g := { a.g with worker := upd a.g.worker p rw', taken := tk }, q := q', th := Multi.set a.th v (Multi.set (a.th v) (2 * p + 1) x) } s' where
  mem := by rw [hmem]; exact hr.mem
  accel := by rw [hacc]; exact hr.accel
  task := by rw [htask]; exact hr.task
  next := by rw [hnext]; exact hr.next
  fin := by rw [hfin]; exact hr.fin
  host := by rw [hhost]; exact hr.host
  ret := by rw [hret]; exact hr.ret
  queue := hq
  client j := by
    show CRel _ (fun u => Multi.set a.th v (Multi.set (a.th v) (2 * p + 1) x) u (2 * j)) (a.g.client j) _
    rw [hcl]
    refine crel_congr (g := a.g) (fun _ _ => rfl) (fun t _ => ?_) (hr.client j)
    rw [th_set, if_neg (fun h => by omega)]
  worker j := by
    by_cases hj : j = p
    · subst hj
      show WRel ph _ j (fun u => Multi.set a.th v (Multi.set (a.th v) (2 * j + 1) x) u (2 * j + 1)) (upd a.g.worker j rw' j) _
      rw [upd_same]
      have e : (fun u => Multi.set a.th v (Multi.set (a.th v) (2 * j + 1) x) u (2 * j + 1)) = (fun u => if u = v then x else a.th u (2 * j + 1)) := by
        funext u; rw [th_set]; simp
      rw [e]
      cases rw' with
      | inPop w => exact hw
      | free => exact hw
      | pick w => exact hw
      | run t pr => exact hw
    · show WRel ph _ j (fun u => Multi.set a.th v (Multi.set (a.th v) (2 * p + 1) x) u (2 * j + 1)) (upd a.g.worker p rw' j) _
      rw [upd_ne _ _ _ _ hj, hsw j hj]
      have e : (fun u => Multi.set a.th v (Multi.set (a.th v) (2 * p + 1) x) u (2 * j + 1)) = (fun u => a.th u (2 * j + 1)) := by
        funext u; rw [th_set, if_neg (fun h => hj (by omega))]
      rw [e]
      have := hr.worker j
      cases hp : a.g.worker j with
      | inPop w => rw [hp] at this; exact this
      | free => rw [hp] at this; exact this
      | pick w => rw [hp] at this; exact this
      | run t pr => rw [hp] at this; exact this
  thc u j := by
    show Multi.set a.th v (Multi.set (a.th v) (2 * p + 1) x) u (2 * j) = _ ∨ _
    rw [th_set, if_neg (fun h => by omega)]; exact hr.thc u j
  thw u j := by
    show Multi.set a.th v (Multi.set (a.th v) (2 * p + 1) x) u (2 * j + 1) = _ ∨ upd a.g.worker p rw' j = _
    rw [th_set]
    by_cases hj : j = p
    · subst hj
      rw [upd_same]
      by_cases hu : u = v
      · subst hu; rw [if_pos ⟨rfl, rfl⟩]; exact hx
      · rw [if_neg (fun h => hu h.1)]
        rcases hr.thw u j with h | h
        · exact .inl h
        · exact absurd (hv u h) hu
    · rw [if_neg (fun h => hj (by omega)), upd_ne _ _ _ _ hj]; exact hr.thw u j
  low := hr.low
  issued t h := by rw [hlog]; exact hr.issued t h
  pushed j t h := by
    rw [hlog]
    refine hr.pushed j t (pushed_congr (g' := { a.g with worker := upd a.g.worker p rw', taken := tk }) (fun _ _ => rfl) (fun t _ => ?_) h)
    show Multi.set a.th v (Multi.set (a.th v) (2 * p + 1) x) _ _ = a.th _ _
    rw [th_set, if_neg (fun h => by omega)]
  taken u := by
    show ofVac s'.task u s'.exec = tk u ++ pend (Multi.set a.th v (Multi.set (a.th v) (2 * p + 1) x) u (2 * ph u + 1))
    rw [htask, th_set]
    by_cases hu : u = v
    · subst hu; rw [if_pos ⟨rfl, by rw [hpv]⟩]; exact ht2
    · rw [if_neg (fun h => hu h.1), (ht1 u hu).1, (ht1 u hu).2]; exact hr.taken u

theorem parity (i : Nat) : (i % 2 = 0 ∧ i = 2 * (i / 2)) ∨ (i % 2 ≠ 0 ∧ i = 2 * (i / 2) + 1) := by omega

/-- The client that is in a push. -/
theorem in_push (hr : R ph a s) {v c : Nat} (h : a.th v (2 * c) ≠ .out) : ∃ t, a.g.client c = .inPush t ∧ (a.g.task t).vac = v ∧
    ((∃ n, a.th v (2 * c) = .called (.push (t + 1)) n ∧ s.client c = .push t) ∨ (a.th v (2 * c) = .done 0 ∧ s.client c = .push t) ∨
      (a.th v (2 * c) = .done (t + 1) ∧ s.client c = after a.g t)) := by
  obtain ⟨t, h1, h2⟩ := (hr.thc v c).resolve_left h
  have := hr.client c
  rw [h1] at this
  simp only [CRel, h2] at this
  exact ⟨t, h1, h2, this⟩

/-- The worker that is in a pop. -/
theorem in_pop (hr : R ph a s) {v p : Nat} (h : a.th v (2 * p + 1) ≠ .out) : a.g.worker p = .inPop v ∧ ph v = p ∧
    ((∃ n, a.th v (2 * p + 1) = .called .pop n ∧ s.worker p = none) ∨ (a.th v (2 * p + 1) = .done 0 ∧ s.worker p = none) ∨
      ∃ t, a.th v (2 * p + 1) = .done (t + 1) ∧ s.worker p = some (t, (a.g.task t).prog)) := by
  have h1 := (hr.thw v p).resolve_left h
  have := hr.worker p
  rw [h1] at this
  exact ⟨h1, this.1, this.2⟩

theorem queue_vac (hs : Reach ph size cap m0 s) {v t : Nat} (h : t ∈ s.queue v) : (s.task t).vac = v := by
  have := (inv_of_reach hs).order v
  have : t ∈ ofVac s.task v s.log := by rw [← this]; exact List.mem_append_right _ h
  have := (List.mem_filter.1 this).2
  simpa using this

/-- Steps of the program with atomic queues are steps of `Exec`, or nothing. -/
theorem astep_R (hs : Reach ph size cap m0 s) (hr : R ph a s) (b : ASt G) (h : AStep (prog ph size) cap a b) :
    ∃ s', Reach ph size cap m0 s' ∧ R ph b s' := by
  cases h with
  | own ho => obtain ⟨act, hl, e⟩ := ho; exact own_R hs hr act hl _ e
  | @call i v x n h1 h2 =>
    refine ⟨s, hs, ?_⟩
    rcases parity i with ⟨hp, hi⟩ | ⟨hp, hi⟩
    · simp only [prog, if_pos hp] at h2 ⊢
      split at h2
      · next t ht =>
        cases h2
        have e := cq_R hr (i / 2) (a.g.task t).vac (.inPush t) (.called (.push (t + 1)) n) a.q s rfl rfl rfl rfl rfl rfl rfl rfl rfl (fun _ h => h) hr.queue
          (fun _ _ => rfl) (fun u e => by rw [ht] at e; cases e) (.inr ⟨t, rfl, rfl⟩) ?_ (fun u e => by cases e; exact hr.low (i / 2) t (by rw [ht]; rfl)) ?_
        · rw [← hi] at e; exact e
        · refine .inl ⟨n, if_pos rfl, ?_⟩
          have := hr.client (i / 2)
          rw [ht] at this
          exact this
        · rintro u ⟨e, _⟩
          simp at e
      · cases h2
    · simp only [prog, if_neg hp] at h2 ⊢
      split at h2
      · next w hw =>
        cases h2
        have hwr := hr.worker (i / 2)
        rw [hw] at hwr
        have hto : a.th v (2 * (i / 2) + 1) = .out := by rw [← hi]; exact h1
        have e := wq_R hr (i / 2) v (.inPop v) (.called .pop n) a.q a.g.taken s rfl rfl rfl rfl rfl rfl rfl rfl rfl hr.queue (fun _ _ => rfl)
          (fun u e => by rw [hw] at e; cases e) (.inr rfl) ⟨hwr.1, .inl ⟨n, if_pos rfl, hwr.2⟩⟩ (fun _ _ => ⟨rfl, rfl⟩) hwr.1 ?_
        · rw [← hi] at e; exact e
        · have := hr.taken v
          rw [hwr.1, hto] at this
          exact this
      · cases h2
  | @push i v x n h1 h2 =>
    rcases parity i with ⟨hp, hi⟩ | ⟨hp, hi⟩
    · rw [hi] at h1 ⊢
      obtain ⟨t, hc, hv, hth⟩ := in_push hr (by rw [h1]; exact fun e => by cases e)
      rcases hth with ⟨m, e, hsc⟩ | ⟨e, _⟩ | ⟨e, _⟩
      · rw [h1] at e
        cases e
        have hv' : (s.task t).vac = v := by rw [hr.task]; exact hv
        have hlen : (s.queue (s.task t).vac).length < cap := by
          rw [hv']; have := hr.queue v; rw [this, List.length_map] at h2; exact h2
        refine ⟨_, .step (a := .client (i / 2)) hs trivial (by simp only [step, hsc]; exact if_pos hlen), ?_⟩
        have e := cq_R hr (i / 2) v (.inPush t) (.done (t + 1)) (Multi.set a.q v (a.q v ++ [t + 1]))
          { s with queue := upd s.queue (s.task t).vac (s.queue (s.task t).vac ++ [t]), log := s.log ++ [t],
                   client := upd s.client (i / 2) (if (s.task t).kind = .get then .wait t else .idle) }
          rfl rfl rfl rfl rfl rfl rfl rfl rfl (fun _ h => List.mem_append_left _ h) (fun u => ?_) (fun j hj => upd_ne _ _ _ _ hj)
          (fun u e => by rw [hc] at e; cases e; exact hv) (.inr ⟨t, rfl, hv⟩) ?_ (fun u e => by cases e; exact hr.low (i / 2) t (by rw [hc]; rfl)) ?_
        · have hg : { a.g with client := upd a.g.client (i / 2) (.inPush t) } = a.g := by
            have : upd a.g.client (i / 2) (.inPush t) = a.g.client := by
              funext j; by_cases hj : j = i / 2
              · subst hj; rw [upd_same, hc]
              · rw [upd_ne _ _ _ _ hj]
            rw [this]
          rw [hg] at e; exact e
        · show Multi.set a.q v (a.q v ++ [t + 1]) u = List.map (· + 1) (upd s.queue (s.task t).vac (s.queue (s.task t).vac ++ [t]) u)
          rw [hv']
          by_cases hu : u = v
          · subst hu; rw [set_same, upd_same, hr.queue u]; simp
          · rw [set_ne _ _ hu, upd_ne _ _ _ _ hu]; exact hr.queue u
        · refine .inr (.inr ⟨?_, ?_⟩)
          · rw [hv]; exact if_pos rfl
          · show upd s.client (i / 2) _ (i / 2) = _
            rw [upd_same]; unfold after; rw [hr.task]
        · rintro u ⟨_, rfl⟩
          exact List.mem_append_right _ (List.mem_singleton.2 rfl)
      · rw [h1] at e; cases e
      · rw [h1] at e; cases e
    · rw [hi] at h1
      obtain ⟨_, _, hth⟩ := in_pop hr (by rw [h1]; exact fun e => by cases e)
      rcases hth with ⟨m, e, _⟩ | ⟨e, _⟩ | ⟨t, e, _⟩ <;> rw [h1] at e <;> cases e
  | @full i v x n h1 h2 =>
    refine ⟨s, hs, ?_⟩
    rcases parity i with ⟨hp, hi⟩ | ⟨hp, hi⟩
    · rw [hi] at h1 ⊢
      obtain ⟨t, hc, hv, hth⟩ := in_push hr (by rw [h1]; exact fun e => by cases e)
      rcases hth with ⟨m, e, hsc⟩ | ⟨e, _⟩ | ⟨e, _⟩
      · have e := cq_R hr (i / 2) v (.inPush t) (.done 0) a.q s rfl rfl rfl rfl rfl rfl rfl rfl rfl (fun _ h => h) hr.queue (fun _ _ => rfl)
          (fun u e => by rw [hc] at e; cases e; exact hv) (.inr ⟨t, rfl, hv⟩) (.inr (.inl ⟨by rw [hv]; exact if_pos rfl, hsc⟩))
          (fun u e => by cases e; exact hr.low (i / 2) t (by rw [hc]; rfl)) ?_
        · have hg : { a.g with client := upd a.g.client (i / 2) (.inPush t) } = a.g := by
            have : upd a.g.client (i / 2) (.inPush t) = a.g.client := by
              funext j; by_cases hj : j = i / 2
              · subst hj; rw [upd_same, hc]
              · rw [upd_ne _ _ _ _ hj]
            rw [this]
          rw [hg] at e; exact e
        · rintro u ⟨e, _⟩
          rw [hv] at e; simp at e
      · rw [h1] at e; cases e
      · rw [h1] at e; cases e
    · rw [hi] at h1
      obtain ⟨_, _, hth⟩ := in_pop hr (by rw [h1]; exact fun e => by cases e)
      rcases hth with ⟨m, e, _⟩ | ⟨e, _⟩ | ⟨t, e, _⟩ <;> rw [h1] at e <;> cases e
  | @pop i v n x q h1 h2 =>
    rcases parity i with ⟨hp, hi⟩ | ⟨hp, hi⟩
    · rw [hi] at h1
      obtain ⟨t, _, _, hth⟩ := in_push hr (by rw [h1]; exact fun e => by cases e)
      rcases hth with ⟨m, e, _⟩ | ⟨e, _⟩ | ⟨e, _⟩ <;> rw [h1] at e <;> cases e
    · rw [hi] at h1 ⊢
      obtain ⟨hw, hpv, hth⟩ := in_pop hr (by rw [h1]; exact fun e => by cases e)
      rcases hth with ⟨m, e, hsw⟩ | ⟨e, _⟩ | ⟨t, e, _⟩
      · have hqv := hr.queue v
        rw [h2] at hqv
        cases hsq : s.queue v with
        | nil => rw [hsq] at hqv; cases hqv
        | cons t rest =>
          rw [hsq] at hqv
          simp only [List.map_cons, List.cons.injEq] at hqv
          obtain ⟨rfl, rfl⟩ := hqv
          have hvac : (s.task t).vac = v := queue_vac hs (by rw [hsq]; exact List.mem_cons_self ..)
          refine ⟨_, .step (a := .pop (i / 2) v) hs trivial (by simp only [step, if_pos (⟨hpv, hsw⟩ : ph v = i / 2 ∧ s.worker (i / 2) = none), hsq]; rfl), ?_⟩
          have e := wq_R hr (i / 2) v (.inPop v) (.done (t + 1)) (Multi.set a.q v (rest.map (· + 1))) a.g.taken
            { s with queue := upd s.queue v rest, worker := upd s.worker (i / 2) (some (t, (s.task t).prog)), exec := s.exec ++ [t] }
            rfl rfl rfl rfl rfl rfl rfl rfl rfl (fun u => ?_) (fun j hj => upd_ne _ _ _ _ hj) (fun u e => by rw [hw] at e; cases e; rfl) (.inr rfl)
            ⟨hpv, .inr (.inr ⟨t, if_pos rfl, ?_⟩)⟩ (fun u hu => ⟨rfl, ?_⟩) hpv ?_
          · have hg : { a.g with worker := upd a.g.worker (i / 2) (.inPop v), taken := a.g.taken } = a.g := by
              have : upd a.g.worker (i / 2) (.inPop v) = a.g.worker := by
                funext j; by_cases hj : j = i / 2
                · subst hj; rw [upd_same, hw]
                · rw [upd_ne _ _ _ _ hj]
              rw [this]
            rw [hg] at e; exact e
          · show Multi.set a.q v _ u = List.map (· + 1) (upd s.queue v rest u)
            by_cases hu : u = v
            · subst hu; rw [set_same, upd_same]
            · rw [set_ne _ _ hu, upd_ne _ _ _ _ hu]; exact hr.queue u
          · show upd s.worker (i / 2) _ (i / 2) = _
            rw [upd_same, hr.task]
          · show ofVac s.task u (s.exec ++ [t]) = _
            simp [ofVac, List.filter_append, hvac, Ne.symm hu]
          · have := hr.taken v
            rw [hpv, h1] at this
            show ofVac s.task v (s.exec ++ [t]) = _
            have e2 : ofVac s.task v (s.exec ++ [t]) = ofVac s.task v s.exec ++ [t] := by simp [ofVac, List.filter_append, hvac]
            rw [e2, this]
            simp [pend]
      · rw [h1] at e; cases e
      · rw [h1] at e; cases e
  | @empty i v n h1 h2 =>
    refine ⟨s, hs, ?_⟩
    rcases parity i with ⟨hp, hi⟩ | ⟨hp, hi⟩
    · rw [hi] at h1
      obtain ⟨t, _, _, hth⟩ := in_push hr (by rw [h1]; exact fun e => by cases e)
      rcases hth with ⟨m, e, _⟩ | ⟨e, _⟩ | ⟨e, _⟩ <;> rw [h1] at e <;> cases e
    · rw [hi] at h1 ⊢
      obtain ⟨hw, hpv, hth⟩ := in_pop hr (by rw [h1]; exact fun e => by cases e)
      rcases hth with ⟨m, e, hsw⟩ | ⟨e, _⟩ | ⟨t, e, _⟩
      · have e := wq_R hr (i / 2) v (.inPop v) (.done 0) a.q a.g.taken s rfl rfl rfl rfl rfl rfl rfl rfl rfl hr.queue (fun _ _ => rfl)
          (fun u e => by rw [hw] at e; cases e; rfl) (.inr rfl) ⟨hpv, .inr (.inl ⟨if_pos rfl, hsw⟩)⟩ (fun _ _ => ⟨rfl, rfl⟩) hpv ?_
        · have hg : { a.g with worker := upd a.g.worker (i / 2) (.inPop v), taken := a.g.taken } = a.g := by
            have : upd a.g.worker (i / 2) (.inPop v) = a.g.worker := by
              funext j; by_cases hj : j = i / 2
              · subst hj; rw [upd_same, hw]
              · rw [upd_ne _ _ _ _ hj]
            rw [this]
          rw [hg] at e; exact e
        · have := hr.taken v
          rw [hpv, h1] at this
          exact this
      · rw [h1] at e; cases e
      · rw [h1] at e; cases e
  | @ret i v r h1 =>
    refine ⟨s, hs, ?_⟩
    rcases parity i with ⟨hp, hi⟩ | ⟨hp, hi⟩
    · have h1' := h1
      rw [hi] at h1'
      obtain ⟨t, hc, hv, hth⟩ := in_push hr (by rw [h1']; exact fun e => by cases e)
      simp only [prog, if_pos hp, hc]
      have e := cq_R hr (i / 2) v (if r = 0 then .push t else .unlock t) .out a.q s rfl rfl rfl rfl rfl rfl rfl rfl rfl (fun _ h => h) hr.queue (fun _ _ => rfl)
        (fun u e => by rw [hc] at e; cases e; exact hv) (.inl rfl) ?_ ?_ ?_
      · rw [← hi] at e; exact e
      · rcases hth with ⟨m, e, hsc⟩ | ⟨e, hsc⟩ | ⟨e, hsc⟩
        · rw [h1'] at e; cases e
        · rw [h1'] at e; cases e; rw [if_pos rfl]; exact hsc
        · rw [h1'] at e; cases e; rw [if_neg (by omega)]; exact hsc
      · intro u hu
        refine hr.low (i / 2) u ?_
        rw [hc]
        split at hu <;> exact hu
      · intro u hu
        split at hu
        · exact hu.elim
        · next hr0 =>
          have hu : u = t := hu
          rw [hu]
          refine hr.pushed (i / 2) t ?_
          rw [hc]
          refine ⟨?_, rfl⟩
          rcases hth with ⟨m, e, hsc⟩ | ⟨e, hsc⟩ | ⟨e, hsc⟩
          · rw [h1'] at e; cases e
          · rw [h1'] at e; cases e; exact absurd rfl hr0
          · rw [hv]; exact e
    · have h1' := h1
      rw [hi] at h1'
      obtain ⟨hw, hpv, hth⟩ := in_pop hr (by rw [h1']; exact fun e => by cases e)
      simp only [prog, if_neg hp, hw]
      have htk := hr.taken v
      rw [hpv, h1'] at htk
      rcases hth with ⟨m, e, hsw⟩ | ⟨e, hsw⟩ | ⟨t, e, hsw⟩
      · rw [h1'] at e; cases e
      · rw [h1'] at e
        cases e
        rw [if_pos rfl]
        have e := wq_R hr (i / 2) v .free .out a.q a.g.taken s rfl rfl rfl rfl rfl rfl rfl rfl rfl hr.queue (fun _ _ => rfl)
          (fun u e => by rw [hw] at e; cases e; rfl) (.inl rfl) hsw (fun _ _ => ⟨rfl, rfl⟩) hpv htk
        rw [← hi] at e; exact e
      · rw [h1'] at e
        cases e
        rw [if_neg (by omega)]
        have e := wq_R hr (i / 2) v (.run t (a.g.task t).prog) .out a.q (upd a.g.taken v (a.g.taken v ++ [t])) s rfl rfl rfl rfl rfl rfl rfl rfl rfl hr.queue (fun _ _ => rfl)
          (fun u e => by rw [hw] at e; cases e; rfl) (.inl rfl) hsw (fun u hu => ⟨upd_ne _ _ _ _ hu, rfl⟩) hpv (by rw [upd_same, htk]; simp [pend])
        rw [← hi] at e; exact e

end
end Arax.Exec.Real
