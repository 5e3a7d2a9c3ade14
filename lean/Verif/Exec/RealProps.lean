import Verif.Exec.Real
/-!
# C86: proof
-/
namespace Arax.Exec.Real
open Arax.Exec Arax.Queue Arax.Queue.Multi

theorem th_set (f : Nat → Nat → Lin.ATh) (v i : Nat) (x : Lin.ATh) (u j : Nat) :
    set f v (set (f v) i x) u j = if u = v ∧ j = i then x else f u j := by
  unfold Multi.set
  by_cases hu : u = v
  · subst hu
    by_cases hj : j = i
    · simp [hj]
    · simp [hj]
  · simp [hu]

theorem crel_congr {g g' : G} {th th' : Nat → Lin.ATh} {rc : RC} {x : PC} (h : ∀ t, rc.busy = some t → g'.task t = g.task t)
    (ht : ∀ t, rc = .inPush t → th' (g.task t).vac = th (g.task t).vac) : CRel g th rc x → CRel g' th' rc x := by
  intro hc
  cases rc with
  | inPush t =>
    have e := h t rfl
    have e2 := ht t rfl
    simp only [CRel, after] at hc ⊢
    rw [e, e2]; exact hc
  | unlock t =>
    have e := h t rfl
    simp only [CRel, after] at hc ⊢
    rw [e]; exact hc
  | _ => exact hc

theorem pushed_congr {g g' : G} {th th' : Nat → Lin.ATh} {rc : RC} {x : Nat} (h : ∀ t, rc.busy = some t → g'.task t = g.task t)
    (ht : ∀ t, rc = .inPush t → th' (g.task t).vac = th (g.task t).vac) : Pushed g' th' rc x → Pushed g th rc x := by
  intro hc
  cases rc with
  | inPush t =>
    have e := h t rfl
    have e2 := ht t rfl
    simp only [Pushed] at hc ⊢
    rw [e, e2] at hc; exact hc
  | _ => exact hc

section
variable {ph size : Nat → Nat} {cap : Nat} {m0 : Mem} {a : ASt G} {s : Exec.St}

/-- A step of one client that changes neither tasks nor queues, while `Exec` goes to `s'`. -/
theorem client_R (hr : R ph a s) (c : Nat) (g' : G) (s' : Exec.St) (rc : RC) (hcl : g'.client = upd a.g.client c rc) (hw : g'.worker = a.g.worker)
    (ht : g'.task = a.g.task) (hnx : g'.next = a.g.next) (htk : g'.taken = a.g.taken)
    (hmem : s'.mem = g'.mem) (hacc : s'.accel = g'.accel) (htask : s'.task = s.task) (hnext : s'.next = s.next) (hfin : s'.fin = g'.fin)
    (hhost : s'.host = g'.host) (hret : s'.ret = g'.ret) (hq : s'.queue = s.queue) (hwk : s'.worker = s.worker) (hlog : s'.log = s.log)
    (hex : s'.exec = s.exec) (hsc : ∀ j, j ≠ c → s'.client j = s.client j)
    (hnp : ∀ t, a.g.client c ≠ .inPush t) (hnp' : ∀ t, rc ≠ .inPush t)
    (hc : CRel g' (fun v => a.th v (2 * c)) rc (s'.client c)) (hbusy : ∀ t, rc.busy = some t → t < a.g.next)
    (hiss : ∀ t ∈ g'.issued, t ∈ s.log) (hpu : ∀ t, Pushed g' (fun v => a.th v (2 * c)) rc t → t ∈ s.log) : R ph { a with g := g' } s' where
  mem := hmem
  accel := hacc
  task := by rw [htask, hr.task]; exact ht.symm
  next := by rw [hnext, hr.next]; exact hnx.symm
  fin := hfin
  host := hhost
  ret := hret
  queue v := by rw [hq]; exact hr.queue v
  client j := by
    by_cases hj : j = c
    · subst hj
      show CRel g' _ (g'.client j) _
      rw [hcl, upd_same]; exact hc
    · show CRel g' _ (g'.client j) _
      rw [hcl, upd_ne _ _ _ _ hj, hsc j hj]
      exact crel_congr (fun t _ => by rw [ht]) (fun _ _ => rfl) (hr.client j)
  worker p := by
    show WRel ph g' p _ (g'.worker p) _
    rw [hw, hwk]
    have := hr.worker p
    cases hp : a.g.worker p with
    | inPop v => rw [hp] at this; simp only [WRel] at this ⊢; rw [ht]; exact this
    | free => rw [hp] at this; exact this
    | pick v => rw [hp] at this; exact this
    | run t pr => rw [hp] at this; exact this
  thc v j := by
    rcases hr.thc v j with h | ⟨t, h1, h2⟩
    · exact .inl h
    · refine .inr ⟨t, ?_, ?_⟩
      · show g'.client j = _
        rw [hcl, upd_ne _ _ _ _ (fun e => hnp t (by rw [← e]; exact h1))]; exact h1
      · show (g'.task t).vac = v
        rw [ht]; exact h2
  thw v p := by
    rcases hr.thw v p with h | h
    · exact .inl h
    · exact .inr (by show g'.worker p = _; rw [hw]; exact h)
  low j t h := by
    have h : (g'.client j).busy = some t := h
    show t < g'.next
    rw [hnx]
    by_cases hj : j = c
    · subst hj; rw [hcl, upd_same] at h; exact hbusy t h
    · rw [hcl, upd_ne _ _ _ _ hj] at h; exact hr.low j t h
  issued t h := by rw [hlog]; exact hiss t h
  pushed j t h := by
    rw [hlog]
    have h : Pushed g' (fun v => a.th v (2 * j)) (g'.client j) t := h
    by_cases hj : j = c
    · subst hj; rw [hcl, upd_same] at h; exact hpu t h
    · rw [hcl, upd_ne _ _ _ _ hj] at h
      exact hr.pushed j t (pushed_congr (fun t _ => by rw [ht]) (fun _ _ => rfl) h)
  taken v := by
    rw [htask, hex]
    show _ = g'.taken v ++ _
    rw [htk]; exact hr.taken v

theorem ofVac_congr {task task' : Nat → Task} {v : Nat} {l : List Nat} (h : ∀ t ∈ l, task' t = task t) : ofVac task' v l = ofVac task v l := by
  unfold ofVac
  exact List.filter_congr (fun t ht => by rw [h t ht])

/-- A new task. -/
theorem begin_R (hs : Reach ph size cap m0 s) (hr : R ph a s) (c : Nat) (t : Task) (g' : G) (h : rbegin a.g c t = some g') :
    ∃ s', begin s c t = some s' ∧ R ph { a with g := g' } s' := by
  have inv := inv_of_reach hs
  unfold rbegin at h
  split at h
  · next hi =>
    have h := Option.some.inj h
    have hc := hr.client c
    rw [hi] at hc
    have hc : s.client c = .idle := hc
    refine ⟨_, if_pos hc, ?_⟩
    subst h
    have hne : ∀ u, u < a.g.next → upd a.g.task a.g.next t u = a.g.task u := fun u hu => upd_ne _ _ _ _ (by omega)
    have hex : ∀ u ∈ s.exec, u < a.g.next := fun u hu => hr.next ▸ inv.logLt u (inv.execLog u hu)
    exact {
      mem := hr.mem
      accel := hr.accel
      task := by show upd s.task s.next t = upd a.g.task a.g.next t; rw [hr.task, hr.next]
      next := by show s.next + 1 = a.g.next + 1; rw [hr.next]
      fin := hr.fin
      host := hr.host
      ret := hr.ret
      queue := hr.queue
      client := fun j => by
        by_cases hj : j = c
        · subst hj; simp only [upd_same, hr.next]; rfl
        · simp only [upd_ne _ _ _ _ hj]
          exact crel_congr (fun u hu => hne u (hr.low j u hu)) (fun _ _ => rfl) (hr.client j)
      worker := fun p => by
        have := hr.worker p
        cases hp : a.g.worker p with
        | inPop v =>
          rw [hp] at this
          refine ⟨this.1, ?_⟩
          rcases this.2 with h | h | ⟨u, h1, h2⟩
          · exact .inl h
          · exact .inr (.inl h)
          · refine .inr (.inr ⟨u, h1, ?_⟩)
            have hu := hex u (inv.workerMem h2).1
            show s.worker p = some (u, (upd a.g.task a.g.next t u).prog)
            rw [hne u hu]; exact h2
        | free => rw [hp] at this; exact this
        | pick v => rw [hp] at this; exact this
        | run u pr => rw [hp] at this; exact this
      thc := fun v j => by
        rcases hr.thc v j with h | ⟨u, h1, h2⟩
        · exact .inl h
        · refine .inr ⟨u, ?_, ?_⟩
          · show upd a.g.client c _ j = _
            rw [upd_ne _ _ _ _ (fun e => by rw [e, hi] at h1; cases h1)]; exact h1
          · show (upd a.g.task a.g.next t u).vac = v
            rw [hne u (hr.low j u (by rw [h1]; rfl))]; exact h2
      thw := hr.thw
      low := fun j u h => by
        have h : (upd a.g.client c (.prep a.g.next 0) j).busy = some u := h
        show u < a.g.next + 1
        by_cases hj : j = c
        · subst hj; rw [upd_same] at h; have := Option.some.inj h; omega
        · rw [upd_ne _ _ _ _ hj] at h; have := hr.low j u h; omega
      issued := hr.issued
      pushed := fun j u h => by
        by_cases hj : j = c
        · subst hj; simp only [upd_same] at h; exact h.elim
        · simp only [upd_ne _ _ _ _ hj] at h
          exact hr.pushed j u (pushed_congr (fun u hu => hne u (hr.low j u hu)) (fun _ _ => rfl) h)
      taken := fun v => by
        show ofVac (upd s.task s.next t) v s.exec = _
        rw [ofVac_congr (fun u hu => upd_ne s.task s.next u t (by have := hex u hu; rw [hr.next]; omega))]
        exact hr.taken v }
  · cases h

theorem legal_iff (act : Act) : RLegal size act → ∀ {c v io pr}, act = .issue c v io pr → Legal size (.issue c v io pr) := by
  intro h c v io pr e; subst e; exact h

/-- Steps outside the queues. -/
theorem own_R (hs : Reach ph size cap m0 s) (hr : R ph a s) (act : Act) (hl : RLegal size act) (g' : G) (h : rstep ph size act a.g = some g') :
    ∃ s', Reach ph size cap m0 s' ∧ R ph { a with g := g' } s' := by
  have inv := inv_of_reach hs
  cases act with
  | issue c v io pr =>
    obtain ⟨s', e, hr'⟩ := begin_R hs hr c _ g' h
    exact ⟨s', .step (a := .issue c v io pr) hs hl e, hr'⟩
  | set c d v bs =>
    simp only [rstep] at h
    split at h
    · next hb =>
      obtain ⟨s', e, hr'⟩ := begin_R hs hr c _ g' h
      refine ⟨s', .step (a := .set c d v bs) hs hl ?_, hr'⟩
      simp only [step, hr.accel, if_pos hb]; exact e
    · next hb =>
      split at h
      · next hi =>
        have hc : s.client c = .idle := by have := hr.client c; rw [hi] at this; exact this
        have h := Option.some.inj h
        subst h
        refine ⟨{ s with client := upd s.client c .aborted }, .step (a := .set c d v bs) hs hl ?_, ?_⟩
        · simp only [step, hr.accel, if_neg hb, if_pos hc]
        · refine client_R hr c _ _ .aborted rfl rfl rfl rfl rfl hr.mem hr.accel rfl rfl hr.fin hr.host hr.ret rfl rfl rfl rfl
            (fun j hj => upd_ne _ _ _ _ hj) (fun t e => by rw [hi] at e; cases e) (fun t e => by cases e) ?_ (fun t e => by cases e) hr.issued (fun t e => e.elim)
          show upd s.client c .aborted c = .aborted
          rw [upd_same]
      · cases h
  | get c d =>
    simp only [rstep] at h
    split at h
    · next v hb =>
      obtain ⟨s', e, hr'⟩ := begin_R hs hr c _ g' h
      refine ⟨s', .step (a := .get c d) hs trivial ?_, hr'⟩
      simp only [step, hr.accel, hb]; exact e
    · next hb =>
      split at h
      · next hi =>
        have hc : s.client c = .idle := by have := hr.client c; rw [hi] at this; exact this
        have h := Option.some.inj h
        subst h
        refine ⟨{ s with client := upd s.client c .aborted }, .step (a := .get c d) hs trivial ?_, ?_⟩
        · simp only [step, hr.accel, hb, if_pos hc]
        · refine client_R hr c _ _ .aborted rfl rfl rfl rfl rfl hr.mem hr.accel rfl rfl hr.fin hr.host hr.ret rfl rfl rfl rfl
            (fun j hj => upd_ne _ _ _ _ hj) (fun t e => by rw [hi] at e; cases e) (fun t e => by cases e) ?_ (fun t e => by cases e) hr.issued (fun t e => e.elim)
          show upd s.client c .aborted c = .aborted
          rw [upd_same]
      · cases h
  | wait c t =>
    simp only [rstep] at h
    split at h
    · next hi =>
      have hc : s.client c = .idle := by have := hr.client c; rw [hi.1] at this; exact this
      have h := Option.some.inj h
      subst h
      refine ⟨{ s with client := upd s.client c (.wait t) }, .step (a := .wait c t) hs trivial ?_, ?_⟩
      · simp only [step, if_pos (⟨hc, hr.issued t hi.2⟩ : s.client c = .idle ∧ t ∈ s.log)]
      · refine client_R hr c _ _ (.wait t) rfl rfl rfl rfl rfl hr.mem hr.accel rfl rfl hr.fin hr.host hr.ret rfl rfl rfl rfl
          (fun j hj => upd_ne _ _ _ _ hj) (fun t e => by rw [hi.1] at e; cases e) (fun t e => by cases e) ?_ (fun t e => by cases e) hr.issued (fun t e => e.elim)
        show upd s.client c (.wait t) c = .wait t
        rw [upd_same]
    · cases h
  | client c =>
    have h : rclient ph a.g c = some g' := h
    have hcr := hr.client c
    unfold rclient at h
    split at h
    · next t k hi =>
      rw [hi] at hcr
      have hc : s.client c = .prep t k := hcr
      have ht : t < a.g.next := hr.low c t (by rw [hi]; rfl)
      split at h
      · next hio =>
        have h := Option.some.inj h
        subst h
        refine ⟨{ s with client := upd s.client c (.push t) }, .step (a := .client c) hs trivial ?_, ?_⟩
        · simp only [step, hc, hr.task, hio]
        · refine client_R hr c _ _ (.spin t) rfl rfl rfl rfl rfl hr.mem hr.accel rfl rfl hr.fin hr.host hr.ret rfl rfl rfl rfl
            (fun j hj => upd_ne _ _ _ _ hj) (fun t e => by rw [hi] at e; cases e) (fun t e => by cases e) ?_ (fun u e => by cases e; exact ht) hr.issued (fun t e => e.elim)
          show upd s.client c (.push t) c = .push t
          rw [upd_same]
      · next d hio =>
        split at h
        · next hb =>
          have h := Option.some.inj h
          subst h
          refine ⟨{ s with accel := upd s.accel d (some (s.task t).vac), client := upd s.client c (.prep t (k + 1)) }, .step (a := .client c) hs trivial ?_, ?_⟩
          · simp only [step, hc, hr.task, hio, hr.accel, hb]
          · refine client_R hr c _ _ (.prep t (k + 1)) rfl rfl rfl rfl rfl hr.mem ?_ rfl rfl hr.fin hr.host hr.ret rfl rfl rfl rfl
              (fun j hj => upd_ne _ _ _ _ hj) (fun t e => by rw [hi] at e; cases e) (fun t e => by cases e) ?_ (fun u e => by cases e; exact ht) hr.issued (fun t e => e.elim)
            · show upd s.accel d _ = upd a.g.accel d _; rw [hr.accel, hr.task]
            · show upd s.client c _ c = _; rw [upd_same]
        · next v hb =>
          split at h
          · next hv =>
            have h := Option.some.inj h
            subst h
            refine ⟨{ s with accel := upd s.accel d (some (s.task t).vac), client := upd s.client c (.prep t (k + 1)) }, .step (a := .client c) hs trivial ?_, ?_⟩
            · simp only [step, hc, hr.task, hio, hr.accel, hb, if_pos hv]
            · refine client_R hr c _ _ (.prep t (k + 1)) rfl rfl rfl rfl rfl hr.mem ?_ rfl rfl hr.fin hr.host hr.ret rfl rfl rfl rfl
                (fun j hj => upd_ne _ _ _ _ hj) (fun t e => by rw [hi] at e; cases e) (fun t e => by cases e) ?_ (fun u e => by cases e; exact ht) hr.issued (fun t e => e.elim)
              · show upd s.accel d _ = upd a.g.accel d _; rw [hr.accel, hr.task]
              · show upd s.client c _ c = _; rw [upd_same]
          · next hv =>
            have h := Option.some.inj h
            subst h
            refine ⟨{ s with client := upd s.client c .aborted }, .step (a := .client c) hs trivial ?_, ?_⟩
            · simp only [step, hc, hr.task, hio, hr.accel, hb, if_neg hv]
            · refine client_R hr c _ _ .aborted rfl rfl rfl rfl rfl hr.mem hr.accel rfl rfl hr.fin hr.host hr.ret rfl rfl rfl rfl
                (fun j hj => upd_ne _ _ _ _ hj) (fun t e => by rw [hi] at e; cases e) (fun t e => by cases e) ?_ (fun t e => by cases e) hr.issued (fun t e => e.elim)
              show upd s.client c .aborted c = .aborted
              rw [upd_same]
    · next t hi =>
      rw [hi] at hcr
      split at h
      · cases h
      · have h := Option.some.inj h
        subst h
        exact ⟨s, hs, client_R hr c _ _ (.cas t) rfl rfl rfl rfl rfl hr.mem hr.accel rfl rfl hr.fin hr.host hr.ret rfl rfl rfl rfl
          (fun j hj => rfl) (fun t e => by rw [hi] at e; cases e) (fun t e => by cases e) hcr (fun u e => by cases e; exact hr.low c t (by rw [hi]; rfl)) hr.issued (fun t e => e.elim)⟩
    · next t hi =>
      rw [hi] at hcr
      split at h
      · have h := Option.some.inj h
        subst h
        exact ⟨s, hs, client_R hr c _ _ (.push t) rfl rfl rfl rfl rfl hr.mem hr.accel rfl rfl hr.fin hr.host hr.ret rfl rfl rfl rfl
          (fun j hj => rfl) (fun t e => by rw [hi] at e; cases e) (fun t e => by cases e) hcr (fun u e => by cases e; exact hr.low c t (by rw [hi]; rfl)) hr.issued (fun t e => e.elim)⟩
      · have h := Option.some.inj h
        subst h
        exact ⟨s, hs, client_R hr c _ _ (.spin t) rfl rfl rfl rfl rfl hr.mem hr.accel rfl rfl hr.fin hr.host hr.ret rfl rfl rfl rfl
          (fun j hj => rfl) (fun t e => by rw [hi] at e; cases e) (fun t e => by cases e) hcr (fun u e => by cases e; exact hr.low c t (by rw [hi]; rfl)) hr.issued (fun t e => e.elim)⟩
    · next t hi =>
      rw [hi] at hcr
      have hlog : t ∈ s.log := hr.pushed c t (by rw [hi]; rfl)
      have h := Option.some.inj h
      subst h
      refine ⟨s, hs, client_R hr c _ _ (if (a.g.task t).kind = .get then .wait t else .idle) rfl rfl rfl rfl rfl hr.mem hr.accel rfl rfl hr.fin hr.host hr.ret rfl rfl rfl rfl
          (fun j hj => rfl) (fun t e => by rw [hi] at e; cases e) (fun t e => by split at e <;> cases e) ?_ (fun u e => by split at e <;> cases e) ?_ (fun t e => ?_)⟩
      · have hcr : s.client c = after a.g t := hcr
        unfold after at hcr
        split
        · next hk => rw [if_pos hk] at hcr; exact hcr
        · next hk => rw [if_neg hk] at hcr; exact hcr
      · intro u hu
        rcases List.mem_append.1 hu with hu | hu
        · exact hr.issued u hu
        · rw [List.mem_singleton.1 hu]; exact hlog
      · split at e <;> exact e.elim
    · next t hi =>
      rw [hi] at hcr
      have hc : s.client c = .wait t := hcr
      split at h
      · next hf =>
        have h := Option.some.inj h
        subst h
        refine ⟨{ s with ret := upd s.ret t (some (s.host t)), client := upd s.client c .idle }, .step (a := .client c) hs trivial ?_, ?_⟩
        · simp only [step, hc, hr.fin]; rw [if_pos hf]
        · refine client_R hr c _ _ .idle rfl rfl rfl rfl rfl hr.mem hr.accel rfl rfl hr.fin hr.host ?_ rfl rfl rfl rfl
            (fun j hj => upd_ne _ _ _ _ hj) (fun t e => by rw [hi] at e; cases e) (fun t e => by cases e) ?_ (fun t e => by cases e) hr.issued (fun t e => e.elim)
          · show upd s.ret t _ = upd a.g.ret t _; rw [hr.ret, hr.host]
          · show upd s.client c .idle c = .idle; rw [upd_same]
      · cases h
    · cases h
    · cases h
    · cases h
    · cases h
  | pick p v =>
    simp only [rstep] at h
    split at h
    · next hi =>
      split at h
      · next hv =>
        have h := Option.some.inj h
        subst h
        have hw := hr.worker p
        rw [hi] at hw
        refine ⟨s, hs, hr.mem, hr.accel, hr.task, hr.next, hr.fin, hr.host, hr.ret, hr.queue, hr.client, fun q => ?_, hr.thc, fun u q => ?_, hr.low, hr.issued, hr.pushed, hr.taken⟩
        · by_cases hq : q = p
          · subst hq; simp only [upd_same]; exact ⟨hv, hw⟩
          · simp only [upd_ne _ _ _ _ hq]; exact hr.worker q
        · rcases hr.thw u q with h | h
          · exact .inl h
          · refine .inr ?_
            show upd a.g.worker p _ q = _
            rw [upd_ne _ _ _ _ (fun e => by rw [e, hi] at h; cases h)]; exact h
      · cases h
    · cases h
  | work p =>
    have h : rwork a.g p = some g' := h
    have hw := hr.worker p
    have fin_ : ∀ (g' : G) (s' : Exec.St) (rw' : RW) (t : Nat) (pr : Prog), a.g.worker p = .run t pr → g'.worker = upd a.g.worker p rw' →
        (∀ v, rw' ≠ .inPop v) → WRel ph g' p (fun v => a.th v (2 * p + 1)) rw' (s'.worker p) → (∀ q, q ≠ p → s'.worker q = s.worker q) →
        g'.client = a.g.client → g'.task = a.g.task → g'.next = a.g.next → g'.taken = a.g.taken → g'.issued = a.g.issued → g'.accel = a.g.accel → g'.ret = a.g.ret →
        s'.mem = g'.mem → s'.accel = s.accel → s'.task = s.task → s'.next = s.next → s'.fin = g'.fin → s'.host = g'.host → s'.ret = s.ret → s'.queue = s.queue →
        s'.client = s.client → s'.log = s.log → s'.exec = s.exec → R ph { a with g := g' } s' := by
      intro g' s' rw' t pr hrun e1 e2 e3 e4 c1 c2 c3 c4 c5 c6 c7 d1 d2 d3 d4 d5 d6 d7 d8 d9 d10 d11
      have cg : ∀ j x, CRel a.g (fun v => a.th v (2 * j)) (a.g.client j) x → CRel g' (fun v => a.th v (2 * j)) (a.g.client j) x :=
        fun j x => crel_congr (fun t _ => by rw [c2]) (fun _ _ => rfl)
      refine ⟨d1, by rw [d2, hr.accel]; exact c6.symm, by rw [d3, hr.task]; exact c2.symm, by rw [d4, hr.next]; exact c3.symm, d5, d6,
        by rw [d7, hr.ret]; exact c7.symm, fun v => by rw [d8]; exact hr.queue v, fun j => ?_, fun q => ?_, fun v j => ?_, fun v q => ?_, fun j u hu => ?_,
        fun u hu => ?_, fun j u hu => ?_, fun v => ?_⟩
      · show CRel g' _ (g'.client j) _
        rw [c1, d9]; exact cg j _ (hr.client j)
      · show WRel ph g' q _ (g'.worker q) _
        by_cases hq : q = p
        · subst hq; rw [e1, upd_same]; exact e3
        · rw [e1, upd_ne _ _ _ _ hq, e4 q hq]
          have := hr.worker q
          cases hp : a.g.worker q with
          | inPop v => rw [hp] at this; simp only [WRel] at this ⊢; rw [c2]; exact this
          | free => rw [hp] at this; exact this
          | pick v => rw [hp] at this; exact this
          | run t pr => rw [hp] at this; exact this
      · show _ ∨ ∃ t, g'.client j = _ ∧ (g'.task t).vac = v
        rw [c1, c2]; exact hr.thc v j
      · show _ ∨ g'.worker q = _
        rcases hr.thw v q with h | h
        · exact .inl h
        · rw [e1, upd_ne _ _ _ _ (fun e => by rw [e, hrun] at h; cases h)]; exact .inr h
      · show u < g'.next
        have hu : (g'.client j).busy = some u := hu
        rw [c3]; rw [c1] at hu; exact hr.low j u hu
      · have hu : u ∈ g'.issued := hu
        rw [d10]; rw [c5] at hu; exact hr.issued u hu
      · have hu : Pushed g' _ (g'.client j) u := hu
        rw [d10]; rw [c1] at hu
        exact hr.pushed j u (pushed_congr (fun t _ => by rw [c2]) (fun _ _ => rfl) hu)
      · rw [d3, d11]
        show _ = g'.taken v ++ _
        rw [c4]; exact hr.taken v
    unfold rwork at h
    split at h
    · next t k off cont hi =>
      rw [hi] at hw
      have hw : s.worker p = some (t, .read k off cont) := hw
      have h := Option.some.inj h
      subst h
      refine ⟨_, .step (a := .work p) hs trivial (by simp only [step, hw]; rfl), ?_⟩
      refine fin_ _ _ _ t _ hi rfl (fun v e => by cases e) ?_ (fun q hq => upd_ne _ _ _ _ hq) rfl rfl rfl rfl rfl rfl rfl hr.mem rfl rfl rfl hr.fin hr.host rfl rfl rfl rfl rfl
      show upd s.worker p _ p = _
      rw [upd_same, hr.task, hr.mem]
    · next t k off b nx hi =>
      rw [hi] at hw
      have hw : s.worker p = some (t, .write k off b nx) := hw
      have h := Option.some.inj h
      subst h
      refine ⟨_, .step (a := .work p) hs trivial (by simp only [step, hw]; rfl), ?_⟩
      refine fin_ _ _ _ t _ hi rfl (fun v e => by cases e) ?_ (fun q hq => upd_ne _ _ _ _ hq) rfl rfl rfl rfl rfl rfl rfl ?_ rfl rfl rfl hr.fin hr.host rfl rfl rfl rfl rfl
      · show upd s.worker p _ p = _
        rw [upd_same]
      · show wr (s.task t).io s.mem k off b = wr (a.g.task t).io a.g.mem k off b
        rw [hr.task, hr.mem]
    · next t off b nx hi =>
      rw [hi] at hw
      have hw : s.worker p = some (t, .out off b nx) := hw
      have h := Option.some.inj h
      subst h
      refine ⟨_, .step (a := .work p) hs trivial (by simp only [step, hw]; rfl), ?_⟩
      refine fin_ _ _ _ t _ hi rfl (fun v e => by cases e) ?_ (fun q hq => upd_ne _ _ _ _ hq) rfl rfl rfl rfl rfl rfl rfl hr.mem rfl rfl rfl hr.fin ?_ rfl rfl rfl rfl rfl
      · show upd s.worker p _ p = _
        rw [upd_same]
      · show upd s.host t _ = upd a.g.host t _
        rw [hr.host]
    · next t hi =>
      rw [hi] at hw
      have hw : s.worker p = some (t, .done) := hw
      have h := Option.some.inj h
      subst h
      refine ⟨_, .step (a := .work p) hs trivial (by simp only [step, hw]; rfl), ?_⟩
      refine fin_ _ _ .free t _ hi rfl (fun v e => by cases e) ?_ (fun q hq => upd_ne _ _ _ _ hq) rfl rfl rfl rfl rfl rfl rfl hr.mem rfl rfl rfl ?_ hr.host rfl rfl rfl rfl rfl
      · show upd s.worker p none p = none
        rw [upd_same]
      · show upd s.fin t _ = upd a.g.fin t _
        rw [hr.fin]
    · cases h
    · cases h
    · cases h

end
end Arax.Exec.Real
