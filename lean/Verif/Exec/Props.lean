import Verif.Exec.Spec
/-!
# Proofs for C47 and C48
-/
namespace Arax.Exec

/-! ## Handlers -/

theorem wr_other {io : List Nat} {m : Mem} {k off b d : Nat} (h : d ∉ io) : wr io m k off b d = m d := by
  unfold wr
  cases he : io[k]? with
  | some e =>
    have : e ∈ io := List.mem_of_getElem? he
    exact upd_ne _ _ _ _ (by rintro rfl; exact h this)
  | none => rfl

/-- A task does not touch other buffers. -/
theorem run_other {io : List Nat} {d : Nat} (hd : d ∉ io) : ∀ (p : Prog) (m : Mem) (h : Host), (run io p m h).1 d = m d := by
  intro p
  induction p with
  | done => intro m h; rfl
  | read k off cont ih => intro m h; exact ih _ m h
  | write k off b next ih => intro m h; show (run io next (wr io m k off b) h).1 d = m d; rw [ih, wr_other hd]
  | out off b next ih => intro m h; exact ih m _

/-- What a task does depends only on its own buffers. -/
theorem run_congr {io : List Nat} : ∀ (p : Prog) (m1 m2 : Mem) (h : Host), (∀ d ∈ io, m1 d = m2 d) →
    (∀ d ∈ io, (run io p m1 h).1 d = (run io p m2 h).1 d) ∧ (run io p m1 h).2 = (run io p m2 h).2 := by
  intro p
  induction p with
  | done => intro m1 m2 h e; exact ⟨e, rfl⟩
  | read k off cont ih =>
    intro m1 m2 h e
    have : rd io m1 k off = rd io m2 k off := by
      unfold rd
      split
      · rename_i d hd; rw [e d (List.mem_of_getElem? hd)]
      · rfl
    show (∀ d ∈ io, (run io (cont (rd io m1 k off)) m1 h).1 d = (run io (cont (rd io m2 k off)) m2 h).1 d) ∧
      (run io (cont (rd io m1 k off)) m1 h).2 = (run io (cont (rd io m2 k off)) m2 h).2
    rw [this]; exact ih _ m1 m2 h e
  | write k off b next ih =>
    intro m1 m2 h e
    refine ih (wr io m1 k off b) (wr io m2 k off b) h ?_
    intro d hd
    unfold wr
    cases hx : io[k]? with
    | some x =>
      by_cases hdx : d = x
      · subst hdx; simp only [upd_same]; rw [e d hd]
      · simp only [upd_ne _ _ _ _ hdx]; exact e d hd
    | none => exact e d hd
  | out off b next ih => intro m1 m2 h e; exact ih m1 m2 _ e

theorem effect_other {t : Task} {d : Nat} (h : d ∉ t.io) (m : Mem) : effect t m d = m d := run_other h _ _ _

theorem seqRun_append (task : Nat → Task) (l1 l2 : List Nat) : ∀ m, seqRun task (l1 ++ l2) m = seqRun task l2 (seqRun task l1 m) := by
  induction l1 with
  | nil => intro m; rfl
  | cons t l ih => intro m; exact ih _

theorem seqRun_other {task : Nat → Task} {d : Nat} : ∀ (l : List Nat) (m : Mem), (∀ t ∈ l, d ∉ (task t).io) → seqRun task l m d = m d := by
  intro l
  induction l with
  | nil => intro m _; rfl
  | cons t l ih =>
    intro m h
    show seqRun task l (effect (task t) m) d = m d
    rw [ih _ (fun u hu => h u (List.mem_cons_of_mem _ hu)), effect_other (h t (List.mem_cons_self))]

theorem seqRun_task {task task' : Nat → Task} : ∀ (l : List Nat) (m : Mem), (∀ t ∈ l, task' t = task t) → seqRun task' l m = seqRun task l m := by
  intro l
  induction l with
  | nil => intro m _; rfl
  | cons t l ih =>
    intro m h
    show seqRun task' l (effect (task' t) m) = seqRun task l (effect (task t) m)
    rw [h t (List.mem_cons_self)]
    exact ih _ (fun u hu => h u (List.mem_cons_of_mem _ hu))

theorem ofPhys_task {ph : Nat → Nat} {task task' : Nat → Task} {p : Nat} {l : List Nat} (h : ∀ t ∈ l, task' t = task t) :
    ofPhys ph task' p l = ofPhys ph task p l := by
  unfold ofPhys
  apply List.filter_congr
  intro t ht; rw [h t ht]

theorem ofVac_task {task task' : Nat → Task} {v : Nat} {l : List Nat} (h : ∀ t ∈ l, task' t = task t) :
    ofVac task' v l = ofVac task v l := by
  unfold ofVac
  apply List.filter_congr
  intro t ht; rw [h t ht]

/-! ## The invariant -/

/-- The physical accelerator a data object is bound to. -/
def bp (ph : Nat → Nat) (accel : Nat → Option Nat) (d : Nat) : Option Nat := (accel d).map ph

/-- The client holds this task and has not pushed it. -/
def PC.holds (t : Nat) : PC → Prop
  | .prep u _ => u = t
  | .push u => u = t
  | _ => False

structure Inv (ph : Nat → Nat) (m0 : Mem) (s : St) : Prop where
  /-- task numbers -/
  logLt : ∀ t ∈ s.log, t < s.next
  logNodup : s.log.Nodup
  held : ∀ c t, (s.client c).holds t → t < s.next ∧ t ∉ s.log ∧ (s.task t).owner = c ∧ ∀ u, u < s.next → (s.task u).owner = c → u ≤ t
  /-- queues -/
  order : ∀ v, ofVac s.task v s.exec ++ s.queue v = ofVac s.task v s.log
  execLog : ∀ t ∈ s.exec, t ∈ s.log
  sorted : ∀ c, (s.log.filter (fun t => decide ((s.task t).owner = c))).Pairwise (· < ·)
  /-- binding -/
  bound : ∀ t ∈ s.log, ∀ d ∈ (s.task t).io, bp ph s.accel d = some (ph (s.task t).vac)
  prepBound : ∀ c t k, s.client c = .prep t k → ∀ j d, j < k → (s.task t).io[j]? = some d → bp ph s.accel d = some (ph (s.task t).vac)
  pushBound : ∀ c t, s.client c = .push t → ∀ d ∈ (s.task t).io, bp ph s.accel d = some (ph (s.task t).vac)
  /-- contents -/
  unbound : ∀ d, s.accel d = none → s.mem d = m0 d
  idle : ∀ p, s.worker p = none → ∀ d, bp ph s.accel d = some p → s.mem d = seqRun s.task (ofPhys ph s.task p s.exec) m0 d
  busy : ∀ p t prog, s.worker p = some (t, prog) → s.fin t = false ∧ ∃ pre, ofPhys ph s.task p s.exec = pre ++ [t] ∧
    (∀ d, bp ph s.accel d = some p → (run (s.task t).io prog s.mem (s.host t)).1 d = seqRun s.task (ofPhys ph s.task p s.exec) m0 d) ∧
    (run (s.task t).io prog s.mem (s.host t)).2 = output (s.task t) (seqRun s.task pre m0)
  fresh : ∀ t, t ∉ s.exec → s.host t = (fun _ => 0) ∧ s.fin t = false
  outs : ∀ t, s.fin t = true → ∀ pre post, ofPhys ph s.task (ph (s.task t).vac) s.exec = pre ++ t :: post →
    s.host t = output (s.task t) (seqRun s.task pre m0)
  rets : ∀ t r, s.ret t = some r → s.fin t = true ∧ r = s.host t

theorem inv_init (ph : Nat → Nat) (m0 : Mem) : Inv ph m0 (init0 m0) := by
  constructor <;> simp [init0, PC.holds, ofVac, ofPhys, seqRun]

section
variable {ph : Nat → Nat} {m0 : Mem} {s : St}

theorem Inv.execNodup (inv : Inv ph m0 s) : s.exec.Nodup := by
  rw [List.nodup_iff_pairwise_ne, List.pairwise_iff_forall_sublist]
  intro a b hab
  rintro rfl
  have ha : a ∈ s.exec := hab.subset (by simp)
  have h1 : (ofVac s.task (s.task a).vac s.exec).Nodup := by
    have h2 : (ofVac s.task (s.task a).vac s.log).Nodup := inv.logNodup.filter _
    rw [← inv.order] at h2
    exact (List.nodup_append.mp h2).1
  have h3 := hab.filter (fun t => decide ((s.task t).vac = (s.task a).vac))
  have h4 := h3.nodup h1
  simp at h4

theorem Inv.workerMem (inv : Inv ph m0 s) {p t : Nat} {prog : Prog} (h : s.worker p = some (t, prog)) :
    t ∈ s.exec ∧ ph (s.task t).vac = p := by
  obtain ⟨-, pre, e, -⟩ := inv.busy p t prog h
  have : t ∈ ofPhys ph s.task p s.exec := by rw [e]; simp
  unfold ofPhys at this
  rw [List.mem_filter] at this
  exact ⟨this.1, by simpa using this.2⟩

theorem Inv.finExec (inv : Inv ph m0 s) {t : Nat} (h : s.fin t = true) : t ∈ s.exec := by
  apply Classical.byContradiction
  intro hn
  rw [(inv.fresh t hn).2] at h; simp at h

theorem Inv.execLt (inv : Inv ph m0 s) {t : Nat} (h : t ∈ s.exec) : t < s.next := inv.logLt t (inv.execLog t h)

theorem Inv.queueLog (inv : Inv ph m0 s) {t v : Nat} (h : t ∈ s.queue v) : t ∈ s.log ∧ (s.task t).vac = v := by
  have : t ∈ ofVac s.task v s.log := by rw [← inv.order]; exact List.mem_append_right _ h
  unfold ofVac at this
  rw [List.mem_filter] at this
  exact ⟨this.1, by simpa using this.2⟩

/-- Only the position of a client changes, and it holds no task afterwards. -/
theorem inv_pc (inv : Inv ph m0 s) {c : Nat} {X : PC} (hX : ∀ t, ¬ X.holds t) : Inv ph m0 { s with client := upd s.client c X } := by
  obtain ⟨logLt, logNodup, held, order, execLog, sorted, bound, prepBound, pushBound, unbound, idle, busy, fresh, outs, rets⟩ := inv
  refine ⟨logLt, logNodup, ?_, order, execLog, sorted, bound, ?_, ?_, unbound, idle, busy, fresh, outs, rets⟩
  · intro d t h
    dsimp only at h
    by_cases hd : d = c
    · subst hd; rw [upd_same] at h; exact absurd h (hX t)
    · rw [upd_ne _ _ _ _ hd] at h; exact held d t h
  · intro d t k h
    dsimp only at h
    by_cases hd : d = c
    · subst hd; rw [upd_same] at h; exact absurd (by rw [h]; exact rfl) (hX t)
    · rw [upd_ne _ _ _ _ hd] at h; exact prepBound d t k h
  · intro d t h
    dsimp only at h
    by_cases hd : d = c
    · subst hd; rw [upd_same] at h; exact absurd (by rw [h]; exact rfl) (hX t)
    · rw [upd_ne _ _ _ _ hd] at h; exact pushBound d t h

theorem inv_begin (inv : Inv ph m0 s) {c : Nat} {t : Task} {s' : St} (ht : t.owner = c) (e : begin s c t = some s') : Inv ph m0 s' := by
  unfold begin at e
  split at e
  · rename_i hidle
    have e := Option.some.inj e
    subst e
    have tk : ∀ u, u < s.next → upd s.task s.next t u = s.task u := fun u hu => upd_ne _ _ _ _ (by omega)
    have tkl : ∀ u ∈ s.log, upd s.task s.next t u = s.task u := fun u hu => tk u (inv.logLt u hu)
    have tke : ∀ u ∈ s.exec, upd s.task s.next t u = s.task u := fun u hu => tk u (inv.execLt hu)
    have inv' := inv
    obtain ⟨logLt, logNodup, held, order, execLog, sorted, bound, prepBound, pushBound, unbound, idle, busy, fresh, outs, rets⟩ := inv
    have phe : ∀ p, ofPhys ph (upd s.task s.next t) p s.exec = ofPhys ph s.task p s.exec := fun p => ofPhys_task tke
    have sr : ∀ l m, (∀ u ∈ l, u ∈ s.exec) → seqRun (upd s.task s.next t) l m = seqRun s.task l m :=
      fun l m h => seqRun_task l m (fun u hu => tke u (h u hu))
    have mp : ∀ p, ∀ u ∈ ofPhys ph s.task p s.exec, u ∈ s.exec := fun p u hu => (List.mem_filter.mp hu).1
    refine ⟨fun u hu => Nat.lt_succ_of_lt (logLt u hu), logNodup, ?_, ?_, execLog, ?_, ?_, ?_, ?_, unbound, ?_, ?_, fresh, ?_, rets⟩
    · intro d u h
      dsimp only at h ⊢
      by_cases hd : d = c
      · subst hd
        rw [upd_same] at h
        simp only [PC.holds] at h
        subst h
        refine ⟨by omega, fun hm => absurd (logLt _ hm) (by omega), by rw [upd_same]; exact ht, fun u hu _ => by omega⟩
      · rw [upd_ne _ _ _ _ hd] at h
        obtain ⟨h1, h2, h3, h4⟩ := held d u h
        refine ⟨by omega, h2, by rw [tk u h1]; exact h3, ?_⟩
        intro w hw ho
        by_cases hwn : w = s.next
        · subst hwn; rw [upd_same, ht] at ho; exact absurd ho.symm hd
        · rw [upd_ne _ _ _ _ hwn] at ho; exact h4 w (by omega) ho
    · intro v
      dsimp only
      rw [ofVac_task tke, ofVac_task tkl]; exact order v
    · intro d
      dsimp only
      have : s.log.filter (fun u => decide ((upd s.task s.next t u).owner = d)) = s.log.filter (fun u => decide ((s.task u).owner = d)) :=
        List.filter_congr (fun u hu => by rw [tkl u hu])
      rw [this]; exact sorted d
    · intro u hu; dsimp only at hu ⊢; rw [tkl u hu]; exact bound u hu
    · intro d u k h j x hj hx
      dsimp only at h hx ⊢
      by_cases hd : d = c
      · subst hd; rw [upd_same] at h; injection h with h1 h2; omega
      · rw [upd_ne _ _ _ _ hd] at h
        have hlt := (held d u (by rw [h]; exact rfl)).1
        rw [tk u hlt] at hx ⊢; exact prepBound d u k h j x hj hx
    · intro d u h
      dsimp only at h ⊢
      by_cases hd : d = c
      · subst hd; rw [upd_same] at h; simp at h
      · rw [upd_ne _ _ _ _ hd] at h
        have hlt := (held d u (by rw [h]; exact rfl)).1
        rw [tk u hlt]; exact pushBound d u h
    · intro p hw d hb
      dsimp only at hw hb ⊢
      rw [phe, sr _ _ (mp p)]; exact idle p hw d hb
    · intro p u prog hw
      dsimp only at hw ⊢
      have hu := tke u (inv'.workerMem hw).1
      obtain ⟨h1, pre, h2, h3, h4⟩ := busy p u prog hw
      rw [hu, phe]
      refine ⟨h1, pre, h2, ?_, ?_⟩
      · intro d hb; rw [sr _ _ (mp p)]; exact h3 d hb
      · rw [sr _ _ (fun w hw => mp p w (by rw [h2]; exact List.mem_append_left _ hw))]; exact h4
    · intro u hf pre post hsp
      dsimp only at hf hsp ⊢
      have hu := tke u (inv'.finExec hf)
      rw [hu, phe] at hsp
      rw [hu, sr _ _ (fun w hw => mp _ w (by rw [hsp]; exact List.mem_append_left _ hw))]
      exact outs u hf pre post hsp
  · simp at e

/-- Binding one argument. -/
theorem inv_bind (inv : Inv ph m0 s) {c t k d : Nat} (hpc : s.client c = .prep t k) (hd : (s.task t).io[k]? = some d)
    (hold : s.accel d = none ∨ bp ph s.accel d = some (ph (s.task t).vac)) :
    Inv ph m0 { s with accel := upd s.accel d (some (s.task t).vac), client := upd s.client c (.prep t (k + 1)) } := by
  have inv' := inv
  obtain ⟨logLt, logNodup, held, order, execLog, sorted, bound, prepBound, pushBound, unbound, idle, busy, fresh, outs, rets⟩ := inv
  have hnew : bp ph (upd s.accel d (some (s.task t).vac)) d = some (ph (s.task t).vac) := by simp [bp, upd_same]
  have hne : ∀ x, x ≠ d → bp ph (upd s.accel d (some (s.task t).vac)) x = bp ph s.accel x := by
    intro x hx; simp [bp, upd_ne _ _ _ _ hx]
  have mono : ∀ x p, bp ph s.accel x = some p → bp ph (upd s.accel d (some (s.task t).vac)) x = some p := by
    intro x p hx
    by_cases hxd : x = d
    · subst hxd
      rcases hold with h | h
      · rw [bp, h] at hx; simp at hx
      · rw [hnew, ← hx, h]
    · rw [hne x hxd]; exact hx
  have notUsed : s.accel d = none → ∀ u ∈ s.log, d ∉ (s.task u).io := by
    intro h u hu hm
    have := bound u hu d hm
    rw [bp, h] at this; simp at this
  refine ⟨logLt, logNodup, ?_, order, execLog, sorted, ?_, ?_, ?_, ?_, ?_, ?_, fresh, outs, rets⟩
  · intro e u h
    dsimp only at h
    by_cases he : e = c
    · subst he; rw [upd_same] at h; simp only [PC.holds] at h; subst h; exact held e t (by rw [hpc]; exact rfl)
    · rw [upd_ne _ _ _ _ he] at h; exact held e u h
  · intro u hu x hx; exact mono _ _ (bound u hu x hx)
  · intro e u j h i x hi hx
    dsimp only at h hx ⊢
    by_cases he : e = c
    · subst he
      rw [upd_same] at h
      injection h with h1 h2
      subst h1
      by_cases hik : i = k
      · subst hik; rw [hd] at hx; injection hx with hx; subst hx; exact hnew
      · exact mono _ _ (prepBound e t k hpc i x (by omega) hx)
    · rw [upd_ne _ _ _ _ he] at h; exact mono _ _ (prepBound e u j h i x hi hx)
  · intro e u h x hx
    dsimp only at h hx ⊢
    by_cases he : e = c
    · subst he; rw [upd_same] at h; simp at h
    · rw [upd_ne _ _ _ _ he] at h; exact mono _ _ (pushBound e u h x hx)
  · intro x hx
    dsimp only at hx ⊢
    by_cases hxd : x = d
    · subst hxd; rw [upd_same] at hx; simp at hx
    · rw [upd_ne _ _ _ _ hxd] at hx; exact unbound x hx
  · intro p hw x hx
    dsimp only at hw hx ⊢
    by_cases hxd : x = d
    · subst hxd
      rcases hold with h | h
      · rw [unbound x h, seqRun_other]
        intro u hu; exact notUsed h u (execLog u (List.mem_filter.mp hu).1)
      · rw [hnew] at hx; exact idle p hw x (by rw [h]; exact hx)
    · rw [hne x hxd] at hx; exact idle p hw x hx
  · intro p u prog hw
    dsimp only at hw ⊢
    obtain ⟨h1, pre, h2, h3, h4⟩ := busy p u prog hw
    refine ⟨h1, pre, h2, ?_, h4⟩
    intro x hx
    by_cases hxd : x = d
    · subst hxd
      rcases hold with h | h
      · rw [run_other (notUsed h u (execLog u (inv'.workerMem hw).1)), unbound x h, seqRun_other]
        intro w hw; exact notUsed h w (execLog w (List.mem_filter.mp hw).1)
      · rw [hnew] at hx; exact h3 x (by rw [h]; exact hx)
    · rw [hne x hxd] at hx; exact h3 x hx

theorem inv_toPush (inv : Inv ph m0 s) {c t k : Nat} (hpc : s.client c = .prep t k) (hd : (s.task t).io[k]? = none) :
    Inv ph m0 { s with client := upd s.client c (.push t) } := by
  obtain ⟨logLt, logNodup, held, order, execLog, sorted, bound, prepBound, pushBound, unbound, idle, busy, fresh, outs, rets⟩ := inv
  refine ⟨logLt, logNodup, ?_, order, execLog, sorted, bound, ?_, ?_, unbound, idle, busy, fresh, outs, rets⟩
  · intro e u h
    dsimp only at h
    by_cases he : e = c
    · subst he; rw [upd_same] at h; simp only [PC.holds] at h; subst h; exact held e t (by rw [hpc]; exact rfl)
    · rw [upd_ne _ _ _ _ he] at h; exact held e u h
  · intro e u j h
    dsimp only at h
    by_cases he : e = c
    · subst he; rw [upd_same] at h; simp at h
    · rw [upd_ne _ _ _ _ he] at h; exact prepBound e u j h
  · intro e u h x hx
    dsimp only at h hx ⊢
    by_cases he : e = c
    · subst he
      rw [upd_same] at h
      injection h with h
      subst h
      obtain ⟨i, hi⟩ := List.getElem?_of_mem hx
      have hlen : i < k := by
        have h1 := List.getElem?_eq_none_iff.mp hd
        have h2 := (List.getElem?_eq_some_iff.mp hi).1
        omega
      exact prepBound e t k hpc i x hlen hi
    · rw [upd_ne _ _ _ _ he] at h; exact pushBound e u h x hx

theorem ofVac_append (task : Nat → Task) (v t : Nat) (l : List Nat) :
    ofVac task v (l ++ [t]) = if (task t).vac = v then ofVac task v l ++ [t] else ofVac task v l := by
  unfold ofVac
  rw [List.filter_append]
  by_cases h : (task t).vac = v <;> simp [h]

theorem ofPhys_append (ph : Nat → Nat) (task : Nat → Task) (p t : Nat) (l : List Nat) :
    ofPhys ph task p (l ++ [t]) = if ph (task t).vac = p then ofPhys ph task p l ++ [t] else ofPhys ph task p l := by
  unfold ofPhys
  rw [List.filter_append]
  by_cases h : ph (task t).vac = p <;> simp [h]

theorem inv_push (inv : Inv ph m0 s) {c t : Nat} {X : PC} (hpc : s.client c = .push t) (hX : ∀ t, ¬ X.holds t) :
    Inv ph m0 { s with queue := upd s.queue (s.task t).vac (s.queue (s.task t).vac ++ [t]), log := s.log ++ [t],
                       client := upd s.client c X } := by
  have hheld := inv.held c t (by rw [hpc]; exact rfl)
  obtain ⟨logLt, logNodup, held, order, execLog, sorted, bound, prepBound, pushBound, unbound, idle, busy, fresh, outs, rets⟩ := inv
  refine ⟨?_, ?_, ?_, ?_, ?_, ?_, ?_, ?_, ?_, unbound, idle, busy, fresh, outs, rets⟩
  · intro u hu
    rcases List.mem_append.mp hu with h | h
    · exact logLt u h
    · rw [List.mem_singleton.mp h]; exact hheld.1
  · dsimp only
    rw [List.nodup_append]
    refine ⟨logNodup, by simp, ?_⟩
    intro a ha b hb
    rw [List.mem_singleton.mp hb]
    rintro rfl; exact hheld.2.1 ha
  · intro e u h
    dsimp only at h ⊢
    by_cases he : e = c
    · subst he; rw [upd_same] at h; exact absurd h (hX u)
    · rw [upd_ne _ _ _ _ he] at h
      obtain ⟨h1, h2, h3, h4⟩ := held e u h
      refine ⟨h1, ?_, h3, h4⟩
      intro hm
      rcases List.mem_append.mp hm with h' | h'
      · exact h2 h'
      · rw [List.mem_singleton.mp h'] at h3
        rw [hheld.2.2.1] at h3; exact he h3.symm
  · intro v
    dsimp only
    rw [ofVac_append]
    by_cases hv : (s.task t).vac = v
    · subst hv; rw [upd_same, if_pos rfl, ← List.append_assoc, order]
    · rw [if_neg hv, upd_ne _ _ _ _ (Ne.symm hv)]; exact order v
  · intro u hu; exact List.mem_append_left _ (execLog u hu)
  · intro e
    dsimp only
    rw [List.filter_append]
    by_cases he : (s.task t).owner = e
    · simp only [List.filter_cons, he, decide_true, if_true, List.filter_nil]
      rw [List.pairwise_append]
      refine ⟨sorted e, by simp, ?_⟩
      intro a ha b hb
      rw [List.mem_singleton.mp hb]
      rw [List.mem_filter] at ha
      have := hheld.2.2.2 a (logLt a ha.1) (by rw [hheld.2.2.1] at he; rw [he]; simpa using ha.2)
      have hne : a ≠ t := by rintro rfl; exact hheld.2.1 ha.1
      omega
    · simp only [List.filter_cons, he, decide_false, Bool.false_eq_true, if_false, List.filter_nil, List.append_nil]
      exact sorted e
  · intro u hu x hx
    rcases List.mem_append.mp hu with h | h
    · exact bound u h x hx
    · rw [List.mem_singleton.mp h] at hx ⊢; exact pushBound c t hpc x hx
  · intro e u j h
    dsimp only at h
    by_cases he : e = c
    · subst he; rw [upd_same] at h; exact absurd (by rw [h]; exact rfl) (hX u)
    · rw [upd_ne _ _ _ _ he] at h; exact prepBound e u j h
  · intro e u h
    dsimp only at h
    by_cases he : e = c
    · subst he; rw [upd_same] at h; exact absurd (by rw [h]; exact rfl) (hX u)
    · rw [upd_ne _ _ _ _ he] at h; exact pushBound e u h

theorem inv_ret (inv : Inv ph m0 s) {t : Nat} (hf : s.fin t = true) :
    Inv ph m0 { s with ret := upd s.ret t (some (s.host t)) } := by
  obtain ⟨logLt, logNodup, held, order, execLog, sorted, bound, prepBound, pushBound, unbound, idle, busy, fresh, outs, rets⟩ := inv
  refine ⟨logLt, logNodup, held, order, execLog, sorted, bound, prepBound, pushBound, unbound, idle, busy, fresh, outs, ?_⟩
  intro u r h
  dsimp only at h ⊢
  by_cases hu : u = t
  · subst hu; rw [upd_same] at h; injection h with h; exact ⟨hf, h.symm⟩
  · rw [upd_ne _ _ _ _ hu] at h; exact rets u r h

theorem inv_pop (inv : Inv ph m0 s) {v t : Nat} {rest : List Nat} (hw : s.worker (ph v) = none) (hq : s.queue v = t :: rest) :
    Inv ph m0 { s with queue := upd s.queue v rest, worker := upd s.worker (ph v) (some (t, (s.task t).prog)), exec := s.exec ++ [t] } := by
  have inv' := inv
  obtain ⟨htl, htv⟩ := inv.queueLog (t := t) (v := v) (by rw [hq]; simp)
  have hnx : t ∉ s.exec := by
    intro hm
    have h2 : (ofVac s.task v s.log).Nodup := inv.logNodup.filter _
    rw [← inv.order, List.nodup_append] at h2
    refine h2.2.2 t ?_ t (by rw [hq]; simp) rfl
    unfold ofVac; rw [List.mem_filter]; exact ⟨hm, by simpa using htv⟩
  obtain ⟨logLt, logNodup, held, order, execLog, sorted, bound, prepBound, pushBound, unbound, idle, busy, fresh, outs, rets⟩ := inv
  have hph : ph (s.task t).vac = ph v := by rw [htv]
  refine ⟨logLt, logNodup, held, ?_, ?_, sorted, bound, prepBound, pushBound, unbound, ?_, ?_, ?_, ?_, rets⟩
  · intro w
    dsimp only
    rw [ofVac_append]
    by_cases hwv : w = v
    · subst hwv
      rw [upd_same, if_pos htv, List.append_assoc]
      have := order w
      rw [hq] at this; exact this
    · rw [upd_ne _ _ _ _ hwv, if_neg (by rw [htv]; exact Ne.symm hwv)]; exact order w
  · intro u hu
    rcases List.mem_append.mp hu with h | h
    · exact execLog u h
    · rw [List.mem_singleton.mp h]; exact htl
  · intro p hp d hd
    dsimp only at hp hd ⊢
    by_cases hpv : p = ph v
    · subst hpv; rw [upd_same] at hp; simp at hp
    · rw [upd_ne _ _ _ _ hpv] at hp
      rw [ofPhys_append, if_neg (by rw [hph]; exact Ne.symm hpv)]; exact idle p hp d hd
  · intro p u prog hp
    dsimp only at hp ⊢
    by_cases hpv : p = ph v
    · subst hpv
      rw [upd_same] at hp
      injection hp with hp
      injection hp with h1 h2
      subst h1 h2
      obtain ⟨hh, hfin⟩ := fresh t hnx
      rw [ofPhys_append, if_pos hph, hh]
      refine ⟨hfin, ofPhys ph s.task (ph v) s.exec, rfl, ?_, ?_⟩
      · intro d hd
        rw [seqRun_append]
        show _ = effect (s.task t) (seqRun s.task (ofPhys ph s.task (ph v) s.exec) m0) d
        unfold effect
        by_cases hdi : d ∈ (s.task t).io
        · refine (run_congr _ _ _ _ ?_).1 d hdi
          intro x hx
          exact idle (ph v) hw x (by rw [bound t htl x hx, hph])
        · rw [run_other hdi, run_other hdi]; exact idle (ph v) hw d hd
      · refine (run_congr _ _ _ _ ?_).2
        intro x hx
        exact idle (ph v) hw x (by rw [bound t htl x hx, hph])
    · rw [upd_ne _ _ _ _ hpv] at hp
      rw [ofPhys_append, if_neg (by rw [hph]; exact Ne.symm hpv)]; exact busy p u prog hp
  · intro u hu
    exact fresh u (fun h => hu (List.mem_append_left _ h))
  · intro u hf pre post hsp
    dsimp only at hf hsp ⊢
    have hux : u ≠ t := by rintro rfl; exact hnx (inv'.finExec hf)
    rw [ofPhys_append] at hsp
    split at hsp
    · -- the split of the longer list is a split of the shorter one
      rcases List.eq_nil_or_concat post with hpost | ⟨post', x, hpost⟩
      · subst hpost
        have := List.append_inj' hsp rfl
        simp only [List.cons.injEq, and_true] at this
        exact absurd this.2.symm hux
      · rw [hpost, List.concat_eq_append, ← List.cons_append, ← List.append_assoc] at hsp
        have := (List.append_inj' hsp rfl).1
        exact outs u hf pre post' this
    · exact outs u hf pre post hsp

/-- A worker step that leaves the queues alone and replaces the rest of the program. -/
theorem inv_work (inv : Inv ph m0 s) {p t : Nat} {prog prog' : Prog} {m' : Mem} {h' : Host} (hw : s.worker p = some (t, prog))
    (hout : ∀ d, d ∉ (s.task t).io → m' d = s.mem d)
    (hrun : run (s.task t).io prog' m' h' = run (s.task t).io prog s.mem (s.host t)) :
    Inv ph m0 { s with mem := m', host := upd s.host t h', worker := upd s.worker p (some (t, prog')) } := by
  obtain ⟨hte, htp⟩ := inv.workerMem hw
  have inv' := inv
  obtain ⟨logLt, logNodup, held, order, execLog, sorted, bound, prepBound, pushBound, unbound, idle, busy, fresh, outs, rets⟩ := inv
  have hkeep : ∀ d, bp ph s.accel d ≠ some p → m' d = s.mem d := by
    intro d hd
    apply hout
    intro hm
    exact hd (by rw [bound t (execLog t hte) d hm, htp])
  have hfin := (busy p t prog hw).1
  refine ⟨logLt, logNodup, held, order, execLog, sorted, bound, prepBound, pushBound, ?_, ?_, ?_, ?_, ?_, ?_⟩
  · intro d hd
    dsimp only at hd ⊢
    rw [hkeep d (by rw [bp, hd]; simp)]; exact unbound d hd
  · intro q hq d hd
    dsimp only at hq hd ⊢
    by_cases hqp : q = p
    · subst hqp; rw [upd_same] at hq; simp at hq
    · rw [upd_ne _ _ _ _ hqp] at hq
      rw [hkeep d (by rw [hd]; intro h; injection h with h; exact hqp h)]; exact idle q hq d hd
  · intro q u pr hq
    dsimp only at hq ⊢
    by_cases hqp : q = p
    · subst hqp
      rw [upd_same] at hq
      injection hq with hq
      injection hq with h1 h2
      subst h1 h2
      rw [upd_same, hrun]
      exact busy q t prog hw
    · rw [upd_ne _ _ _ _ hqp] at hq
      obtain ⟨hue, hup⟩ := inv'.workerMem hq
      have hut : u ≠ t := by rintro rfl; exact hqp (by rw [← hup, htp])
      rw [upd_ne _ _ _ _ hut]
      obtain ⟨h1, pre, h2, h3, h4⟩ := busy q u pr hq
      have hagree : ∀ x ∈ (s.task u).io, m' x = s.mem x := by
        intro x hx
        apply hkeep
        rw [bound u (execLog u hue) x hx, hup]
        intro h; injection h with h; exact hqp h
      obtain ⟨c1, c2⟩ := run_congr pr m' s.mem (s.host u) hagree
      refine ⟨h1, pre, h2, ?_, by rw [c2]; exact h4⟩
      intro d hd
      by_cases hdi : d ∈ (s.task u).io
      · rw [c1 d hdi]; exact h3 d hd
      · have := h3 d hd
        rw [run_other hdi] at this ⊢
        rw [hkeep d (by rw [hd]; intro h; injection h with h; exact hqp h)]; exact this
  · intro u hu
    dsimp only at hu ⊢
    have hut : u ≠ t := by rintro rfl; exact hu hte
    rw [upd_ne _ _ _ _ hut]; exact fresh u hu
  · intro u hf
    dsimp only at hf ⊢
    have hut : u ≠ t := by rintro rfl; rw [hfin] at hf; simp at hf
    rw [upd_ne _ _ _ _ hut]; exact outs u hf
  · intro u r h
    dsimp only at h ⊢
    obtain ⟨h1, h2⟩ := rets u r h
    have hut : u ≠ t := by rintro rfl; rw [hfin] at h1; simp at h1
    rw [upd_ne _ _ _ _ hut]; exact ⟨h1, h2⟩

theorem inv_done (inv : Inv ph m0 s) {p t : Nat} (hw : s.worker p = some (t, .done)) :
    Inv ph m0 { s with fin := upd s.fin t true, worker := upd s.worker p none } := by
  obtain ⟨hte, htp⟩ := inv.workerMem hw
  have hnd := inv.execNodup
  have inv' := inv
  obtain ⟨logLt, logNodup, held, order, execLog, sorted, bound, prepBound, pushBound, unbound, idle, busy, fresh, outs, rets⟩ := inv
  obtain ⟨b1, pre, b2, b3, b4⟩ := busy p t .done hw
  refine ⟨logLt, logNodup, held, order, execLog, sorted, bound, prepBound, pushBound, unbound, ?_, ?_, ?_, ?_, ?_⟩
  · intro q hq d hd
    dsimp only at hq hd ⊢
    by_cases hqp : q = p
    · subst hqp; exact b3 d hd
    · rw [upd_ne _ _ _ _ hqp] at hq; exact idle q hq d hd
  · intro q u pr hq
    dsimp only at hq ⊢
    by_cases hqp : q = p
    · subst hqp; rw [upd_same] at hq; simp at hq
    · rw [upd_ne _ _ _ _ hqp] at hq
      have hut : u ≠ t := by rintro rfl; exact hqp (by rw [← (inv'.workerMem hq).2, htp])
      rw [upd_ne _ _ _ _ hut]; exact busy q u pr hq
  · intro u hu
    dsimp only at hu ⊢
    have hut : u ≠ t := by rintro rfl; exact hu hte
    rw [upd_ne _ _ _ _ hut]; exact fresh u hu
  · intro u hf pr post hsp
    dsimp only at hf hsp ⊢
    by_cases hut : u = t
    · subst hut
      rw [htp, b2] at hsp
      -- unique split
      have hnd2 : (pre ++ [u]).Nodup := by rw [← b2]; exact hnd.filter _
      have hpost : post = [] := by
        rcases List.eq_nil_or_concat post with h | ⟨post', x, h⟩
        · exact h
        · exfalso
          rw [h, List.concat_eq_append, ← List.cons_append, ← List.append_assoc] at hsp
          have h1 := (List.append_inj' hsp rfl).1
          rw [h1] at hnd2
          rw [List.nodup_append] at hnd2
          exact hnd2.2.2 u (by simp) u (by simp) rfl
      subst hpost
      rw [(List.append_inj' hsp rfl).1] at b4
      exact b4
    · rw [upd_ne _ _ _ _ hut] at hf; exact outs u hf pr post hsp
  · intro u r h
    dsimp only at h ⊢
    obtain ⟨h1, h2⟩ := rets u r h
    refine ⟨?_, h2⟩
    by_cases hut : u = t
    · subst hut; exact upd_same _ _ _
    · rw [upd_ne _ _ _ _ hut]; exact h1

end

theorem upd_self {α : Type} (f : Nat → α) (i : Nat) : upd f i (f i) = f := by
  funext j; unfold upd; split
  · rename_i h; rw [h]
  · rfl

theorem inv_of_reach {ph size : Nat → Nat} {cap : Nat} {m0 : Mem} {s : St} (h : Reach ph size cap m0 s) : Inv ph m0 s := by
  induction h with
  | init => exact inv_init ph m0
  | @step s s' a _ _ e inv =>
    cases a with
    | issue c v io prog => exact inv_begin (c := c) inv (by rfl) e
    | set c d v bs =>
      simp only [step] at e
      split at e
      · exact inv_begin (c := c) inv (by rfl) e
      · split at e
        · have e := Option.some.inj e; subst e; exact inv_pc inv (fun _ h => h)
        · simp at e
    | get c d =>
      simp only [step] at e
      split at e
      · exact inv_begin (c := c) inv (by rfl) e
      · split at e
        · have e := Option.some.inj e; subst e; exact inv_pc inv (fun _ h => h)
        · simp at e
    | wait c t =>
      simp only [step] at e
      split at e
      · have e := Option.some.inj e; subst e; exact inv_pc inv (fun _ h => h)
      · simp at e
    | client c =>
      simp only [step] at e
      split at e
      · rename_i t k hpc
        split at e
        · rename_i hd
          have e := Option.some.inj e; subst e; exact inv_toPush inv hpc hd
        · rename_i d hd
          split at e
          · rename_i ha
            have e := Option.some.inj e; subst e; exact inv_bind inv hpc hd (Or.inl ha)
          · rename_i v ha
            split at e
            · rename_i hv
              have e := Option.some.inj e; subst e; exact inv_bind inv hpc hd (Or.inr (by rw [bp, ha]; simp [hv]))
            · have e := Option.some.inj e; subst e; exact inv_pc inv (fun _ h => h)
      · rename_i t hpc
        split at e
        · have e := Option.some.inj e
          subst e
          refine inv_push inv hpc ?_
          intro u
          split <;> exact fun h => h
        · simp at e
      · rename_i t hpc
        split at e
        · rename_i hf
          have e := Option.some.inj e
          subst e
          exact inv_pc (inv_ret inv hf) (fun _ h => h)
        · simp at e
      · simp at e
      · simp at e
    | pop p v =>
      simp only [step] at e
      split at e
      · rename_i hp
        split at e
        · rename_i t rest hq
          have e := Option.some.inj e
          subst e
          obtain ⟨h1, h2⟩ := hp
          subst h1
          exact inv_pop inv h2 hq
        · simp at e
      · simp at e
    | work p =>
      simp only [step] at e
      split at e
      · rename_i t k off cont hw
        have e := Option.some.inj e
        subst e
        have := inv_work inv (prog' := cont (rd (s.task t).io s.mem k off)) (m' := s.mem) (h' := s.host t) hw (fun _ _ => rfl) rfl
        rw [upd_self] at this; exact this
      · rename_i t k off b next hw
        have e := Option.some.inj e
        subst e
        have := inv_work inv (prog' := next) (m' := wr (s.task t).io s.mem k off b) (h' := s.host t) hw (fun _ h => wr_other h) rfl
        rw [upd_self] at this; exact this
      · rename_i t off b next hw
        have e := Option.some.inj e
        subst e
        exact inv_work inv (prog' := next) (m' := s.mem) hw (fun _ _ => rfl) rfl
      · rename_i t hw
        have e := Option.some.inj e
        subst e
        exact inv_done inv hw
      · simp at e

end Arax.Exec
