import Verif.Exec.Props
/-!
# C47, C48, C49
-/
namespace Arax.Exec

section
variable {ph size : Nat → Nat} {cap : Nat} {m0 : Mem} {s : St}

/-! ## C47 -/

/-- **C47** (order of the queue) For every virtual accelerator and every interleaving: the tasks that workers have taken, followed by those
still queued, are exactly the tasks issued to it, in issue order - none lost, none duplicated, none overtaken. -/
theorem C47_issue_order (h : Reach ph size cap m0 s) (v : Nat) : ofVac s.task v s.exec ++ s.queue v = ofVac s.task v s.log :=
  (inv_of_reach h).order v

/-- **C47** (issue order respects program order) The tasks issued by one client thread enter the queues in the order of its calls (task numbers
are handed out in call order). -/
theorem C47_program_order (h : Reach ph size cap m0 s) (c : Nat) :
    (s.log.filter (fun t => decide ((s.task t).owner = c))).Pairwise (· < ·) := (inv_of_reach h).sorted c

/-- **C47** (atomicity) Whenever the worker of a physical accelerator is between two tasks, every data object bound to that accelerator has the contents obtained by
running the tasks it has taken so far one after the other, each as a single operation - however the byte accesses of the workers, other workers
and clients were interleaved. -/
theorem C47_atomic (h : Reach ph size cap m0 s) {d v : Nat} (hd : s.accel d = some v) (hw : s.worker (ph v) = none) :
    s.mem d = seqRun s.task (ofPhys ph s.task (ph v) s.exec) m0 d :=
  (inv_of_reach h).idle (ph v) hw d (by simp [bp, hd])

/-- On the data of an exclusive virtual accelerator only its own tasks count. -/
theorem seq_exclusive {task : Nat → Task} {v : Nat} {L : List Nat} (hex : Exclusive task v L) : ∀ (l : List Nat), (∀ t ∈ l, t ∈ L) → ∀ m1 m2 : Mem,
    (∀ d, (∃ t ∈ L, (task t).vac = v ∧ d ∈ (task t).io) → m1 d = m2 d) →
    ∀ d, (∃ t ∈ L, (task t).vac = v ∧ d ∈ (task t).io) → seqRun task l m1 d = seqRun task (ofVac task v l) m2 d := by
  intro l
  induction l with
  | nil => intro _ m1 m2 h d hd; exact h d hd
  | cons t l ih =>
    intro hl m1 m2 h d hd
    have htL := hl t (List.mem_cons_self)
    by_cases htv : (task t).vac = v
    · have : ofVac task v (t :: l) = t :: ofVac task v l := by simp [ofVac, List.filter_cons, htv]
      rw [this]
      refine ih (fun u hu => hl u (List.mem_cons_of_mem _ hu)) _ _ ?_ d hd
      intro x hx
      unfold effect
      by_cases hxi : x ∈ (task t).io
      · exact (run_congr _ _ _ _ (fun y hy => h y ⟨t, htL, htv, hy⟩)).1 x hxi
      · rw [run_other hxi, run_other hxi]; exact h x hx
    · have : ofVac task v (t :: l) = ofVac task v l := by simp [ofVac, List.filter_cons, htv]
      rw [this]
      refine ih (fun u hu => hl u (List.mem_cons_of_mem _ hu)) _ _ ?_ d hd
      intro x hx
      obtain ⟨u, huL, huv, hxu⟩ := hx
      rw [effect_other (hex u huL t htL huv htv x hxu)]
      exact h x ⟨u, huL, huv, hxu⟩

/-- **C47** (one queue) If no data object used with virtual accelerator `v` is used with another one, then whenever the worker is between two tasks the contents of the
data used with `v` are those after a prefix of the tasks issued to `v`, each run atomically, in issue order; and after all of them once the queue is
empty. -/
theorem C47_one_queue (h : Reach ph size cap m0 s) {v d : Nat} (hex : Exclusive s.task v s.log)
    (hd : ∃ t ∈ s.log, (s.task t).vac = v ∧ d ∈ (s.task t).io) (hw : s.worker (ph v) = none) :
    (∃ k, s.mem d = seqRun s.task ((ofVac s.task v s.log).take k) m0 d) ∧
      (s.queue v = [] → s.mem d = seqRun s.task (ofVac s.task v s.log) m0 d) := by
  have inv := inv_of_reach h
  obtain ⟨t, htl, htv, hdt⟩ := hd
  have hb : bp ph s.accel d = some (ph v) := by rw [inv.bound t htl d hdt, htv]
  have h1 := inv.idle (ph v) hw d hb
  rw [seq_exclusive hex (ofPhys ph s.task (ph v) s.exec) (fun u hu => inv.execLog u (List.mem_filter.mp hu).1) m0 m0 (fun _ _ => rfl) d
    ⟨t, htl, htv, hdt⟩] at h1
  have h2 : ofVac s.task v (ofPhys ph s.task (ph v) s.exec) = ofVac s.task v s.exec := by
    unfold ofVac ofPhys
    rw [List.filter_filter]
    apply List.filter_congr
    intro u _
    by_cases hu : (s.task u).vac = v <;> simp [hu]
  rw [h2] at h1
  have h3 := inv.order v
  refine ⟨⟨(ofVac s.task v s.exec).length, ?_⟩, ?_⟩
  · rw [← h3, List.take_left]; exact h1
  · intro hq
    rw [hq, List.append_nil] at h3
    rw [← h3]; exact h1

/-! ## The built-in handlers -/

theorem writeAll_run {io : List Nat} {d : Nat} (hio : io[0]? = some d) : ∀ (bs : List Nat) (off : Nat) (m : Mem) (h : Host) (j : Nat),
    (run io (writeAll bs off) m h).1 d j = if off ≤ j ∧ j < off + bs.length then bs.getD (j - off) 0 else m d j := by
  intro bs
  induction bs with
  | nil =>
    intro off m h j
    simp only [writeAll, run, List.length_nil]
    rw [if_neg (by omega)]
  | cons b bs ih =>
    intro off m h j
    simp only [writeAll, run]
    rw [ih]
    have hwr : wr io m 0 off b d = upd (m d) off b := by unfold wr; rw [hio]; exact upd_same _ _ _
    rw [hwr]
    simp only [List.length_cons]
    by_cases hj : j = off
    · subst hj
      rw [if_neg (by omega), if_pos (by omega), upd_same, Nat.sub_self]; rfl
    · rw [upd_ne _ _ _ _ hj]
      by_cases hlt : off + 1 ≤ j ∧ j < off + 1 + bs.length
      · rw [if_pos hlt, if_pos (by omega)]
        rw [show j - off = (j - (off + 1)) + 1 by omega, List.getD_cons_succ]
      · rw [if_neg hlt, if_neg (by omega)]

theorem copyOut_run {io : List Nat} {d : Nat} (hio : io[0]? = some d) : ∀ (n i : Nat) (m : Mem) (h : Host),
    (run io (copyOut n i) m h).1 = m ∧ ∀ j, (run io (copyOut n i) m h).2 j = if i ≤ j ∧ j < i + n then m d j else h j := by
  intro n
  induction n with
  | zero =>
    intro i m h
    refine ⟨rfl, fun j => ?_⟩
    simp only [copyOut, run]
    rw [if_neg (by omega)]
  | succ n ih =>
    intro i m h
    simp only [copyOut, run]
    obtain ⟨h1, h2⟩ := ih (i + 1) m (upd h i (rd io m 0 i))
    refine ⟨h1, fun j => ?_⟩
    rw [h2]
    have hrd : rd io m 0 i = m d i := by unfold rd; rw [hio]
    by_cases hj : j = i
    · subst hj; rw [if_neg (by omega), upd_same, hrd, if_pos (by omega)]
    · rw [upd_ne _ _ _ _ hj]
      by_cases hlt : i + 1 ≤ j ∧ j < i + 1 + n
      · rw [if_pos hlt, if_pos (by omega)]
      · rw [if_neg hlt, if_neg (by omega)]

theorem copyBuf_run {a d : Nat} (had : a ≠ d) : ∀ (n so dof : Nat) (m : Mem) (h : Host) (j : Nat),
    (run [a, d] (copyBuf n so dof) m h).1 d j = if dof ≤ j ∧ j < dof + n then m a (so + (j - dof)) else m d j := by
  intro n
  induction n with
  | zero => intro so dof m h j; simp only [copyBuf, run]; rw [if_neg (by omega)]
  | succ n ih =>
    intro so dof m h j
    simp only [copyBuf, run]
    rw [ih]
    have hrd : rd [a, d] m 0 so = m a so := rfl
    have hwd : wr [a, d] m 1 dof (m a so) d = upd (m d) dof (m a so) := upd_same _ _ _
    have hwa : wr [a, d] m 1 dof (m a so) a = m a := upd_ne _ _ _ _ had
    rw [hrd, hwd, hwa]
    by_cases hj : j = dof
    · subst hj; rw [if_neg (by omega), upd_same, if_pos (by omega), Nat.sub_self, Nat.add_zero]
    · rw [upd_ne _ _ _ _ hj]
      by_cases hlt : dof + 1 ≤ j ∧ j < dof + 1 + n
      · rw [if_pos hlt, if_pos (by omega), show so + 1 + (j - (dof + 1)) = so + (j - dof) by omega]
      · rw [if_neg hlt, if_neg (by omega)]

/-- **C48** (`memset` task) On CPU, `memset` sets exactly the bytes `off … off+n-1` of its buffer to the value, and no other byte of any buffer. -/
theorem C48_memset (c v d off value n : Nat) (m : Mem) (x j : Nat) :
    effect ⟨c, v, [d], memsetProg off value n, .user⟩ m x j = if x = d ∧ off ≤ j ∧ j < off + n then value % 256 else m x j := by
  by_cases hx : x = d
  · subst hx
    unfold effect memsetProg
    rw [writeAll_run (d := x) rfl, List.length_replicate]
    by_cases hj : off ≤ j ∧ j < off + n
    · rw [if_pos hj, if_pos ⟨rfl, hj⟩, List.getD_eq_getElem?_getD, List.getElem?_replicate, if_pos (by omega)]; rfl
    · rw [if_neg hj, if_neg (fun h => hj h.2)]
  · rw [effect_other (by simpa using hx), if_neg (fun h => hx h.1)]

/-- **C48** (`memcpy` task) On CPU, `memcpy` between two data objects copies exactly `n` bytes from the first buffer to the second. -/
theorem C48_memcpy (c v a d so dof n : Nat) (had : a ≠ d) (m : Mem) (x j : Nat) :
    effect ⟨c, v, [a, d], memcpyProg so dof n, .user⟩ m x j = if x = d ∧ dof ≤ j ∧ j < dof + n then m a (so + (j - dof)) else m x j := by
  by_cases hx : x = d
  · subst hx
    unfold effect memcpyProg
    rw [copyBuf_run had]
    by_cases hj : dof ≤ j ∧ j < dof + n
    · rw [if_pos hj, if_pos ⟨rfl, hj⟩]
    · rw [if_neg hj, if_neg (fun h => hj h.2)]
  · rw [if_neg (fun h => hx h.1)]
    have key : ∀ (n so dof : Nat) (m : Mem) (h : Host), (run [a, d] (copyBuf n so dof) m h).1 x = m x := by
      intro n
      induction n with
      | zero => intro so dof m h; rfl
      | succ n ih =>
        intro so dof m h
        simp only [copyBuf, run]
        rw [ih]
        exact upd_ne _ _ _ _ hx
    exact congrFun (key n so dof m _) j

/-- **C48** (`arax_data_set` task) The buffer gets exactly the bytes given at the call. -/
theorem C48_set (c v d : Nat) (bs : List Nat) (m : Mem) (x j : Nat) :
    effect ⟨c, v, [d], setProg bs, .set⟩ m x j = if x = d ∧ j < bs.length then bs.getD j 0 else m x j := by
  by_cases hx : x = d
  · subst hx
    unfold effect setProg
    rw [writeAll_run (d := x) rfl]
    by_cases hj : j < bs.length
    · rw [if_pos (by omega), if_pos ⟨rfl, hj⟩, Nat.sub_zero]
    · rw [if_neg (by omega), if_neg (fun h => hj h.2)]
  · rw [effect_other (by simpa using hx), if_neg (fun h => hx h.1)]

/-! ## C48 -/

/-- What the tasks made by `arax_data_set` and `arax_data_get` look like. -/
theorem kinds (h : Reach ph size cap m0 s) : ∀ t, ((s.task t).kind = .get → ∃ d, (s.task t).io = [d] ∧ (s.task t).prog = getProg (size d)) ∧
    ((s.task t).kind = .set → ∃ d bs, (s.task t).io = [d] ∧ (s.task t).prog = setProg bs ∧ bs.length = size d) := by
  induction h with
  | init => intro t; exact ⟨fun h => by simp [init0] at h, fun h => by simp [init0] at h⟩
  | @step s s' a _ hl e ih =>
    have hb : ∀ c (t : Task), begin s c t = some s' → ((t.kind = .get → ∃ d, t.io = [d] ∧ t.prog = getProg (size d)) ∧
        (t.kind = .set → ∃ d bs, t.io = [d] ∧ t.prog = setProg bs ∧ bs.length = size d)) →
        ∀ t, ((s'.task t).kind = .get → ∃ d, (s'.task t).io = [d] ∧ (s'.task t).prog = getProg (size d)) ∧
          ((s'.task t).kind = .set → ∃ d bs, (s'.task t).io = [d] ∧ (s'.task t).prog = setProg bs ∧ bs.length = size d) := by
      intro c t e ht u
      unfold begin at e
      split at e
      · have e := Option.some.inj e
        subst e
        dsimp only
        by_cases hu : u = s.next
        · rw [hu, upd_same]; exact ht
        · rw [upd_ne _ _ _ _ hu]; exact ih u
      · simp at e
    cases a with
    | issue c v io prog => exact hb c _ e ⟨fun h => by simp at h, fun h => by simp at h⟩
    | set c d v bs =>
      simp only [step] at e
      split at e
      · exact hb c _ e ⟨fun h => by simp at h, fun _ => ⟨d, bs, rfl, rfl, hl⟩⟩
      · split at e
        · have e := Option.some.inj e; subst e; exact ih
        · simp at e
    | get c d =>
      simp only [step] at e
      split at e
      · exact hb c _ e ⟨fun _ => ⟨d, rfl, rfl⟩, fun h => by simp at h⟩
      · split at e
        · have e := Option.some.inj e; subst e; exact ih
        · simp at e
    | wait c t =>
      simp only [step] at e
      split at e
      · have e := Option.some.inj e; subst e; exact ih
      · simp at e
    | client c =>
      simp only [step] at e
      split at e
      · split at e
        · have e := Option.some.inj e; subst e; exact ih
        · split at e
          · have e := Option.some.inj e; subst e; exact ih
          · split at e
            · have e := Option.some.inj e; subst e; exact ih
            · have e := Option.some.inj e; subst e; exact ih
      · split at e
        · have e := Option.some.inj e; subst e; exact ih
        · simp at e
      · split at e
        · have e := Option.some.inj e; subst e; exact ih
        · simp at e
      · simp at e
      · simp at e
    | pop p v =>
      simp only [step] at e
      split at e
      · split at e
        · have e := Option.some.inj e; subst e; exact ih
        · simp at e
      · simp at e
    | work p =>
      simp only [step] at e
      split at e
      · have e := Option.some.inj e; subst e; exact ih
      · have e := Option.some.inj e; subst e; exact ih
      · have e := Option.some.inj e; subst e; exact ih
      · have e := Option.some.inj e; subst e; exact ih
      · simp at e

/-- A list without duplicates has only one split at `t`. -/
theorem split_unique {l1 l2 m1 m2 : List Nat} {t : Nat} (hnd : (l1 ++ t :: l2).Nodup) (e : l1 ++ t :: l2 = m1 ++ t :: m2) : l1 = m1 := by
  induction l1 generalizing m1 with
  | nil =>
    cases m1 with
    | nil => rfl
    | cons a m1 =>
      simp only [List.nil_append, List.cons_append, List.cons.injEq] at e
      simp only [List.nil_append, List.nodup_cons] at hnd
      exact absurd (by rw [e.2]; simp) hnd.1
  | cons a l1 ih =>
    cases m1 with
    | nil =>
      simp only [List.nil_append, List.cons_append, List.cons.injEq] at e
      simp only [List.cons_append, List.nodup_cons] at hnd
      exact absurd (by rw [e.1]; simp) hnd.1
    | cons b m1 =>
      simp only [List.cons_append, List.cons.injEq] at e
      simp only [List.cons_append, List.nodup_cons] at hnd
      rw [e.1, ih hnd.2 e.2]

/-- **C48** (refused calls) In every reachable state, `arax_data_set` through a virtual accelerator other than the one the data object is bound to, and
`arax_data_get` of a data object that is bound to none, abort the caller: no task is made, no queue and no buffer changes. -/
theorem C48_refused (_h : Reach ph size cap m0 s) (c d v w : Nat) (bs : List Nat) (hc : s.client c = .idle) :
    (s.accel d = some w → w ≠ v → ∃ s', step ph size cap (.set c d v bs) s = some s' ∧ s'.client c = .aborted ∧ s'.next = s.next ∧ s'.log = s.log ∧
      s'.queue = s.queue ∧ s'.mem = s.mem ∧ s'.accel = s.accel) ∧
    (s.accel d = none → ∃ s', step ph size cap (.get c d) s = some s' ∧ s'.client c = .aborted ∧ s'.next = s.next ∧ s'.log = s.log ∧
      s'.queue = s.queue ∧ s'.mem = s.mem ∧ s'.accel = s.accel) := by
  refine ⟨fun hd hw => ⟨{ s with client := upd s.client c .aborted }, ?_, upd_same .., rfl, rfl, rfl, rfl, rfl⟩,
    fun hd => ⟨{ s with client := upd s.client c .aborted }, ?_, upd_same .., rfl, rfl, rfl, rfl, rfl⟩⟩
  · simp [step, hd, hw, hc]
  · simp [step, hd, hc]

/-- **C48** Every interleaving, any number of clients, workers, data objects and tasks: if the data used with virtual accelerator `v` are used with no other virtual
accelerator, then an `arax_data_get` issued to `v` that has returned gave the client the contents that the data object has after exactly the tasks issued to `v` before
it - sets, memsets, memcpys, kernels - run one after the other in issue order. -/
theorem C48_get_returns (h : Reach ph size cap m0 s) {v t : Nat} {r : Host} (hex : Exclusive s.task v s.log) (htv : (s.task t).vac = v)
    (hk : (s.task t).kind = .get) (hr : s.ret t = some r) :
    ∃ d, (s.task t).io = [d] ∧ ∀ pre post, ofVac s.task v s.log = pre ++ t :: post → ∀ i, i < size d → r i = seqRun s.task pre m0 d i := by
  have inv := inv_of_reach h
  obtain ⟨d, hio, hprog⟩ := (kinds h t).1 hk
  refine ⟨d, hio, ?_⟩
  intro pre post hsp i hi
  obtain ⟨hf, hrh⟩ := inv.rets t r hr
  have hte := inv.finExec hf
  have htl := inv.execLog t hte
  have hmem : t ∈ ofPhys ph s.task (ph v) s.exec := by
    unfold ofPhys; rw [List.mem_filter]; exact ⟨hte, by simp [htv]⟩
  obtain ⟨p1, p2, hp⟩ := List.append_of_mem hmem
  have hh := inv.outs t hf p1 p2 (by rw [htv]; exact hp)
  -- the tasks of v before t in the execution are the tasks of v before t in the log
  have hv : ofVac s.task v (ofPhys ph s.task (ph v) s.exec) = ofVac s.task v s.exec := by
    unfold ofVac ofPhys
    rw [List.filter_filter]
    apply List.filter_congr
    intro u _
    by_cases hu : (s.task u).vac = v <;> simp [hu]
  have he : ofVac s.task v p1 ++ t :: (ofVac s.task v p2 ++ s.queue v) = pre ++ t :: post := by
    rw [← hsp, ← inv.order v, ← hv, hp]
    simp [ofVac, List.filter_append, htv]
  have hpre : ofVac s.task v p1 = pre := by
    refine split_unique ?_ he
    rw [he, ← hsp]; exact inv.logNodup.filter _
  rw [hrh, hh]
  unfold output
  rw [hprog]
  unfold getProg
  rw [(copyOut_run (d := d) (by rw [hio]; rfl) (size d) 0 _ _).2 i, if_pos (by omega)]
  rw [seq_exclusive hex p1 (fun u hu => inv.execLog u (List.mem_filter.mp (show u ∈ ofPhys ph s.task (ph v) s.exec by rw [hp]; exact List.mem_append_left _ hu)).1)
    m0 m0 (fun _ _ => rfl) d ⟨t, htl, htv, by rw [hio]; simp⟩, hpre]

/-- **C48** (read your writes) As a special case: if the last task before the `get` that could change the data object is an `arax_data_set`, the client gets
exactly the bytes given to that `set` - although `set` does not wait, and whatever the client did to its own copy of the bytes in between. -/
theorem C48_read_your_writes (h : Reach ph size cap m0 s) {v t u d : Nat} {r : Host} {bs A B C : List Nat} (hex : Exclusive s.task v s.log)
    (htv : (s.task t).vac = v) (hk : (s.task t).kind = .get) (hio : (s.task t).io = [d]) (hr : s.ret t = some r)
    (hlog : ofVac s.task v s.log = A ++ u :: B ++ t :: C)
    (hu : (s.task u).kind = .set) (huio : (s.task u).io = [d]) (hup : (s.task u).prog = setProg bs)
    (hB : ∀ w ∈ B, d ∉ (s.task w).io ∨ (s.task w).kind = .get) (hlen : bs.length = size d) :
    ∀ i, i < size d → r i = bs.getD i 0 := by
  intro i hi
  obtain ⟨d', hd', hmain⟩ := C48_get_returns h hex htv hk hr
  rw [hio] at hd'
  injection hd' with hd'
  subst hd'
  rw [hmain (A ++ u :: B) C (by rw [hlog]) i hi, seqRun_append]
  show seqRun s.task B (effect (s.task u) (seqRun s.task A m0)) d i = _
  have hB' : ∀ (l : List Nat) (m : Mem), (∀ w ∈ l, d ∉ (s.task w).io ∨ (s.task w).kind = .get) → seqRun s.task l m d = m d := by
    intro l
    induction l with
    | nil => intro m _; rfl
    | cons w l ih =>
      intro m hl
      show seqRun s.task l (effect (s.task w) m) d = m d
      rw [ih _ (fun x hx => hl x (List.mem_cons_of_mem _ hx))]
      rcases hl w (List.mem_cons_self) with hw | hw
      · exact effect_other hw m
      · obtain ⟨x, hx, hp⟩ := (kinds h w).1 hw
        unfold effect
        rw [hp]
        unfold getProg
        rw [(copyOut_run (d := x) (by rw [hx]; rfl) (size x) 0 m _).1]
  rw [hB' B _ hB]
  unfold effect
  rw [hup]
  unfold setProg
  rw [writeAll_run (d := d) (by rw [huio]; rfl), if_pos (by omega), Nat.sub_zero]

end

/-! ## Concrete executions -/

/-- Execute a schedule. -/
def runA (ph size : Nat → Nat) (cap : Nat) : List Act → St → Option St
  | [], s => some s
  | a :: as, s => (step ph size cap a s).bind (runA ph size cap as)

theorem reach_runA {ph size : Nat → Nat} {cap : Nat} {m0 : Mem} : ∀ (as : List Act) (s s' : St), Reach ph size cap m0 s →
    (∀ a ∈ as, Legal size a) → runA ph size cap as s = some s' → Reach ph size cap m0 s' := by
  intro as
  induction as with
  | nil => intro s s' h _ e; simp only [runA] at e; have e := Option.some.inj e; subst e; exact h
  | cons a as ih =>
    intro s s' h hl e
    simp only [runA] at e
    cases hs : step ph size cap a s with
    | none => rw [hs] at e; simp at e
    | some s1 =>
      rw [hs] at e
      exact ih s1 s' (.step h (hl a (List.mem_cons_self)) hs) (fun b hb => hl b (List.mem_cons_of_mem _ hb)) e

/-- Two virtual accelerators on one physical accelerator: client 0 sets data object 0 to 5 through the first, runs a kernel that leaves it alone through the
second, and reads it back. -/
def twoQueues : List Act :=
  [.set 0 0 0 [5], .client 0, .client 0, .client 0, .issue 0 1 [0] .done, .client 0, .client 0, .client 0, .get 0 0, .client 0, .client 0, .client 0,
   .pop 0 1, .work 0, .pop 0 1, .work 0, .work 0, .work 0, .client 0]

/-- **C48 is violated by the code** when a data object is used with two virtual accelerators of the same device: the library rebinds it silently, the `get` goes through
the second queue and overtakes the `set` in the first.  One client thread, calls in the order set(5), kernel that changes nothing, get: the get
returns the old contents. -/
theorem C48_violated : ∃ s r, Reach (fun _ => 0) (fun _ => 1) 255 (fun _ _ => 0) s ∧ s.log = [0, 1, 2] ∧
    seqRun s.task [0, 1] (fun _ _ => 0) 0 0 = 5 ∧ (s.task 2).io = [0] ∧ (s.task 2).kind = .get ∧ s.ret 2 = some r ∧ r 0 = 0 := by
  have hrun : ((runA (fun _ => 0) (fun _ => 1) 255 twoQueues (init0 (fun _ _ => 0))).map
      (fun s => (s.log, seqRun s.task [0, 1] (fun _ _ => 0) 0 0, (s.task 2).io, (s.task 2).kind, (s.ret 2).map (fun r => r 0)))) =
      some ([0, 1, 2], 5, [0], .get, some 0) := by decide +kernel
  cases hs : runA (fun _ => 0) (fun _ => 1) 255 twoQueues (init0 (fun _ _ => 0)) with
  | none => rw [hs] at hrun; simp at hrun
  | some s =>
    rw [hs] at hrun
    simp only [Option.map_some, Option.some.injEq, Prod.mk.injEq] at hrun
    obtain ⟨h1, h2, h3, h4, h5⟩ := hrun
    cases hret : s.ret 2 with
    | none => rw [hret] at h5; simp at h5
    | some r =>
      rw [hret] at h5
      simp only [Option.map_some, Option.some.injEq] at h5
      refine ⟨s, r, reach_runA _ _ _ .init ?_ hs, h1, h2, h3, h4, hret, h5⟩
      intro a ha
      simp only [twoQueues, List.mem_cons, List.mem_nil_iff, or_false] at ha
      rcases ha with rfl | rfl | rfl | rfl | rfl | rfl | rfl | rfl | rfl | rfl | rfl | rfl | rfl | rfl | rfl | rfl | rfl | rfl | rfl <;>
        first
        | trivial
        | rfl
        | exact ⟨0, trivial⟩

/-- One queue of capacity 2: the client sets, overwrites part of it with a memset task, and reads back; the worker starts before the last call and the byte
steps of worker and client alternate. -/
def oneQueue : List Act :=
  [.set 0 7 3 [1, 2, 3], .client 0, .client 0, .client 0, .issue 0 3 [7] (memsetProg 1 9 2), .client 0, .pop 0 3, .client 0, .work 0, .client 0,
   .get 0 7, .work 0, .client 0, .work 0, .client 0, .work 0, .client 0, .pop 0 3, .work 0, .work 0, .work 0, .pop 0 3] ++
  List.replicate 7 (.work 0) ++ [.client 0]

/-- Non-vacuity of C47 and C48: the execution above is reachable, its data object is used with one virtual accelerator only, and the get has
returned `[1, 9, 9]`. -/
example : ∃ s r, Reach (fun _ => 0) (fun _ => 3) 2 (fun _ _ => 0) s ∧ Exclusive s.task 3 s.log ∧ (s.task 2).vac = 3 ∧ (s.task 2).kind = .get ∧
    s.ret 2 = some r ∧ r 0 = 1 ∧ r 1 = 9 ∧ r 2 = 9 ∧ s.worker 0 = none := by
  have hrun : ((runA (fun _ => 0) (fun _ => 3) 2 oneQueue (init0 (fun _ _ => 0))).map
      (fun s => (s.log, (s.log.map fun t => (s.task t).vac), (s.task 2).kind, (s.ret 2).map (fun r => [r 0, r 1, r 2]), (s.worker 0).isNone))) =
      some ([0, 1, 2], [3, 3, 3], .get, some [1, 9, 9], true) := by decide +kernel
  cases hs : runA (fun _ => 0) (fun _ => 3) 2 oneQueue (init0 (fun _ _ => 0)) with
  | none => rw [hs] at hrun; simp at hrun
  | some s =>
    rw [hs] at hrun
    simp only [Option.map_some, Option.some.injEq, Prod.mk.injEq] at hrun
    obtain ⟨h1, h2, h3, h4, h5⟩ := hrun
    rw [h1] at h2
    simp only [List.map_cons, List.map_nil, List.cons.injEq, and_true] at h2
    cases hret : s.ret 2 with
    | none => rw [hret] at h4; simp at h4
    | some r =>
      rw [hret] at h4
      simp only [Option.map_some, Option.some.injEq, List.cons.injEq, and_true] at h4
      refine ⟨s, r, reach_runA _ _ _ .init ?_ hs, ?_, h2.2.2, h3, hret, h4.1, h4.2.1, h4.2.2, Option.isNone_iff_eq_none.mp h5⟩
      · intro a ha
        simp only [oneQueue, List.mem_append, List.mem_cons, List.mem_nil_iff, or_false, List.mem_replicate] at ha
        rcases ha with ((rfl | rfl | rfl | rfl | rfl | rfl | rfl | rfl | rfl | rfl | rfl | rfl | rfl | rfl | rfl | rfl | rfl | rfl | rfl | rfl | rfl | rfl) |
          ⟨-, rfl⟩) | rfl <;>
          first
          | trivial
          | rfl
          | exact ⟨0, by simp [memsetProg, writeAll, List.replicate, Prog.Fits]⟩
      · intro t ht u hu _ hne
        rw [h1] at hu
        simp only [List.mem_cons, List.mem_nil_iff, or_false] at hu
        rcases hu with rfl | rfl | rfl
        · exact absurd h2.1 hne
        · exact absurd h2.2.1 hne
        · exact absurd h2.2.2 hne

end Arax.Exec
