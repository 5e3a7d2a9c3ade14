import Verif.Exec.RealQueue
/-!
# C86: theorems

What clients and workers see when the queues are those of queue.c, instruction by instruction, is what C47 and C48 say.
-/
namespace Arax.Exec.Real
open Arax.Exec Arax.Queue Arax.Queue.Multi

/-! ## Specification -/

/-- What the system can reach: `ph v` is the physical accelerator of virtual accelerator `v`, `size d` the size of data object `d`, `2 ^ k` the length of the queues, `m0` the
contents of the buffers at the start. -/
abbrev RReach (ph size : Nat → Nat) (k : Nat) (m0 : Mem) : CSt G → Prop := CReach (prog ph size) (2 ^ k) (g0 m0)

/-- The tasks that have entered the queue of virtual accelerator `v` (bottom advanced past them, /repo/src/utils/queue.c:120), in order. -/
def entered (c : CSt G) (v : Nat) : List Nat := (c.s v).pushed.map (· - 1)

/-- The tasks that have left it (top advanced past them, /repo/src/utils/queue.c:81), in order. -/
def left (c : CSt G) (v : Nat) : List Nat := (c.s v).popped.map (· - 1)

/-- No data object is used both by a task that has entered the queue of `v` and by one that has entered another queue. -/
def Private (c : CSt G) (v : Nat) : Prop :=
  ∀ t ∈ entered c v, ∀ w, w ≠ v → ∀ u ∈ entered c w, ∀ d, d ∈ (c.g.task t).io → d ∉ (c.g.task u).io

/-! ## Refinement -/

section
variable {ph size : Nat → Nat} {k : Nat} {m0 : Mem} {c : CSt G}

theorem r_init (m0 : Mem) : R ph (ainit (g0 m0)) (init0 m0) where
  mem := rfl
  accel := rfl
  task := rfl
  next := rfl
  fin := rfl
  host := rfl
  ret := rfl
  queue _ := rfl
  client _ := rfl
  worker _ := rfl
  thc _ _ := .inl rfl
  thw _ _ := .inl rfl
  low _ _ h := by cases h
  issued _ h := by cases h
  pushed _ _ h := by cases h
  taken _ := rfl

/-- The atomic state stands for a reachable state of `Exec`. -/
def Good (ph size : Nat → Nat) (k : Nat) (m0 : Mem) (a : ASt G) : Prop := ∃ s, Reach ph size (2 ^ k) m0 s ∧ R ph a s

theorem good_want {a : ASt G} (h : Good ph size k m0 a) (i v : Nat) (hw : (prog ph size).want a.g i = some (v, .pop)) : i = 2 * ph v + 1 := by
  obtain ⟨s, _, hr⟩ := h
  rcases parity i with ⟨hp, hi⟩ | ⟨hp, hi⟩
  · simp only [prog, if_pos hp] at hw
    split at hw <;> cases hw
  · simp only [prog, if_neg hp] at hw
    split at hw
    · next w hw' =>
      have := hr.worker (i / 2)
      rw [hw'] at this
      have e := (Prod.mk.inj (Option.some.inj hw)).1
      subst e
      rw [this.1]; exact hi
    · cases hw

/-- The tasks that have been handed to workers are those that have left the queue; workers only pop. -/
structure Told (c : CSt G) : Prop where
  told : ∀ v, (c.s v).popped = (c.g.taken v).map (· + 1)
  odd : ∀ v p, (c.s v).pc (2 * p + 1) = .idle ∨ Lin.inPop ((c.s v).pc (2 * p + 1)) = true

theorem own_taken {g g' : G} (h : (prog ph size).own g g') : g'.taken = g.taken := by
  obtain ⟨a, _, h⟩ := h
  have hb : ∀ c t, rbegin g c t = some g' → g'.taken = g.taken := by
    intro c t e
    unfold rbegin at e
    split at e
    · cases e; rfl
    · cases e
  cases a with
  | issue c v io p => exact hb _ _ h
  | set c d v bs =>
    simp only [rstep] at h
    split at h
    · exact hb _ _ h
    · split at h
      · cases h; rfl
      · cases h
  | get c d =>
    simp only [rstep] at h
    split at h
    · exact hb _ _ h
    · split at h
      · cases h; rfl
      · cases h
  | wait c t =>
    simp only [rstep] at h
    split at h
    · cases h; rfl
    · cases h
  | client c =>
    simp only [rstep, rclient] at h
    split at h
    · split at h
      · cases h; rfl
      · split at h
        · cases h; rfl
        · split at h <;> (cases h; rfl)
    · split at h
      · cases h
      · cases h; rfl
    · split at h <;> (cases h; rfl)
    · cases h; rfl
    · split at h
      · cases h; rfl
      · cases h
    all_goals cases h
  | pick p v =>
    simp only [rstep] at h
    split at h
    · split at h
      · cases h; rfl
      · cases h
    · cases h
  | work p =>
    simp only [rstep, rwork] at h
    split at h <;> first | (cases h; rfl) | cases h

theorem call_taken (g : G) (i : Nat) (x : Conc.Cmd) : ((prog ph size).call g i x).taken = g.taken := by
  simp only [prog]
  split
  · split <;> rfl
  · split <;> rfl

/-- Only the CAS of a pop changes what has left. -/
theorem popped_step (cap : Nat) (s : Conc.St) (i : Nat) (x : Conc.Cmd) :
    (Conc.step cap s i x).popped = match s.pc i with
      | .popC t _ v => if s.top = t then s.popped ++ [v] else s.popped
      | _ => s.popped := by
  rw [Conc.step.eq_def]
  cases hp : s.pc i <;> dsimp only
  · cases x <;> rfl
  all_goals (try split) <;> rfl

/-- A worker in a pop stays in it or returns. -/
theorem stays (cap : Nat) (s : Conc.St) (i j : Nat) (x : Conc.Cmd) (hx : j = i → s.pc j = .idle → x = .pop)
    (h : s.pc j = .idle ∨ Lin.inPop (s.pc j) = true) : (Conc.step cap s i x).pc j = .idle ∨ Lin.inPop ((Conc.step cap s i x).pc j) = true := by
  by_cases hji : j = i
  · subst hji
    rw [Conc.step.eq_def]
    cases hp : s.pc j with
    | idle => cases hx rfl hp; simp [Conc.St.goto, Lin.inPop]
    | popB t gt => dsimp only; split <;> simp [Conc.St.goto, Lin.inPop]
    | popE t gt => simp [Conc.St.goto, Lin.inPop]
    | popC t gt v => dsimp only; split <;> simp [Conc.St.goto]
    | _ => rw [hp] at h; rcases h with h | h <;> cases h
  · have e : (Conc.step cap s i x).pc j = s.pc j := by
      rw [Conc.step.eq_def]
      cases hp : s.pc i <;> dsimp only <;> (try (cases x)) <;> (try split) <;> simp [Conc.St.goto, hji]
    rw [e]; exact h

theorem stays_set {c : CSt G} (ht : Told c) (cap v i : Nat) (x : Conc.Cmd) (hx : ∀ p, i = 2 * p + 1 → (c.s v).pc i = .idle → x = .pop) (u p : Nat) :
    (Multi.set c.s v (Conc.step cap (c.s v) i x) u).pc (2 * p + 1) = .idle ∨
      Lin.inPop ((Multi.set c.s v (Conc.step cap (c.s v) i x) u).pc (2 * p + 1)) = true := by
  by_cases hu : u = v
  · subst hu
    rw [set_same]
    exact stays cap (c.s u) i (2 * p + 1) x (fun e e2 => hx p e.symm (by rw [← e]; exact e2)) (ht.odd u p)
  · rw [set_ne _ _ hu]; exact ht.odd u p

theorem ret_even (g : G) (i r : Nat) (h : i % 2 = 0) : ((prog ph size).ret g i r).taken = g.taken := by
  simp only [prog, if_pos h]
  split <;> rfl

theorem told_step {c c' : CSt G} {a a' : ASt G} (hs : MSim (2 ^ k) c a) (hs' : MSim (2 ^ k) c' a') (hg : Good ph size k m0 a) (ht : Told c)
    (h : CStep (prog ph size) (2 ^ k) c c') : Told c' := by
  obtain ⟨s, hre, hr⟩ := hg
  have hag : a.g = c.g := (hs 0).g
  cases h with
  | @own g' ho => exact ⟨fun v => by show _ = List.map _ (g'.taken v); rw [own_taken ho]; exact ht.told v, ht.odd⟩
  | @call i v x hi hx =>
    refine ⟨fun u => ?_, fun u p => stays_set ht _ v i x (fun p e _ => ?_) u p⟩
    · show (Multi.set c.s v (Conc.step (2 ^ k) (c.s v) i x) u).popped = _
      rw [show ((prog ph size).call c.g i x).taken = c.g.taken from call_taken ..]
      by_cases hu : u = v
      · subst hu; rw [set_same, popped_step, hi]; exact ht.told u
      · rw [set_ne _ _ hu]; exact ht.told u
    · simp only [prog, if_neg (show i % 2 ≠ 0 by omega)] at hx
      split at hx
      · exact (Prod.mk.inj (Option.some.inj hx)).2.symm
      · cases hx
  | @instr i v hi hn =>
    refine ⟨fun u => ?_, fun u p => stays_set ht _ v i .pop (fun _ _ _ => rfl) u p⟩
    show (Multi.set c.s v (Conc.step (2 ^ k) (c.s v) i .pop) u).popped = _
    by_cases hu : u = v
    · subst hu
      rw [set_same, popped_step]
      split
      · next t gt x hpc =>
        exfalso
        apply hn
        rw [Conc.step.eq_def, hpc]
        dsimp only
        split <;> simp [Conc.St.goto]
      · exact ht.told u
    · rw [set_ne _ _ hu]; exact ht.told u
  | @last i v hi hn =>
    refine ⟨fun u => ?_, fun u p => stays_set ht _ v i .pop (fun _ _ _ => rfl) u p⟩
    show (Multi.set c.s v (Conc.step (2 ^ k) (c.s v) i .pop) u).popped = (((prog ph size).ret c.g i (Lin.result (c.proj v) i)).taken u).map (· + 1)
    have hth : Lin.ThOk ((c.s v).pc i) (c.data v i) (a.th v i) := (hs v).th i
    have hq := (hs v).q
    have hq' := (hs' v).q
    simp only [CSt.proj, ASt.proj, set_same] at hq hq'
    rcases parity i with ⟨hp, hie⟩ | ⟨hp, hie⟩
    · rw [ret_even _ _ _ hp]
      by_cases hu : u = v
      · subst hu
        rw [set_same, popped_step]
        split
        · next t gt x hpc =>
          exfalso
          rw [hpc] at hth
          have hth : a.th u i = .called .pop gt := hth
          rw [hie] at hth
          obtain ⟨t', _, _, h⟩ := in_push hr (v := u) (c := i / 2) (by rw [hth]; exact fun e => by cases e)
          rcases h with ⟨n, e, _⟩ | ⟨e, _⟩ | ⟨e, _⟩ <;> rw [hth] at e <;> cases e
        · exact ht.told u
      · rw [set_ne _ _ hu]; exact ht.told u
    · have hin : Lin.inPop ((c.s v).pc i) = true := by
        have := ht.odd v (i / 2)
        rw [← hie] at this
        exact this.resolve_left hi
      have hout : a.th v (2 * (i / 2) + 1) ≠ .out := by
        rw [← hie]
        intro e
        rw [e] at hth
        cases hpc : (c.s v).pc i <;> rw [hpc] at hth hin <;> first | (cases hin; done) | (cases hth; done)
      obtain ⟨hw, hpv, _⟩ := in_pop hr hout
      rw [hag] at hw
      simp only [prog, if_neg hp, hw]
      by_cases hr0 : Lin.result (c.proj v) i = 0
      · rw [if_pos hr0]
        by_cases hu : u = v
        · subst hu
          rw [set_same, popped_step]
          split
          · next t gt x hpc =>
            split
            · next htop =>
              exfalso
              have e : Lin.result (c.proj u) i = x := by
                show (match (c.s u).pc i with | .popC t _ v => if (c.s u).top = t then v else 0 | .pushU => c.data u i | _ => 0) = x
                rw [hpc]; exact if_pos htop
              have hpop := popped_step (2 ^ k) (c.s u) i .pop
              rw [hpc] at hpop
              simp only [if_pos htop] at hpop
              have hpu : (Conc.step (2 ^ k) (c.s u) i .pop).pushed = (c.s u).pushed := by
                rw [Conc.step.eq_def, hpc]; simp only [if_pos htop]; rfl
              rw [hpop, hpu, hq, List.append_assoc] at hq'
              have hq2 := List.append_cancel_left hq'
              rw [hr.queue u] at hq2
              cases hsq : s.queue u with
              | nil => rw [hsq] at hq2; cases hq2
              | cons y ys =>
                rw [hsq] at hq2
                have : y + 1 = x := (List.cons.inj hq2).1
                omega
            · exact ht.told u
          · exact ht.told u
        · rw [set_ne _ _ hu]; exact ht.told u
      · rw [if_neg hr0]
        have hpc : ∃ t gt, (c.s v).pc i = .popC t gt (Lin.result (c.proj v) i) ∧ (c.s v).top = t := by
          have e : Lin.result (c.proj v) i = (match (c.s v).pc i with | .popC t _ x => if (c.s v).top = t then x else 0 | .pushU => c.data v i | _ => 0) := rfl
          cases hpc : (c.s v).pc i with
          | popC t gt x =>
            rw [hpc] at e
            dsimp only at e
            by_cases htop : (c.s v).top = t
            · rw [if_pos htop] at e; exact ⟨t, gt, by rw [e], htop⟩
            · rw [if_neg htop] at e; exact absurd e hr0
          | pushU => rw [hpc] at hin; cases hin
          | _ => rw [hpc] at e; exact absurd e hr0
        obtain ⟨t, gt, hpc, htop⟩ := hpc
        by_cases hu : u = v
        · subst hu
          show _ = List.map (· + 1) (upd c.g.taken u (c.g.taken u ++ [Lin.result (c.proj u) i - 1]) u)
          rw [set_same, popped_step, hpc, upd_same]
          simp only [if_pos htop, List.map_append, List.map_cons, List.map_nil, ht.told u]
          rw [Nat.sub_add_cancel (by omega)]
        · show _ = List.map (· + 1) (upd c.g.taken v (c.g.taken v ++ [Lin.result (c.proj v) i - 1]) u)
          rw [set_ne _ _ hu, upd_ne _ _ _ _ hu]; exact ht.told u

theorem all_reach (hk : k ≤ 15) (h : RReach ph size k m0 c) : Told c ∧ Alone (fun v => 2 * ph v + 1) c.s ∧ ∃ a, Good ph size k m0 a ∧ MSim (2 ^ k) c a := by
  induction h with
  | init => exact ⟨⟨fun _ => rfl, fun _ _ => .inl rfl⟩, alone_init _ _, _, ⟨_, .init, r_init m0⟩, msim_init _ _⟩
  | step _ hst ih =>
    obtain ⟨ht, hal, a, ha, hs⟩ := ih
    obtain ⟨hal', a', ha', hs'⟩ := msim_step (prog ph size) (fun v => 2 * ph v + 1) k hk (Good ph size k m0) (fun a ha i v => good_want ha i v)
      (fun a b ⟨s, hre, hr⟩ hst => astep_R hre hr b hst) hal hs ha hst
    exact ⟨told_step hs hs' ha ht hst, hal', a', ha', hs'⟩

/-- **C86** (refinement).  Any number of clients and workers, any number of virtual accelerators, queues of any power of two up to 32768, every interleaving of single memory
accesses of `utils_queue_push`, `utils_queue_pop` and the spinlocks: whatever state the system gets into, the system with list queues and atomic operations (`Exec`) has a state with
the same buffers, bindings, tasks, results and completion flags, in which the same tasks have entered and left each queue in the same order. -/
theorem C86_refines (hk : k ≤ 15) (h : RReach ph size k m0 c) : ∃ s, Reach ph size (2 ^ k) m0 s ∧
    s.mem = c.g.mem ∧ s.accel = c.g.accel ∧ s.task = c.g.task ∧ s.fin = c.g.fin ∧ s.host = c.g.host ∧ s.ret = c.g.ret ∧
    (∀ v, ofVac s.task v s.log = entered c v ∧ ofVac s.task v s.exec = left c v) ∧ (∀ v, c.g.taken v = left c v) ∧
    (∀ t ∈ c.g.issued, t ∈ s.log) ∧ (∀ p, (∀ t pr, c.g.worker p ≠ .run t pr) → s.worker p = none) := by
  obtain ⟨ht, hal, a, ⟨s, hre, hr⟩, hs⟩ := all_reach hk h
  have hag : a.g = c.g := (hs 0).g
  have hth : ∀ v p, Lin.ThOk ((c.s v).pc (2 * p + 1)) (c.data v (2 * p + 1)) (a.th v (2 * p + 1)) := fun v p => (hs v).th _
  have hnd : ∀ v p r, a.th v (2 * p + 1) ≠ .done r := by
    intro v p r e
    have h1 := hth v p
    have h2 := ht.odd v p
    rw [e] at h1
    cases hpc : (c.s v).pc (2 * p + 1) <;> rw [hpc] at h1 h2 <;> first | (cases h1; done) | (rcases h2 with h2 | h2 <;> cases h2)
  have htk : ∀ v, c.g.taken v = left c v := by
    intro v
    unfold left
    rw [ht.told v, List.map_map]
    exact (List.map_id'' (fun x => Nat.add_sub_cancel x 1) _).symm
  have hex : ∀ v, ofVac s.task v s.exec = left c v := by
    intro v
    have := hr.taken v
    rw [hag, htk v] at this
    have e : pend (a.th v (2 * ph v + 1)) = [] := by
      unfold pend
      split
      · next t e => exact absurd e (hnd _ _ _)
      · rfl
    rw [e, List.append_nil] at this
    exact this
  refine ⟨s, hre, by rw [hr.mem, hag], by rw [hr.accel, hag], by rw [hr.task, hag], by rw [hr.fin, hag], by rw [hr.host, hag], by rw [hr.ret, hag],
    fun v => ⟨?_, hex v⟩, htk, fun t ht => hr.issued t (by rw [hag]; exact ht), fun p hp => ?_⟩
  · rw [← C47_issue_order hre v, hex v]
    have hq := (hs v).q
    simp only [CSt.proj, ASt.proj] at hq
    unfold entered left
    rw [hq, hr.queue v, List.map_append, List.map_map]
    congr 1
    exact (List.map_id'' (fun x => Nat.add_sub_cancel x 1) _).symm
  · have hw := hr.worker p
    rw [hag] at hw
    cases hpw : c.g.worker p with
    | free => rw [hpw] at hw; exact hw
    | pick v => rw [hpw] at hw; exact hw.2
    | run t pr => exact absurd hpw (hp t pr)
    | inPop v =>
      rw [hpw] at hw
      rcases hw.2 with ⟨n, _, e⟩ | ⟨_, e⟩ | ⟨t, e, _⟩
      · exact e
      · exact e
      · exact absurd e (hnd _ _ _)

/-- **C86** (nothing lost, doubled or overtaken).  The tasks that workers have been handed from a queue are, in order, the first ones of those that entered it; no task enters a queue
twice, or a queue that it was not issued to; and every task whose issue has returned has entered its queue. -/
theorem C86_order (hk : k ≤ 15) (h : RReach ph size k m0 c) (v : Nat) : c.g.taken v <+: entered c v ∧ (entered c v).Nodup ∧
    (∀ t ∈ entered c v, (c.g.task t).vac = v) ∧ (∀ t ∈ c.g.issued, t ∈ entered c (c.g.task t).vac) := by
  obtain ⟨s, hre, _, _, htask, _, _, _, hv, htk, hiss, _⟩ := C86_refines hk h
  have inv := inv_of_reach hre
  refine ⟨?_, ?_, ?_, ?_⟩
  · rw [htk v, ← (hv v).1, ← (hv v).2, ← C47_issue_order hre v]; exact List.prefix_append ..
  · rw [← (hv v).1]; exact inv.logNodup.filter _
  · intro t ht
    rw [← (hv v).1] at ht
    have := (List.mem_filter.1 ht).2
    rw [← htask]; simpa using this
  · intro t ht
    rw [← (hv _).1, htask]
    exact List.mem_filter.2 ⟨hiss t ht, by simp⟩

/-- **C86** (program order).  The tasks of one client thread enter a queue in the order of its calls. -/
theorem C86_program_order (hk : k ≤ 15) (h : RReach ph size k m0 c) (v cl : Nat) :
    ((entered c v).filter (fun t => decide ((c.g.task t).owner = cl))).Pairwise (· < ·) := by
  obtain ⟨s, hre, _, _, htask, _, _, _, hv, _⟩ := C86_refines hk h
  rw [← (hv v).1, ← htask]
  have := C47_program_order hre cl
  unfold ofVac
  exact this.sublist (List.Sublist.filter _ List.filter_sublist)

theorem private_exclusive {s : St} (htask : s.task = c.g.task) (hv : ∀ v, ofVac s.task v s.log = entered c v) {v : Nat} (hp : Private c v) :
    Exclusive s.task v s.log := by
  intro t ht u hu htv huv d hd
  rw [htask] at *
  have h1 : ∀ x ∈ s.log, x ∈ entered c (c.g.task x).vac := fun x hx => by rw [← hv, htask]; exact List.mem_filter.2 ⟨hx, by simp⟩
  exact hp t (by have := h1 t ht; rw [htv] at this; exact this) _ huv u (h1 u hu) d hd

/-- **C86** (serial).  Whenever the worker of the physical accelerator of `v` runs no task, every data object bound to `v` has the contents obtained by running, one after the other and each as a single operation, the tasks that the worker was handed:
in some order `L` that is, for each of the worker's queues, the order in which the tasks left it. -/
theorem C86_serial (hk : k ≤ 15) (h : RReach ph size k m0 c) {d v : Nat} (hd : c.g.accel d = some v) (hw : ∀ t pr, c.g.worker (ph v) ≠ .run t pr) :
    ∃ L, (∀ w, ph w = ph v → ofVac c.g.task w L = c.g.taken w) ∧ (∀ t ∈ L, ph (c.g.task t).vac = ph v) ∧ c.g.mem d = seqRun c.g.task L m0 d := by
  obtain ⟨s, hre, hmem, hacc, htask, _, _, _, hv, htk, _, hwk⟩ := C86_refines hk h
  refine ⟨ofPhys ph s.task (ph v) s.exec, ?_, ?_, ?_⟩
  · intro w hwv
    rw [htk w, ← (hv w).2, ← htask]
    unfold ofVac ofPhys
    rw [List.filter_filter]
    apply List.filter_congr
    intro u _
    by_cases hu : (s.task u).vac = w <;> simp [hu, hwv]
  · intro t ht
    have := (List.mem_filter.1 ht).2
    rw [← htask]; simpa using this
  · rw [← hmem, ← htask]
    exact C47_atomic hre (by rw [hacc]; exact hd) (hwk _ hw)

/-- **C86** (gets).  If the data used with `v` is used with no other virtual accelerator, an `arax_data_get` issued to `v` that has returned gave the client the contents that the data object has after exactly
the tasks that entered the queue of `v` before it, one after the other, in the order in which they entered it. -/
theorem C86_get_returns (hk : k ≤ 15) (h : RReach ph size k m0 c) {v t : Nat} {r : Host} (hp : Private c v) (htv : (c.g.task t).vac = v)
    (hg : (c.g.task t).kind = .get) (hr : c.g.ret t = some r) :
    ∃ d, (c.g.task t).io = [d] ∧ ∀ pre post, entered c v = pre ++ t :: post → ∀ i, i < size d → r i = seqRun c.g.task pre m0 d i := by
  obtain ⟨s, hre, _, _, htask, _, _, hret, hv, _⟩ := C86_refines hk h
  have := C48_get_returns hre (private_exclusive htask (fun v => (hv v).1) hp) (by rw [htask]; exact htv) (by rw [htask]; exact hg) (by rw [hret]; exact hr)
  rw [(hv v).1, htask] at this
  exact this

/-- **C86** (read your writes).  In particular, if the last task before it in the queue that uses the data object, gets apart, is an `arax_data_set` of `bs`, the get returns `bs`. -/
theorem C86_read_your_writes (hk : k ≤ 15) (h : RReach ph size k m0 c) {v t u d : Nat} {r : Host} {bs A B C : List Nat} (hp : Private c v)
    (htv : (c.g.task t).vac = v) (hg : (c.g.task t).kind = .get) (hio : (c.g.task t).io = [d]) (hr : c.g.ret t = some r)
    (hlog : entered c v = A ++ u :: B ++ t :: C)
    (hu : (c.g.task u).kind = .set) (huio : (c.g.task u).io = [d]) (hup : (c.g.task u).prog = setProg bs)
    (hB : ∀ w ∈ B, d ∉ (c.g.task w).io ∨ (c.g.task w).kind = .get) (hlen : bs.length = size d) :
    ∀ i, i < size d → r i = bs.getD i 0 := by
  obtain ⟨s, hre, _, _, htask, _, _, hret, hv, _⟩ := C86_refines hk h
  refine C48_read_your_writes hre (v := v) (t := t) (u := u) (A := A) (B := B) (C := C) (private_exclusive htask (fun v => (hv v).1) hp) ?_ ?_ ?_ ?_ ?_ ?_ ?_ ?_ ?_ hlen
  · rw [htask]; exact htv
  · rw [htask]; exact hg
  · rw [htask]; exact hio
  · rw [hret]; exact hr
  · rw [(hv v).1]; exact hlog
  · rw [htask]; exact hu
  · rw [htask]; exact huio
  · rw [htask]; exact hup
  · rw [htask]; exact hB

end

/-! ## The lock of a virtual accelerator -/

/-- The client is between locking and unlocking (/repo/src/core/arax_vaccel.c:34, 38) for task `t`. -/
def RC.holds : RC → Option Nat
  | .push t | .inPush t | .unlock t => some t
  | _ => none

/-- The lock word of a virtual accelerator is taken while a client is inside, and one client is inside at most. -/
structure LockInv (g : G) : Prop where
  low : ∀ c t, (g.client c).busy = some t → t < g.next
  held : ∀ c t, (g.client c).holds = some t → g.lock (g.task t).vac = 1
  one : ∀ c c' t t', (g.client c).holds = some t → (g.client c').holds = some t' → (g.task t).vac = (g.task t').vac → c = c'

theorem holds_busy {r : RC} {t : Nat} (h : r.holds = some t) : r.busy = some t := by cases r <;> first | exact h | cases h

/-- A client moves, its task and its holding stay. -/
theorem lock_move {g g' : G} (hi : LockInv g) (c : Nat) (rc : RC) (hc : g'.client = upd g.client c rc) (ht : g'.task = g.task) (hl : g'.lock = g.lock)
    (hn : g'.next = g.next) (hb : ∀ t, rc.busy = some t → (g.client c).busy = some t) (hh : ∀ t, rc.holds = some t → (g.client c).holds = some t) : LockInv g' := by
  have e : ∀ j t, (g'.client j).holds = some t → (g.client j).holds = some t := by
    intro j t h
    rw [hc] at h
    by_cases hj : j = c
    · subst hj; rw [upd_same] at h; exact hh t h
    · rw [upd_ne _ _ _ _ hj] at h; exact h
  refine ⟨fun j t h => ?_, fun j t h => ?_, fun j j' t t' h h' hv => ?_⟩
  · rw [hn]
    rw [hc] at h
    by_cases hj : j = c
    · subst hj; rw [upd_same] at h; exact hi.low j t (hb t h)
    · rw [upd_ne _ _ _ _ hj] at h; exact hi.low j t h
  · rw [hl, ht]; exact hi.held j t (e j t h)
  · rw [ht] at hv; exact hi.one j j' t t' (e j t h) (e j' t' h') hv

theorem lock_begin {g g' : G} (hi : LockInv g) (c : Nat) (t : Task) (h : rbegin g c t = some g') : LockInv g' := by
  unfold rbegin at h
  split at h
  · cases h
    have hne : ∀ j u, (g.client j).holds = some u → upd g.task g.next t u = g.task u := fun j u h => upd_ne _ _ _ _ (by have := hi.low j u (holds_busy h); omega)
    have e : ∀ j u, (upd g.client c (.prep g.next 0) j).holds = some u → (g.client j).holds = some u := by
      intro j u h
      by_cases hj : j = c
      · subst hj; rw [upd_same] at h; cases h
      · rw [upd_ne _ _ _ _ hj] at h; exact h
    refine ⟨fun j u h => ?_, fun j u h => ?_, fun j j' u u' h h' hv => ?_⟩
    · show u < g.next + 1
      have h : (upd g.client c (.prep g.next 0) j).busy = some u := h
      by_cases hj : j = c
      · subst hj; rw [upd_same] at h; cases h; omega
      · rw [upd_ne _ _ _ _ hj] at h; have := hi.low j u h; omega
    · show g.lock (upd g.task g.next t u).vac = 1
      rw [hne j u (e j u h)]; exact hi.held j u (e j u h)
    · have hv : (upd g.task g.next t u).vac = (upd g.task g.next t u').vac := hv
      rw [hne j u (e j u h), hne j' u' (e j' u' h')] at hv
      exact hi.one j j' u u' (e j u h) (e j' u' h') hv
  · cases h

theorem lock_own {ph size : Nat → Nat} {g g' : G} (hi : LockInv g) (h : (prog ph size).own g g') : LockInv g' := by
  obtain ⟨a, _, h⟩ := h
  have same : ∀ g' : G, g'.client = g.client → g'.task = g.task → g'.lock = g.lock → g'.next = g.next → LockInv g' := by
    intro g' e1 e2 e3 e4
    exact ⟨fun c t h => by rw [e4]; rw [e1] at h; exact hi.low c t h, fun c t h => by rw [e3, e2]; rw [e1] at h; exact hi.held c t h,
      fun c c' t t' h h' hv => by rw [e1] at h h'; rw [e2] at hv; exact hi.one c c' t t' h h' hv⟩
  cases a with
  | issue c v io p => exact lock_begin hi _ _ h
  | set c d v bs =>
    simp only [rstep] at h
    split at h
    · exact lock_begin hi _ _ h
    · split at h
      · cases h; exact lock_move hi c .aborted rfl rfl rfl rfl (fun _ e => by cases e) (fun _ e => by cases e)
      · cases h
  | get c d =>
    simp only [rstep] at h
    split at h
    · exact lock_begin hi _ _ h
    · split at h
      · cases h; exact lock_move hi c .aborted rfl rfl rfl rfl (fun _ e => by cases e) (fun _ e => by cases e)
      · cases h
  | wait c t =>
    simp only [rstep] at h
    split at h
    · cases h; exact lock_move hi c (.wait t) rfl rfl rfl rfl (fun _ e => by cases e) (fun _ e => by cases e)
    · cases h
  | client c =>
    simp only [rstep, rclient] at h
    split at h
    · next t k hc =>
      split at h
      · cases h; exact lock_move hi c (.spin t) rfl rfl rfl rfl (fun _ e => by rw [hc]; exact e) (fun _ e => by cases e)
      · split at h
        · cases h; exact lock_move hi c (.prep t (k + 1)) rfl rfl rfl rfl (fun _ e => by rw [hc]; exact e) (fun _ e => by cases e)
        · split at h
          · cases h; exact lock_move hi c (.prep t (k + 1)) rfl rfl rfl rfl (fun _ e => by rw [hc]; exact e) (fun _ e => by cases e)
          · cases h; exact lock_move hi c .aborted rfl rfl rfl rfl (fun _ e => by cases e) (fun _ e => by cases e)
    · next t hc =>
      split at h
      · cases h
      · cases h; exact lock_move hi c (.cas t) rfl rfl rfl rfl (fun _ e => by rw [hc]; exact e) (fun _ e => by cases e)
    · next t hc =>
      split at h
      · next hl =>
        cases h
        have old : ∀ j u, j ≠ c → (upd g.client c (.push t) j).holds = some u → (g.client j).holds = some u := fun j u hj h => by rw [upd_ne _ _ _ _ hj] at h; exact h
        refine ⟨fun j u h => ?_, fun j u h => ?_, fun j j' u u' h h' hv => ?_⟩
        · have h : (upd g.client c (.push t) j).busy = some u := h
          by_cases hj : j = c
          · subst hj; rw [upd_same] at h; exact hi.low j u (by rw [hc]; exact h)
          · rw [upd_ne _ _ _ _ hj] at h; exact hi.low j u h
        · show upd g.lock (g.task t).vac 1 (g.task u).vac = 1
          by_cases hv : (g.task u).vac = (g.task t).vac
          · rw [hv, upd_same]
          · rw [upd_ne _ _ _ _ hv]
            by_cases hj : j = c
            · subst hj
              have h : (upd g.client j (.push t) j).holds = some u := h
              rw [upd_same] at h
              cases h; exact absurd rfl hv
            · exact hi.held j u (old j u hj h)
        · by_cases hj : j = c
          · by_cases hj' : j' = c
            · rw [hj, hj']
            · subst hj
              have h : (upd g.client j (.push t) j).holds = some u := h
              rw [upd_same] at h
              cases h
              have := hi.held j' u' (old j' u' hj' h')
              have hv : (g.task t).vac = (g.task u').vac := hv
              rw [← hv, hl] at this
              cases this
          · by_cases hj' : j' = c
            · subst hj'
              have h' : (upd g.client j' (.push t) j').holds = some u' := h'
              rw [upd_same] at h'
              cases h'
              have := hi.held j u (old j u hj h)
              have hv : (g.task u).vac = (g.task t).vac := hv
              rw [hv, hl] at this
              cases this
            · exact hi.one j j' u u' (old j u hj h) (old j' u' hj' h') hv
      · cases h; exact lock_move hi c (.spin t) rfl rfl rfl rfl (fun _ e => by rw [hc]; exact e) (fun _ e => by cases e)
    · next t hc =>
      cases h
      have hnone : (if (g.task t).kind = .get then RC.wait t else RC.idle).holds = none ∧ (if (g.task t).kind = .get then RC.wait t else RC.idle).busy = none := by
        split <;> exact ⟨rfl, rfl⟩
      have old : ∀ j u, (upd g.client c (if (g.task t).kind = .get then RC.wait t else RC.idle) j).holds = some u → j ≠ c ∧ (g.client j).holds = some u := by
        intro j u h
        by_cases hj : j = c
        · subst hj; rw [upd_same, hnone.1] at h; cases h
        · rw [upd_ne _ _ _ _ hj] at h; exact ⟨hj, h⟩
      refine ⟨fun j u h => ?_, fun j u h => ?_, fun j j' u u' h h' hv => hi.one j j' u u' (old j u h).2 (old j' u' h').2 hv⟩
      · have h : (upd g.client c (if (g.task t).kind = .get then RC.wait t else RC.idle) j).busy = some u := h
        by_cases hj : j = c
        · subst hj; rw [upd_same, hnone.2] at h; cases h
        · rw [upd_ne _ _ _ _ hj] at h; exact hi.low j u h
      · obtain ⟨hj, h⟩ := old j u h
        show upd g.lock (g.task t).vac 0 (g.task u).vac = 1
        rw [upd_ne _ _ _ _ (fun hv => hj (hi.one j c u t h (by rw [hc]; rfl) hv))]
        exact hi.held j u h
    · split at h
      · cases h; exact lock_move hi c .idle rfl rfl rfl rfl (fun _ e => by cases e) (fun _ e => by cases e)
      · cases h
    all_goals cases h
  | pick p v =>
    simp only [rstep] at h
    split at h
    · split at h
      · cases h; exact same _ rfl rfl rfl rfl
      · cases h
    · cases h
  | work p =>
    simp only [rstep, rwork] at h
    split at h <;> first | (cases h; exact same _ rfl rfl rfl rfl) | cases h

theorem lock_prog {ph size : Nat → Nat} {g : G} (hi : LockInv g) (i r : Nat) (x : Conc.Cmd) :
    LockInv ((prog ph size).call g i x) ∧ LockInv ((prog ph size).ret g i r) := by
  have same : ∀ (w : Nat → RW) (tk : Nat → List Nat), LockInv { g with worker := w, taken := tk } := fun _ _ => ⟨hi.low, hi.held, hi.one⟩
  constructor
  · simp only [prog]
    split
    · split
      · next t hc => exact lock_move hi (i / 2) (.inPush t) rfl rfl rfl rfl (fun _ e => by rw [hc]; exact e) (fun _ e => by rw [hc]; exact e)
      · exact hi
    · split
      · exact same _ g.taken
      · exact hi
  · simp only [prog]
    split
    · split
      · next t hc =>
        exact lock_move hi (i / 2) (if r = 0 then .push t else .unlock t) rfl rfl rfl rfl (fun _ e => by rw [hc]; split at e <;> exact e)
          (fun _ e => by rw [hc]; split at e <;> exact e)
      · exact hi
    · split
      · split
        · exact same _ g.taken
        · exact same _ _
      · exact hi

/-- **C86** (the lock).  At most one client is between locking and unlocking the spinlock of a virtual accelerator, in every interleaving; the lock word is 1 meanwhile. -/
theorem C86_lock {ph size : Nat → Nat} {k : Nat} {m0 : Mem} {c : CSt G} (h : RReach ph size k m0 c) :
    (∀ cl t, (c.g.client cl).holds = some t → c.g.lock (c.g.task t).vac = 1) ∧
    ∀ cl cl' t t', (c.g.client cl).holds = some t → (c.g.client cl').holds = some t' → (c.g.task t).vac = (c.g.task t').vac → cl = cl' := by
  have : LockInv c.g := by
    induction h with
    | init => exact ⟨fun _ _ h => (by cases h), fun _ _ h => (by cases h), fun _ _ _ _ h => by cases h⟩
    | step _ hst ih =>
      cases hst with
      | own ho => exact lock_own ih ho
      | @call i v x _ _ => exact (lock_prog (ph := ph) (size := size) ih i 0 x).1
      | instr _ _ => exact ih
      | @last i v _ _ => exact (lock_prog (ph := ph) (size := size) ih i _ .pop).2
  exact ⟨this.held, this.one⟩

/-! ## A run -/

/-- What happens next in a run: a step outside the queues, or the next instruction of thread `i` in queue `v` (for a run to be computed; model bookkeeping). -/
inductive Ev where
  | own (a : Act)
  | th (i v : Nat)

/-- `RLegal` for the calls of the run. (Model bookkeeping.) -/
def legalB (size : Nat → Nat) : Act → Bool
  | .issue .. => false
  | .set _ d _ bs => bs.length == size d
  | _ => true

/-- One event. (Model bookkeeping; the transitions are those of `CStep`.) -/
def ev (ph size : Nat → Nat) (cap : Nat) (c : CSt G) : Ev → Option (CSt G)
  | .own a => if legalB size a then (rstep ph size a c.g).map (fun g => { c with g := g }) else none
  | .th i v =>
    if (c.s v).pc i = .idle then
      match (prog ph size).want c.g i with
      | none => none
      | some (w, x) => if w = v then some { g := (prog ph size).call c.g i x, s := Multi.set c.s v (Conc.step cap (c.s v) i x), data := Multi.set c.data v (fun j => if j = i then Lin.arg x else c.data v j) } else none
    else if (Conc.step cap (c.s v) i .pop).pc i = .idle then
      some { c with g := (prog ph size).ret c.g i (Lin.result (c.proj v) i), s := Multi.set c.s v (Conc.step cap (c.s v) i .pop) }
    else some { c with s := Multi.set c.s v (Conc.step cap (c.s v) i .pop), data := Multi.set c.data v (fun j => if j = i then Lin.dataNext cap (c.proj v) i else c.data v j) }

/-- A run. (Model bookkeeping.) -/
def evs (ph size : Nat → Nat) (cap : Nat) : List Ev → CSt G → Option (CSt G)
  | [], c => some c
  | e :: es, c => (ev ph size cap c e).bind (evs ph size cap es)

theorem ev_step {ph size : Nat → Nat} {cap : Nat} {c c' : CSt G} (e : Ev) (h : ev ph size cap c e = some c') : CStep (prog ph size) cap c c' := by
  cases e with
  | own a =>
    simp only [ev] at h
    split at h
    · next hl =>
      obtain ⟨g', hg, rfl⟩ := Option.map_eq_some_iff.1 h
      refine .own ⟨a, ?_, hg⟩
      cases a with
      | issue => cases hl
      | set cl d v bs => simpa [legalB, RLegal] using hl
      | _ => trivial
    · cases h
  | th i v =>
    simp only [ev] at h
    split at h
    · next hi =>
      split at h
      · cases h
      · next w x hw =>
        split at h
        · next hwv => subst hwv; cases h; exact .call hi hw
        · cases h
    · next hi =>
      split at h
      · next hn => cases h; exact .last hi hn
      · next hn => cases h; exact .instr hi hn

theorem evs_reach {ph size : Nat → Nat} {k : Nat} {m0 : Mem} (es : List Ev) : ∀ {c c' : CSt G}, RReach ph size k m0 c → evs ph size (2 ^ k) es c = some c' →
    RReach ph size k m0 c' := by
  induction es with
  | nil => intro c c' h e; cases e; exact h
  | cons e es ih =>
    intro c c' h he
    obtain ⟨c1, h1, h2⟩ := Option.bind_eq_some_iff.1 he
    exact ih (.step h (ev_step e h1)) h2

/-- Client 0 puts one byte; client 1 pushes its own put while the worker is popping the first; client 0 gets while the worker executes; queue of two. -/
def demo : List Ev :=
  [.own (.set 0 0 0 [7]), .own (.client 0), .own (.client 0), .own (.client 0), .own (.client 0)] ++ List.replicate 4 (.th 0 0) ++
  [.own (.set 1 1 0 [9]), .own (.client 1), .own (.client 1)] ++ List.replicate 4 (.th 0 0) ++
  [.own (.pick 0 0), .th 1 0, .th 1 0, .own (.client 0), .own (.client 1), .own (.client 1)] ++ List.replicate 7 (.th 2 0) ++
  [.th 1 0, .th 2 0, .own (.client 1), .th 1 0, .own (.get 0 0), .own (.work 0), .own (.client 0), .own (.client 0), .own (.client 0), .own (.client 0), .own (.work 0)] ++
  List.replicate 8 (.th 0 0) ++ [.own (.client 0), .own (.pick 0 0)] ++ List.replicate 4 (.th 1 0) ++ List.replicate 2 (.own (.work 0)) ++
  [.own (.pick 0 0)] ++ List.replicate 4 (.th 1 0) ++ List.replicate 3 (.own (.work 0)) ++ [.own (.client 0)]

/-- An event on queue 0 or outside the queues. (Model bookkeeping.) -/
def Ev.on0 : Ev → Bool
  | .own _ => true
  | .th _ v => v == 0

theorem evs_other {ph size : Nat → Nat} {cap : Nat} (es : List Ev) (hes : es.all Ev.on0 = true) : ∀ {c c' : CSt G}, evs ph size cap es c = some c' →
    ∀ w, w ≠ 0 → c'.s w = c.s w := by
  induction es with
  | nil => intro c c' e; cases e; exact fun _ _ => rfl
  | cons e es ih =>
    intro c c' he w hw
    simp only [List.all_cons, Bool.and_eq_true] at hes
    obtain ⟨c1, h1, h2⟩ := Option.bind_eq_some_iff.1 he
    rw [ih hes.2 h2 w hw]
    cases e with
    | own a =>
      simp only [ev] at h1
      split at h1
      · obtain ⟨g', _, rfl⟩ := Option.map_eq_some_iff.1 h1; rfl
      · cases h1
    | th i v =>
      have hv : v = 0 := by simpa [Ev.on0] using hes.1
      subst hv
      simp only [ev] at h1
      split at h1
      · split at h1
        · cases h1
        · split at h1
          · cases h1; exact set_ne _ _ hw
          · cases h1
      · split at h1 <;> (cases h1; exact set_ne _ _ hw)

/-- The hypotheses of C86 are met: in the run `demo` client 0's get returns the byte that it put, through a queue of two entries that another client pushes to meanwhile. -/
theorem demo_reaches : ∃ c r, RReach (fun _ => 0) (fun _ => 1) 1 (fun _ _ => 0) c ∧ Private c 0 ∧ entered c 0 = [0, 1, 2] ∧ c.g.taken 0 = [0, 1, 2] ∧ c.g.issued = [0, 1, 2] ∧
    (c.g.task 0).kind = .set ∧ (c.g.task 0).io = [0] ∧ (c.g.task 1).io = [1] ∧ (c.g.task 2).kind = .get ∧ (c.g.task 2).io = [0] ∧ (c.g.task 2).vac = 0 ∧ c.g.ret 2 = some r ∧ r 0 = 7 := by
  have hrun : (evs (fun _ => 0) (fun _ => 1) 2 demo (cinit (g0 fun _ _ => 0))).map (fun c => decide (entered c 0 = [0, 1, 2] ∧ c.g.taken 0 = [0, 1, 2] ∧ c.g.issued = [0, 1, 2] ∧
      (c.g.task 0).kind = .set ∧ (c.g.task 0).io = [0] ∧ (c.g.task 1).io = [1] ∧ (c.g.task 2).kind = .get ∧ (c.g.task 2).io = [0] ∧ (c.g.task 2).vac = 0 ∧
      (c.g.ret 2).map (fun r => r 0) = some 7)) = some true := by decide +kernel
  cases hs : evs (fun _ => 0) (fun _ => 1) 2 demo (cinit (g0 fun _ _ => 0)) with
  | none => rw [hs] at hrun; cases hrun
  | some c =>
    rw [hs] at hrun
    simp only [Option.map_some, Option.some.injEq, decide_eq_true_eq] at hrun
    obtain ⟨h1, h2, h3, h4, h5, h6, h7, h8, h9, h10⟩ := hrun
    cases hret : c.g.ret 2 with
    | none => rw [hret] at h10; cases h10
    | some r =>
      rw [hret] at h10
      refine ⟨c, r, evs_reach demo .init hs, ?_, h1, h2, h3, h4, h5, h6, h7, h8, h9, hret, Option.some.inj h10⟩
      intro t _ w hw u hu
      unfold entered at hu
      rw [evs_other demo (by decide) hs w hw] at hu
      cases hu

end Arax.Exec.Real
