import Verif.Throttle.Model
/-!
# C17–C19: throttle
-/
namespace Arax.Throttle

/-- Inside the critical section. -/
def Pc.holds : Pc → Bool
  | .test _ | .rel _ | .read _ | .store _ _ | .check _ | .notify _ | .unl1 _ | .unl2 _ => true
  | _ => false

/-- Specification: the net amount of a list of calls. -/
def total (l : List Call) : Int := (l.map Call.delta).sum

/-- What a thread has already stored but not yet returned from. -/
def Pc.pend : Pc → Int
  | .check c | .notify c | .unl1 c | .unl2 c => c.delta
  | _ => 0

def pend (s : St) (o : Option Nat) : Int :=
  match o with
  | none => 0
  | some i => (s.pc i).pend

structure Inv (a : Nat) (s : St) (o : Option Nat) : Prop where
  lock : s.locked = o.isSome
  own  : ∀ j, (s.pc j).holds = true ↔ o = some j
  cong : ∃ k : Int, (s.avail : Int) = a + total s.returned + pend s o + k * 18446744073709551616
  lt   : s.avail < 18446744073709551616
  st   : ∀ j c v, s.pc j = .store c v → v = s.avail

theorem goto_pc (s : St) (i j : Nat) (p : Pc) : (s.goto i p).pc j = if j = i then p else s.pc j := rfl

theorem pend_nonholder (p : Pc) (h : p.holds = false) : p.pend = 0 := by cases p <;> simp_all [Pc.holds, Pc.pend]

/-- A step of a thread outside the critical section that stays outside. -/
theorem inv_outside (a : Nat) (s : St) (o : Option Nat) (i : Nat) (p : Pc) (h : Inv a s o)
    (h1 : (s.pc i).holds = false) (h2 : p.holds = false) : Inv a (s.goto i p) o := by
  obtain ⟨a1, a2, a3, a4, a5⟩ := h
  have hoi : o ≠ some i := fun e => by have := (a2 i).mpr e; rw [h1] at this; simp at this
  refine ⟨a1, ?_, ?_, a4, ?_⟩
  · intro j; rw [goto_pc]; split
    · rename_i e; subst e; rw [h2]; simp [hoi]
    · exact a2 j
  · have : pend (s.goto i p) o = pend s o := by
      unfold pend; cases o with
      | none => rfl
      | some x => simp only; rw [goto_pc, if_neg (fun e => hoi (by rw [e]))]
    rw [this]; exact a3
  · intro j c v; rw [goto_pc]; split
    · intro e; subst e; simp [Pc.holds] at h2
    · exact a5 j c v

/-- Acquiring the lock. -/
theorem inv_acquire (a : Nat) (s : St) (o : Option Nat) (i : Nat) (p : Pc) (h : Inv a s o) (hl : s.locked = false)
    (h2 : p.holds = true) (h3 : p.pend = 0) (h4 : ∀ c v, p ≠ .store c v) :
    Inv a ({ s with locked := true }.goto i p) (some i) := by
  obtain ⟨a1, a2, a3, a4, a5⟩ := h
  have ho : o = none := by
    rw [hl] at a1
    cases o with
    | none => rfl
    | some x => simp at a1
  subst ho
  refine ⟨rfl, ?_, ?_, a4, ?_⟩
  · intro j; rw [goto_pc]; split
    · rename_i e; subst e; simp [h2]
    · rename_i e
      have : (s.pc j).holds = false := by
        cases hh : (s.pc j).holds
        · rfl
        · have := (a2 j).mp hh; simp at this
      show (s.pc j).holds = true ↔ _
      rw [this]; simp [Ne.symm e]
  · obtain ⟨k, hk⟩ := a3
    refine ⟨k, ?_⟩
    simp only [pend] at hk
    simp only [pend, goto_pc, if_true, h3]
    exact hk
  · intro j c v; rw [goto_pc]; split
    · intro e; exact absurd e (h4 c v)
    · exact a5 j c v

/-- A step of the lock holder that keeps the lock and the counters; the pending amount is unchanged. -/
theorem inv_inside (a : Nat) (s : St) (o : Option Nat) (i : Nat) (p : Pc) (h : Inv a s o)
    (h1 : (s.pc i).holds = true) (h2 : p.holds = true) (h3 : p.pend = (s.pc i).pend)
    (h4 : ∀ c v, p = .store c v → v = s.avail) : Inv a (s.goto i p) o := by
  obtain ⟨a1, a2, a3, a4, a5⟩ := h
  have ho := (a2 i).mp h1
  subst ho
  refine ⟨a1, ?_, ?_, a4, ?_⟩
  · intro j; rw [goto_pc]; split
    · rename_i e; subst e; simp [h2]
    · exact a2 j
  · have : pend (s.goto i p) (some i) = pend s (some i) := by
      simp only [pend, goto_pc, if_true, h3]
    rw [this]; exact a3
  · intro j c v; rw [goto_pc]; split
    · intro e; exact h4 c v e
    · exact a5 j c v

/-- Releasing the lock. -/
theorem inv_release (a : Nat) (s : St) (o : Option Nat) (i : Nat) (p : Pc) (r : List Call) (h : Inv a s o)
    (h1 : (s.pc i).holds = true) (h2 : p.holds = false) (h3 : total r = total s.returned + (s.pc i).pend) :
    Inv a ({ s with locked := false, returned := r }.goto i p) none := by
  obtain ⟨a1, a2, a3, a4, a5⟩ := h
  have ho := (a2 i).mp h1
  subst ho
  refine ⟨rfl, ?_, ?_, a4, ?_⟩
  · intro j; rw [goto_pc]; split
    · rename_i e; subst e; simp [h2]
    · rename_i e
      show (s.pc j).holds = true ↔ _
      rw [a2 j]; simp [Ne.symm e]
  · obtain ⟨k, hk⟩ := a3
    refine ⟨k, ?_⟩
    simp only [pend] at hk
    simp only [pend]
    show (s.avail : Int) = a + total r + 0 + k * 18446744073709551616
    omega
  · intro j c v; rw [goto_pc]; split
    · intro e; subst e; simp [Pc.holds] at h2
    · exact a5 j c v

theorem total_snoc (l : List Call) (c : Call) : total (l ++ [c]) = total l + c.delta := by
  unfold total; simp

theorem delta_zero (c : Call) (h : c.size = 0) : c.delta = 0 := by cases c <;> simp_all [Call.size, Call.delta]

theorem inv_wakeAll (a : Nat) (s : St) (o : Option Nat) (h : Inv a s o) : Inv a s.wakeAll o := by
  obtain ⟨a1, a2, a3, a4, a5⟩ := h
  have e : ∀ j, (s.wakeAll.pc j).holds = (s.pc j).holds := by
    intro j; simp only [St.wakeAll]; cases s.pc j <;> rfl
  have e2 : ∀ j, (s.wakeAll.pc j).pend = (s.pc j).pend := by
    intro j; simp only [St.wakeAll]; cases s.pc j <;> rfl
  refine ⟨a1, fun j => by rw [e]; exact a2 j, ?_, a4, ?_⟩
  · have : pend s.wakeAll o = pend s o := by
      cases o with
      | none => rfl
      | some x => exact e2 x
    rw [this]; exact a3
  · intro j c v hj
    apply a5 j c v
    simp only [St.wakeAll] at hj
    revert hj; cases s.pc j <;> simp

/-- Fields that do not matter to the invariant. -/
theorem inv_sem (a : Nat) (s : St) (o : Option Nat) (n : Nat) (h : Inv a s o) : Inv a { s with sem := n } o :=
  ⟨h.lock, h.own, h.cong, h.lt, h.st⟩

theorem inv_locked (a : Nat) (s : St) (o : Option Nat) (i : Nat) (h : Inv a s o) (h1 : (s.pc i).holds = true) :
    Inv a { s with locked := true } o :=
  ⟨by rw [(h.own i).mp h1]; rfl, h.own, h.cong, h.lt, h.st⟩

theorem inv_step (cf : Conf) (a : Nat) (s : St) (o : Option Nat) (i : Nat) (cmd : Cmd) (h : Inv a s o) :
    ∃ o', Inv a (step cf s i cmd) o' := by
  unfold step
  split
  · exact ⟨o, h⟩
  split
  · -- idle, call
    rename_i c hpc
    split
    · rename_i hz
      refine ⟨o, h.lock, h.own, ?_, h.lt, h.st⟩
      have := h.cong
      simp only [total_snoc, delta_zero c hz, Int.add_zero]
      exact this
    · exact ⟨o, inv_outside a s o i _ h (by rw [hpc]; rfl) rfl⟩
  · exact ⟨o, h⟩
  · -- lock
    rename_i c hpc
    split
    · exact ⟨o, h⟩
    · rename_i hl
      refine ⟨some i, inv_acquire a s o i _ h (by simpa using hl) ?_ ?_ ?_⟩ <;> cases c <;> cases cf.enforce <;> simp [Pc.holds, Pc.pend]
  · -- test
    rename_i sz hpc
    split
    · split
      · exact ⟨none, inv_release a s o i _ s.returned h (by rw [hpc]; rfl) rfl (by rw [hpc]; simp [Pc.pend])⟩
      · exact ⟨o, inv_inside a s o i _ h (by rw [hpc]; rfl) rfl (by rw [hpc]; rfl) (by simp)⟩
    · exact ⟨o, inv_inside a s o i _ h (by rw [hpc]; rfl) rfl (by rw [hpc]; rfl) (by simp)⟩
  · rename_i sz hpc
    exact ⟨o, inv_outside a s o i _ h (by rw [hpc]; rfl) rfl⟩
  · -- rel
    rename_i sz hpc
    exact ⟨none, inv_release a s o i _ s.returned h (by rw [hpc]; rfl) rfl (by rw [hpc]; simp [Pc.pend])⟩
  · rename_i sz hpc
    split
    · exact ⟨o, inv_outside a s o i _ h (by rw [hpc]; rfl) rfl⟩
    · exact ⟨o, h⟩
  · rename_i sz v hpc
    split
    · exact ⟨o, inv_outside a _ o i _ (inv_sem a s o _ h) (by show (s.pc i).holds = _; rw [hpc]; rfl) rfl⟩
    · exact ⟨o, inv_outside a s o i _ h (by rw [hpc]; rfl) rfl⟩
  · -- relock
    rename_i sz hpc
    split
    · exact ⟨o, h⟩
    · rename_i hl
      exact ⟨some i, inv_acquire a s o i _ h (by simpa using hl) rfl rfl (by simp)⟩
  · rename_i c hpc
    exact ⟨o, inv_inside a s o i _ h (by rw [hpc]; rfl) rfl (by rw [hpc]; rfl) (by simp)⟩
  · -- store
    rename_i c v hpc
    have hv := h.st i c v hpc
    subst hv
    have hh : (s.pc i).holds = true := by rw [hpc]; rfl
    obtain ⟨a1, a2, a3, a4, a5⟩ := h
    have ho := (a2 i).mp hh
    subst ho
    refine ⟨some i, a1, ?_, ?_, ?_, ?_⟩
    · intro j; rw [goto_pc]; split
      · rename_i e; subst e; simp [Pc.holds]
      · exact a2 j
    · obtain ⟨k, hk⟩ := a3
      simp only [pend, hpc, Pc.pend] at hk
      simp only [pend, goto_pc, if_true, Pc.pend]
      refine ⟨k - ((s.avail : Int) + c.delta) / 18446744073709551616, ?_⟩
      show ((add64 s.avail c.delta : Nat) : Int) = a + total s.returned + c.delta + _
      unfold add64
      omega
    · show add64 s.avail c.delta < _
      unfold add64; omega
    · intro j c' v' hj
      rw [goto_pc] at hj
      split at hj
      · simp at hj
      · rename_i e
        have : (s.pc j).holds = true := by
          have hj' : s.pc j = .store c' v' := hj
          rw [hj']; rfl
        have := (a2 j).mp this
        simp only [Option.some.injEq] at this
        exact absurd this.symm e
  · -- check
    rename_i c hpc
    split
    · exact ⟨o, h.lock, h.own, h.cong, h.lt, h.st⟩
    · refine ⟨o, inv_inside a s o i _ h (by rw [hpc]; rfl) ?_ ?_ ?_⟩ <;> rw [] <;> cases c <;> simp [Pc.holds, Pc.pend, hpc]
  · -- notify
    rename_i c hpc
    split
    · refine ⟨o, inv_inside a _ o i _ (inv_wakeAll a s o h) ?_ rfl ?_ (by simp)⟩ <;> simp [St.wakeAll, hpc, Pc.holds, Pc.pend]
    · exact ⟨o, inv_inside a _ o i _ (inv_sem a s o _ h) (by show (s.pc i).holds = _; rw [hpc]; rfl) rfl
        (by show _ = (s.pc i).pend; rw [hpc]; rfl) (by simp)⟩
  · -- unl1
    rename_i c hpc
    split
    · exact ⟨o, inv_inside a _ o i _ (inv_locked a s o i h (by rw [hpc]; rfl)) (by show (s.pc i).holds = _; rw [hpc]; rfl) rfl
        (by show _ = (s.pc i).pend; rw [hpc]; rfl) (by simp)⟩
    · exact ⟨o, inv_inside a s o i _ h (by rw [hpc]; rfl) rfl (by rw [hpc]; rfl) (by simp)⟩
  · -- unl2
    rename_i c hpc
    exact ⟨none, inv_release a s o i _ _ h (by rw [hpc]; rfl) rfl (by rw [hpc, total_snoc]; rfl)⟩
  · exact ⟨o, h⟩

theorem inv_init (a : Nat) (ha : a < 18446744073709551616) : Inv a (init a) none :=
  ⟨rfl, by simp [init, Pc.holds], ⟨0, by simp [init, pend, total]⟩, ha, by simp [init]⟩

theorem inv_exec (cf : Conf) (a : Nat) (sched : List (Nat × Cmd)) : ∀ s o, Inv a s o → ∃ o', Inv a (exec cf s sched) o' := by
  induction sched with
  | nil => intro s o h; exact ⟨o, h⟩
  | cons x r ih =>
    intro s o h
    obtain ⟨o', h'⟩ := inv_step cf a s o x.1 x.2 h
    exact ih _ o' h'

/-- **C17** For both back-ends, with or without enforcement, for every interleaving of any calls of any number of
threads: whenever the lock is free (in particular whenever no call is in progress), the available size equals the
initial size plus the returned increments minus the returned decrements, in `size_t` arithmetic. -/
theorem C17_conservation (cf : Conf) (a : Nat) (hi : InitOk cf a) (sched : List (Nat × Cmd))
    (hfree : (exec cf (init a) sched).locked = false) :
    ((exec cf (init a) sched).avail : Int) =
      (a + total (exec cf (init a) sched).returned) % 18446744073709551616 := by
  obtain ⟨o, h⟩ := inv_exec cf a sched (init a) none (inv_init a (by unfold InitOk at hi; omega))
  generalize exec cf (init a) sched = s at *
  have ho : o = none := by
    have := h.lock
    rw [hfree] at this
    cases o with
    | none => rfl
    | some x => simp at this
  subst ho
  obtain ⟨k, hk⟩ := h.cong
  have := h.lt
  simp only [pend] at hk
  omega

/-- C17: mutual exclusion of the critical sections (for both back-ends). -/
theorem C17_exclusion (cf : Conf) (a : Nat) (hi : InitOk cf a) (sched : List (Nat × Cmd)) (i j : Nat)
    (h1 : ((exec cf (init a) sched).pc i).holds = true) (h2 : ((exec cf (init a) sched).pc j).holds = true) : i = j := by
  obtain ⟨o, h⟩ := inv_exec cf a sched (init a) none (inv_init a (by unfold InitOk at hi; omega))
  have a1 := (h.own i).mp h1
  have a2 := (h.own j).mp h2
  rw [a1] at a2; simpa using a2

/-! ### With enforcement -/

/-- Program points that only the spin back-end has. -/
def Pc.spinOnly : Pc → Bool
  | .rel _ | .semRd _ | .semCas _ _ => true
  | _ => false

/-- Invariant of the enforcing build, on the available size and the program counters. -/
structure Inv2 (cf : Conf) (avail : Nat) (pc : Nat → Pc) : Prop where
  fitR  : ∀ j sz, pc j = .read (.dec sz) → sz ≤ avail
  fitS  : ∀ j sz v, pc j = .store (.dec sz) v → sz ≤ avail
  bound : avail ≤ cf.cap ∨ ∃ j n, pc j = .check (.inc n)
  sleep : cf.backend = .mutex → ∀ j sz, pc j = .sleep sz → sz ≤ avail →
    ∃ i n, pc i = .check (.inc n) ∨ pc i = .notify (.inc n)
  noNot : ∀ j sz, pc j ≠ .notify (.dec sz)
  noSpin : cf.backend = .mutex → ∀ j, (pc j).spinOnly = false

theorem inv2_goto (cf : Conf) (avail : Nat) (pc : Nat → Pc) (i : Nat) (p : Pc) (h : Inv2 cf avail pc)
    (hR : ∀ sz, p = .read (.dec sz) → sz ≤ avail) (hS : ∀ sz v, p = .store (.dec sz) v → sz ≤ avail)
    (hc : ∀ n, pc i = .check (.inc n) → avail ≤ cf.cap ∧ p = .notify (.inc n))
    (hn : ∀ n, pc i ≠ .notify (.inc n)) (hs : ∀ sz, p = .sleep sz → avail < sz) (hd : ∀ sz, p ≠ .notify (.dec sz))
    (hsp : cf.backend = .mutex → p.spinOnly = false) :
    Inv2 cf avail (fun j => if j = i then p else pc j) := by
  obtain ⟨a1, a2, a3, a4, a5, a6⟩ := h
  refine ⟨?_, ?_, ?_, ?_, ?_, ?_⟩
  · intro j sz hj; split at hj
    · exact hR sz hj
    · exact a1 j sz hj
  · intro j sz v hj; split at hj
    · exact hS sz v hj
    · exact a2 j sz v hj
  · rcases a3 with h | ⟨j, n, hj⟩
    · exact Or.inl h
    · by_cases e : j = i
      · subst e; exact Or.inl (hc n hj).1
      · exact Or.inr ⟨j, n, by rw [if_neg e]; exact hj⟩
  · intro hm j sz hj hle
    split at hj
    · have := hs sz hj; omega
    · obtain ⟨x, n, hx⟩ := a4 hm j sz hj hle
      by_cases e : x = i
      · subst e
        rcases hx with hx | hx
        · exact ⟨x, n, Or.inr (by rw [if_pos rfl]; exact (hc n hx).2)⟩
        · exact absurd hx (hn n)
      · exact ⟨x, n, by rw [if_neg e]; exact hx⟩
  · intro j sz; split
    · exact hd sz
    · exact a5 j sz
  · intro hm j; split
    · exact hsp hm
    · exact a6 hm j

theorem inv2_step (cf : Conf) (a : Nat) (s : St) (o : Option Nat) (i : Nat) (cmd : Cmd) (he : cf.enforce = true)
    (h : Inv a s o) (h2 : Inv2 cf s.avail s.pc) : Inv2 cf (step cf s i cmd).avail (step cf s i cmd).pc := by
  unfold step
  split
  · exact h2
  split
  · rename_i c hpc
    split
    · exact h2
    · exact inv2_goto cf s.avail s.pc i _ h2 (by simp) (by simp) (by simp [hpc, Pc.spinOnly]) (by simp [hpc, Pc.spinOnly]) (by simp) (by simp) (by simp [Pc.spinOnly])
  · exact h2
  · rename_i c hpc
    split
    · exact h2
    · refine inv2_goto cf s.avail s.pc i _ h2 ?_ ?_ ?_ ?_ ?_ ?_ ?_ <;> cases c <;> simp [hpc, Pc.spinOnly]
  · rename_i sz hpc
    split
    · rename_i hlt
      split
      · refine inv2_goto cf s.avail s.pc i _ h2 ?_ ?_ ?_ ?_ ?_ ?_ ?_ <;> simp [hpc, hlt, Pc.spinOnly]
      · rename_i hb
        refine inv2_goto cf s.avail s.pc i _ h2 ?_ ?_ ?_ ?_ ?_ ?_ ?_ <;> simp [hpc, hb]
    · rename_i hge
      refine inv2_goto cf s.avail s.pc i _ h2 ?_ ?_ ?_ ?_ ?_ ?_ ?_ <;> simp [hpc, Pc.spinOnly]; omega
  · rename_i sz hpc
    refine inv2_goto cf s.avail s.pc i _ h2 ?_ ?_ ?_ ?_ ?_ ?_ ?_ <;> simp [hpc, Pc.spinOnly]
  · rename_i sz hpc
    have hb : cf.backend ≠ .mutex := fun e => by have := h2.noSpin e i; rw [hpc] at this; simp [Pc.spinOnly] at this
    refine inv2_goto cf s.avail s.pc i _ h2 ?_ ?_ ?_ ?_ ?_ ?_ ?_ <;> simp [hpc, hb]
  · rename_i sz hpc
    have hb : cf.backend ≠ .mutex := fun e => by have := h2.noSpin e i; rw [hpc] at this; simp [Pc.spinOnly] at this
    split
    · refine inv2_goto cf s.avail s.pc i _ h2 ?_ ?_ ?_ ?_ ?_ ?_ ?_ <;> simp [hpc, hb]
    · exact h2
  · rename_i sz v hpc
    have hb : cf.backend ≠ .mutex := fun e => by have := h2.noSpin e i; rw [hpc] at this; simp [Pc.spinOnly] at this
    split <;> refine inv2_goto cf s.avail s.pc i _ h2 ?_ ?_ ?_ ?_ ?_ ?_ ?_ <;> simp [hpc, hb]
  · rename_i sz hpc
    split
    · exact h2
    · refine inv2_goto cf s.avail s.pc i _ h2 ?_ ?_ ?_ ?_ ?_ ?_ ?_ <;> simp [hpc, Pc.spinOnly]
  · rename_i c hpc
    refine inv2_goto cf s.avail s.pc i _ h2 (by simp) ?_ ?_ ?_ ?_ ?_ ?_ <;> simp [hpc, Pc.spinOnly]
    intro sz e; subst e; exact h2.fitR i sz hpc
  · -- store
    rename_i c v hpc
    have hv := h.st i c v hpc
    subst hv
    have hh : (s.pc i).holds = true := by rw [hpc]; rfl
    have ho := (h.own i).mp hh
    have hoth : ∀ j, j ≠ i → (s.pc j).holds = false := by
      intro j hj
      cases e : (s.pc j).holds
      · rfl
      · have := (h.own j).mp e
        rw [ho] at this; simp only [Option.some.injEq] at this; exact absurd this.symm hj
    obtain ⟨a1, a2, a3, a4, a5, a6⟩ := h2
    have hb : s.avail ≤ cf.cap := by
      rcases a3 with h | ⟨j, n, hj⟩
      · exact h
      · have : j = i := by
          apply Decidable.not_not.mp
          intro hne
          have := hoth j hne; rw [hj] at this; simp [Pc.holds] at this
        subst this; rw [hpc] at hj; simp at hj
    have hns : cf.backend = .mutex → ∀ j sz, s.pc j = .sleep sz → s.avail < sz := by
      intro hm j sz hj
      apply Decidable.not_not.mp
      intro hle
      obtain ⟨x, n, hx⟩ := a4 hm j sz hj (by omega)
      have : x = i := by
        apply Decidable.not_not.mp
        intro hne
        have := hoth x hne; rcases hx with hx | hx <;> rw [hx] at this <;> simp [Pc.holds] at this
      subst this; rw [hpc] at hx; simp at hx
    refine ⟨?_, ?_, ?_, ?_, ?_, ?_⟩
    · intro j sz hj; rw [goto_pc] at hj; split at hj
      · simp at hj
      · rename_i e; have := hoth j e; have hj' : s.pc j = _ := hj; rw [hj'] at this; simp [Pc.holds] at this
    · intro j sz v hj; rw [goto_pc] at hj; split at hj
      · simp at hj
      · rename_i e; have := hoth j e; have hj' : s.pc j = _ := hj; rw [hj'] at this; simp [Pc.holds] at this
    · cases c with
      | inc n => exact Or.inr ⟨i, n, by simp [goto_pc]⟩
      | dec sz =>
        left
        have := a2 i sz _ hpc
        have hlt := h.lt
        show add64 s.avail (Call.delta (.dec sz)) ≤ _
        simp only [add64, Call.delta]; omega
    · intro hm j sz hj hle
      cases c with
      | inc n => exact ⟨i, n, Or.inl (by simp [goto_pc])⟩
      | dec d =>
        exfalso
        rw [goto_pc] at hj; split at hj
        · simp at hj
        · have h1 := hns hm j sz hj
          have h2 := a2 i d _ hpc
          have hlt := h.lt
          have hle' : sz ≤ add64 s.avail (Call.delta (.dec d)) := hle
          simp only [add64, Call.delta] at hle'; omega
    · intro j sz hj; rw [goto_pc] at hj; split at hj
      · simp at hj
      · exact a5 j sz hj
    · intro hm j; rw [goto_pc]; split
      · rfl
      · exact a6 hm j
  · -- check
    rename_i c hpc
    split
    · exact h2
    · rename_i hchk
      rw [he] at hchk
      refine inv2_goto cf s.avail s.pc i _ h2 ?_ ?_ ?_ ?_ ?_ ?_ ?_ <;> cases c <;> simp [hpc, Pc.spinOnly]
      simp at hchk; omega
  · -- notify
    rename_i c hpc
    have hbound : s.avail ≤ cf.cap := by
      rcases h2.bound with hb | ⟨j, n, hj⟩
      · exact hb
      · have e1 := (h.own i).mp (by rw [hpc]; rfl)
        have e2 := (h.own j).mp (by rw [hj]; rfl)
        rw [e1] at e2; simp only [Option.some.injEq] at e2; subst e2; rw [hpc] at hj; simp at hj
    have hoth : ∀ j, j ≠ i → (s.pc j).holds = false := by
      intro j hj
      cases e : (s.pc j).holds
      · rfl
      · have := (h.own j).mp e
        rw [(h.own i).mp (by rw [hpc]; rfl)] at this; simp only [Option.some.injEq] at this; exact absurd this.symm hj
    split
    · refine ⟨?_, ?_, Or.inl hbound, ?_, ?_, ?_⟩
      · intro j sz hj; rw [goto_pc] at hj; split at hj
        · simp at hj
        · apply h2.fitR j sz; revert hj; simp only [St.wakeAll]; cases s.pc j <;> simp
      · intro j sz v hj; rw [goto_pc] at hj; split at hj
        · simp at hj
        · apply h2.fitS j sz v; revert hj; simp only [St.wakeAll]; cases s.pc j <;> simp
      · intro _ j sz hj; rw [goto_pc] at hj; split at hj
        · simp at hj
        · exfalso; revert hj; simp only [St.wakeAll]; cases s.pc j <;> simp
      · intro j sz hj; rw [goto_pc] at hj; split at hj
        · simp at hj
        · apply h2.noNot j sz; revert hj; simp only [St.wakeAll]; cases s.pc j <;> simp
      · intro hm j; rw [goto_pc]; split
        · rfl
        · have := h2.noSpin hm j
          revert this; simp only [St.wakeAll]; cases s.pc j <;> simp [Pc.spinOnly]
    · rename_i hsp
      refine ⟨?_, ?_, Or.inl hbound, ?_, ?_, ?_⟩
      · intro j sz hj; rw [goto_pc] at hj; split at hj
        · simp at hj
        · exact h2.fitR j sz hj
      · intro j sz v hj; rw [goto_pc] at hj; split at hj
        · simp at hj
        · exact h2.fitS j sz v hj
      · intro hm; rw [hsp] at hm; simp at hm
      · intro j sz hj; rw [goto_pc] at hj; split at hj
        · simp at hj
        · exact h2.noNot j sz hj
      · intro hm; rw [hsp] at hm; simp at hm
  · rename_i c hpc
    split <;> refine inv2_goto cf s.avail s.pc i _ h2 ?_ ?_ ?_ ?_ ?_ ?_ ?_ <;> simp [hpc, Pc.spinOnly]
  · rename_i c hpc
    refine inv2_goto cf s.avail s.pc i _ h2 ?_ ?_ ?_ ?_ ?_ ?_ ?_ <;> simp [hpc, Pc.spinOnly]
  · exact h2

theorem inv2_exec (cf : Conf) (a : Nat) (he : cf.enforce = true) (sched : List (Nat × Cmd)) : ∀ s o, Inv a s o →
    Inv2 cf s.avail s.pc → ∃ o', Inv a (exec cf s sched) o' ∧ Inv2 cf (exec cf s sched).avail (exec cf s sched).pc := by
  induction sched with
  | nil => intro s o h h2; exact ⟨o, h, h2⟩
  | cons x r ih =>
    intro s o h h2
    obtain ⟨o', h'⟩ := inv_step cf a s o x.1 x.2 h
    exact ih _ o' h' (inv2_step cf a s o x.1 x.2 he h h2)

theorem inv2_reach (cf : Conf) (a : Nat) (hi : InitOk cf a) (he : cf.enforce = true) (sched : List (Nat × Cmd)) :
    ∃ o, Inv a (exec cf (init a) sched) o ∧ Inv2 cf (exec cf (init a) sched).avail (exec cf (init a) sched).pc := by
  unfold InitOk at hi
  refine inv2_exec cf a he sched (init a) none (inv_init a (by omega)) ⟨?_, ?_, Or.inl hi.2.2.1, ?_, ?_, ?_⟩ <;> simp [init, Pc.spinOnly]

/-- **C18 (partial: enforcing build)** With `ARAX_THROTTLE_ENFORCE`, for both back-ends and every interleaving: the
available size is within the capacity at every moment, except while an increment that exceeded it is about to trip
its assertion; and a decrement is carried out only when it fits (it writes exactly `available - sz`, no wrap).
Missing: the default build, where the property is false (`C18_violated`). -/
theorem C18_limits_partial (cf : Conf) (a : Nat) (hi : InitOk cf a) (he : cf.enforce = true) (sched : List (Nat × Cmd)) :
    let s := exec cf (init a) sched
    (s.avail ≤ cf.cap ∨ ∃ j n, s.pc j = .check (.inc n) ∧ (step cf s j .go).aborted = true) ∧
    (∀ j sz v, s.pc j = .store (.dec sz) v → sz ≤ s.avail ∧
      (s.aborted = false → (step cf s j .go).avail = s.avail - sz)) ∧
    (s.locked = false → s.avail ≤ cf.cap) := by
  obtain ⟨o, h, h2⟩ := inv2_reach cf a hi he sched
  intro s
  change Inv a s o at h
  change Inv2 cf s.avail s.pc at h2
  refine ⟨?_, ?_, ?_⟩
  · by_cases hb : s.avail ≤ cf.cap
    · exact Or.inl hb
    · rcases h2.bound with hb' | ⟨j, n, hj⟩
      · exact Or.inl hb'
      · right
        refine ⟨j, n, hj, ?_⟩
        unfold step
        split
        · assumption
        · rw [hj]; simp only; rw [if_pos ⟨he, by omega⟩]
  · intro j sz v hj
    have h3 := h2.fitS j sz v hj
    refine ⟨h3, fun hab => ?_⟩
    have hv := h.st j _ v hj
    have hlt := h.lt
    unfold step
    rw [if_neg (by simp [hab]), hj]
    show add64 v (Call.delta (.dec sz)) = _
    simp only [add64, Call.delta]; omega
  · intro hl
    rcases h2.bound with hb | ⟨j, n, hj⟩
    · exact hb
    · have e := (h.own j).mp (by rw [hj]; rfl)
      have := h.lock; rw [hl, e] at this; simp at this

/-- **C18 is violated** in the default build (enforcement off): with 5 of 10 units available, a decrement by 6 does not
block and the counter wraps to 2^64 - 1, far above the capacity. -/
theorem C18_violated (b : Backend) :
    let cf : Conf := { backend := b, enforce := false, cap := 10 }
    let s := exec cf (init 5) ((0, .call (.dec 6)) :: List.replicate 6 (0, .go))
    InitOk cf 5 ∧ s.pc 0 = .idle ∧ s.returned = [.dec 6] ∧ s.avail = 18446744073709551615 := by
  cases b <;> refine ⟨by simp [InitOk], by decide +kernel, by decide +kernel, by decide +kernel⟩

/-- The thread is inside `arax_throttle_size_dec(sz)`, before its decrement. -/
def Pc.waiting : Pc → Option Nat
  | .lock (.dec sz) | .sleep sz | .relock sz | .semRd sz | .semCas sz _ | .rel sz | .test sz => some sz
  | _ => none

/-- **C19 (partial: mutex back-end)** With enforcement and the mutex back-end, for every interleaving: whenever the lock is
free, no thread sleeps although its request fits; and a waiting thread whose request fits, running alone, finishes
its call. Missing: the spin back-end, where the property is false (`C19_violated_spin`). -/
theorem C19_no_stuck_waiter_partial (cf : Conf) (a : Nat) (hi : InitOk cf a) (he : cf.enforce = true)
    (hm : cf.backend = .mutex) (sched : List (Nat × Cmd)) :
    let s := exec cf (init a) sched
    s.locked = false → s.aborted = false → ∀ i sz, (s.pc i).waiting = some sz → sz ≤ s.avail →
      (∀ sz', s.pc i ≠ .sleep sz') ∧
      (exec cf s (List.replicate 7 (i, .go))).pc i = .idle ∧
      (exec cf s (List.replicate 7 (i, .go))).returned = s.returned ++ [.dec sz] ∧
      (exec cf s (List.replicate 7 (i, .go))).avail = s.avail - sz := by
  obtain ⟨o, h, h2⟩ := inv2_reach cf a hi he sched
  intro s hl hab i sz hw hle
  change Inv a s o at h
  change Inv2 cf s.avail s.pc at h2
  have hnone : ∀ j, (s.pc j).holds = false := by
    intro j
    cases e : (s.pc j).holds
    · rfl
    · have e2 := (h.own j).mp e
      have := h.lock; rw [hl, e2] at this; simp at this
  have hns : ∀ sz', s.pc i ≠ .sleep sz' := by
    intro sz' e
    have : sz' = sz := by rw [e] at hw; simpa [Pc.waiting] using hw
    subst this
    obtain ⟨x, n, hx⟩ := h2.sleep hm i sz' e hle
    have := hnone x
    rcases hx with hx | hx <;> rw [hx] at this <;> simp [Pc.holds] at this
  have hb : s.avail ≤ cf.cap := by
    rcases h2.bound with hb | ⟨j, n, hj⟩
    · exact hb
    · have := hnone j; rw [hj] at this; simp [Pc.holds] at this
  have hlt := h.lt
  have hrel : s.pc i = .relock sz ∨ s.pc i = .lock (.dec sz) := by
    have hno := hnone i
    have hsp := h2.noSpin hm i
    revert hno hsp hw hns
    cases e : s.pc i with
    | lock c => cases c <;> simp (config := { contextual := true }) [Pc.waiting]
    | _ => simp [Pc.waiting, Pc.holds, Pc.spinOnly]
  refine ⟨hns, ?_⟩
  have hadd : add64 s.avail (Call.delta (.dec sz)) = s.avail - sz := by simp only [add64, Call.delta]; omega
  have hck : ¬ (cf.cap < s.avail - sz) := by omega
  have hnl : ¬ (s.avail < sz) := by omega
  rcases hrel with hrel | hrel <;>
  simp [exec, List.replicate_succ, step, hab, hrel, hl, he, St.goto, hnl, hadd, hck, hm]

/-- Threads 1 and 2 wait for a token of the semaphore although thread 2's request fits. -/
def Stuck (s : St) : Prop :=
  s.sem = 0 ∧ s.locked = false ∧ s.avail = 10 ∧ s.pc 1 = .semRd 100 ∧ s.pc 2 = .semRd 10 ∧ s.aborted = false

/-- **C19 is violated** with the spin back-end: thread 1 waits for 100 units and thread 2 for 10; an increment of 10 posts
one token, thread 1 consumes it and waits again. From then on thread 2's request fits, the lock is free and nobody is in
a call except the two waiters, but no schedule of the waiting threads lets thread 2 return. -/
theorem C19_violated_spin :
    let cf : Conf := { backend := .spin, enforce := true, cap := 200 }
    ∃ sched, let s := exec cf (init 1) sched
      InitOk cf 1 ∧ (∀ j, j ≠ 1 → j ≠ 2 → s.pc j = .idle) ∧ (s.pc 2).waiting = some 10 ∧ 10 ≤ s.avail ∧
      s.locked = false ∧ ∀ more : List (Nat × Cmd), (∀ x ∈ more, x.1 = 1 ∨ x.1 = 2) →
        (exec cf s more).pc 2 = .semRd 10 := by
  intro cf
  have key : ∀ more : List (Nat × Cmd), (∀ x ∈ more, x.1 = 1 ∨ x.1 = 2) → ∀ s, Stuck s → (exec cf s more).pc 2 = .semRd 10 := by
    intro more
    induction more with
    | nil => intro _ s h; exact h.2.2.2.2.1
    | cons x r ih =>
      intro hx s h
      apply ih (fun y hy => hx y (by simp [hy])) (step cf s x.1 x.2)
      obtain ⟨h1, h2, h3, h4, h5, h6⟩ := h
      have : step cf s x.1 x.2 = s := by
        rcases hx x (by simp) with e | e <;> rw [e] <;> cases x.2 <;> simp [step, h1, h4, h5]
      rw [this]; exact ⟨h1, h2, h3, h4, h5, h6⟩
  let pre : List (Nat × Cmd) := [(1, .call (.dec 100)), (2, .call (.dec 10)), (3, .call (.inc 9))] ++
      List.replicate 3 (1, .go) ++ List.replicate 3 (2, .go) ++ List.replicate 7 (3, .go) ++ List.replicate 6 (1, .go)
  refine ⟨pre, by simp [InitOk, cf], ?_, by decide +kernel, by decide +kernel, by decide +kernel, ?_⟩
  · intro j h1 h2
    by_cases h3 : j = 3
    · subst h3; decide +kernel
    · have gen : ∀ (l : List (Nat × Cmd)) s, (∀ x ∈ l, x.1 = 1 ∨ x.1 = 2 ∨ x.1 = 3) → s.pc j = .idle → (exec cf s l).pc j = .idle := by
        intro l
        induction l with
        | nil => intro s _ h; exact h
        | cons x r ih =>
          intro s hx h
          apply ih _ (fun y hy => hx y (by simp [hy]))
          have hne : j ≠ x.1 := by have := hx x (by simp); omega
          show (step cf s x.1 x.2).pc j = .idle
          unfold step
          repeat' split
          all_goals first
            | exact h
            | (rw [goto_pc, if_neg hne]; first | exact h | (simp only [St.wakeAll, h]))
      refine gen pre (init 1) ?_ rfl
      intro x hx
      have : ∀ x ∈ pre, x.1 = 1 ∨ x.1 = 2 ∨ x.1 = 3 := by decide +kernel
      exact this x hx
  · intro more hm
    exact key more hm _ (by refine ⟨?_, ?_, ?_, ?_, ?_, ?_⟩ <;> decide +kernel)

/-- Non-vacuity of C19 (and of C17, C18): with the mutex back-end the same history leaves the lock free with thread 2
waiting for 10 available units. -/
example :
    let cf : Conf := { backend := .mutex, enforce := true, cap := 200 }
    let s := exec cf (init 1) ([(1, .call (.dec 100)), (2, .call (.dec 10)), (3, .call (.inc 9))] ++
      List.replicate 3 (1, .go) ++ List.replicate 2 (2, .go) ++ List.replicate 7 (3, .go))
    InitOk cf 1 ∧ s.locked = false ∧ s.aborted = false ∧ (s.pc 2).waiting = some 10 ∧ s.avail = 10 ∧
      (s.pc 1).waiting = some 100 ∧ s.returned = [.inc 9] := by
  refine ⟨by simp [InitOk], by decide +kernel, by decide +kernel, by decide +kernel, by decide +kernel, by decide +kernel,
    by decide +kernel⟩

end Arax.Throttle
