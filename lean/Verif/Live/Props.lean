import Verif.Live.Model
/-!
# C65: every issued task is executed

`exec m cap dur init pre` is the state after an arbitrary finite history `pre`. From there on threads and workers go on with what they are doing, under a
schedule `f` that is fair to all of them (a history with finitely many calls consists of exactly such a prefix and such a rest).
-/
namespace Arax.Live

theorem upd_same {α : Type} (f : Nat → α) (i : Nat) (x : α) : upd f i x i = x := by simp [upd]
theorem upd_ne {α : Type} (f : Nat → α) (i j : Nat) (x : α) (h : j ≠ i) : upd f i x j = f j := by simp [upd, h]

/-! ### Specification vocabulary -/

/-- What the threads and workers do on their own: no new calls. -/
inductive Lab where
  | thread (i : Nat)
  | worker (p hint : Nat)

def Lab.act : Lab → Act
  | .thread i => .go i
  | .worker p h => .work p h

def Lab.ok (n np : Nat) : Lab → Prop
  | .thread i => i < n
  | .worker p _ => p < np

/-- Threads first, then workers. -/
def Lab.cls (n : Nat) : Lab → Nat
  | .thread i => i
  | .worker p _ => n + p

def lstep (m cap : Nat) (dur : Nat → Nat) (s : St) (l : Lab) : St := step m cap dur s l.act

/-- Fair to `n` threads and `np` workers. -/
def FairSched (n np : Nat) (f : Nat → Lab) : Prop := Fair (Lab.ok n np) (Lab.cls n) (n + np) f

/-- The calls of `arax_task_issue` for virtual accelerator `v` that have not entered their task into the queue. -/
def issuing (v : Nat) : Pc → Nat
  | .iLock v' _ => if v' = v then 1 else 0
  | .iPush v' _ => if v' = v then 1 else 0
  | _ => 0

/-- Every virtual accelerator that is not assigned yet has room for the tasks being issued to it. -/
def Roomy (n cap : Nat) (s : St) : Prop := ∀ v, s.phys v = none → (s.queue v).length + sum (fun i => issuing v (s.pc i)) n ≤ cap

/-! ### Invariant -/

def holds : Pc → Option Nat
  | .iPush v _ | .iAdd v | .iUnlock v | .bAdd v _ | .bUnlock v => some v
  | _ => none

/-- The virtual accelerator a call is about. -/
def target : Pc → Option Nat
  | .iLock v _ | .iPush v _ | .iAdd v | .iUnlock v | .bLock v _ | .bAdd v _ | .bUnlock v => some v
  | .idle => none

/-- `k` if the virtual accelerator belongs to `p`. -/
def mine (o : Option Nat) (p k : Nat) : Nat := if o = some p then k else 0

theorem mine_some (p k : Nat) : mine (some p) p k = k := by simp [mine]
theorem mine_other {p q : Nat} (h : q ≠ p) (k : Nat) : mine (some p) q k = 0 := by simp [mine, Ne.symm h]
theorem mine_none (p k : Nat) : mine none p k = 0 := by simp [mine]

def adding (s : St) (p : Nat) : Pc → Nat
  | .iAdd v => mine (s.phys v) p 1
  | _ => 0

def want (v t : Nat) : Pc → Nat
  | .iLock v' t' => if v' = v ∧ t' = t then 1 else 0
  | .iPush v' t' => if v' = v ∧ t' = t then 1 else 0
  | _ => 0

def tok : Wk → Nat
  | .token => 1
  | _ => 0

/-- Tasks in the queue of `v`, if it belongs to `p`. -/
def load (s : St) (p v : Nat) : Nat := mine (s.phys v) p (s.queue v).length

theorem load_congr {s s' : St} {p v : Nat} (h1 : s'.phys v = s.phys v) (h2 : s'.queue v = s.queue v) : load s' p v = load s p v := by
  unfold load; rw [h1, h2]

def inRun (v : Nat) : Wk → List Nat
  | .run v' t _ => if v' = v then [t] else []
  | _ => []

def running (s : St) (v : Nat) : List Nat :=
  match s.phys v with
  | some p => inRun v (s.wk p)
  | none => []

structure Locks (n m np : Nat) (s : St) : Prop where
  held  : ∀ i v, holds (s.pc i) = some v → s.lock v = true
  uniq  : ∀ i j v, holds (s.pc i) = some v → holds (s.pc j) = some v → i = j
  owner : ∀ v, s.lock v = true → ∃ i, i < n ∧ holds (s.pc i) = some v
  out   : ∀ i, n ≤ i → s.pc i = .idle
  vlt   : ∀ i v, target (s.pc i) = some v → v < m
  plt   : ∀ i v p, (s.pc i = .bLock v p ∨ s.pc i = .bAdd v p) → p < np
  physLt : ∀ v p, s.phys v = some p → p < np ∧ v < m
  runs  : ∀ p v t k, s.wk p = .run v t k → s.phys v = some p

structure Counts (n m cap : Nat) (s : St) : Prop where
  count : ∀ p, sum (load s p) m = s.tasks p + tok (s.wk p) + sum (fun i => adding s p (s.pc i)) n
  order : ∀ v, s.fin v ++ running s v ++ s.queue v = s.pushed v
  calls : ∀ v t, (s.calls v).count t = (s.pushed v).count t + sum (fun i => want v t (s.pc i)) n
  full  : ∀ v, (s.queue v).length ≤ cap

theorem holds_target {x : Pc} {v : Nat} (h : holds x = some v) : target x = some v := by
  cases x <;> simp_all [holds, target]

theorem locks_init (n m np : Nat) : Locks n m np init := by
  refine ⟨?_, ?_, ?_, ?_, ?_, ?_, ?_, ?_⟩ <;> simp [init, holds, target]

theorem counts_init (n m cap : Nat) : Counts n m cap init := by
  refine ⟨?_, ?_, ?_, ?_⟩
  · intro p
    rw [sum_zero (fun v _ => by simp [load, init, mine_none]), sum_zero (fun i _ => by simp [adding, init])]
    simp [init, tok]
  · intro v; simp [init, running]
  · intro v t; rw [sum_zero (fun i _ => by simp [want, init])]; simp [init]
  · intro v; simp [init]

/-- Thread `i` moves to `x`. -/
theorem locks_move (n m np : Nat) (s s' : St) (i : Nat) (x : Pc) (hi : i < n) (h : Locks n m np s) (epc : s'.pc = upd s.pc i x) (ewk : s'.wk = s.wk)
    (eph : s'.phys = s.phys ∨ ∃ v p, s.phys v = none ∧ p < np ∧ v < m ∧ s'.phys = upd s.phys v (some p))
    (hl : (s'.lock = s.lock ∧ holds x = holds (s.pc i)) ∨
      (∃ v, s.lock v = false ∧ s'.lock = upd s.lock v true ∧ holds (s.pc i) = none ∧ holds x = some v) ∨
      (∃ v, s'.lock = upd s.lock v false ∧ holds (s.pc i) = some v ∧ holds x = none))
    (ht : ∀ v, target x = some v → v < m) (hp : ∀ v p, (x = .bLock v p ∨ x = .bAdd v p) → p < np) : Locks n m np s' := by
  obtain ⟨h1, h2, h3, h4, h5, h6, h7, h8⟩ := h
  have pcj : ∀ j, s'.pc j = if j = i then x else s.pc j := fun j => by rw [epc]; rfl
  refine ⟨?_, ?_, ?_, ?_, ?_, ?_, ?_, ?_⟩
  · intro j v hj
    rw [pcj] at hj
    rcases hl with ⟨e, e'⟩ | ⟨w, e0, e, e', e''⟩ | ⟨w, e, e', e''⟩
    · rw [e]; split at hj
      · rw [e'] at hj; exact h1 i v hj
      · exact h1 j v hj
    · rw [e]; unfold upd; split
      · rfl
      · rename_i hne
        split at hj
        · rw [e''] at hj; injection hj with hj; exact absurd hj.symm hne
        · exact h1 j v hj
    · rw [e]; unfold upd
      split at hj
      · rw [e''] at hj; cases hj
      · rename_i hne
        have := h1 j v hj
        split
        · rename_i hv; subst hv; exact absurd (h2 j i v hj e') hne
        · exact this
  · intro j k v hj hk
    rw [pcj] at hj hk
    rcases hl with ⟨e, e'⟩ | ⟨w, e0, e, e', e''⟩ | ⟨w, e, e', e''⟩
    · split at hj <;> split at hk
      · omega
      · rename_i a b; subst a; rw [e'] at hj; exact h2 _ _ v hj hk
      · rename_i a b; subst b; rw [e'] at hk; exact h2 _ _ v hj hk
      · exact h2 _ _ v hj hk
    · split at hj <;> split at hk
      · omega
      · rw [e''] at hj; injection hj with hj; subst hj
        have := h1 _ _ hk; rw [e0] at this; cases this
      · rw [e''] at hk; injection hk with hk; subst hk
        have := h1 _ _ hj; rw [e0] at this; cases this
      · exact h2 _ _ v hj hk
    · split at hj <;> split at hk
      · omega
      · rw [e''] at hj; cases hj
      · rw [e''] at hk; cases hk
      · exact h2 _ _ v hj hk
  · intro v hv
    rcases hl with ⟨e, e'⟩ | ⟨w, e0, e, e', e''⟩ | ⟨w, e, e', e''⟩
    · rw [e] at hv
      obtain ⟨j, hj, hh⟩ := h3 v hv
      refine ⟨j, hj, ?_⟩
      rw [pcj]; split
      · rename_i a; subst a; rw [e']; exact hh
      · exact hh
    · rw [e] at hv; unfold upd at hv; split at hv
      · rename_i a; subst a; exact ⟨i, hi, by rw [pcj, if_pos rfl]; exact e''⟩
      · obtain ⟨j, hj, hh⟩ := h3 v hv
        refine ⟨j, hj, ?_⟩
        rw [pcj]; split
        · rename_i a; subst a; rw [e'] at hh; cases hh
        · exact hh
    · rw [e] at hv; unfold upd at hv; split at hv
      · cases hv
      · rename_i hne
        obtain ⟨j, hj, hh⟩ := h3 v hv
        refine ⟨j, hj, ?_⟩
        rw [pcj]; split
        · rename_i a; subst a; rw [e'] at hh; injection hh with hh; exact absurd hh.symm hne
        · exact hh
  · intro j hj; rw [pcj, if_neg (by omega)]; exact h4 j hj
  · intro j v hj; rw [pcj] at hj; split at hj
    · exact ht v hj
    · exact h5 j v hj
  · intro j v p hj; rw [pcj] at hj; split at hj
    · exact hp v p hj
    · exact h6 j v p hj
  · intro v p hv
    rcases eph with e | ⟨w, q, e0, e1, e2, e⟩
    · rw [e] at hv; exact h7 v p hv
    · rw [e] at hv; unfold upd at hv; split at hv
      · rename_i a; subst a; injection hv with hv; subst hv; exact ⟨e1, e2⟩
      · exact h7 v p hv
  · intro p v t k hw
    rw [ewk] at hw
    have := h8 p v t k hw
    rcases eph with e | ⟨w, q, e0, e1, e2, e⟩
    · rw [e]; exact this
    · rw [e]; unfold upd; split
      · rename_i a; subst a; rw [e0] at this; cases this
      · exact this

theorem locks_work (n m np : Nat) (s s' : St) (h : Locks n m np s) (e1 : s'.pc = s.pc) (e2 : s'.lock = s.lock) (e3 : s'.phys = s.phys)
    (e4 : ∀ q v t k, s'.wk q = .run v t k → s.phys v = some q) : Locks n m np s' := by
  obtain ⟨h1, h2, h3, h4, h5, h6, h7, h8⟩ := h
  exact ⟨by rw [e1, e2]; exact h1, by rw [e1]; exact h2, by rw [e1, e2]; exact h3, by rw [e1]; exact h4, by rw [e1]; exact h5, by rw [e1]; exact h6,
    by rw [e3]; exact h7, by rw [e3]; exact e4⟩

theorem firstTask_some {s : St} {p v : Nat} : ∀ {m : Nat}, firstTask s p m = some v → v < m ∧ s.phys v = some p ∧ s.queue v ≠ []
  | 0, h => by simp [firstTask] at h
  | m + 1, h => by
    simp only [firstTask] at h
    cases hf : firstTask s p m with
    | some w =>
      rw [hf] at h; injection h with h; subst h
      obtain ⟨a, b⟩ := firstTask_some hf
      exact ⟨by omega, b⟩
    | none =>
      rw [hf] at h; simp only at h
      split at h
      · injection h with h; subst h; rename_i hc; exact ⟨by omega, hc⟩
      · cases h

theorem firstTask_none {s : St} {p : Nat} : ∀ {m : Nat}, firstTask s p m = none → ∀ v, v < m → s.phys v = some p → s.queue v = []
  | 0, _, v, hv, _ => by omega
  | m + 1, h, v, hv, hp => by
    simp only [firstTask] at h
    cases hf : firstTask s p m with
    | some w => rw [hf] at h; cases h
    | none =>
      rw [hf] at h; simp only at h
      by_cases e : v = m
      · subst e
        apply Classical.byContradiction; intro hne
        rw [if_pos ⟨hp, hne⟩] at h; cases h
      · exact firstTask_none hf v (by omega) hp

theorem choose_some {m : Nat} {s : St} {p hint v : Nat} (h : choose m s p hint = some v) : v < m ∧ s.phys v = some p ∧ s.queue v ≠ [] := by
  unfold choose at h
  split at h
  · injection h with h; subst h; assumption
  · exact firstTask_some h

theorem choose_none {m : Nat} {s : St} {p hint : Nat} (h : choose m s p hint = none) : ∀ v, v < m → s.phys v = some p → s.queue v = [] := by
  unfold choose at h
  split at h
  · cases h
  · exact firstTask_none h

theorem locks_step (n m np cap : Nat) (dur : Nat → Nat) (s : St) (a : Act) (ha : a.below n m np) (h : Locks n m np s) : Locks n m np (step m cap dur s a) := by
  have tgt := h.vlt
  have plt := h.plt
  cases a with
  | issue i v t =>
    simp only [step]; split
    · rename_i hp
      refine locks_move n m np s _ i (.iLock v t) ha.1 h rfl rfl (Or.inl rfl) (Or.inl ⟨rfl, by rw [hp]; rfl⟩) ?_ ?_
      · intro w hw; injection hw with hw; subst hw; exact ha.2
      · rintro w q (hw | hw) <;> cases hw
    · exact h
  | assign i v p =>
    simp only [step]; split
    · rename_i hp
      refine locks_move n m np s _ i (.bLock v p) ha.1 h rfl rfl (Or.inl rfl) (Or.inl ⟨rfl, by rw [hp]; rfl⟩) ?_ ?_
      · intro w hw; injection hw with hw; subst hw; exact ha.2.1
      · rintro w q (hw | hw) <;> cases hw; exact ha.2.2
    · exact h
  | go i =>
    have hi : i < n := ha
    simp only [step]; unfold goStep
    have tgt := tgt i
    cases hp : s.pc i with
    | idle => exact h
    | iLock v t =>
      rw [hp] at tgt
      simp only; split
      · exact h
      · rename_i hl
        refine locks_move n m np s _ i (.iPush v t) hi h rfl rfl (Or.inl rfl) (Or.inr (Or.inl ⟨v, by simpa using hl, rfl, by rw [hp]; rfl, rfl⟩)) tgt ?_
        rintro w q (hw | hw) <;> cases hw
    | iPush v t =>
      rw [hp] at tgt
      simp only; split
      · refine locks_move n m np s _ i (.iAdd v) hi h rfl rfl (Or.inl rfl) (Or.inl ⟨rfl, by rw [hp]; rfl⟩) tgt ?_
        rintro w q (hw | hw) <;> cases hw
      · exact h
    | iAdd v =>
      rw [hp] at tgt
      simp only; split
      · refine locks_move n m np s _ i (.iUnlock v) hi h rfl rfl (Or.inl rfl) (Or.inl ⟨rfl, by rw [hp]; rfl⟩) tgt ?_
        rintro w q (hw | hw) <;> cases hw
      · refine locks_move n m np s _ i (.iUnlock v) hi h rfl rfl (Or.inl rfl) (Or.inl ⟨rfl, by rw [hp]; rfl⟩) tgt ?_
        rintro w q (hw | hw) <;> cases hw
    | iUnlock v =>
      refine locks_move n m np s _ i .idle hi h rfl rfl (Or.inl rfl) (Or.inr (Or.inr ⟨v, rfl, by rw [hp]; rfl, rfl⟩)) ?_ ?_
      · intro w hw; cases hw
      · rintro w q (hw | hw) <;> cases hw
    | bLock v p =>
      rw [hp] at tgt
      simp only; split
      · exact h
      · rename_i hl
        refine locks_move n m np s _ i (.bAdd v p) hi h rfl rfl (Or.inl rfl) (Or.inr (Or.inl ⟨v, by simpa using hl, rfl, by rw [hp]; rfl, rfl⟩)) tgt ?_
        rintro w q (hw | hw) <;> cases hw
        exact plt i v p (Or.inl hp)
    | bAdd v p =>
      rw [hp] at tgt
      simp only; split
      · rename_i hn
        refine locks_move n m np s _ i (.bUnlock v) hi h rfl rfl (Or.inr ⟨v, p, hn, plt i v p (Or.inr hp), tgt v rfl, rfl⟩) (Or.inl ⟨rfl, by rw [hp]; rfl⟩) tgt ?_
        rintro w q (hw | hw) <;> cases hw
      · refine locks_move n m np s _ i (.bUnlock v) hi h rfl rfl (Or.inl rfl) (Or.inl ⟨rfl, by rw [hp]; rfl⟩) tgt ?_
        rintro w q (hw | hw) <;> cases hw
    | bUnlock v =>
      refine locks_move n m np s _ i .idle hi h rfl rfl (Or.inl rfl) (Or.inr (Or.inr ⟨v, rfl, by rw [hp]; rfl, rfl⟩)) ?_ ?_
      · intro w hw; cases hw
      · rintro w q (hw | hw) <;> cases hw
  | work p hint =>
    have runs := h.runs
    simp only [step]; unfold workStep
    cases hw : s.wk p with
    | idle =>
      simp only; split
      · exact h
      · refine locks_work n m np s _ h rfl rfl rfl ?_
        intro q v t k hq; simp only [upd] at hq; split at hq
        · cases hq
        · exact runs q v t k hq
    | token =>
      simp only
      have hid : Locks n m np { s with wk := upd s.wk p .idle } := by
        refine locks_work n m np s _ h rfl rfl rfl ?_
        intro q v t k hq; simp only [upd] at hq; split at hq
        · cases hq
        · exact runs q v t k hq
      cases hc : choose m s p hint with
      | none => exact hid
      | some v =>
        simp only
        cases hq : s.queue v with
        | nil => exact hid
        | cons t r =>
          refine locks_work n m np s _ h rfl rfl rfl ?_
          intro q v' t' k hq'; simp only [upd] at hq'; split at hq'
          · rename_i a; subst a; injection hq' with a b c; subst a; exact (choose_some hc).2.1
          · exact runs q v' t' k hq'
    | run v t k =>
      cases k with
      | zero =>
        refine locks_work n m np s _ h rfl rfl rfl ?_
        intro q v t k hq; simp only [upd] at hq; split at hq
        · cases hq
        · exact runs q v t k hq
      | succ k =>
        refine locks_work n m np s _ h rfl rfl rfl ?_
        intro q v' t' k' hq; simp only [upd] at hq; split at hq
        · rename_i a; subst a; injection hq with a b c; subst a; exact runs q v t _ hw
        · exact runs q v' t' k' hq

/-! ### Counting -/

theorem psum (g : Pc → Nat) (pc : Nat → Pc) (i : Nat) (x : Pc) {n : Nat} (hi : i < n) :
    sum (fun j => g (upd pc i x j)) n + g (pc i) = sum (fun j => g (pc j)) n + g x := by
  have := sum_at (n := n) (f := fun j => g (upd pc i x j)) (g := fun j => g (pc j)) i hi (fun j hj => by simp only [upd]; rw [if_neg hj])
  simp only [upd_same] at this
  exact this

/-- A step of thread `i` that leaves queues, assignments and counters alone. -/
theorem counts_move (n m cap : Nat) (s s' : St) (i : Nat) (x : Pc) (hi : i < n) (h : Counts n m cap s) (epc : s'.pc = upd s.pc i x) (ewk : s'.wk = s.wk)
    (eq : s'.queue = s.queue) (eph : s'.phys = s.phys) (ef : s'.fin = s.fin) (epu : s'.pushed = s.pushed)
    (ht : ∀ p, s'.tasks p + adding s p x = s.tasks p + adding s p (s.pc i))
    (hc : ∀ v t, (s'.calls v).count t + want v t (s.pc i) = (s.calls v).count t + want v t x) : Counts n m cap s' := by
  obtain ⟨h1, h2, h3, h4⟩ := h
  refine ⟨?_, ?_, ?_, ?_⟩
  · intro p
    have e1 : load s' p = load s p := by funext v; simp only [load, eq, eph]
    have e2 : (fun j => adding s' p (s'.pc j)) = fun j => adding s p (upd s.pc i x j) := by
      funext j; rw [epc]
      cases hx : upd s.pc i x j <;> simp [adding, eph]
    rw [e1, e2, ewk, h1 p]
    have := psum (adding s p) s.pc i x hi
    have := ht p
    omega
  · intro v
    have : running s' v = running s v := by simp only [running, eph, ewk]
    rw [this, ef, eq, epu]; exact h2 v
  · intro v t
    have := psum (want v t) s.pc i x hi
    have := hc v t
    have := h3 v t
    rw [epc, epu]; omega
  · rw [eq]; exact h4

theorem token_finds {n m cap : Nat} {s : St} (h : Counts n m cap s) {p : Nat} (hw : s.wk p = .token) (hint : Nat) :
    ∃ v t r, choose m s p hint = some v ∧ s.queue v = t :: r ∧ v < m ∧ s.phys v = some p := by
  have hc := h.count p
  rw [hw] at hc
  have h1 : tok .token = 1 := rfl
  obtain ⟨v, hv, hl⟩ := sum_pos (f := load s p) (n := m) (by omega)
  unfold load mine at hl
  split at hl
  · rename_i hph
    cases hcs : choose m s p hint with
    | none => rw [choose_none hcs v hv hph] at hl; simp at hl
    | some w =>
      obtain ⟨a, b, c⟩ := choose_some hcs
      cases hq : s.queue w with
      | nil => exact absurd hq c
      | cons t r => exact ⟨w, t, r, rfl, hq, a, b⟩
  · omega

theorem counts_step (n m np cap : Nat) (dur : Nat → Nat) (s : St) (a : Act) (ha : a.below n m np) (hL : Locks n m np s) (h : Counts n m cap s) :
    Counts n m cap (step m cap dur s a) := by
  cases a with
  | issue i v t =>
    simp only [step]; split
    · rename_i hp
      refine counts_move n m cap s _ i (.iLock v t) ha.1 h rfl rfl rfl rfl rfl rfl (fun p => by rw [hp]; rfl) ?_
      intro v' t'
      rw [hp]
      simp only [St.goto, want, upd]
      by_cases e : v' = v
      · subst e
        by_cases e' : t = t'
        · subst e'; simp
        · have : ¬ t' = t := fun h => e' h.symm
          simp [e', List.count_append]
      · have : ¬ v = v' := fun h => e h.symm
        simp [e, this]
    · exact h
  | assign i v p =>
    simp only [step]; split
    · rename_i hp
      exact counts_move n m cap s _ i (.bLock v p) ha.1 h rfl rfl rfl rfl rfl rfl (fun p => by rw [hp]; rfl) (fun v t => by rw [hp]; rfl)
    · exact h
  | go i =>
    have hi : i < n := ha
    simp only [step]; unfold goStep
    cases hp : s.pc i with
    | idle => exact h
    | iLock v t =>
      simp only; split
      · exact h
      · exact counts_move n m cap s _ i (.iPush v t) hi h rfl rfl rfl rfl rfl rfl (fun p => by rw [hp]; rfl) (fun v t => by rw [hp]; rfl)
    | iPush v t =>
      simp only; split
      · rename_i hlt
        have hv : v < m := hL.vlt i v (by rw [hp]; rfl)
        obtain ⟨h1, h2, h3, h4⟩ := h
        refine ⟨?_, ?_, ?_, ?_⟩
        · intro p
          have e1 := sum_at (n := m) (f := load ({ s with queue := upd s.queue v (s.queue v ++ [t]), pushed := upd s.pushed v (s.pushed v ++ [t]) }.goto i (.iAdd v)) p)
            (g := load s p) v hv (fun j hj => load_congr rfl (upd_ne _ _ _ _ hj))
          have e2 := psum (adding s p) s.pc i (.iAdd v) hi
          have e3 := h1 p
          rw [hp] at e2
          have e4 : (fun j => adding ({ s with queue := upd s.queue v (s.queue v ++ [t]), pushed := upd s.pushed v (s.pushed v ++ [t]) }.goto i (.iAdd v)) p
              ((({ s with queue := upd s.queue v (s.queue v ++ [t]), pushed := upd s.pushed v (s.pushed v ++ [t]) } : St).goto i (.iAdd v)).pc j)) =
              fun j => adding s p (upd s.pc i (.iAdd v) j) := rfl
          rw [e4]
          simp only [St.goto]
          have e5 : adding s p (.iPush v t) = 0 := rfl
          simp only [load, St.goto, upd_same, List.length_append, List.length_cons, List.length_nil] at e1
          have e6 : adding s p (.iAdd v) = mine (s.phys v) p 1 := rfl
          by_cases hph : s.phys v = some p
          · rw [hph] at e1 e6; simp only [mine_some, St.goto] at *; omega
          · have : ∀ k, mine (s.phys v) p k = 0 := fun k => by simp [mine, hph]
            simp only [this, St.goto] at *; omega
        · intro w
          have := h2 w
          show s.fin w ++ running s w ++ upd s.queue v (s.queue v ++ [t]) w = upd s.pushed v (s.pushed v ++ [t]) w
          simp only [upd]; split
          · rename_i e; subst e; rw [← List.append_assoc, this]
          · exact this
        · intro w u
          have e1 := psum (want w u) s.pc i (.iAdd v) hi
          have e2 := h3 w u
          rw [hp] at e1
          show (s.calls w).count u = (upd s.pushed v (s.pushed v ++ [t]) w).count u + sum (fun j => want w u (upd s.pc i (.iAdd v) j)) n
          have e3 : want w u (.iAdd v) = 0 := rfl
          have e4 : want w u (.iPush v t) = if v = w ∧ t = u then 1 else 0 := rfl
          simp only [upd] at *
          by_cases e : w = v
          · subst e
            rw [if_pos rfl, List.count_append, List.count_singleton]
            by_cases e' : t = u
            · subst e'; simp at e4 ⊢; omega
            · simp [e'] at e4 ⊢; omega
          · rw [if_neg e]
            have : ¬ v = w := fun h => e h.symm
            simp [this] at e4; omega
        · intro w
          show (upd s.queue v (s.queue v ++ [t]) w).length ≤ cap
          simp only [upd]; split
          · rename_i e; subst e; simp; omega
          · exact h4 w
      · exact h
    | iAdd v =>
      simp only; split
      · rename_i p hph
        refine counts_move n m cap s _ i (.iUnlock v) hi h rfl rfl rfl rfl rfl rfl ?_ (fun v t => by rw [hp]; rfl)
        intro q
        rw [hp]; simp only [adding, hph, St.goto, upd]
        by_cases e : q = p
        · subst e; simp [mine_some]
        · simp [e, mine_other e]
      · rename_i hph
        refine counts_move n m cap s _ i (.iUnlock v) hi h rfl rfl rfl rfl rfl rfl ?_ (fun v t => by rw [hp]; rfl)
        intro q; rw [hp]; simp [adding, hph, St.goto, mine_none]
    | iUnlock v => exact counts_move n m cap s _ i .idle hi h rfl rfl rfl rfl rfl rfl (fun p => by rw [hp]; rfl) (fun v t => by rw [hp]; rfl)
    | bLock v p =>
      simp only; split
      · exact h
      · exact counts_move n m cap s _ i (.bAdd v p) hi h rfl rfl rfl rfl rfl rfl (fun p => by rw [hp]; rfl) (fun v t => by rw [hp]; rfl)
    | bAdd v p =>
      simp only; split
      · rename_i hn
        have hv : v < m := hL.vlt i v (by rw [hp]; rfl)
        have hnow : ∀ j, s.pc j ≠ .iAdd v := by
          intro j hj
          have := hL.uniq i j v (by rw [hp]; rfl) (by rw [hj]; rfl)
          subst this; rw [hp] at hj; cases hj
        obtain ⟨h1, h2, h3, h4⟩ := h
        refine ⟨?_, ?_, ?_, ?_⟩
        · intro q
          have e1 := sum_at (n := m) (f := load ({ s with tasks := upd s.tasks p (s.tasks p + (s.queue v).length), phys := upd s.phys v (some p) }.goto i (.bUnlock v)) q)
            (g := load s q) v hv (fun j hj => load_congr (upd_ne _ _ _ _ hj) rfl)
          have e2 := psum (adding s q) s.pc i (.bUnlock v) hi
          rw [hp] at e2
          have e3 := h1 q
          have e4 : (fun j => adding ({ s with tasks := upd s.tasks p (s.tasks p + (s.queue v).length), phys := upd s.phys v (some p) }.goto i (.bUnlock v)) q
              ((({ s with tasks := upd s.tasks p (s.tasks p + (s.queue v).length), phys := upd s.phys v (some p) } : St).goto i (.bUnlock v)).pc j)) =
              fun j => adding s q (upd s.pc i (.bUnlock v) j) := by
            funext j
            simp only [St.goto]
            by_cases e : j = i
            · subst e; rw [upd_same]; rfl
            · rw [upd_ne _ _ _ _ e]
              have := hnow j
              cases hj : s.pc j with
              | iAdd w =>
                have hw : w ≠ v := fun e => by subst e; exact this hj
                simp only [adding]; rw [upd_ne _ _ _ _ hw]
              | _ => rfl
          rw [e4]
          have e5 : adding s q (.bUnlock v) = 0 := rfl
          have e6 : adding s q (.bAdd v p) = 0 := rfl
          have e7 : load s q v = 0 := by simp [load, hn, mine_none]
          have e8 : load ({ s with tasks := upd s.tasks p (s.tasks p + (s.queue v).length), phys := upd s.phys v (some p) }.goto i (.bUnlock v)) q v =
              if q = p then (s.queue v).length else 0 := by
            simp only [load, St.goto, upd_same]
            by_cases e : q = p
            · subst e; simp [mine_some]
            · rw [mine_other e, if_neg e]
          rw [e8, e7] at e1
          show sum (load _ q) m = upd s.tasks p (s.tasks p + (s.queue v).length) q + tok (s.wk q) + _
          simp only [upd] at *
          by_cases e : q = p
          · subst e; simp only [if_true] at *; omega
          · simp only [e, if_false] at *; omega
        · intro w
          have := h2 w
          show s.fin w ++ running ({ s with tasks := upd s.tasks p (s.tasks p + (s.queue v).length), phys := upd s.phys v (some p) }.goto i (.bUnlock v)) w ++ s.queue w = s.pushed w
          rw [← this]
          congr 2
          simp only [running, St.goto, upd]
          by_cases e : w = v
          · subst e
            simp only [if_true, hn]
            cases hw : s.wk p with
            | run v' t k =>
              have hr := hL.runs p v' t k hw
              have hne : v' ≠ w := by rintro rfl; rw [hn] at hr; cases hr
              simp [inRun, hne]
            | _ => rfl
          · simp only [e, if_false]
        · intro w u
          have e1 := psum (want w u) s.pc i (.bUnlock v) hi
          rw [hp] at e1
          have e2 := h3 w u
          have e3 : want w u (.bUnlock v) = 0 := rfl
          have e4 : want w u (.bAdd v p) = 0 := rfl
          show (s.calls w).count u = (s.pushed w).count u + sum (fun j => want w u (upd s.pc i (.bUnlock v) j)) n
          omega
        · exact h4
      · exact counts_move n m cap s _ i (.bUnlock v) hi h rfl rfl rfl rfl rfl rfl (fun p => by rw [hp]; rfl) (fun v t => by rw [hp]; rfl)
    | bUnlock v => exact counts_move n m cap s _ i .idle hi h rfl rfl rfl rfl rfl rfl (fun p => by rw [hp]; rfl) (fun v t => by rw [hp]; rfl)
  | work p hint =>
    have runs := hL.runs
    have hrun : ∀ (f : Nat → Wk) (w : Nat), (∀ q, s.phys w = some q → inRun w (f q) = inRun w (s.wk q)) →
        running { s with wk := f } w = running s w := by
      intro f w hf
      simp only [running]
      cases hph : s.phys w with
      | none => rfl
      | some q => exact hf q hph
    simp only [step]; unfold workStep
    cases hw : s.wk p with
    | idle =>
      simp only; split
      · exact h
      · rename_i hne
        obtain ⟨h1, h2, h3, h4⟩ := h
        refine ⟨?_, ?_, h3, h4⟩
        · intro q
          have := h1 q
          show sum (load s q) m = upd s.tasks p (s.tasks p - 1) q + tok (upd s.wk p .token q) + sum (fun i => adding s q (s.pc i)) n
          simp only [upd]
          by_cases e : q = p
          · subst e; simp only [if_true]; rw [hw] at this; simp only [tok] at *; omega
          · simp only [e, if_false]; exact this
        · intro w
          have e := hrun (upd s.wk p .token) w (fun q _ => by
            simp only [upd]; split
            · rename_i e; subst e; rw [hw]; rfl
            · rfl)
          show s.fin w ++ running { s with wk := upd s.wk p .token } w ++ s.queue w = s.pushed w
          rw [e]; exact h2 w
    | token =>
      obtain ⟨v, t, r, hc, hq, hv, hph⟩ := token_finds h hw hint
      simp only [hc, hq]
      obtain ⟨h1, h2, h3, h4⟩ := h
      refine ⟨?_, ?_, h3, ?_⟩
      · intro q
        have e1 := sum_at (n := m) (f := load { s with queue := upd s.queue v r, wk := upd s.wk p (.run v t (dur t)) } q) (g := load s q) v hv
          (fun j hj => load_congr rfl (upd_ne _ _ _ _ hj))
        have e2 := h1 q
        show sum (load _ q) m = s.tasks q + tok (upd s.wk p (.run v t (dur t)) q) + sum (fun i => adding s q (s.pc i)) n
        simp only [load, upd_same, hph] at e1
        by_cases e : q = p
        · subst e
          rw [upd_same]
          rw [hw] at e2
          simp only [mine_some, hq, List.length_cons] at e1
          simp only [tok] at *; omega
        · rw [upd_ne _ _ _ _ e]
          simp only [mine_other e] at e1
          omega
      · intro w
        have := h2 w
        show s.fin w ++ running { s with queue := upd s.queue v r, wk := upd s.wk p (.run v t (dur t)) } w ++ upd s.queue v r w = s.pushed w
        by_cases e : w = v
        · subst e
          have e1 : running { s with queue := upd s.queue w r, wk := upd s.wk p (.run w t (dur t)) } w = [t] := by
            simp only [running, hph, upd_same, inRun, if_true]
          have e2 : running s w = [] := by simp only [running, hph, hw, inRun]
          rw [e1, upd_same, ← this, e2, hq]; simp
        · have e1 := hrun (upd s.wk p (.run v t (dur t))) w (fun q _ => by
            simp only [upd]; split
            · rename_i e'; subst e'; rw [hw]
              have : ¬ v = w := fun h => e h.symm
              simp [inRun, this]
            · rfl)
          have e2 : running { s with queue := upd s.queue v r, wk := upd s.wk p (.run v t (dur t)) } w = running s w := e1
          rw [e2, upd_ne _ _ _ _ e]; exact this
      · intro w
        show (upd s.queue v r w).length ≤ cap
        simp only [upd]; split
        · rename_i e; subst e; have := h4 w; rw [hq] at this; simp at this; omega
        · exact h4 w
    | run v t k =>
      have hph := runs p v t k hw
      obtain ⟨h1, h2, h3, h4⟩ := h
      cases k with
      | zero =>
        refine ⟨?_, ?_, h3, h4⟩
        · intro q
          have := h1 q
          show sum (load s q) m = s.tasks q + tok (upd s.wk p .idle q) + sum (fun i => adding s q (s.pc i)) n
          simp only [upd]; split
          · rename_i e; subst e; rw [hw] at this; exact this
          · exact this
        · intro w
          have := h2 w
          show upd s.fin v (s.fin v ++ [t]) w ++ running { s with fin := upd s.fin v (s.fin v ++ [t]), wk := upd s.wk p .idle } w ++ s.queue w = s.pushed w
          by_cases e : w = v
          · subst e
            have e1 : running { s with fin := upd s.fin w (s.fin w ++ [t]), wk := upd s.wk p .idle } w = [] := by
              simp only [running, hph, upd_same, inRun]
            have e2 : running s w = [t] := by simp only [running, hph, hw, inRun, if_true]
            rw [e1, upd_same, ← this, e2]; simp
          · have e1 := hrun (upd s.wk p .idle) w (fun q _ => by
              simp only [upd]; split
              · rename_i e'; subst e'; rw [hw]
                have : ¬ v = w := fun h => e h.symm
                simp [inRun, this]
              · rfl)
            have e2 : running { s with fin := upd s.fin v (s.fin v ++ [t]), wk := upd s.wk p .idle } w = running s w := e1
            rw [e2, upd_ne _ _ _ _ e]; exact this
      | succ k =>
        refine ⟨?_, ?_, h3, h4⟩
        · intro q
          have := h1 q
          show sum (load s q) m = s.tasks q + tok (upd s.wk p (.run v t k) q) + sum (fun i => adding s q (s.pc i)) n
          simp only [upd]; split
          · rename_i e; subst e; rw [hw] at this; exact this
          · exact this
        · intro w
          have e := hrun (upd s.wk p (.run v t k)) w (fun q _ => by
            simp only [upd]; split
            · rename_i e; subst e; rw [hw]; rfl
            · rfl)
          show s.fin w ++ running { s with wk := upd s.wk p (.run v t k) } w ++ s.queue w = s.pushed w
          rw [e]; exact h2 w

structure Inv (n m np cap : Nat) (s : St) : Prop where
  locks : Locks n m np s
  counts : Counts n m cap s

theorem inv_exec (n m np cap : Nat) (dur : Nat → Nat) : ∀ (pre : List Act) (s : St), (∀ a ∈ pre, a.below n m np) → Inv n m np cap s →
    Inv n m np cap (exec m cap dur s pre)
  | [], _, _, h => h
  | a :: pre, s, hb, h => by
    have ha := hb a List.mem_cons_self
    exact inv_exec n m np cap dur pre (step m cap dur s a) (fun x hx => hb x (List.mem_cons_of_mem _ hx))
      ⟨locks_step n m np cap dur s a ha h.locks, counts_step n m np cap dur s a ha h.locks h.counts⟩

/-! ### Room in the queues of virtual accelerators that are not assigned -/

theorem act_below (n m np : Nat) (l : Lab) (hl : l.ok n np) : l.act.below n m np := by
  cases l <;> exact hl

theorem roomy_move (n cap : Nat) (s s' : St) (i : Nat) (x : Pc) (hi : i < n) (h : Roomy n cap s) (epc : s'.pc = upd s.pc i x)
    (hph : ∀ v, s'.phys v = none → s.phys v = none)
    (hq : ∀ v, s'.phys v = none → (s'.queue v).length + issuing v x ≤ (s.queue v).length + issuing v (s.pc i)) : Roomy n cap s' := by
  intro v hv
  have e1 := psum (issuing v) s.pc i x hi
  have e2 := h v (hph v hv)
  have e3 := hq v hv
  rw [epc]; omega

theorem roomy_step (n m np cap : Nat) (dur : Nat → Nat) (s : St) (l : Lab) (hl : l.ok n np) (h : Roomy n cap s) :
    Roomy n cap (lstep m cap dur s l) := by
  cases l with
  | thread i =>
    have hi : i < n := hl
    show Roomy n cap (goStep cap s i)
    unfold goStep
    cases hp : s.pc i with
    | idle => exact h
    | iLock v t =>
      simp only; split
      · exact h
      · exact roomy_move n cap s _ i (.iPush v t) hi h rfl (fun _ h => h) (fun w _ => by rw [hp]; exact Nat.le_refl _)
    | iPush v t =>
      simp only; split
      · refine roomy_move n cap s _ i (.iAdd v) hi h rfl (fun _ h => h) (fun w _ => ?_)
        rw [hp]
        show (upd s.queue v (s.queue v ++ [t]) w).length + 0 ≤ (s.queue w).length + if v = w then 1 else 0
        simp only [upd]
        by_cases e : w = v
        · subst e; simp
        · have : ¬ v = w := fun h => e h.symm
          simp [e, this]
      · exact h
    | iAdd v =>
      simp only; split
      · exact roomy_move n cap s _ i (.iUnlock v) hi h rfl (fun _ h => h) (fun w _ => by rw [hp]; exact Nat.le_refl _)
      · exact roomy_move n cap s _ i (.iUnlock v) hi h rfl (fun _ h => h) (fun w _ => by rw [hp]; exact Nat.le_refl _)
    | iUnlock v => exact roomy_move n cap s _ i .idle hi h rfl (fun _ h => h) (fun w _ => by rw [hp]; exact Nat.le_refl _)
    | bLock v p =>
      simp only; split
      · exact h
      · exact roomy_move n cap s _ i (.bAdd v p) hi h rfl (fun _ h => h) (fun w _ => by rw [hp]; exact Nat.le_refl _)
    | bAdd v p =>
      simp only; split
      · refine roomy_move n cap s _ i (.bUnlock v) hi h rfl (fun w hw => ?_) (fun w _ => by rw [hp]; exact Nat.le_refl _)
        simp only [St.goto, upd] at hw
        split at hw
        · cases hw
        · exact hw
      · exact roomy_move n cap s _ i (.bUnlock v) hi h rfl (fun _ h => h) (fun w _ => by rw [hp]; exact Nat.le_refl _)
    | bUnlock v => exact roomy_move n cap s _ i .idle hi h rfl (fun _ h => h) (fun w _ => by rw [hp]; exact Nat.le_refl _)
  | worker p hint =>
    show Roomy n cap (workStep m dur s p hint)
    unfold workStep
    cases hw : s.wk p with
    | idle =>
      simp only; split
      · exact h
      · exact h
    | token =>
      simp only
      cases hc : choose m s p hint with
      | none => exact h
      | some v =>
        simp only
        cases hq : s.queue v with
        | nil => exact h
        | cons t r =>
          intro w hw'
          have := h w hw'
          show (upd s.queue v r w).length + sum (fun i => issuing w (s.pc i)) n ≤ cap
          simp only [upd]; split
          · rename_i e; subst e; rw [hq] at this; simp at this; omega
          · exact this
    | run v t k =>
      cases k with
      | zero => exact h
      | succ k => exact h

/-! ### Measure -/

/-- Handler steps queued, and two more per task. -/
def qcost (dur : Nat → Nat) : List Nat → Nat
  | [] => 0
  | t :: r => dur t + 2 + qcost dur r

theorem qcost_append (dur : Nat → Nat) (t : Nat) : ∀ l, qcost dur (l ++ [t]) = qcost dur l + (dur t + 2)
  | [] => by simp [qcost]
  | a :: l => by simp only [List.cons_append, qcost, qcost_append dur t l]; omega

def wPc (cap : Nat) (dur : Nat → Nat) : Pc → Nat
  | .idle => 0
  | .iUnlock _ => 1
  | .iAdd _ => 3
  | .iPush _ t => dur t + 6
  | .iLock _ t => dur t + 7
  | .bUnlock _ => 1
  | .bAdd _ _ => cap + 2
  | .bLock _ _ => cap + 3

def wWk : Wk → Nat
  | .run _ _ k => k + 1
  | _ => 0

def phi (n m np cap : Nat) (dur : Nat → Nat) (s : St) : Nat :=
  sum (fun i => wPc cap dur (s.pc i)) n + sum (fun p => wWk (s.wk p)) np + sum (fun v => qcost dur (s.queue v)) m + sum s.tasks np

theorem sum_upd {α : Type} (g : α → Nat) (f : Nat → α) (i : Nat) (x : α) {n : Nat} (hi : i < n) :
    sum (fun j => g (upd f i x j)) n + g (f i) = sum (fun j => g (f j)) n + g x := by
  have := sum_at (n := n) (f := fun j => g (upd f i x j)) (g := fun j => g (f j)) i hi (fun j hj => by simp only [upd]; rw [if_neg hj])
  simp only [upd_same] at this
  exact this

theorem phi_lower (n m np cap : Nat) (dur : Nat → Nat) (s : St) (l : Lab) (hl : l.ok n np) (h : Inv n m np cap s) :
    lstep m cap dur s l = s ∨ phi n m np cap dur (lstep m cap dur s l) < phi n m np cap dur s := by
  cases l with
  | thread i =>
    have hi : i < n := hl
    show goStep cap s i = s ∨ phi n m np cap dur (goStep cap s i) < phi n m np cap dur s
    have set := fun x => sum_upd (wPc cap dur) s.pc i x hi
    have easy : ∀ s' : St, ∀ x, s'.pc = upd s.pc i x → s'.wk = s.wk → s'.queue = s.queue → s'.tasks = s.tasks → wPc cap dur x < wPc cap dur (s.pc i) →
        phi n m np cap dur s' < phi n m np cap dur s := by
      intro s' x e1 e2 e3 e4 hlt
      have := set x
      unfold phi; rw [e1, e2, e3, e4]; omega
    unfold goStep
    cases hp : s.pc i with
    | idle => exact Or.inl rfl
    | iLock v t =>
      simp only; split
      · exact Or.inl rfl
      · exact Or.inr (easy _ (.iPush v t) rfl rfl rfl rfl (by rw [hp]; simp [wPc]))
    | iPush v t =>
      simp only; split
      · right
        have hv : v < m := h.locks.vlt i v (by rw [hp]; rfl)
        have e1 := set (.iAdd v)
        have e2 := sum_upd (qcost dur) s.queue v (s.queue v ++ [t]) hv
        rw [qcost_append] at e2
        rw [hp] at e1
        simp only [wPc] at e1
        show sum (fun j => wPc cap dur (upd s.pc i (.iAdd v) j)) n + sum (fun p => wWk (s.wk p)) np +
          sum (fun w => qcost dur (upd s.queue v (s.queue v ++ [t]) w)) m + sum s.tasks np < phi n m np cap dur s
        unfold phi; simp only [wPc] at *; omega
      · exact Or.inl rfl
    | iAdd v =>
      simp only; split
      · rename_i p hph
        right
        have hpn : p < np := (h.locks.physLt v p hph).1
        have e1 := set (.iUnlock v)
        have e2 := sum_upd (fun x => x) s.tasks p (s.tasks p + 1) hpn
        rw [hp] at e1
        show sum (fun j => wPc cap dur (upd s.pc i (.iUnlock v) j)) n + sum (fun p => wWk (s.wk p)) np +
          sum (fun w => qcost dur (s.queue w)) m + sum (fun q => upd s.tasks p (s.tasks p + 1) q) np < phi n m np cap dur s
        unfold phi; simp only [wPc] at *
        have e3 : sum (fun j => s.tasks j) np = sum s.tasks np := rfl
        omega
      · exact Or.inr (easy _ (.iUnlock v) rfl rfl rfl rfl (by rw [hp]; simp [wPc]))
    | iUnlock v => exact Or.inr (easy _ .idle rfl rfl rfl rfl (by rw [hp]; simp [wPc]))
    | bLock v p =>
      simp only; split
      · exact Or.inl rfl
      · exact Or.inr (easy _ (.bAdd v p) rfl rfl rfl rfl (by rw [hp]; simp [wPc]))
    | bAdd v p =>
      simp only; split
      · right
        have hpn : p < np := h.locks.plt i v p (Or.inr hp)
        have e1 := set (.bUnlock v)
        have e2 := sum_upd (fun x => x) s.tasks p (s.tasks p + (s.queue v).length) hpn
        have e4 := h.counts.full v
        rw [hp] at e1
        show sum (fun j => wPc cap dur (upd s.pc i (.bUnlock v) j)) n + sum (fun p => wWk (s.wk p)) np +
          sum (fun w => qcost dur (s.queue w)) m + sum (fun q => upd s.tasks p (s.tasks p + (s.queue v).length) q) np < phi n m np cap dur s
        unfold phi; simp only [wPc] at *
        have e3 : sum (fun j => s.tasks j) np = sum s.tasks np := rfl
        omega
      · exact Or.inr (easy _ (.bUnlock v) rfl rfl rfl rfl (by rw [hp]; simp [wPc]))
    | bUnlock v => exact Or.inr (easy _ .idle rfl rfl rfl rfl (by rw [hp]; simp [wPc]))
  | worker p hint =>
    have hpn : p < np := hl
    show workStep m dur s p hint = s ∨ phi n m np cap dur (workStep m dur s p hint) < phi n m np cap dur s
    have set := fun x => sum_upd wWk s.wk p x hpn
    unfold workStep
    cases hw : s.wk p with
    | idle =>
      simp only; split
      · exact Or.inl rfl
      · right
        rename_i hne
        have e1 := set .token
        have e2 := sum_upd (fun x => x) s.tasks p (s.tasks p - 1) hpn
        rw [hw] at e1
        show sum (fun j => wPc cap dur (s.pc j)) n + sum (fun q => wWk (upd s.wk p .token q)) np +
          sum (fun w => qcost dur (s.queue w)) m + sum (fun q => upd s.tasks p (s.tasks p - 1) q) np < phi n m np cap dur s
        unfold phi; simp only [wWk] at *
        have e3 : sum (fun j => s.tasks j) np = sum s.tasks np := rfl
        omega
    | token =>
      obtain ⟨v, t, r, hc, hq, hv, hph⟩ := token_finds h.counts hw hint
      simp only [hc, hq]
      right
      have e1 := set (.run v t (dur t))
      have e2 := sum_upd (qcost dur) s.queue v r hv
      rw [hq] at e2
      rw [hw] at e1
      show sum (fun j => wPc cap dur (s.pc j)) n + sum (fun q => wWk (upd s.wk p (.run v t (dur t)) q)) np +
          sum (fun w => qcost dur (upd s.queue v r w)) m + sum s.tasks np < phi n m np cap dur s
      unfold phi; simp only [wWk, qcost] at *; omega
    | run v t k =>
      right
      cases k with
      | zero =>
        have e1 := set .idle
        rw [hw] at e1
        show sum (fun j => wPc cap dur (s.pc j)) n + sum (fun q => wWk (upd s.wk p .idle q)) np +
          sum (fun w => qcost dur (s.queue w)) m + sum s.tasks np < phi n m np cap dur s
        unfold phi; simp only [wWk] at *; omega
      | succ k =>
        have e1 := set (.run v t k)
        rw [hw] at e1
        show sum (fun j => wPc cap dur (s.pc j)) n + sum (fun q => wWk (upd s.wk p (.run v t k) q)) np +
          sum (fun w => qcost dur (s.queue w)) m + sum s.tasks np < phi n m np cap dur s
        unfold phi; simp only [wWk] at *; omega

/-- A worker in the middle of something moves, whatever it is asked to serve. -/
theorem worker_moves (n m np cap : Nat) (dur : Nat → Nat) (s : St) (h : Inv n m np cap s) (p hint : Nat) (hw : s.wk p ≠ .idle ∨ s.tasks p ≠ 0) :
    workStep m dur s p hint ≠ s := by
  intro e
  have e' : (workStep m dur s p hint).wk p = s.wk p := by rw [e]
  unfold workStep at e'
  cases hwk : s.wk p with
  | idle =>
    rw [hwk] at e' hw
    have : s.tasks p ≠ 0 := hw.elim (fun h => absurd rfl h) id
    simp only [this, if_false, upd_same] at e'
    cases e'
  | token =>
    obtain ⟨v, t, r, hc, hq, hv, hph⟩ := token_finds h.counts hwk hint
    rw [hwk] at e'
    simp only [hc, hq, upd_same] at e'
    cases e'
  | run v t k =>
    rw [hwk] at e'
    cases k with
    | zero => simp only [upd_same] at e'; cases e'
    | succ k => simp only [upd_same] at e'; injection e' with a b c; omega

theorem progress (n m np cap : Nat) (dur : Nat → Nat) :
    Progress (lstep m cap dur) (Lab.ok n np) (Lab.cls n) (n + np) (fun s => Inv n m np cap s ∧ Roomy n cap s) (phi n m np cap dur) := by
  refine ⟨?_, ?_, ?_, ?_⟩
  · intro l hl
    cases l with
    | thread i => have : i < n := hl; show i < n + np; omega
    | worker p hint => have : p < np := hl; show n + p < n + np; omega
  · intro s l hl h
    exact ⟨⟨locks_step n m np cap dur s l.act (act_below n m np l hl) h.1.locks, counts_step n m np cap dur s l.act (act_below n m np l hl) h.1.locks h.1.counts⟩,
      roomy_step n m np cap dur s l hl h.2⟩
  · intro s l hl h; exact phi_lower n m np cap dur s l hl h.1
  · intro s l l' hl hl' hc h hm
    cases l with
    | thread i =>
      cases l' with
      | thread j => have : i = j := hc; subst this; exact hm
      | worker p hint => have h1 : i < n := hl; have h2 : i = n + p := hc; omega
    | worker p hint =>
      cases l' with
      | thread j => have h1 : j < n := hl'; have h2 : n + p = j := hc; omega
      | worker q hint' =>
        have : p = q := by have : n + p = n + q := hc; omega
        subst this
        refine worker_moves n m np cap dur s h.1 p hint' ?_
        apply Classical.byContradiction
        intro hn
        have h1 : s.wk p = .idle := Classical.byContradiction fun h' => hn (Or.inl h')
        have h2 : s.tasks p = 0 := Classical.byContradiction fun h' => hn (Or.inr h')
        apply hm
        show workStep m dur s p hint = s
        unfold workStep; rw [h1]; simp only [h2, if_true]

/-- What rest means. -/
theorem at_rest (n m np cap : Nat) (dur : Nat → Nat) (hcap : 1 ≤ cap) (s : St) (h : Inv n m np cap s) (hr : Roomy n cap s)
    (hq : ∀ l : Lab, l.ok n np → lstep m cap dur s l = s) :
    (∀ i, s.pc i = .idle) ∧ (∀ p, p < np → s.wk p = .idle) ∧ ∀ v p, s.phys v = some p → s.queue v = [] := by
  have hwork : ∀ p, p < np → s.wk p = .idle ∧ s.tasks p = 0 := by
    intro p hp
    apply Classical.byContradiction
    intro hn
    refine worker_moves n m np cap dur s h p 0 ?_ (hq (.worker p 0) hp)
    by_cases e : s.wk p = .idle
    · exact Or.inr (fun e' => hn ⟨e, e'⟩)
    · exact Or.inl e
  have hgo : ∀ i, i < n → ∀ x, (goStep cap s i).pc i = x → s.pc i = x := fun i hi x hx => by
    have : goStep cap s i = s := hq (.thread i) hi
    rw [this] at hx; exact hx
  -- nobody is between push and unlock
  have hadd : ∀ i v, s.pc i ≠ .iAdd v := by
    intro i v e
    have hi : i < n := by apply Classical.byContradiction; intro hn; have := h.locks.out i (by omega); rw [this] at e; cases e
    have := hgo i hi (.iUnlock v) (by unfold goStep; rw [e]; simp only; split <;> simp [St.goto, upd])
    rw [e] at this; cases this
  have hload : ∀ v p, s.phys v = some p → s.queue v = [] := by
    intro v p hph
    obtain ⟨hp, hv⟩ := h.locks.physLt v p hph
    have hc := h.counts.count p
    rw [(hwork p hp).1, (hwork p hp).2, sum_zero (f := fun i => adding s p (s.pc i)) (fun i _ => by
      have := hadd i
      cases e : s.pc i with
      | iAdd w => exact absurd e (this w)
      | _ => rfl)] at hc
    have h1 := sum_ge (f := load s p) (n := m) v hv
    have h2 : load s p v = (s.queue v).length := by unfold load; rw [hph, mine_some]
    have h3 : tok .idle = 0 := rfl
    exact List.length_eq_zero_iff.mp (by omega)
  -- nobody holds a lock
  have hhold : ∀ i v, holds (s.pc i) ≠ some v := by
    intro i v e
    have hi : i < n := by apply Classical.byContradiction; intro hn; have := h.locks.out i (by omega); rw [this] at e; cases e
    cases hp : s.pc i with
    | idle => rw [hp] at e; cases e
    | iLock w t => rw [hp] at e; cases e
    | bLock w t => rw [hp] at e; cases e
    | iAdd w => exact hadd i w hp
    | iUnlock w =>
      have := hgo i hi .idle (by unfold goStep; rw [hp]; simp [St.goto, upd]); rw [hp] at this; cases this
    | bUnlock w =>
      have := hgo i hi .idle (by unfold goStep; rw [hp]; simp [St.goto, upd]); rw [hp] at this; cases this
    | bAdd w p =>
      have := hgo i hi (.bUnlock w) (by unfold goStep; rw [hp]; simp only; split <;> simp [St.goto, upd]); rw [hp] at this; cases this
    | iPush w t =>
      have hlt : (s.queue w).length < cap := by
        cases hph : s.phys w with
        | some p => rw [hload w p hph]; show 0 < cap; omega
        | none =>
          have h1 := hr w hph
          have h2 := sum_ge (f := fun j => issuing w (s.pc j)) (n := n) i hi
          have h3 : issuing w (s.pc i) = 1 := by rw [hp]; simp [issuing]
          have h2 : issuing w (s.pc i) ≤ _ := h2
          omega
      have := hgo i hi (.iAdd w) (by unfold goStep; rw [hp]; simp only; rw [if_pos hlt]; simp [St.goto, upd]); rw [hp] at this; cases this
  have hlock : ∀ v, s.lock v = false := by
    intro v
    cases e : s.lock v with
    | false => rfl
    | true => obtain ⟨i, _, hi⟩ := h.locks.owner v e; exact absurd hi (hhold i v)
  refine ⟨?_, fun p hp => (hwork p hp).1, hload⟩
  intro i
  by_cases hi : i < n
  · cases hp : s.pc i with
    | idle => rfl
    | iLock v t =>
      have := hgo i hi (.iPush v t) (by unfold goStep; rw [hp]; simp only; rw [if_neg (by rw [hlock]; simp)]; simp [St.goto, upd]); rw [hp] at this; cases this
    | bLock v p =>
      have := hgo i hi (.bAdd v p) (by unfold goStep; rw [hp]; simp only; rw [if_neg (by rw [hlock]; simp)]; simp [St.goto, upd]); rw [hp] at this; cases this
    | iPush v t => exact absurd (by rw [hp]; rfl) (hhold i v)
    | iAdd v => exact absurd (by rw [hp]; rfl) (hhold i v)
    | iUnlock v => exact absurd (by rw [hp]; rfl) (hhold i v)
    | bAdd v p => exact absurd (by rw [hp]; rfl) (hhold i v)
    | bUnlock v => exact absurd (by rw [hp]; rfl) (hhold i v)
  · exact h.locks.out i (by omega)

/-! ### C65 -/

/-- **C65 (partial)** Every issued task is executed: take any history `pre` of `n` client and balancer threads, `m` virtual accelerators and `np` accelerators with
their workers, after which every virtual accelerator that is not yet assigned has room for the tasks being issued to it. Under every fair schedule of
what is then left to do, from some moment on every call has returned, every worker waits, and of every virtual accelerator assigned to an accelerator each
task has been executed to its end exactly as often as it was issued. (Tasks of a virtual accelerator that is assigned to none are all still in
its queue.) Missing: histories that fill the queue of a virtual accelerator before it is assigned, for which it is false (`C65_violated`). -/
theorem C65_executed_partial (n m np cap : Nat) (hcap : 1 ≤ cap) (dur : Nat → Nat) (pre : List Act) (hb : ∀ a ∈ pre, a.below n m np)
    (hroom : Roomy n cap (exec m cap dur init pre)) (f : Nat → Lab) (hf : FairSched n np f) :
    ∃ t0, ∀ t, t0 ≤ t → let s := run (lstep m cap dur) (exec m cap dur init pre) f t
      (∀ i, s.pc i = .idle) ∧ (∀ p, p < np → s.wk p = .idle) ∧
      (∀ v p, s.phys v = some p → s.queue v = [] ∧ ∀ u, (s.fin v).count u = (s.calls v).count u) ∧
      (∀ v, s.phys v = none → ∀ u, (s.fin v).count u + (s.queue v).count u = (s.calls v).count u) := by
  have hinv := inv_exec n m np cap dur pre init hb ⟨locks_init n m np, counts_init n m cap⟩
  have hpr := progress n m np cap dur
  obtain ⟨t0, h1, h2⟩ := comes_to_rest hpr _ f (exec m cap dur init pre) (Nat.le_refl _) hf ⟨hinv, hroom⟩
  refine ⟨t0, fun t ht => ?_⟩
  have hst := run_inv hpr hf.1 ⟨hinv, hroom⟩ t0
  rw [h2 t ht]
  generalize run (lstep m cap dur) (exec m cap dur init pre) f t0 = s at *
  obtain ⟨a, b, c⟩ := at_rest n m np cap dur hcap s hst.1 hst.2 h1
  have hcalls : ∀ v u, (s.calls v).count u = (s.pushed v).count u := by
    intro v u
    have := hst.1.counts.calls v u
    rw [sum_zero (f := fun i => want v u (s.pc i)) (fun i _ => by show want v u (s.pc i) = 0; rw [a i]; rfl)] at this
    omega
  refine ⟨a, b, ?_, ?_⟩
  · intro v p hph
    refine ⟨c v p hph, fun u => ?_⟩
    have ho := hst.1.counts.order v
    have hrun : running s v = [] := by
      simp only [running, hph, b p (hst.1.locks.physLt v p hph).1, inRun]
    rw [hrun, c v p hph, List.append_nil, List.append_nil] at ho
    rw [hcalls, ho]
  · intro v hph u
    have ho := hst.1.counts.order v
    have hrun : running s v = [] := by simp only [running, hph]
    rw [hrun, List.append_nil] at ho
    rw [hcalls, ← ho, List.count_append]

/-- **C65** (at most once, in order) At every moment of every history, the tasks executed for a virtual accelerator are an initial piece of the tasks in the order in
which they entered its queue, and no task was executed more often than it was issued. -/
theorem C65_once_in_order (n m np cap : Nat) (dur : Nat → Nat) (pre : List Act) (hb : ∀ a ∈ pre, a.below n m np) (v : Nat) :
    let s := exec m cap dur init pre
    s.fin v <+: s.pushed v ∧ ∀ u, (s.fin v).count u ≤ (s.calls v).count u := by
  have hinv := inv_exec n m np cap dur pre init hb ⟨locks_init n m np, counts_init n m cap⟩
  have ho := hinv.counts.order v
  refine ⟨⟨_, by rw [← List.append_assoc]; exact ho⟩, fun u => ?_⟩
  have := hinv.counts.calls v u
  rw [← ho, List.count_append, List.count_append] at this
  omega

/-! ### The queue of a virtual accelerator that is not assigned yet -/

/-- Client 0 is in the push loop for virtual accelerator 0, whose queue is full; the balancer (thread 1) waits for its lock. -/
structure Stuck (cap t : Nat) (s : St) : Prop where
  push : s.pc 0 = .iPush 0 t
  bal  : s.pc 1 = .bLock 0 0
  full : (s.queue 0).length = cap
  phys : s.phys 0 = none
  lock : s.lock 0 = true
  only : ∀ j, j ≠ 0 → holds (s.pc j) ≠ some 0
  fin  : s.fin 0 = []
  runs : ∀ p u k, s.wk p ≠ .run 0 u k

theorem stuck_move (cap t : Nat) (s s' : St) (i : Nat) (x : Pc) (h : Stuck cap t s) (h0 : i ≠ 0) (h1 : i ≠ 1) (epc : s'.pc = upd s.pc i x)
    (e1 : s'.queue 0 = s.queue 0) (e2 : s'.phys 0 = s.phys 0) (e3 : s'.lock 0 = s.lock 0) (hx : holds x ≠ some 0)
    (e4 : s'.fin = s.fin := by rfl) (e5 : s'.wk = s.wk := by rfl) : Stuck cap t s' := by
  obtain ⟨a, b, c, d, e, f, g, r⟩ := h
  refine ⟨by rw [epc, upd_ne _ _ _ _ h0.symm]; exact a, by rw [epc, upd_ne _ _ _ _ h1.symm]; exact b, by rw [e1]; exact c, by rw [e2]; exact d, by rw [e3]; exact e, ?_, by rw [e4]; exact g, by rw [e5]; exact r⟩
  intro j hj
  rw [epc]
  by_cases e : j = i
  · subst e; rw [upd_same]; exact hx
  · rw [upd_ne _ _ _ _ e]; exact f j hj

theorem stuck_step (m cap t : Nat) (dur : Nat → Nat) (s : St) (a : Act) (h : Stuck cap t s) : Stuck cap t (step m cap dur s a) := by
  cases a with
  | issue i v u =>
    simp only [step]; split
    · rename_i hp
      refine stuck_move cap t s _ i (.iLock v u) h ?_ ?_ rfl rfl rfl rfl (by simp [holds])
      · rintro rfl; rw [h.push] at hp; cases hp
      · rintro rfl; rw [h.bal] at hp; cases hp
    · exact h
  | assign i v p =>
    simp only [step]; split
    · rename_i hp
      refine stuck_move cap t s _ i (.bLock v p) h ?_ ?_ rfl rfl rfl rfl (by simp [holds])
      · rintro rfl; rw [h.push] at hp; cases hp
      · rintro rfl; rw [h.bal] at hp; cases hp
    · exact h
  | go i =>
    simp only [step]
    by_cases h0 : i = 0
    · subst h0
      unfold goStep; rw [h.push]; simp only; rw [if_neg (by rw [h.full]; omega)]; exact h
    by_cases h1 : i = 1
    · subst h1
      unfold goStep; rw [h.bal]; simp only; rw [if_pos h.lock]; exact h
    have hon := h.only i h0
    unfold goStep
    cases hp : s.pc i with
    | idle => exact h
    | iLock v u =>
      simp only; split
      · exact h
      · rename_i hl
        have hv : v ≠ 0 := by rintro rfl; exact hl h.lock
        exact stuck_move cap t s _ i (.iPush v u) h h0 h1 rfl rfl rfl (upd_ne _ _ _ _ hv.symm) (by simpa [holds] using hv)
    | iPush v u =>
      rw [hp] at hon
      have hv : v ≠ 0 := by simpa [holds] using hon
      simp only; split
      · exact stuck_move cap t s _ i (.iAdd v) h h0 h1 rfl (upd_ne _ _ _ _ hv.symm) rfl rfl (by simpa [holds] using hv)
      · exact h
    | iAdd v =>
      rw [hp] at hon
      have hv : v ≠ 0 := by simpa [holds] using hon
      simp only; split
      · exact stuck_move cap t s _ i (.iUnlock v) h h0 h1 rfl rfl rfl rfl (by simpa [holds] using hv)
      · exact stuck_move cap t s _ i (.iUnlock v) h h0 h1 rfl rfl rfl rfl (by simpa [holds] using hv)
    | iUnlock v =>
      rw [hp] at hon
      have hv : v ≠ 0 := by simpa [holds] using hon
      exact stuck_move cap t s _ i .idle h h0 h1 rfl rfl rfl (upd_ne _ _ _ _ hv.symm) (by simp [holds])
    | bLock v p =>
      simp only; split
      · exact h
      · rename_i hl
        have hv : v ≠ 0 := by rintro rfl; exact hl h.lock
        exact stuck_move cap t s _ i (.bAdd v p) h h0 h1 rfl rfl rfl (upd_ne _ _ _ _ hv.symm) (by simpa [holds] using hv)
    | bAdd v p =>
      rw [hp] at hon
      have hv : v ≠ 0 := by simpa [holds] using hon
      simp only; split
      · exact stuck_move cap t s _ i (.bUnlock v) h h0 h1 rfl rfl (upd_ne _ _ _ _ hv.symm) rfl (by simpa [holds] using hv)
      · exact stuck_move cap t s _ i (.bUnlock v) h h0 h1 rfl rfl rfl rfl (by simpa [holds] using hv)
    | bUnlock v =>
      rw [hp] at hon
      have hv : v ≠ 0 := by simpa [holds] using hon
      exact stuck_move cap t s _ i .idle h h0 h1 rfl rfl rfl (upd_ne _ _ _ _ hv.symm) (by simp [holds])
  | work p hint =>
    simp only [step]; unfold workStep
    obtain ⟨a, b, c, d, e, f, g, hr⟩ := h
    have hset : ∀ x, (∀ u k, x ≠ .run 0 u k) → ∀ q u k, upd s.wk p x q ≠ .run 0 u k := by
      intro x hx q u k; simp only [upd]; split
      · exact hx u k
      · exact hr q u k
    cases hw : s.wk p with
    | idle =>
      simp only; split
      · exact ⟨a, b, c, d, e, f, g, hr⟩
      · exact ⟨a, b, c, d, e, f, g, hset _ (by simp)⟩
    | token =>
      simp only
      cases hc : choose m s p hint with
      | none => exact ⟨a, b, c, d, e, f, g, hset _ (by simp)⟩
      | some v =>
        simp only
        cases hq : s.queue v with
        | nil => exact ⟨a, b, c, d, e, f, g, hset _ (by simp)⟩
        | cons u r =>
          have hv : v ≠ 0 := by rintro rfl; have := (choose_some hc).2.1; rw [d] at this; cases this
          exact ⟨a, b, by show (upd s.queue v r 0).length = cap; rw [upd_ne _ _ _ _ hv.symm]; exact c, d, e, f, g, hset _ (by simp [hv])⟩
    | run v u k =>
      have hv : v ≠ 0 := by rintro rfl; exact hr p u k hw
      cases k with
      | zero => exact ⟨a, b, c, d, e, f, by show upd s.fin v _ 0 = []; rw [upd_ne _ _ _ _ hv.symm]; exact g, hset _ (by simp)⟩
      | succ k => exact ⟨a, b, c, d, e, f, g, hset _ (by simp [hv])⟩

theorem stuck_exec (m cap t : Nat) (dur : Nat → Nat) : ∀ (post : List Act) (s : St), Stuck cap t s → Stuck cap t (exec m cap dur s post)
  | [], _, h => h
  | a :: post, s, h => stuck_exec m cap t dur post (step m cap dur s a) (stuck_step m cap t dur s a h)

/-- Client 0 issues one task to virtual accelerator 0 and the call returns. -/
def issueOne (t : Nat) : List Act := [.issue 0 0 t, .go 0, .go 0, .go 0, .go 0]

/-- Client 0 issues the tasks `0 … k-1`. -/
def issueMany : Nat → List Act
  | 0 => []
  | k + 1 => issueMany k ++ issueOne k

theorem exec_append (m cap : Nat) (dur : Nat → Nat) (s : St) (a b : List Act) : exec m cap dur s (a ++ b) = exec m cap dur (exec m cap dur s a) b := by
  simp [exec, List.foldl_append]

/-- After `k ≤ cap` issued tasks. -/
theorem after_many (m cap : Nat) (dur : Nat → Nat) : ∀ k, k ≤ cap → let s := exec m cap dur init (issueMany k)
    (∀ j, s.pc j = .idle) ∧ (s.queue 0).length = k ∧ s.phys 0 = none ∧ s.lock 0 = false ∧ s.fin 0 = [] ∧ ∀ p, s.wk p = .idle
  | 0, _ => by simp [issueMany, exec, init]
  | k + 1, hk => by
    obtain ⟨h1, h2, h3, h4, h5, h6⟩ := after_many m cap dur k (by omega)
    show (∀ j, (exec m cap dur init (issueMany k ++ issueOne k)).pc j = .idle) ∧ _
    simp only [issueMany]
    rw [exec_append]
    generalize exec m cap dur init (issueMany k) = s at *
    have hlt : (s.queue 0).length < cap := by omega
    have e : exec m cap dur s (issueOne k) = { s with
        calls := upd s.calls 0 (s.calls 0 ++ [k]), queue := upd s.queue 0 (s.queue 0 ++ [k]), pushed := upd s.pushed 0 (s.pushed 0 ++ [k]),
        lock := upd (upd s.lock 0 true) 0 false, pc := upd (upd (upd (upd (upd s.pc 0 (.iLock 0 k)) 0 (.iPush 0 k)) 0 (.iAdd 0)) 0 (.iUnlock 0)) 0 .idle } := by
      simp [exec, issueOne, step, goStep, h1 0, h3, h4, St.goto, upd, hlt]
    rw [e]
    refine ⟨fun j => ?_, by simp [upd, h2], h3, by simp [upd], h5, h6⟩
    simp only [upd]
    by_cases hj : j = 0
    · simp [hj]
    · simp [hj, h1 j]

/-- **C65 is violated by the code**: for every capacity, if a client issues one task more than the queue holds before the balancer has assigned the virtual accelerator, client
and balancer block each other for ever, whatever any thread or worker does then: the client spins in the push holding the lock (arax_vaccel.c:34-35) that
`arax_accel_add_vaccel` needs to connect the queue to a worker (arax_accel.c:120). The balancer being stuck, no other virtual accelerator is assigned either. -/
theorem C65_violated (m cap : Nat) (dur : Nat → Nat) (post : List Act) :
    let s := exec m cap dur init (issueMany cap ++ [.issue 0 0 cap, .go 0, .assign 1 0 0] ++ post)
    s.pc 0 = .iPush 0 cap ∧ s.pc 1 = .bLock 0 0 ∧ s.fin 0 = [] := by
  have hs : Stuck cap cap (exec m cap dur init (issueMany cap ++ [.issue 0 0 cap, .go 0, .assign 1 0 0])) := by
    obtain ⟨h1, h2, h3, h4, h5, h6⟩ := after_many m cap dur cap (Nat.le_refl _)
    rw [exec_append]
    generalize exec m cap dur init (issueMany cap) = s at *
    have e : exec m cap dur s [.issue 0 0 cap, .go 0, .assign 1 0 0] = { s with
        calls := upd s.calls 0 (s.calls 0 ++ [cap]), lock := upd s.lock 0 true,
        pc := upd (upd (upd s.pc 0 (.iLock 0 cap)) 0 (.iPush 0 cap)) 1 (.bLock 0 0) } := by
      simp [exec, step, goStep, h1, h4, St.goto, upd]
    rw [e]
    refine ⟨by simp [upd], by simp [upd], h2, h3, by simp [upd], ?_, h5, fun p u k => by show s.wk p ≠ _; rw [h6]; simp⟩
    intro j hj
    simp only [upd, hj, if_false]
    split
    · simp [holds]
    · simp [h1 j, holds]
  have hf := stuck_exec m cap cap dur post _ hs
  rw [← exec_append] at hf
  exact ⟨hf.push, hf.bal, hf.fin⟩

/-- Non-vacuity of `C65_executed_partial`: two clients and a balancer, two virtual accelerators on two accelerators, a queue of capacity 1, one of the calls in
the middle of a push into a full queue that is assigned, one assignment still to come. -/
example : let pre : List Act := [.assign 2 0 0, .go 2, .go 2, .go 2, .issue 0 0 7, .go 0, .go 0, .go 0, .go 0, .issue 0 0 8, .go 0, .go 0,
      .issue 1 1 9, .go 1, .assign 2 1 1]
    (∀ a ∈ pre, a.below 3 2 2) ∧ Roomy 3 1 (exec 2 1 (fun t => t) init pre) ∧ (exec 2 1 (fun t => t) init pre).pc 0 = .iPush 0 8 ∧
    (exec 2 1 (fun t => t) init pre).queue 0 = [7] ∧
    FairSched 3 2 (fun t => if t % 5 < 3 then .thread (t % 5) else .worker (t % 5 - 3) 0) := by
  refine ⟨?_, ?_, by decide +kernel, by decide +kernel, ?_, ?_⟩
  · simp [Act.below]
  · intro v hv
    by_cases h0 : v = 0
    · subst h0
      have : (exec 2 1 (fun t => t) init [.assign 2 0 0, .go 2, .go 2, .go 2, .issue 0 0 7, .go 0, .go 0, .go 0, .go 0, .issue 0 0 8, .go 0, .go 0,
        .issue 1 1 9, .go 1, .assign 2 1 1]).phys 0 = some 0 := by decide +kernel
      rw [this] at hv; cases hv
    · by_cases h1 : v = 1
      · subst h1; decide +kernel
      · have e : ∀ s : St, s = exec 2 1 (fun t => t) init [.assign 2 0 0, .go 2, .go 2, .go 2, .issue 0 0 7, .go 0, .go 0, .go 0, .go 0, .issue 0 0 8, .go 0, .go 0,
          .issue 1 1 9, .go 1, .assign 2 1 1] → (s.queue v).length = 0 ∧ s.pc 0 = .iPush 0 8 ∧ s.pc 1 = .iPush 1 9 ∧ s.pc 2 = .bLock 1 1 := by
          rintro s rfl
          refine ⟨?_, by decide +kernel, by decide +kernel, by decide +kernel⟩
          simp [exec, step, goStep, St.goto, upd, init, h0]
        obtain ⟨a, b, c, d⟩ := e _ rfl
        rw [a]
        have h0' : ¬ 0 = v := fun h => h0 h.symm
        have h1' : ¬ 1 = v := fun h => h1 h.symm
        simp only [sum, b, c, d, issuing, h0', h1', if_false]
        omega
  · intro t
    simp only
    split
    · assumption
    · show t % 5 - 3 < 2; omega
  · intro c hc t
    refine ⟨5 * t + c, by omega, ?_⟩
    have : (5 * t + c) % 5 = c := by omega
    simp only [this]
    split
    · rfl
    · show 3 + (c - 3) = c; omega

end Arax.Live
