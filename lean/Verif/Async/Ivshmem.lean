/-!
# C104: waiting for tasks over ivshmem

*Property.* With the ivshmem back-end of the synchronisation primitives, a wait for a completion (a task) returns only after it was completed; a wait for something that has been or
is completed returns; whatever others wait for. (C20 and C21 are about the other two back-ends.)

Modelled: `async_completion_init`, `_complete`, `_wait`, and the interrupt thread of /repo/src/async/ivshmem/async.c, for any number of completions and threads in one virtual
machine. Simplifications: one round of the interrupt thread is one step (it takes no lock, so it can also corrupt the list; see DESIGN.md), as is the insertion into the list, under its
lock; the mutexes are of the default kind of glibc: anybody can unlock them, and a thread that locks one it has locked itself waits like everybody else. An entry that is put into the
list while it is there corrupts the list: `broken`, after which nothing is known.
-/
namespace Arax.Ivshmem

/-- Where a thread is; line numbers of /repo/src/async/ivshmem/async.c. -/
inductive Pc where
  | idle
  | ring (c : Nat)   -- complete: stored, about to ring the bell [132]
  | try_ (c : Nat)   -- wait: about to try the mutex [137]
  | vm (c : Nat)     -- wait: about to store the number of the machine [140]
  | lock (c : Nat)   -- wait: in `pthread_mutex_lock` [141]
  deriving DecidableEq

/-- What can be observed. (No code of its own.) -/
inductive Ev where
  | completed (c : Nat) | returned (c : Nat)
  deriving DecidableEq

/-- The completions (`completed`, `mutex`, `vm_id`; /repo/src/async/ivshmem/async.h), the list `outstanding`, interrupts not yet read, and the threads. -/
structure St where
  completed : Nat → Bool := fun _ => false     -- 125
  locked : Nat → Bool := fun _ => true         -- 126
  known : Nat → Bool := fun _ => false         -- `vm_id` has been set
  out : List Nat := []
  bells : Nat := 0
  pc : Nat → Pc := fun _ => .idle
  evs : List Ev := []                          -- newest first
  broken : Bool := false

/-- Calls, steps of threads, rounds of the interrupt thread (46-59), and interrupts that come for other reasons (28). `lucky`: an uninitialised `vm_id` happens to be that of this machine. -/
inductive Act where
  | complete (i c : Nat)
  | wait (i c : Nat)
  | go (i : Nat) (lucky : Bool)
  | irq
  | other
  deriving DecidableEq

/-- Thread `i` goes to `p`. (No code of its own.) -/
def St.goto (s : St) (i : Nat) (p : Pc) : St := { s with pc := fun j => if j = i then p else s.pc j }

/-- A step of thread `i`. /repo/src/async/ivshmem/async.c:129-142. -/
def goStep (s : St) (i : Nat) (lucky : Bool) : St :=
  match s.pc i with
  | .idle => s
  | .ring c => ({ s with bells := if s.known c || lucky then s.bells + 1 else s.bells }).goto i .idle          -- 132
  | .try_ c =>
    if s.locked c then ({ s with out := c :: s.out, broken := s.broken || decide (c ∈ s.out) }).goto i (.vm c)     -- 137-139, 64-69
    else ({ s with locked := fun d => if d = c then true else s.locked d }).goto i (.vm c)
  | .vm c => ({ s with known := fun d => if d = c then true else s.known d }).goto i (.lock c)                  -- 140
  | .lock c =>
    if s.locked c then s
    else ({ s with locked := fun d => if d = c then true else s.locked d, evs := .returned c :: s.evs }).goto i .idle   -- 141

/-- A round of the interrupt thread: everything in the list that is completed is taken out and unlocked. /repo/src/async/ivshmem/async.c:46-59. -/
def irqStep (s : St) : St :=
  if s.bells = 0 then s
  else { s with bells := s.bells - 1, out := s.out.filter (fun c => !s.completed c), locked := fun c => if c ∈ s.out ∧ s.completed c = true then false else s.locked c }

/-- One step. Calls: /repo/src/async/ivshmem/async.c:131 (the store), 135. -/
def step (s : St) : Act → St
  | .complete i c => if s.pc i = .idle then ({ s with completed := fun d => if d = c then true else s.completed d, evs := .completed c :: s.evs }).goto i (.ring c) else s
  | .wait i c => if s.pc i = .idle then s.goto i (.try_ c) else s
  | .go i lucky => goStep s i lucky
  | .irq => irqStep s
  | .other => { s with bells := s.bells + 1 }

/-- A history. (No code of its own.) -/
def run (s : St) (l : List Act) : St := l.foldl step s

/-! ### Specification -/

/-- Every wait that returned came after a `complete` (`evs`: newest first). -/
def OnlyAfter (evs : List Ev) : Prop := ∀ a b c, evs = a ++ Ev.returned c :: b → Ev.completed c ∈ b

/-- Thread `i` is in a wait for `c`. -/
def Waits (s : St) (i c : Nat) : Prop := s.pc i = .try_ c ∨ s.pc i = .vm c ∨ s.pc i = .lock c

/-! ### Safety -/

structure Safe (s : St) : Prop where
  open_ : ∀ c, s.locked c = false → s.completed c = true
  told : ∀ c, s.completed c = true → Ev.completed c ∈ s.evs
  only : OnlyAfter s.evs

theorem OnlyAfter.returned {evs : List Ev} (h : OnlyAfter evs) {c : Nat} (hc : Ev.completed c ∈ evs) : OnlyAfter (.returned c :: evs) := by
  intro a b d e
  cases a with
  | nil =>
    simp only [List.nil_append, List.cons.injEq, Ev.returned.injEq] at e
    rw [← e.1, ← e.2]; exact hc
  | cons x a =>
    simp only [List.cons_append, List.cons.injEq] at e
    exact h a b d e.2

theorem OnlyAfter.completed {evs : List Ev} (h : OnlyAfter evs) (c : Nat) : OnlyAfter (.completed c :: evs) := by
  intro a b d e
  cases a with
  | nil => simp at e
  | cons x a =>
    simp only [List.cons_append, List.cons.injEq] at e
    exact h a b d e.2

theorem Safe.step {s : St} (h : Safe s) (a : Act) : Safe (step s a) := by
  cases a with
  | complete i c =>
    simp only [Ivshmem.step]
    split
    · refine ⟨?_, ?_, h.only.completed c⟩
      · intro d hd
        have := h.open_ d hd
        show (if d = c then true else s.completed d) = true
        split
        · rfl
        · exact this
      · intro d hd
        have hd : (if d = c then true else s.completed d) = true := hd
        show Ev.completed d ∈ Ev.completed c :: s.evs
        by_cases e : d = c
        · subst e; simp
        · rw [if_neg e] at hd
          exact List.mem_cons_of_mem _ (h.told d hd)
    · exact h
  | wait i c =>
    simp only [Ivshmem.step]
    split
    · exact ⟨h.open_, h.told, h.only⟩
    · exact h
  | go i lucky =>
    simp only [Ivshmem.step, goStep]
    split
    · exact h
    · exact ⟨h.open_, h.told, h.only⟩
    · split
      · exact ⟨h.open_, h.told, h.only⟩
      · refine ⟨?_, h.told, h.only⟩
        intro d hd
        simp only [St.goto] at hd
        split at hd
        · cases hd
        · exact h.open_ d hd
    · exact ⟨h.open_, h.told, h.only⟩
    · rename_i c _
      split
      · exact h
      · rename_i hl
        have hl : s.locked c = false := by simpa using hl
        have hc := h.told c (h.open_ c hl)
        refine ⟨?_, ?_, h.only.returned hc⟩
        · intro d hd
          simp only [St.goto] at hd
          split at hd
          · cases hd
          · exact h.open_ d hd
        · intro d hd
          exact List.mem_cons_of_mem _ (h.told d hd)
  | irq =>
    simp only [Ivshmem.step, irqStep]
    split
    · exact h
    · refine ⟨?_, h.told, h.only⟩
      intro d hd
      dsimp only at hd
      split at hd
      · rename_i hx; exact hx.2
      · exact h.open_ d hd
  | other => exact ⟨h.open_, h.told, h.only⟩

/-- **C104 (safety).** In every history, a wait returns only after the completion was completed. (As long as the list is intact: `broken` histories are histories of the model only.) -/
theorem C104_only_after_partial (l : List Act) : OnlyAfter (run {} l).evs := by
  have : ∀ (l : List Act) (s : St), Safe s → Safe (run s l) := by
    intro l
    induction l with
    | nil => intro s h; exact h
    | cons a l ih => intro s h; exact ih _ (h.step a)
  refine (this l {} ⟨?_, ?_, ?_⟩).only
  · intro c h; cases h
  · intro c h; cases h
  · intro a b c e; simp at e

/-! ### Waits that return -/

/-- `complete c` is called when the thread that waits for `c` is asleep in the mutex; one wait for each completion. -/
def Act.Ok (s : St) : Act → Prop
  | .complete _ c => ∃ i, s.pc i = .lock c
  | .wait i c => s.completed c = false ∧ c ∉ s.out ∧ ∀ j, ¬ Waits s j c
  | _ => True

/-- Histories of this kind. (No code of its own.) -/
inductive Reach : St → Prop where
  | start : Reach {}
  | step {s : St} (h : Reach s) (a : Act) (ok : a.Ok s) : Reach (step s a)

structure Inv (s : St) : Prop where
  nodup : s.out.Nodup
  fine : s.broken = false
  one : ∀ i j c, Waits s i c → Waits s j c → i = j
  trying : ∀ i c, s.pc i = .try_ c → s.locked c = true ∧ s.completed c = false ∧ c ∉ s.out
  vm : ∀ i c, s.pc i = .vm c → s.locked c = true ∧ s.completed c = false ∧ c ∈ s.out
  lock : ∀ i c, s.pc i = .lock c → s.known c = true ∧ (s.locked c = true → c ∈ s.out ∧ (s.completed c = true → 0 < s.bells ∨ ∃ j, s.pc j = .ring c))
  fresh : ∀ c, s.completed c = false → s.locked c = true
  ring : ∀ i c, s.pc i = .ring c → s.known c = true
  out : ∀ c, c ∈ s.out → s.locked c = true ∧ ∃ i, s.pc i = .vm c ∨ s.pc i = .lock c

theorem Inv.step {s : St} (h : Inv s) (a : Act) (ok : a.Ok s) : Inv (step s a) := by
  obtain ⟨h1, h2, h3, h4, h5, h6, h7, h8, h9⟩ := h
  cases a with
  | complete i c =>
    obtain ⟨k, hk⟩ := ok
    simp only [Ivshmem.step]
    split
    · rename_i hi
      have hik : k ≠ i := by rintro rfl; rw [hk] at hi; cases hi
      have hx : ∀ j, (s.pc j = .try_ c → False) ∧ (s.pc j = .vm c → False) := by
        intro j
        constructor
        · intro hj
          have := h3 j k c (.inl hj) (.inr (.inr hk))
          subst this; rw [hj] at hk; cases hk
        · intro hj
          have := h3 j k c (.inr (.inl hj)) (.inr (.inr hk))
          subst this; rw [hj] at hk; cases hk
      refine ⟨h1, h2, ?_, ?_, ?_, ?_, ?_, ?_, ?_⟩ <;> simp only [St.goto, Waits] at *
      · grind
      · grind
      · grind
      · grind
      · grind
      · grind
      · grind
    · exact ⟨h1, h2, h3, h4, h5, h6, h7, h8, h9⟩
  | wait i c =>
    obtain ⟨o1, o2, o3⟩ := ok
    simp only [Ivshmem.step]
    split
    · rename_i hi
      refine ⟨h1, h2, ?_, ?_, ?_, ?_, ?_, ?_, ?_⟩ <;> simp only [St.goto, Waits] at *
      · grind
      · grind
      · grind
      · grind
      · grind
      · grind
      · grind
    · exact ⟨h1, h2, h3, h4, h5, h6, h7, h8, h9⟩
  | go i lucky =>
    simp only [Ivshmem.step, goStep]
    split
    · exact ⟨h1, h2, h3, h4, h5, h6, h7, h8, h9⟩
    · rename_i c hi
      have hk := h8 i c hi
      refine ⟨h1, h2, ?_, ?_, ?_, ?_, ?_, ?_, ?_⟩ <;> simp only [St.goto, Waits, hk, Bool.true_or, if_true] at *
      · grind
      · grind
      · grind
      · grind
      · grind
      · grind
      · grind
    · rename_i c hi
      obtain ⟨g1, g2, g3⟩ := h4 i c hi
      rw [if_pos g1]
      refine ⟨?_, ?_, ?_, ?_, ?_, ?_, ?_, ?_, ?_⟩ <;> simp only [St.goto, Waits] at *
      · exact List.nodup_cons.2 ⟨g3, h1⟩
      · simp [h2, g3]
      · grind
      · grind
      · grind
      · grind
      · grind
      · grind
      · grind
    · rename_i c hi
      obtain ⟨g1, g2, g3⟩ := h5 i c hi
      refine ⟨h1, h2, ?_, ?_, ?_, ?_, ?_, ?_, ?_⟩ <;> simp only [St.goto, Waits] at *
      · grind
      · grind
      · grind
      · grind
      · grind
      · grind
      · grind
    · rename_i c hi
      split
      · exact ⟨h1, h2, h3, h4, h5, h6, h7, h8, h9⟩
      · rename_i hl
        have hco : c ∉ s.out := fun hm => hl (h9 c hm).1
        refine ⟨h1, h2, ?_, ?_, ?_, ?_, ?_, ?_, ?_⟩ <;> simp only [St.goto, Waits] at *
        · grind
        · grind
        · grind
        · grind
        · grind
        · grind
        · grind
  | irq =>
    simp only [Ivshmem.step, irqStep]
    split
    · exact ⟨h1, h2, h3, h4, h5, h6, h7, h8, h9⟩
    · refine ⟨h1.filter _, h2, h3, ?_, ?_, ?_, ?_, h8, ?_⟩ <;> simp only [Waits] at *
      · grind
      · grind
      · intro j c hj
        refine ⟨(h6 j c hj).1, ?_⟩
        intro hl
        by_cases hc : c ∈ s.out ∧ s.completed c = true
        · rw [if_pos hc] at hl; cases hl
        · rw [if_neg hc] at hl
          have g := (h6 j c hj).2 hl
          have : ¬ s.completed c = true := fun e => hc ⟨g.1, e⟩
          refine ⟨List.mem_filter.2 ⟨g.1, by simpa using this⟩, fun e => absurd e this⟩
      · grind
      · grind
  | other =>
    simp only [Ivshmem.step]
    refine ⟨h1, h2, h3, h4, h5, ?_, h7, h8, h9⟩
    intro j c hj
    refine ⟨(h6 j c hj).1, fun hl => ⟨((h6 j c hj).2 hl).1, fun _ => .inl (by simp)⟩⟩

theorem Reach.inv {s : St} (h : Reach s) : Inv s := by
  induction h with
  | start =>
    refine ⟨by simp, rfl, ?_, ?_, ?_, ?_, ?_, ?_, ?_⟩
    · intro i j c hi; simp [Waits] at hi
    all_goals simp
  | step _ a ok ih => exact ih.step a ok

/-- **C104 (waits return, partial).** In histories where tasks are completed while somebody sleeps in a wait for them, and each is waited for once: the list is never corrupted, and
whenever `c` is completed and thread `i` sleeps in its wait for `c`, then the mutex is open, or an interrupt is pending, or a thread is about to ring: a step of that thread, a round of
the interrupt thread and a step of `i` let the wait return. -/
theorem C104_returns_partial {s : St} (h : Reach s) {i c : Nat} (hi : s.pc i = .lock c) (hc : s.completed c = true) :
    s.broken = false ∧
    (s.locked c = false ∨ 0 < s.bells ∨ ∃ j, s.pc j = .ring c) ∧
    ∃ l : List Act, l.length ≤ 3 ∧ (run s l).pc i = .idle ∧ (run s l).evs = .returned c :: s.evs := by
  have hv := h.inv
  have fin : ∀ t : St, t.pc i = .lock c → t.locked c = false → t.evs = s.evs → (run t [.go i false]).pc i = .idle ∧ (run t [.go i false]).evs = .returned c :: s.evs := by
    intro t h1 h2 h3
    simp [run, step, goStep, h1, h2, h3, St.goto]
  have mid : ∀ t : St, t.pc i = .lock c → c ∈ t.out → t.completed c = true → 0 < t.bells → t.evs = s.evs →
      (run t [.irq, .go i false]).pc i = .idle ∧ (run t [.irq, .go i false]).evs = .returned c :: s.evs := by
    intro t h1 h2 h3 h4 h5
    have e : irqStep t = { t with bells := t.bells - 1, out := t.out.filter (fun c => !t.completed c), locked := fun c => if c ∈ t.out ∧ t.completed c = true then false else t.locked c } := by
      unfold irqStep; rw [if_neg (by omega)]
    exact fin (irqStep t) (by rw [e]; exact h1) (by rw [e]; simp [h2, h3]) (by rw [e]; exact h5)
  refine ⟨hv.fine, ?_⟩
  cases hl : s.locked c with
  | false => exact ⟨.inl rfl, [.go i false], by simp, (fin s hi hl rfl).1, (fin s hi hl rfl).2⟩
  | true =>
    obtain ⟨ho, hb⟩ := (hv.lock i c hi).2 hl
    rcases hb hc with hb | ⟨j, hj⟩
    · exact ⟨.inr (.inl hb), [.irq, .go i false], by simp, (mid s hi ho hc hb rfl).1, (mid s hi ho hc hb rfl).2⟩
    · have hji : i ≠ j := by rintro rfl; rw [hi] at hj; cases hj
      have e : goStep s j false = ({ s with bells := s.bells + 1 }).goto j .idle := by
        simp [goStep, hj, hv.ring j c hj]
      have hm := mid (goStep s j false) (by rw [e]; simp [St.goto, hji, hi]) (by rw [e]; exact ho) (by rw [e]; exact hc) (by rw [e]; simp [St.goto]) (by rw [e]; rfl)
      exact ⟨.inr (.inr ⟨j, hj⟩), [.go j false, .irq, .go i false], by simp, hm.1, hm.2⟩

/-- Such a history: thread 1 waits for 5, thread 2 completes it, interrupt. -/
def good : List Act := [.wait 1 5, .go 1 false, .go 1 false, .complete 2 5, .go 2 false]

example : ∃ s, Reach s ∧ s.pc 1 = .lock 5 ∧ s.completed 5 = true ∧ s.locked 5 = true ∧ s.bells = 1 ∧ (run s [.irq, .go 1 false]).evs = [.returned 5, .completed 5] := by
  refine ⟨run {} good, ?_, by decide, by decide, by decide, by decide, by decide⟩
  have r1 := Reach.step .start (.wait 1 5) ⟨rfl, by simp, by intro j; simp [Waits]⟩
  have r2 := Reach.step r1 (.go 1 false) trivial
  have r3 := Reach.step r2 (.go 1 false) trivial
  have r4 := Reach.step r3 (.complete 2 5) ⟨1, by decide⟩
  exact Reach.step r4 (.go 2 false) trivial

/-! ### Waits that do not return -/

/-- **Violated** (async.c:129-142): `complete` before `wait` - a task that is finished before its user waits for it. After the interrupt of `complete` (if it reaches this machine at
all), the wait never returns, whatever is scheduled, unless an interrupt comes for another reason. -/
theorem C104_violated_complete_first (lucky : Bool) (l : List Act) (hl : ∀ a ∈ l, a = .irq ∨ ∃ k, a = .go 1 k) :
    let s := run {} [.complete 2 5, .go 2 lucky, .irq, .wait 1 5]
    Waits s 1 5 ∧ s.completed 5 = true ∧ Waits (run s l) 1 5 := by
  have base : Waits (run {} [.complete 2 5, .go 2 lucky, .irq, .wait 1 5]) 1 5 ∧ (run {} [.complete 2 5, .go 2 lucky, .irq, .wait 1 5]).completed 5 = true ∧
      (run {} [.complete 2 5, .go 2 lucky, .irq, .wait 1 5]).locked 5 = true ∧ (run {} [.complete 2 5, .go 2 lucky, .irq, .wait 1 5]).bells = 0 := by
    cases lucky <;> exact ⟨.inl (by decide), by decide, by decide, by decide⟩
  refine ⟨base.1, base.2.1, ?_⟩
  generalize run {} [.complete 2 5, .go 2 lucky, .irq, .wait 1 5] = s at *
  have key : ∀ (l : List Act), (∀ a ∈ l, a = .irq ∨ ∃ k, a = .go 1 k) → ∀ s : St, Waits s 1 5 → s.locked 5 = true → s.bells = 0 → Waits (run s l) 1 5 := by
    intro l
    induction l with
    | nil => intro _ s h _ _; exact h
    | cons a l ih =>
      intro hl s h1 h2 h3
      have hl' : ∀ a ∈ l, a = .irq ∨ ∃ k, a = .go 1 k := fun b hb => hl b (List.mem_cons_of_mem _ hb)
      rcases hl a (by simp) with rfl | ⟨k, rfl⟩
      · have e : step s .irq = s := by simp [step, irqStep, h3]
        show Waits (run (step s .irq) l) 1 5
        rw [e]; exact ih hl' s h1 h2 h3
      · show Waits (run (step s (.go 1 k)) l) 1 5
        rcases h1 with h1 | h1 | h1
        · have e : step s (.go 1 k) = ({ s with out := 5 :: s.out, broken := s.broken || decide (5 ∈ s.out) }).goto 1 (.vm 5) := by simp [step, goStep, h1, h2]
          rw [e]; exact ih hl' _ (.inr (.inl (by simp [St.goto]))) h2 h3
        · have e : step s (.go 1 k) = ({ s with known := fun d => if d = 5 then true else s.known d }).goto 1 (.lock 5) := by simp [step, goStep, h1]
          rw [e]; exact ih hl' _ (.inr (.inr (by simp [St.goto]))) h2 h3
        · have e : step s (.go 1 k) = s := by simp [step, goStep, h1, h2]
          rw [e]; exact ih hl' s (.inr (.inr h1)) h2 h3
  exact key l hl s base.1 base.2.2.1 base.2.2.2

/-- **Violated** (async.c:137-138): two threads wait for the same task: its entry is put into the list twice, and the list is corrupted. -/
theorem C104_violated_two_waiters : (run {} [.wait 1 5, .wait 2 5, .go 1 false, .go 2 false]).broken = true := by decide

/-- **Violated** (async.c:137, 141): a thread comes to wait just when the interrupt thread has opened the mutex for another: its `trylock` succeeds, and then it - and the other - wait
for a mutex that it holds itself, whatever is scheduled. -/
theorem C104_violated_self_lock (l : List Act) (hl : ∀ a ∈ l, a = .irq ∨ a = .other ∨ ∃ i k, a = .go i k) :
    let s := run {} [.wait 1 5, .go 1 false, .go 1 false, .complete 3 5, .go 3 false, .irq, .wait 2 5, .go 2 false]
    Waits s 1 5 ∧ Waits s 2 5 ∧ s.completed 5 = true ∧ s.broken = false ∧ Waits (run s l) 1 5 ∧ Waits (run s l) 2 5 := by
  have e1 : (run {} [.wait 1 5, .go 1 false, .go 1 false, .complete 3 5, .go 3 false, .irq, .wait 2 5, .go 2 false]).pc 1 = .lock 5 := by decide
  have e2 : (run {} [.wait 1 5, .go 1 false, .go 1 false, .complete 3 5, .go 3 false, .irq, .wait 2 5, .go 2 false]).pc 2 = .vm 5 := by decide
  have e3 : (run {} [.wait 1 5, .go 1 false, .go 1 false, .complete 3 5, .go 3 false, .irq, .wait 2 5, .go 2 false]).locked 5 = true := by decide
  have e4 : (run {} [.wait 1 5, .go 1 false, .go 1 false, .complete 3 5, .go 3 false, .irq, .wait 2 5, .go 2 false]).out = [] := by decide
  have e5 : ∀ j, j ≠ 1 → j ≠ 2 → (run {} [.wait 1 5, .go 1 false, .go 1 false, .complete 3 5, .go 3 false, .irq, .wait 2 5, .go 2 false]).pc j = .idle := by
    intro j h1 h2
    by_cases h3 : j = 3
    · subst h3; decide
    · simp [run, step, goStep, irqStep, St.goto, h1, h2, h3]
  refine ⟨.inr (.inr e1), .inr (.inl e2), by decide, by decide, ?_⟩
  generalize run {} [.wait 1 5, .go 1 false, .go 1 false, .complete 3 5, .go 3 false, .irq, .wait 2 5, .go 2 false] = s at *
  have key : ∀ (l : List Act), (∀ a ∈ l, a = .irq ∨ a = .other ∨ ∃ i k, a = .go i k) → ∀ s : St, s.pc 1 = .lock 5 → (s.pc 2 = .vm 5 ∨ s.pc 2 = .lock 5) → s.locked 5 = true → s.out = [] →
      (∀ j, j ≠ 1 → j ≠ 2 → s.pc j = .idle) → Waits (run s l) 1 5 ∧ Waits (run s l) 2 5 := by
    intro l
    induction l with
    | nil => intro _ s h1 h2 _ _ _; exact ⟨.inr (.inr h1), .inr h2⟩
    | cons a l ih =>
      intro hl s h1 h2 h3 h4 h5
      have hl' : ∀ a ∈ l, a = .irq ∨ a = .other ∨ ∃ i k, a = .go i k := fun b hb => hl b (List.mem_cons_of_mem _ hb)
      show Waits (run (step s a) l) 1 5 ∧ Waits (run (step s a) l) 2 5
      rcases hl a (by simp) with rfl | rfl | ⟨j, k, rfl⟩
      · apply ih hl'
        · simp only [step, irqStep]; split <;> exact h1
        · simp only [step, irqStep]; split <;> exact h2
        · simp only [step, irqStep]; split <;> simp [h3, h4]
        · simp only [step, irqStep]; split <;> simp [h4]
        · simp only [step, irqStep]; split <;> exact h5
      · exact ih hl' _ h1 h2 h3 h4 h5
      · by_cases j1 : j = 1
        · subst j1
          have e : step s (.go 1 k) = s := by simp [step, goStep, h1, h3]
          rw [e]; exact ih hl' s h1 h2 h3 h4 h5
        · by_cases j2 : j = 2
          · subst j2
            rcases h2 with h2 | h2
            · have e : step s (.go 2 k) = ({ s with known := fun d => if d = 5 then true else s.known d }).goto 2 (.lock 5) := by simp [step, goStep, h2]
              rw [e]
              refine ih hl' _ (by simp [St.goto, h1]) (.inr (by simp [St.goto])) h3 h4 ?_
              intro j q1 q2; simp only [St.goto, if_neg q2]; exact h5 j q1 q2
            · have e : step s (.go 2 k) = s := by simp [step, goStep, h2, h3]
              rw [e]; exact ih hl' s h1 (.inr h2) h3 h4 h5
          · have e : step s (.go j k) = s := by simp [step, goStep, h5 j j1 j2]
            rw [e]; exact ih hl' s h1 h2 h3 h4 h5
  exact key l hl s e1 (.inl e2) e3 e4 e5

end Arax.Ivshmem
