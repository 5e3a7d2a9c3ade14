/-!
# `/repo/src/utils/spinlock.h` and C09

Any number of threads, one step per access to the lock word.
-/
namespace Arax.Spinlock

/-- Control state of a thread (line numbers of /repo/src/utils/spinlock.h). -/
inductive Pc where
  | idle                -- not using the lock
  | spin                -- in `lock`: about to read the word [35]
  | cas                 -- in `lock`: read 0, about to CAS 0 → 1 [37]
  | held                -- `lock` has returned, `unlock` not yet called
  | assertRd            -- in `unlock`: about to read the word for the assertion [50]
  | clear               -- in `unlock`: about to `fetch_and_and(lock, 0)` [51]
  deriving DecidableEq

structure St where
  word    : Nat
  pc      : Nat → Pc
  aborted : Bool := false

/-- /repo/src/utils/spinlock.h:19-22 `utils_spinlock_init`. -/
def init : St := { word := 0, pc := fun _ => .idle }

def St.goto (s : St) (i : Nat) (p : Pc) : St := { s with pc := fun j => if j = i then p else s.pc j }

/-- One step of thread `i`: /repo/src/utils/spinlock.h:32-52. `idle → spin` is the call of `lock`,
`held → assertRd` the call of `unlock` (an unlock by a thread that does not hold the lock is outside the
property). `aborted` records a failing `arax_assert(*lock)`. -/
def step (s : St) (i : Nat) : St :=
  match s.pc i with
  | .idle => s.goto i .spin
  | .spin => if s.word ≠ 0 then s else s.goto i .cas
  | .cas => if s.word = 0 then { s with word := 1 }.goto i .held else s.goto i .spin
  | .held => s.goto i .assertRd
  | .assertRd => if s.word = 0 then { s with aborted := true } else s.goto i .clear
  | .clear => { s with word := 0 }.goto i .idle

/-- Every interleaving: a schedule is any list of thread ids. -/
def exec (s : St) (sched : List Nat) : St := sched.foldl step s

/-- Between the return of `lock` and the completion of `unlock`. -/
def Pc.owns : Pc → Bool
  | .held | .assertRd | .clear => true
  | _ => false

structure Inv (s : St) : Prop where
  excl : ∀ i j, (s.pc i).owns = true → (s.pc j).owns = true → i = j
  word : s.word = 1 ∨ s.word = 0
  own : (∃ i, (s.pc i).owns = true) ↔ s.word = 1
  noabort : s.aborted = false

theorem goto_pc (s : St) (i j : Nat) (p : Pc) : (s.goto i p).pc j = if j = i then p else s.pc j := rfl

theorem inv_goto_same (s : St) (i : Nat) (p : Pc) (h : Inv s) (ho : p.owns = (s.pc i).owns) : Inv (s.goto i p) := by
  have e : ∀ j, ((s.goto i p).pc j).owns = (s.pc j).owns := by
    intro j; rw [goto_pc]; split
    · rename_i hj; subst hj; exact ho
    · rfl
  obtain ⟨h1, h2, h3, h4⟩ := h
  refine ⟨?_, h2, ?_, h4⟩
  · intro a b ha hb; rw [e] at ha hb; exact h1 a b ha hb
  · simp only [e]; exact h3

theorem step_inv (s : St) (i : Nat) (h : Inv s) : Inv (step s i) := by
  have hI := h
  obtain ⟨h1, h2, h3, h4⟩ := h
  unfold step
  cases hpc : s.pc i with
  | idle => exact inv_goto_same s i _ hI (by simp [hpc, Pc.owns])
  | spin =>
    dsimp only; split
    · exact hI
    · exact inv_goto_same s i _ hI (by simp [hpc, Pc.owns])
  | cas =>
    dsimp only; split
    · rename_i hw
      have hno : ∀ j, (s.pc j).owns = false := by
        intro j; cases ho : (s.pc j).owns
        · rfl
        · have := h3.mp ⟨j, ho⟩; omega
      refine ⟨?_, Or.inl rfl, ⟨fun _ => rfl, fun _ => ⟨i, by simp [goto_pc, Pc.owns]⟩⟩, h4⟩
      intro a b ha hb
      rw [goto_pc] at ha hb
      split at ha
      · split at hb
        · omega
        · simp [hno b] at hb
      · simp [hno a] at ha
    · exact inv_goto_same s i _ hI (by simp [hpc, Pc.owns])
  | held => exact inv_goto_same s i _ hI (by simp [hpc, Pc.owns])
  | assertRd =>
    dsimp only; split
    · rename_i hw
      have := h3.mp ⟨i, by simp [hpc, Pc.owns]⟩; omega
    · exact inv_goto_same s i _ hI (by simp [hpc, Pc.owns])
  | clear =>
    dsimp only
    have hno : ∀ j, j ≠ i → (s.pc j).owns = false := by
      intro j hj; cases ho : (s.pc j).owns
      · rfl
      · exact absurd (h1 j i ho (by simp [hpc, Pc.owns])) hj
    have hnone : ∀ j, (({ s with word := 0 }.goto i .idle).pc j).owns = false := by
      intro j; rw [goto_pc]; split
      · rfl
      · rename_i hj; exact hno j hj
    refine ⟨?_, Or.inr rfl, ?_, h4⟩
    · intro a b ha _; rw [hnone a] at ha; simp at ha
    · constructor
      · rintro ⟨j, hj⟩; rw [hnone j] at hj; simp at hj
      · intro hw; exact absurd hw (by simp [St.goto])

theorem inv_exec (sched : List Nat) : ∀ s, Inv s → Inv (exec s sched) := by
  induction sched with
  | nil => intro s h; exact h
  | cons a r ih => intro s h; exact ih _ (step_inv s a h)

theorem inv_init : Inv init := ⟨by simp [init, Pc.owns], Or.inr rfl, by simp [init, Pc.owns], rfl⟩

/-- **C09** For every schedule of any number of threads: at most one thread is between a returned
`lock` and the end of its `unlock`, and the double-unlock assertion never fires. -/
theorem C09_mutual_exclusion (sched : List Nat) :
    (∀ i j, ((exec init sched).pc i).owns = true → ((exec init sched).pc j).owns = true → i = j) ∧
    (exec init sched).aborted = false :=
  have h := inv_exec sched init inv_init
  ⟨h.excl, h.noabort⟩

/-- C09: the lock is not lost: whenever nobody holds it, a thread inside `lock` that runs alone acquires
it within three of its own steps. -/
theorem C09_free_lock_acquirable (sched : List Nat) (i : Nat)
    (hfree : ∀ j, ((exec init sched).pc j).owns = false)
    (hi : (exec init sched).pc i = .spin ∨ (exec init sched).pc i = .cas) :
    ∃ n, n ≤ 3 ∧ (exec (exec init sched) (List.replicate n i)).pc i = .held := by
  have h := inv_exec sched init inv_init
  generalize exec init sched = s at *
  have hw : s.word = 0 := by
    rcases h.word with hw | hw
    · obtain ⟨j, hj⟩ := h.own.mpr hw; rw [hfree j] at hj; simp at hj
    · exact hw
  rcases hi with hp | hp
  · exact ⟨2, by omega, by simp [exec, List.replicate, step, hp, hw, St.goto]⟩
  · exact ⟨1, by omega, by simp [exec, List.replicate, step, hp, hw, St.goto]⟩

/-- Non-vacuity: three threads contending; thread 1 holds the lock, thread 0 is in its CAS, thread 2 spins. -/
example : let s := exec init [0, 1, 2, 0, 1, 2, 1, 0, 0, 2]
    s.pc 1 = .held ∧ s.pc 0 = .spin ∧ s.pc 2 = .spin ∧ s.word = 1 := by decide

end Arax.Spinlock
