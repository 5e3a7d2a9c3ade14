import Verif.Async.Semaphore
/-!
# C23: semaphore counting

Specification: `incs` is the number of `async_semaphore_inc` calls so far, `decs` the number of `async_semaphore_dec` calls
that have returned; both are counted by the machine and never read by the code.
-/
namespace Arax.Semaphore

theorem exec_append (b : Backend) (s : St) (x y : List (Nat × Cmd)) : exec b s (x ++ y) = exec b (exec b s x) y := by
  simp [exec]

theorem inv_exec {P : St → Prop} (b : Backend) (hs : ∀ s i cmd, P s → P (step b s i cmd)) (sched : List (Nat × Cmd)) :
    ∀ s, P s → P (exec b s sched) := by
  induction sched with
  | nil => intro s h; exact h
  | cons x r ih => intro s h; exact ih _ (hs _ _ _ h)

theorem toInt_pos {v : Nat} (h : 1 ≤ toInt v) : 1 ≤ (toInt v).toNat := by omega

/-- Counting invariant, exact modulo 2^64. -/
structure Inv (s : St) : Prop where
  count : ∃ k, s.incs = s.decs + s.value + 18446744073709551616 * k
  bound : s.value < 18446744073709551616
  cas   : ∀ j v, s.pc j = .cas v → 1 ≤ v

theorem inv_init : Inv init := ⟨⟨0, by simp [init]⟩, by simp [init], by simp [init]⟩

theorem inv_step (s : St) (i : Nat) (cmd : Cmd) (h : Inv s) : Inv (step .spin s i cmd) := by
  have mv : ∀ (s' : St) (p : Pc), (∀ v, p = .cas v → 1 ≤ v) → (∀ j v, s'.pc j = .cas v → 1 ≤ v) →
      ∀ j v, (s'.goto i p).pc j = .cas v → 1 ≤ v := by
    intro s' p hp h j v
    simp only [St.goto]
    split
    · exact hp v
    · exact h j v
  obtain ⟨⟨k, hk⟩, hb, hc⟩ := h
  unfold step
  split
  · refine ⟨?_, ?_, hc⟩
    · simp only [incValue]
      by_cases e : s.value + 1 = 18446744073709551616
      · exact ⟨k + 1, by rw [e]; omega⟩
      · exact ⟨k, by omega⟩
    · simp only [incValue]; omega
  · exact ⟨⟨k, hk⟩, hb, mv s _ (by simp) hc⟩
  · dsimp only
    split
    · rename_i h1
      refine ⟨⟨k, hk⟩, hb, mv s _ ?_ hc⟩
      intro v hv
      injection hv with hv
      omega
    · exact ⟨⟨k, hk⟩, hb, hc⟩
  · rename_i v hp
    dsimp only
    have := hc i v hp
    split
    · rename_i e
      refine ⟨⟨k, ?_⟩, ?_, mv _ _ (by simp) hc⟩
      · simp only [St.goto]; omega
      · simp only [St.goto]; omega
    · exact ⟨⟨k, hk⟩, hb, mv s _ (by simp) hc⟩
  · exact ⟨⟨k, hk⟩, hb, hc⟩

/-- **C23 (spin, partial)** In every interleaving of any number of threads: the returned decs never exceed the incs; as long
as there are fewer than 2^64 incs, value = incs - decs exactly; and `async_semaphore_value` reports exactly that as long as it is
below 2^31. Missing: a value of 2^31 or more, where decs livelock (`C23_violated_spin_large`). -/
theorem C23_counting_spin_partial (sched : List (Nat × Cmd)) :
    let s := exec .spin init sched
    s.decs + s.value ≤ s.incs ∧
    (s.incs < 18446744073709551616 → s.value = s.incs - s.decs) ∧
    (s.incs < 18446744073709551616 → s.incs - s.decs < 2147483648 → semValue s = (s.incs : Int) - s.decs) := by
  have h := inv_exec .spin inv_step sched init inv_init
  generalize exec .spin init sched = s at *
  obtain ⟨⟨k, hk⟩, hb, -⟩ := h
  refine ⟨by omega, by omega, ?_⟩
  intro h1 h2
  simp only [semValue, toInt]
  omega

/-- **C23 (spin, progress, partial)** In every reachable state with 1 ≤ value < 2^31, a thread inside `async_semaphore_dec`
that runs alone returns within four steps, having taken exactly one unit. -/
theorem C23_dec_proceeds_spin_partial (sched : List (Nat × Cmd)) (i : Nat) :
    let s := exec .spin init sched
    1 ≤ s.value → s.value < 2147483648 → (s.pc i = .rd ∨ ∃ v, s.pc i = .cas v) →
    ∃ n, n ≤ 4 ∧ let s' := exec .spin s (List.replicate n (i, .go))
      s'.pc i = .idle ∧ s'.decs = s.decs + 1 ∧ s'.value = s.value - 1 ∧ ∀ j, j ≠ i → s'.pc j = s.pc j := by
  intro s h1 h2
  have key : ∀ s : St, 1 ≤ s.value → s.value < 2147483648 → s.pc i = .rd →
      let s' := exec .spin s (List.replicate 2 (i, .go))
      s'.pc i = .idle ∧ s'.decs = s.decs + 1 ∧ s'.value = s.value - 1 ∧ ∀ j, j ≠ i → s'.pc j = s.pc j := by
    intro s h1 h2 hr
    have e : toInt s.value = s.value := by simp only [toInt]; omega
    have h1' : (1 : Int) ≤ s.value := by omega
    simp [exec, List.replicate, step, hr, e, h1', St.goto]
    intro j hj
    simp [hj]
  rintro (hr | ⟨v, hv⟩)
  · exact ⟨2, by omega, key s h1 h2 hr⟩
  · by_cases e : s.value = v
    · refine ⟨1, by omega, ?_⟩
      simp [exec, List.replicate, step, hv, e, St.goto]
      intro j hj
      simp [hj]
    · refine ⟨3, by omega, ?_⟩
      have := key (step .spin s i .go) (by simpa [step, hv, e, St.goto] using h1) (by simpa [step, hv, e, St.goto] using h2)
        (by simp [step, hv, e, St.goto])
      have e2 : exec .spin s (List.replicate 3 (i, .go)) = exec .spin (step .spin s i .go) (List.replicate 2 (i, .go)) := rfl
      rw [e2]
      obtain ⟨a, b, c, d⟩ := this
      refine ⟨a, ?_, ?_, ?_⟩
      · rw [b]; simp [step, hv, e, St.goto]
      · rw [c]; simp [step, hv, e, St.goto]
      · intro j hj; rw [d j hj]; simp [step, hv, e, St.goto, hj]

theorem incs_value (n : Nat) (h : n < 18446744073709551616) :
    let s := exec .spin init (List.replicate n (0, .inc))
    s.value = n ∧ ∀ j, s.pc j = .idle := by
  induction n with
  | zero => simp [exec, init]
  | succ n ih =>
    have ih := ih (by omega)
    rw [List.replicate_succ', exec_append]
    generalize exec .spin init (List.replicate n (0, .inc)) = s at *
    dsimp only at *
    obtain ⟨h1, h2⟩ := ih
    simp only [exec, List.foldl, step, h2 0, incValue]
    exact ⟨by omega, h2⟩

/-- **C23 is violated for large values (spin)**: after n incs, n = 2^31 (or any n whose low 32 bits are at least 2^31), the
semaphore has value n, but a dec truncates it to a negative `int` and never returns, although it runs alone for any number of
steps. -/
theorem C23_violated_spin_large (n : Nat) (hn : n < 18446744073709551616) (hl : 2147483648 ≤ n % 4294967296) (m : Nat) :
    let s := exec .spin init (List.replicate n (0, .inc))
    s.value = n ∧ let s' := exec .spin s ((1, .dec) :: List.replicate m (1, .go))
      s'.pc 1 = .rd ∧ s'.decs = s.decs := by
  have h := incs_value n hn
  generalize exec .spin init (List.replicate n (0, .inc)) = s at *
  obtain ⟨h1, h2⟩ := h
  refine ⟨h1, ?_⟩
  have e : ¬ (1 : Int) ≤ toInt s.value := by rw [h1]; simp only [toInt]; omega
  have st : ∀ (m : Nat) (s : St), ¬ (1 : Int) ≤ toInt s.value → s.pc 1 = .rd → exec .spin s (List.replicate m (1, .go)) = s := by
    intro m
    induction m with
    | zero => intros; rfl
    | succ m ih =>
      intro s e hp
      have : step .spin s 1 .go = s := by simp [step, hp, e]
      show exec .spin (step .spin s 1 .go) (List.replicate m (1, .go)) = s
      rw [this]; exact ih s e hp
  show (exec .spin (step .spin s 1 .dec) (List.replicate m (1, .go))).pc 1 = .rd ∧
    (exec .spin (step .spin s 1 .dec) (List.replicate m (1, .go))).decs = s.decs
  have hd : step .spin s 1 .dec = s.goto 1 .rd := by simp [step, h2]
  rw [hd, st m (s.goto 1 .rd) e (by simp [St.goto])]
  simp [St.goto]

/-- **C23 (mutex back-end)** With POSIX semaphores: returned decs never exceed the incs; value = incs - decs as long as there were fewer than
2^31 incs; and a dec on a positive value returns in one step. -/
theorem C23_counting_posix (sched : List (Nat × Cmd)) (i : Nat) :
    let s := exec .posix init sched
    s.decs + s.value ≤ s.incs ∧
    (s.incs < 2147483648 → s.value = s.incs - s.decs) ∧
    (1 ≤ s.value → s.pc i = .rd → (step .posix s i .go).pc i = .idle ∧ (step .posix s i .go).value = s.value - 1) := by
  have h := inv_exec (P := fun s : St => s.decs + s.value ≤ s.incs ∧ (s.incs < 2147483648 → s.value + s.decs = s.incs) ∧
      ∀ j v, s.pc j ≠ .cas v) .posix ?_ sched init ⟨by simp [init], by simp [init], by simp [init]⟩
  · generalize exec .posix init sched = s at *
    refine ⟨h.1, fun hi => by have := h.2.1 hi; omega, ?_⟩
    intro hv hp
    simp [step, hp, hv, St.goto]
  · intro s i cmd ⟨h1, h2, h3⟩
    have mv : ∀ (p : Pc), (∀ v, p ≠ .cas v) → ∀ j v, (if j = i then p else s.pc j) ≠ .cas v := by
      intro p hp j v
      split
      · exact hp v
      · exact h3 j v
    unfold step
    split
    · simp only [incValue]
      split
      · exact ⟨by omega, by omega, h3⟩
      · exact ⟨by omega, by omega, h3⟩
    · exact ⟨h1, h2, mv _ (by simp)⟩
    · dsimp only
      split
      · exact ⟨by simp only [St.goto]; omega, by simp only [St.goto]; omega, mv _ (by simp)⟩
      · exact ⟨h1, h2, h3⟩
    · rename_i v hp
      exact absurd hp (h3 i v)
    · exact ⟨h1, h2, h3⟩

/-- **C23 is violated by the ivshmem back-end (1)**: after any positive number of incs, a dec that runs alone never returns
(its compare-and-swap has the expected and the new value exchanged). -/
theorem C23_violated_ivshmem_dec (n : Nat) (h0 : 1 ≤ n) (hn : n < 2147483648) (m : Nat) :
    let s := exec .ivshmem init (List.replicate n (0, .inc))
    s.value = n ∧ let s' := exec .ivshmem s ((1, .dec) :: List.replicate m (1, .go))
      s'.pc 1 ≠ .idle ∧ s'.decs = 0 ∧ s'.value = n := by
  have h : ∀ n, n < 2147483648 → let s := exec .ivshmem init (List.replicate n (0, .inc))
      s.value = n ∧ s.decs = 0 ∧ ∀ j, s.pc j = .idle := by
    intro n hn
    induction n with
    | zero => simp [exec, init]
    | succ n ih =>
      have ih := ih (by omega)
      rw [List.replicate_succ', exec_append]
      generalize exec .ivshmem init (List.replicate n (0, .inc)) = s at *
      dsimp only at *
      obtain ⟨h1, h1', h2⟩ := ih
      simp only [exec, List.foldl, step, h2 0, incValue]
      exact ⟨by omega, h1', h2⟩
  have h := h n hn
  generalize exec .ivshmem init (List.replicate n (0, .inc)) = s at *
  obtain ⟨h1, h1', h2⟩ := h
  refine ⟨h1, ?_⟩
  have st : ∀ (m : Nat) (s : St), (s.value = n ∧ s.decs = 0 ∧ (s.pc 1 = .rd ∨ s.pc 1 = .cas n)) →
      let s' := exec .ivshmem s (List.replicate m (1, .go))
      (s'.value = n ∧ s'.decs = 0 ∧ (s'.pc 1 = .rd ∨ s'.pc 1 = .cas n)) := by
    intro m
    induction m with
    | zero => intro s h; exact h
    | succ m ih =>
      intro s h
      refine ih (step .ivshmem s 1 .go) ?_
      obtain ⟨a, b, c | c⟩ := h
      · have : toInt n ≠ 0 := by simp only [toInt]; omega
        simp [step, c, a, this, St.goto, b]
      · have : ¬ n = n - 1 := by omega
        simp [step, c, a, this, St.goto, b]
  have := st m (step .ivshmem s 1 .dec) (by simp [step, h2, St.goto, h1, h1'])
  obtain ⟨a, b, c⟩ := this
  exact ⟨by show (exec .ivshmem (step .ivshmem s 1 .dec) (List.replicate m (1, .go))).pc 1 ≠ .idle; rcases c with c | c <;> simp [c], b, a⟩

/-- **C23 is violated by the ivshmem back-end (2)**: an inc with one sleeping thread and value 0 pops from the empty
pending list. -/
theorem C23_violated_ivshmem_inc : ivshmemInc 0 1 = .ub := rfl

/-- Non-vacuity: three incs and two decs by two threads. -/
example : let s := exec .spin init [(0, .inc), (0, .inc), (1, .dec), (2, .dec), (1, .go), (2, .go), (1, .go), (2, .go), (0, .inc), (2, .go), (2, .go)]
    s.incs = 3 ∧ s.decs = 2 ∧ s.value = 1 ∧ s.pc 2 = .idle := by decide +kernel

end Arax.Semaphore
