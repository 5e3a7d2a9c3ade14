import Verif.Queue.Conc
import Verif.Queue.Props
/-!
# C08: concurrent queue
-/
namespace Arax.Queue.Conc

/-- Inside the critical section of push. -/
def Pc.cs : Pc → Bool
  | .pushRB _ | .pushRT _ _ | .pushW _ _ | .pushB _ _ | .pushU => true
  | _ => false

/-- What is known about one thread's control state. -/
def PcOk (cap : Nat) (s : St) : Pc → Prop
  | .popB t gt => t = gt % 65536 ∧ gt ≤ s.popped.length
  | .popE t gt => t = gt % 65536 ∧ gt ≤ s.popped.length ∧ (s.popped.length = gt → gt < s.pushed.length)
  | .popC t gt v => t = gt % 65536 ∧ gt ≤ s.popped.length ∧
      (s.popped.length = gt → s.pushed[gt]? = some v)
  | .pushRT _ b => b = s.bottom
  | .pushW _ b => b = s.bottom ∧ s.pushed.length < s.popped.length + cap
  | .pushB v b => b = s.bottom ∧ s.pushed.length < s.popped.length + cap ∧
      s.entries (s.pushed.length % cap) = v
  | _ => True

structure Inv (cap : Nat) (s : St) : Prop where
  top : s.top = s.popped.length % 65536
  bot : s.bottom = s.pushed.length % 65536
  le : s.popped.length ≤ s.pushed.length
  room : s.pushed.length ≤ s.popped.length + cap
  pre : s.popped <+: s.pushed
  item : ∀ j v, s.popped.length ≤ j → s.pushed[j]? = some v → s.entries (j % cap) = v
  lockv : ∀ i, (s.pc i).cs = true → s.lock = 1
  excl : ∀ i j, (s.pc i).cs = true → (s.pc j).cs = true → i = j
  ok : ∀ i, PcOk cap s (s.pc i)

theorem goto_pc (s : St) (i j : Nat) (p : Pc) : (s.goto i p).pc j = if j = i then p else s.pc j := rfl

/-- Steps that only change the control state of `i` (outside the critical section or staying in it). -/
theorem inv_goto (cap : Nat) (s : St) (i : Nat) (p : Pc) (h : Inv cap s) (hcs : p.cs = true → (s.pc i).cs = true)
    (hp : PcOk cap s p) : Inv cap (s.goto i p) := by
  obtain ⟨h1, h2, h3, h4, h5, h6, h7, h8, h9⟩ := h
  refine ⟨h1, h2, h3, h4, h5, h6, ?_, ?_, ?_⟩
  · intro j hj
    rw [goto_pc] at hj
    split at hj
    · rename_i e; subst e; exact h7 _ (hcs hj)
    · exact h7 j hj
  · intro j l hj hl
    rw [goto_pc] at hj hl
    apply h8
    · split at hj
      · rename_i e; subst e; exact hcs hj
      · exact hj
    · split at hl
      · rename_i e; subst e; exact hcs hl
      · exact hl
  · intro j
    rw [goto_pc]
    split
    · exact hp
    · exact h9 j

theorem and_mask (k x : Nat) : x &&& (2 ^ k - 1) = x % 2 ^ k := Nat.and_two_pow_sub_one_eq_mod x k

theorem getElem?_prefix {l₁ l₂ : List Nat} (h : l₁ <+: l₂) : l₁ = l₂.take l₁.length :=
  List.prefix_iff_eq_take.mp h

theorem step_inv (k : Nat) (hk : k ≤ 15) (s : St) (i : Nat) (cmd : Cmd) (h : Inv (2 ^ k) s) (hw : WindowAt s i) :
    Inv (2 ^ k) (step (2 ^ k) s i cmd) := by
  have hc := pow_le k hk
  have hpos : 0 < 2 ^ k := Nat.two_pow_pos k
  have hI := h
  obtain ⟨h1, h2, h3, h4, h5, h6, h7, h8, h9⟩ := h
  have hoki := h9 i
  unfold step
  cases hpc : s.pc i with
  | idle =>
    cases cmd with
    | pop => exact inv_goto _ s i _ hI (by simp [Pc.cs]) ⟨h1, Nat.le_refl _⟩
    | push v => exact inv_goto _ s i _ hI (by simp [Pc.cs]) trivial
  | popB t gt =>
    rw [hpc] at hoki
    dsimp only [PcOk] at hoki ⊢
    split
    · exact inv_goto _ s i _ hI (by simp [Pc.cs]) trivial
    · rename_i hne
      refine inv_goto _ s i _ hI (by simp [Pc.cs]) ⟨hoki.1, hoki.2, ?_⟩
      intro he
      rw [h2, hoki.1] at hne
      apply Nat.lt_of_le_of_ne (by omega)
      intro hh; apply hne; rw [hh]
  | popE t gt =>
    rw [hpc] at hoki
    dsimp only [PcOk] at hoki ⊢
    refine inv_goto _ s i _ hI (by simp [Pc.cs]) ⟨hoki.1, hoki.2.1, ?_⟩
    intro he
    have hlt := hoki.2.2 he
    rw [and_mask, hoki.1, mod_mod_cap _ _ hk, List.getElem?_eq_getElem hlt]
    congr 1
    exact (h6 gt _ (by omega) (List.getElem?_eq_getElem hlt)).symm
  | popC t gt v =>
    rw [hpc] at hoki
    dsimp only [PcOk] at hoki ⊢
    split
    · rename_i heq
      -- the CAS succeeds: no other pop happened since `top` was read
      have hwin := hw t gt v hpc
      have hT : s.popped.length = gt := by
        rw [h1, hoki.1] at heq
        omega
      have hv := hoki.2.2 hT
      have hlt : gt < s.pushed.length := by
        apply Classical.byContradiction; intro hh
        rw [List.getElem?_eq_none (by omega)] at hv; simp at hv
      have hlen : (s.popped ++ [v]).length = s.popped.length + 1 := by simp
      refine ⟨?_, h2, ?_, ?_, ?_, ?_, ?_, ?_, ?_⟩
      · show (t + 1) % 65536 = (s.popped ++ [v]).length % 65536
        rw [hlen, hoki.1]; omega
      · show (s.popped ++ [v]).length ≤ s.pushed.length
        omega
      · show s.pushed.length ≤ (s.popped ++ [v]).length + 2 ^ k
        omega
      · show s.popped ++ [v] <+: s.pushed
        rw [List.prefix_iff_eq_take, hlen, List.take_add_one, ← getElem?_prefix h5, hT, hv]; rfl
      · show ∀ j v', (s.popped ++ [v]).length ≤ j → s.pushed[j]? = some v' → s.entries (j % 2 ^ k) = v'
        intro j v' hj hv'; exact h6 j v' (by omega) hv'
      · intro j hj
        rw [goto_pc] at hj
        split at hj
        · simp [Pc.cs] at hj
        · exact h7 j hj
      · intro j l hj hl
        rw [goto_pc] at hj hl
        split at hj
        · simp [Pc.cs] at hj
        · split at hl
          · simp [Pc.cs] at hl
          · exact h8 j l hj hl
      · intro j
        rw [goto_pc]
        split
        · trivial
        · have hj := h9 j
          cases hpj : s.pc j <;> rw [hpj] at hj <;> dsimp only [PcOk, St.goto] at hj ⊢ <;>
            (try simp only [hlen]) <;> try trivial
          · exact ⟨hj.1, by omega⟩
          · exact ⟨hj.1, by omega, by omega⟩
          · exact ⟨hj.1, by omega, by omega⟩
          · exact ⟨hj.1, by omega⟩
          · exact ⟨hj.1, by omega, hj.2.2⟩
    · exact inv_goto _ s i _ hI (by simp [Pc.cs]) trivial
  | pushSpin v =>
    dsimp only
    split
    · exact hI
    · exact inv_goto _ s i _ hI (by simp [Pc.cs]) trivial
  | pushCas v =>
    dsimp only
    split
    · rename_i hl0
      have hnocs : ∀ j, (s.pc j).cs = false := by
        intro j
        cases hcj : (s.pc j).cs
        · rfl
        · have := h7 j hcj; omega
      refine ⟨h1, h2, h3, h4, h5, h6, fun _ _ => rfl, ?_, ?_⟩
      · intro j l hj hl
        rw [goto_pc] at hj hl
        split at hj
        · split at hl
          · omega
          · have := hnocs l; simp [this] at hl
        · have := hnocs j; simp [this] at hj
      · intro j
        rw [goto_pc]
        split
        · trivial
        · exact h9 j
    · exact inv_goto _ s i _ hI (by simp [Pc.cs]) trivial
  | pushRB v => exact inv_goto _ s i _ hI (by simp [hpc, Pc.cs]) rfl
  | pushRT v b =>
    rw [hpc] at hoki
    dsimp only [PcOk] at hoki ⊢
    split
    · exact inv_goto _ s i _ hI (by simp [hpc, Pc.cs]) trivial
    · rename_i hne
      refine inv_goto _ s i _ hI (by simp [hpc, Pc.cs]) ⟨hoki, ?_⟩
      apply Nat.lt_of_le_of_ne h4
      intro hh
      apply hne
      have e : b = (s.top + (s.pushed.length - s.popped.length)) % 65536 := by
        rw [hoki, h2, h1]; omega
      rw [e, diff16_eq _ _ (by omega) (by omega)]
      omega
  | pushW v b =>
    rw [hpc] at hoki
    dsimp only [PcOk] at hoki ⊢
    have hslot : b &&& (2 ^ k - 1) = s.pushed.length % 2 ^ k := by
      rw [and_mask, hoki.1, h2, mod_mod_cap _ _ hk]
    rw [hslot]
    refine ⟨h1, h2, h3, h4, h5, ?_, ?_, ?_, ?_⟩
    · intro j v' hj hv'
      have hlt : j < s.pushed.length := by
        apply Classical.byContradiction; intro hh
        have hv2 : s.pushed[j]? = some v' := hv'
        rw [List.getElem?_eq_none (by omega)] at hv2
        simp at hv2
      have hj' : s.popped.length ≤ j := hj
      have hs : j % 2 ^ k ≠ s.pushed.length % 2 ^ k := slot_ne _ _ _ hlt (by omega)
      show (if j % 2 ^ k = s.pushed.length % 2 ^ k then v else s.entries (j % 2 ^ k)) = v'
      rw [if_neg hs]; exact h6 j v' hj' hv'
    · intro j hj
      rw [goto_pc] at hj
      split at hj
      · rename_i e; exact h7 i (by simp [hpc, Pc.cs])
      · exact h7 j hj
    · intro j l hj hl
      rw [goto_pc] at hj hl
      apply h8
      · split at hj
        · rename_i e; subst e; simp [hpc, Pc.cs]
        · exact hj
      · split at hl
        · rename_i e; subst e; simp [hpc, Pc.cs]
        · exact hl
    · intro j
      rw [goto_pc]
      split
      · refine ⟨hoki.1, hoki.2, ?_⟩
        show (if s.pushed.length % 2 ^ k = s.pushed.length % 2 ^ k then v else _) = v
        rw [if_pos rfl]
      · rename_i hji
        have hj := h9 j
        cases hpj : s.pc j <;> rw [hpj] at hj <;> dsimp only [PcOk, St.goto] at hj ⊢ <;> try trivial
        -- another thread inside the critical section: impossible
        exact absurd (h8 j i (by simp [hpj, Pc.cs]) (by simp [hpc, Pc.cs])) hji
  | pushB v b =>
    rw [hpc] at hoki
    dsimp only [PcOk] at hoki ⊢
    have hlen : (s.pushed ++ [v]).length = s.pushed.length + 1 := by simp
    refine ⟨h1, ?_, ?_, ?_, ?_, ?_, ?_, ?_, ?_⟩
    · show (b + 1) % 65536 = (s.pushed ++ [v]).length % 65536
      rw [hlen, hoki.1, h2]; omega
    · show s.popped.length ≤ (s.pushed ++ [v]).length
      omega
    · show (s.pushed ++ [v]).length ≤ s.popped.length + 2 ^ k
      omega
    · show s.popped <+: s.pushed ++ [v]
      exact h5.trans (List.prefix_append _ _)
    · show ∀ j v', s.popped.length ≤ j → (s.pushed ++ [v])[j]? = some v' → s.entries (j % 2 ^ k) = v'
      intro j v' hj hv'
      by_cases hlt : j < s.pushed.length
      · rw [List.getElem?_append_left hlt] at hv'; exact h6 j v' hj hv'
      · rw [List.getElem?_append_right (by omega)] at hv'
        have : j = s.pushed.length := by
          apply Classical.byContradiction; intro hh
          rw [List.getElem?_eq_none (by simp; omega)] at hv'; simp at hv'
        subst this
        simp at hv'
        rw [hoki.2.2, hv']
    · intro j hj
      rw [goto_pc] at hj
      split at hj
      · exact h7 i (by simp [hpc, Pc.cs])
      · exact h7 j hj
    · intro j l hj hl
      rw [goto_pc] at hj hl
      apply h8
      · split at hj
        · rename_i e; subst e; simp [hpc, Pc.cs]
        · exact hj
      · split at hl
        · rename_i e; subst e; simp [hpc, Pc.cs]
        · exact hl
    · intro j
      rw [goto_pc]
      split
      · trivial
      · rename_i hji
        have hj := h9 j
        have hno : (s.pc j).cs = true → False := fun hcs => hji (h8 j i hcs (by simp [hpc, Pc.cs]))
        cases hpj : s.pc j <;> rw [hpj] at hj hno <;> dsimp only [PcOk, St.goto] at hj ⊢ <;> try trivial
        · exact ⟨hj.1, hj.2.1, fun he => by have := hj.2.2 he; omega⟩
        · refine ⟨hj.1, hj.2.1, fun he => ?_⟩
          have := hj.2.2 he
          rw [List.getElem?_append_left (List.getElem?_eq_some_iff.mp this).1]; exact this
        all_goals exact absurd rfl hno
  | pushU =>
    dsimp only
    have huniq : ∀ j, j ≠ i → (s.pc j).cs = false := by
      intro j hj
      cases hcj : (s.pc j).cs
      · rfl
      · exact absurd (h8 j i hcj (by simp [hpc, Pc.cs])) hj
    refine ⟨h1, h2, h3, h4, h5, h6, ?_, ?_, ?_⟩
    · intro j hj
      rw [goto_pc] at hj
      split at hj
      · simp [Pc.cs] at hj
      · rename_i hne
        exact absurd (show (s.pc j).cs = true from hj) (by simp [huniq j hne])
    · intro j l hj hl
      rw [goto_pc] at hj
      split at hj
      · simp [Pc.cs] at hj
      · rename_i hne
        exact absurd (show (s.pc j).cs = true from hj) (by simp [huniq j hne])
    · intro j
      rw [goto_pc]
      split
      · trivial
      · exact h9 j

theorem inv_init (cap : Nat) : Inv cap init := by
  refine ⟨rfl, rfl, Nat.le_refl _, by simp [init], List.prefix_refl _, ?_, ?_, ?_, ?_⟩ <;> simp [init, Pc.cs, PcOk]

theorem inv_reachW (k : Nat) (hk : k ≤ 15) (s : St) (h : ReachW (2 ^ k) s) : Inv (2 ^ k) s := by
  induction h with
  | init => exact inv_init _
  | step i cmd _ hw ih => exact step_inv k hk _ i cmd ih hw

/-- **C08** (partial) For every number of threads, every interleaving of the individual memory accesses
and every length of execution — provided no pop is overtaken by 65536 or more other pops between reading
`top` and its CAS — the values returned by successful pops are a prefix of the values accepted by
pushes (no loss, duplication or reordering), and at most `cap` accepted values are not yet popped.
Missing: executions with such an overtaken pop (there the claim is false, `C08_violated_aba`). -/
theorem C08_fifo_linearizable_partial (k : Nat) (hk : k ≤ 15) (s : St) (h : ReachW (2 ^ k) s) :
    s.popped <+: s.pushed ∧ s.pushed.length ≤ s.popped.length + 2 ^ k :=
  have inv := inv_reachW k hk s h
  ⟨inv.pre, inv.room⟩

/-- C08: in quiescence nothing is lost: a pop executed alone returns the oldest value not yet popped. -/
theorem C08_solo_pop (k : Nat) (hk : k ≤ 15) (s : St) (h : ReachW (2 ^ k) s) (i : Nat) (hi : s.pc i = .idle)
    (v : Nat) (hv : s.pushed[s.popped.length]? = some v) :
    let s1 := step (2 ^ k) s i .pop
    let s2 := step (2 ^ k) s1 i .pop
    let s3 := step (2 ^ k) s2 i .pop
    let s4 := step (2 ^ k) s3 i .pop
    s4.popped = s.popped ++ [v] ∧ s4.pushed = s.pushed ∧ s4.pc i = .idle := by
  have hc := pow_le k hk
  have inv := inv_reachW k hk s h
  have hlt : s.popped.length < s.pushed.length := by
    apply Classical.byContradiction; intro hh
    rw [List.getElem?_eq_none (by omega)] at hv; simp at hv
  have hne : ¬ s.bottom = s.top := by rw [inv.bot, inv.top]; have := inv.room; omega
  have he : s.entries (s.top % 2 ^ k) = v := by
    rw [inv.top, mod_mod_cap _ _ hk]; exact inv.item _ v (Nat.le_refl _) hv
  simp [step, hi, St.goto, hne, he]

/-! ## The ABA execution -/

/-- Thread 1 has just popped alone and holds a stale CAS; thread 0 pushes and pops. -/
structure Stale (n : Nat) (s : St) : Prop where
  top : s.top = n % 65536
  bot : s.bottom = n % 65536
  lock : s.lock = 0
  p0 : s.pc 0 = .idle
  p1 : s.pc 1 = .popC 0 0 7
  pushed : s.pushed = 7 :: List.replicate (n - 1) 8
  popped : s.popped = 7 :: List.replicate (n - 1) 8

/-- Run a schedule. -/
def exec (cap : Nat) : St → List (Nat × Cmd) → St
  | s, [] => s
  | s, (i, c) :: r => exec cap (step cap s i c) r

theorem reach_exec (cap : Nat) (l : List (Nat × Cmd)) : ∀ s, Reach cap s → Reach cap (exec cap s l) := by
  induction l with
  | nil => intro s h; exact h
  | cons a r ih => intro s h; exact ih _ (Reach.step a.1 a.2 h)

/-- Thread 0 pushes 8 and pops it again. -/
def roundTrip : List (Nat × Cmd) :=
  (List.replicate 8 (0, Cmd.push 8)) ++ (List.replicate 4 (0, Cmd.pop))

theorem replicate_snoc (n : Nat) (x : Nat) : List.replicate n x ++ [x] = List.replicate (n + 1) x := by
  rw [List.replicate_succ']

theorem stale_step (n : Nat) (hn : 0 < n) (s : St) (h : Stale n s) : Stale (n + 1) (exec 1 s roundTrip) := by
  obtain ⟨h1, h2, h3, h4, h5, h6, h7⟩ := h
  have hd : ¬ diff16 (n % 65536) (n % 65536) = 1 := by unfold diff16; simp
  have hne : ¬ (n + 1) % 65536 = n % 65536 := by omega
  have hm : (n % 65536 + 1) % 65536 = (n + 1) % 65536 := by omega
  have e : n + 1 - 1 = n - 1 + 1 := by omega
  constructor <;>
    simp [roundTrip, exec, List.replicate, step, St.goto, h1, h2, h3, h4, h5, h6, h7, hd, hne, hm, e, replicate_snoc]

theorem stale_reach (n : Nat) : ∃ s, Reach 1 s ∧ Stale (n + 1) s := by
  induction n with
  | zero =>
    -- thread 0 pushes 7; thread 1 reads top, bottom, entry; thread 0 pops 7
    refine ⟨exec 1 init ((List.replicate 8 (0, Cmd.push 7)) ++ (List.replicate 3 (1, Cmd.pop)) ++
      (List.replicate 4 (0, Cmd.pop))), reach_exec _ _ _ Reach.init, ?_⟩
    constructor <;> rfl
  | succ n ih =>
    obtain ⟨s, hr, hs⟩ := ih
    exact ⟨_, reach_exec _ _ _ hr, stale_step (n + 1) (by omega) s hs⟩

/-- **C08 is violated by an overtaken pop (ABA)**: with capacity 1, a pop that stalls between reading the
entry and its CAS while exactly 65536 pops complete succeeds with the stale value: afterwards the popped
values are not a prefix of the pushed ones (more values are popped than were ever pushed). -/
theorem C08_violated_aba : ∃ s, Reach 1 s ∧ s.pushed.length < s.popped.length ∧ ¬ (s.popped <+: s.pushed) := by
  obtain ⟨n, hn⟩ : ∃ n, n = 65535 := ⟨_, rfl⟩
  obtain ⟨s, hr, hs⟩ := stale_reach n
  refine ⟨step 1 s 1 .pop, Reach.step 1 .pop hr, ?_⟩
  obtain ⟨h1, h2, h3, h4, h5, h6, h7⟩ := hs
  have htop : s.top = 0 := by rw [h1]; omega
  have e1 : (step 1 s 1 .pop).popped = s.popped ++ [7] := by simp [step, h5, htop, St.goto]
  have e2 : (step 1 s 1 .pop).pushed = s.pushed := by simp [step, h5, htop, St.goto]
  have hl : s.pushed.length < (s.popped ++ [7]).length := by rw [h6, h7]; simp
  rw [e1, e2]
  exact ⟨hl, fun hp => by have := hp.length_le; omega⟩

/-- Non-vacuity: an interleaved execution (two pushers racing for the lock, two poppers racing for the
same element) is covered by `ReachW` and ends with one value popped and one still queued. -/
example : ∃ s, ReachW 256 s ∧ s.pushed = [5, 6] ∧ s.popped = [5] := by
  let sched : List (Nat × Cmd) :=
    [(0, .push 5), (1, .push 6), (0, .pop), (1, .pop), (0, .pop), (1, .pop), (0, .pop), (0, .pop), (0, .pop),
     (0, .pop), (0, .pop), (1, .pop), (2, .pop), (1, .pop), (1, .pop), (3, .pop), (1, .pop), (1, .pop), (1, .pop),
     (1, .pop), (2, .pop), (2, .pop), (3, .pop), (3, .pop), (2, .pop), (3, .pop)]
  have key : ∀ (l : List (Nat × Cmd)) (s : St), ReachW 256 s → s.popped.length + l.length < 65536 →
      ReachW 256 (exec 256 s l) := by
    intro l
    induction l with
    | nil => intro s h _; exact h
    | cons a r ih =>
      intro s h hl
      simp only [List.length_cons] at hl
      apply ih _ (ReachW.step a.1 a.2 h (by intro t gt v _; omega))
      have : (step 256 s a.1 a.2).popped.length ≤ s.popped.length + 1 := by
        unfold step
        split <;> (try split) <;> simp [St.goto]
      omega
  exact ⟨exec 256 init sched, key sched init ReachW.init (by decide), by decide, by decide⟩

end Arax.Queue.Conc
