import Verif.Exec.Theorems
/-!
# C98: the example program gets its answer

*Property.* `noop <text>`, the example program, prints the text reversed, whatever else runs on the accelerators at the same time: `arax_data_get` of its output returns the reversed text with a
terminating zero, and its input is unchanged.

The program (`/repo/noop/noop.cpp`:19-54, and the loop of `noop_stress.cpp`:14-36, many at once) calls `arax_data_set` for the input, `arax_task_issue`, `arax_data_get` for the output, all with a
virtual accelerator of its own; these calls and everything else are the model of C47 and C48. Here: the handler.
-/
namespace Arax.Exec

/-- The loop of `noop_op` (/repo/noop/noop.cpp:13-15) from `l = n - 1` on, with `out` at `c`; `io[0]` is `in`, `io[1]` is `out`. -/
def noopLoop : Nat → Nat → Prog
  | 0, c => .write 1 c 0 .done
  | n + 1, c => .read 0 n (fun b => .write 1 c b (noopLoop n (c + 1)))

/-- A `size_t` as an `int` (conversion in /repo/noop/noop.cpp:67). -/
def toInt (n : Nat) : Int := if n % 4294967296 < 2147483648 then ((n % 4294967296 : Nat) : Int) else ((n % 4294967296 : Nat) : Int) - 4294967296

/-- The handler `noop` (/repo/noop/noop.cpp:65-79) of an input of `size` bytes, called with the right magic number, with `noop_op` (:8-16): the loop has `l - 1` rounds, none if that is negative. -/
def noopProg (size : Nat) : Prog := noopLoop (toInt size - 1).toNat 0

/-- What the loop does: the first `n` bytes of the input, last first, from `c` on, then a zero; nothing else changes. -/
theorem noopLoop_run {a b : Nat} (hab : a ≠ b) : ∀ (n c : Nat) (m : Mem) (h : Host),
    (∀ j, (run [a, b] (noopLoop n c) m h).1 b j = if c ≤ j ∧ j < c + n then m a (n - 1 - (j - c)) else if j = c + n then 0 else m b j) ∧
    (∀ d, d ≠ b → (run [a, b] (noopLoop n c) m h).1 d = m d) := by
  intro n
  induction n with
  | zero =>
    intro c m h
    constructor
    · intro j
      show (upd m b (upd (m b) c 0)) b j = _
      rw [upd_same, if_neg (by omega)]
      by_cases hj : j = c
      · subst hj; rw [upd_same, if_pos (by omega)]
      · rw [upd_ne _ _ _ _ hj, if_neg (by omega)]
    · intro d hd
      show (upd m b (upd (m b) c 0)) d = _
      rw [upd_ne _ _ _ _ hd]
  | succ n ih =>
    intro c m h
    have hr : run [a, b] (noopLoop (n + 1) c) m h = run [a, b] (noopLoop n (c + 1)) (upd m b (upd (m b) c (m a n))) h := rfl
    obtain ⟨h1, h2⟩ := ih (c + 1) (upd m b (upd (m b) c (m a n))) h
    rw [hr]
    constructor
    · intro j
      rw [h1 j, upd_ne _ _ _ _ hab, upd_same]
      by_cases hj : c ≤ j ∧ j < c + (n + 1)
      · rw [if_pos hj]
        by_cases hc : j = c
        · subst hc
          rw [if_neg (by omega), if_neg (by omega), upd_same]
          congr 1; omega
        · rw [if_pos (by omega)]; congr 1; omega
      · rw [if_neg hj, if_neg (by omega)]
        by_cases he : j = c + (n + 1)
        · rw [if_pos he, if_pos (by omega)]
        · rw [if_neg he, if_neg (by omega), upd_ne _ _ _ _ (by omega)]
    · intro d hd
      rw [h2 d hd, upd_ne _ _ _ _ hd]

/-- The handler stays in its buffers if both have the same size, which is not 0 and is an `int`: the issue of the task is legal. -/
theorem noop_fits {size : Nat → Nat} {a b : Nat} (h : size a = size b) (h0 : 0 < size a) (hi : size a < 2147483648) :
    (noopProg (size a)).Fits 2 (fun k => size (([a, b] : List Nat).getD k 0)) 4 := by
  have hn : (toInt (size a) - 1).toNat = size a - 1 := by unfold toInt; rw [if_pos (by omega)]; omega
  unfold noopProg
  rw [hn]
  have : ∀ n c, c + n < size a → (noopLoop n c).Fits 2 (fun k => size (([a, b] : List Nat).getD k 0)) 4 := by
    intro n
    induction n with
    | zero => intro c hc; exact ⟨by omega, by show c < size b; omega, trivial⟩
    | succ n ih => intro c hc; exact ⟨by omega, by show n < size a; omega, fun x => ⟨by omega, by show c < size b; omega, ih (c + 1) (by omega)⟩⟩
  exact this _ 0 (by omega)

/-- Tasks that leave a data object alone: those that do not have it, and `get`s. -/
theorem seqRun_quiet {ph size : Nat → Nat} {cap : Nat} {m0 : Mem} {s : St} (h : Reach ph size cap m0 s) {d : Nat} : ∀ (l : List Nat) (m : Mem), (∀ w ∈ l, d ∉ (s.task w).io ∨ (s.task w).kind = .get) →
    seqRun s.task l m d = m d := by
  intro l
  induction l with
  | nil => intro m _; rfl
  | cons w l ih =>
    intro m hl
    show seqRun s.task l (effect (s.task w) m) d = m d
    rw [ih _ (fun x hx => hl x (List.mem_cons_of_mem _ hx))]
    rcases hl w (List.mem_cons_self) with hw | hw
    · exact effect_other hw m
    · obtain ⟨x, hx, hp⟩ := (kinds h w).1 hw
      unfold effect
      rw [hp]
      unfold getProg
      rw [(copyOut_run (d := x) (by rw [hx]; rfl) (size x) 0 m _).1]

/-- The calls of one run of the program as they appear among the tasks of its virtual accelerator `v`: `u` sets `a` to the text and a zero, `x` is the noop task, `t` gets `b`; tasks in between leave
`a` (between `u` and `x`) and `b` (between `x` and `t`) alone. (No code of its own.) -/
structure NoopRun (size : Nat → Nat) (s : St) (v : Nat) (text : List Nat) (a b u x t : Nat) : Prop where
  two : a ≠ b
  sizes : size a = text.length + 1 ∧ size b = text.length + 1
  set : (s.task u).io = [a] ∧ (s.task u).prog = setProg (text ++ [0])
  op : (s.task x).io = [a, b] ∧ (s.task x).prog = noopProg (size a)
  get : (s.task t).vac = v ∧ (s.task t).kind = .get ∧ (s.task t).io = [b]
  order : ∃ A B1 B2 C, ofVac s.task v s.log = A ++ u :: B1 ++ x :: B2 ++ t :: C ∧ (∀ w ∈ B1, a ∉ (s.task w).io ∨ (s.task w).kind = .get) ∧ (∀ w ∈ B2, b ∉ (s.task w).io ∨ (s.task w).kind = .get)
  alone : Exclusive s.task v s.log

theorem toInt_small {n : Nat} (h : n < 2147483648) : toInt n = n := by unfold toInt; rw [if_pos (by omega)]; omega

/-- **C98 (answer).** For every text shorter than 2 GiB, every number of other clients, tasks and accelerators and every schedule: what the program gets is the reversed text and a zero. Missing: texts of
2 GiB and more (`C98_violated_long`). -/
theorem C98_answer_partial {ph size : Nat → Nat} {cap : Nat} {m0 : Mem} {s : St} (h : Reach ph size cap m0 s) {v a b u x t : Nat} {text : List Nat} (hn : NoopRun size s v text a b u x t)
    (hlen : text.length + 1 < 2147483648) {r : Host} (hr : s.ret t = some r) : ∀ i, i < text.length + 1 → r i = (text.reverse ++ [0]).getD i 0 := by
  intro i hi
  obtain ⟨A, B1, B2, C, hlog, hB1, hB2⟩ := hn.order
  obtain ⟨b', hb', hmain⟩ := C48_get_returns h hn.alone hn.get.1 hn.get.2.1 hr
  rw [hn.get.2.2] at hb'
  injection hb' with hb'
  subst hb'
  rw [hmain (A ++ u :: B1 ++ x :: B2) C (by rw [hlog]) i (by rw [hn.sizes.2]; exact hi)]
  rw [seqRun_append, show seqRun s.task (x :: B2) = fun m => seqRun s.task B2 (effect (s.task x) m) from rfl]
  dsimp only
  rw [seqRun_quiet h B2 _ hB2]
  -- the noop task
  have hs0 : (toInt (size a) - 1).toNat = text.length := by rw [hn.sizes.1, toInt_small hlen]; omega
  have heff : ∀ (m : Mem), effect (s.task x) m b = fun j => if j < text.length then m a (text.length - 1 - j) else if j = text.length then 0 else m b j := by
    intro m
    funext j
    unfold effect
    rw [hn.op.1, hn.op.2]
    unfold noopProg
    rw [hs0, (noopLoop_run hn.two text.length 0 m _).1 j]
    by_cases hj : j < text.length
    · rw [if_pos (by omega), if_pos hj]; simp
    · rw [if_neg (by omega), if_neg hj]; simp
  rw [heff]
  dsimp only
  -- what the input holds
  have hin : ∀ k, k < text.length → seqRun s.task (A ++ u :: B1) m0 a k = text.getD k 0 := by
    intro k hk
    rw [seqRun_append, show seqRun s.task (u :: B1) = fun m => seqRun s.task B1 (effect (s.task u) m) from rfl]
    dsimp only
    rw [seqRun_quiet h B1 _ hB1]
    unfold effect
    rw [hn.set.2]
    unfold setProg
    rw [writeAll_run (d := a) (by rw [hn.set.1]; rfl), if_pos (by simp; omega), Nat.sub_zero]
    rw [List.getD_eq_getElem?_getD, List.getD_eq_getElem?_getD, List.getElem?_append_left hk]
  by_cases hit : i < text.length
  · rw [if_pos hit, hin _ (by omega), List.getD_eq_getElem?_getD, List.getD_eq_getElem?_getD, List.getElem?_append_left (by simpa using hit), List.getElem?_reverse hit]
  · have : i = text.length := by omega
    rw [if_neg hit, if_pos this, List.getD_eq_getElem?_getD, List.getElem?_append_right (by simp [this])]
    simp [this]

/-- **C98 (input).** A later `arax_data_get` of the input (as noop_stress makes it) returns the text, and a zero. -/
theorem C98_input {ph size : Nat → Nat} {cap : Nat} {m0 : Mem} {s : St} (h : Reach ph size cap m0 s) {v a b u x t : Nat} {text : List Nat} (hab : a ≠ b)
    (hsize : size a = text.length + 1) (hu : (s.task u).io = [a] ∧ (s.task u).prog = setProg (text ++ [0])) (hx : (s.task x).io = [a, b] ∧ (s.task x).prog = noopProg (size a))
    (ht : (s.task t).vac = v ∧ (s.task t).kind = .get ∧ (s.task t).io = [a]) (halone : Exclusive s.task v s.log) {A B1 B2 C : List Nat}
    (hlog : ofVac s.task v s.log = A ++ u :: B1 ++ x :: B2 ++ t :: C) (hB1 : ∀ w ∈ B1, a ∉ (s.task w).io ∨ (s.task w).kind = .get) (hB2 : ∀ w ∈ B2, a ∉ (s.task w).io ∨ (s.task w).kind = .get)
    {r : Host} (hr : s.ret t = some r) : ∀ i, i < text.length + 1 → r i = (text ++ [0]).getD i 0 := by
  intro i hi
  obtain ⟨a', ha', hmain⟩ := C48_get_returns h halone ht.1 ht.2.1 hr
  rw [ht.2.2] at ha'
  injection ha' with ha'
  subst ha'
  rw [hmain (A ++ u :: B1 ++ x :: B2) C (by rw [hlog]) i (by omega)]
  rw [seqRun_append, show seqRun s.task (x :: B2) = fun m => seqRun s.task B2 (effect (s.task x) m) from rfl]
  dsimp only
  rw [seqRun_quiet h B2 _ hB2]
  have heff : ∀ m : Mem, effect (s.task x) m a = m a := by
    intro m
    unfold effect
    rw [hx.1, hx.2]
    exact (noopLoop_run hab _ 0 m _).2 a hab
  rw [heff, seqRun_append, show seqRun s.task (u :: B1) = fun m => seqRun s.task B1 (effect (s.task u) m) from rfl]
  dsimp only
  rw [seqRun_quiet h B1 _ hB1]
  unfold effect
  rw [hu.2]
  unfold setProg
  rw [writeAll_run (d := a) (by rw [hu.1]; rfl), if_pos (by simp; omega), Nat.sub_zero]

/-- The program with the text `7 8` (two bytes) on virtual accelerator 3, while another client uses virtual accelerator 0 of the same device. (No code of its own.) -/
def noopDemo : List Act :=
  [.set 1 9 0 [1, 1, 1], .client 1, .client 1, .client 1,
   .set 0 0 3 [7, 8, 0], .client 0, .client 0, .client 0, .issue 0 3 [0, 1] (noopProg 3), .client 0, .client 0, .client 0, .client 0, .get 0 1, .client 0, .client 0, .client 0,
   .pop 0 3, .work 0, .work 0, .work 0, .work 0, .pop 0 0, .work 0, .work 0, .work 0, .work 0,
   .pop 0 3, .work 0, .work 0, .work 0, .work 0, .work 0, .work 0, .pop 0 3, .work 0, .work 0, .work 0, .work 0, .work 0, .work 0, .work 0, .client 0]

/-- Non-vacuity: it gets `8 7 0`. -/
example : (runA (fun _ => 0) (fun _ => 3) 255 noopDemo (init0 (fun _ _ => 0))).map (fun s => (s.log, ofVac s.task 3 s.log, (s.ret 3).map (fun r => (r 0, r 1, r 2)))) =
    some ([0, 1, 2, 3], [1, 2, 3], some (8, 7, 0)) := by decide +kernel

/-- Non-vacuity of the hypotheses. -/
example : ∃ s r, Reach (fun _ => 0) (fun _ => 3) 255 (fun _ _ => 0) s ∧ NoopRun (fun _ => 3) s 3 [7, 8] 0 1 1 2 3 ∧ s.ret 3 = some r := by
  have hrun : ((runA (fun _ => 0) (fun _ => 3) 255 noopDemo (init0 (fun _ _ => 0))).map
      (fun s => (s.log, (List.range 4).map (fun t => ((s.task t).io, (s.task t).vac)), (s.task 3).kind, (s.ret 3).isSome))) =
      some ([0, 1, 2, 3], [([9], 0), ([0], 3), ([0, 1], 3), ([1], 3)], .get, true) := by decide +kernel
  have hp1 : (runA (fun _ => 0) (fun _ => 3) 255 noopDemo (init0 (fun _ _ => 0))).map (fun s => (s.task 1).prog) = some (setProg [7, 8, 0]) := rfl
  have hp2 : (runA (fun _ => 0) (fun _ => 3) 255 noopDemo (init0 (fun _ _ => 0))).map (fun s => (s.task 2).prog) = some (noopProg 3) := rfl
  cases hs : runA (fun _ => 0) (fun _ => 3) 255 noopDemo (init0 (fun _ _ => 0)) with
  | none => rw [hs] at hrun; simp at hrun
  | some s =>
    rw [hs] at hrun hp1 hp2
    simp only [Option.map_some, Option.some.injEq, Prod.mk.injEq] at hrun hp1 hp2
    obtain ⟨hl, hio, hk, hret⟩ := hrun
    simp only [List.range, List.range.loop, List.map_cons, List.map_nil, List.cons.injEq, Prod.mk.injEq, and_true] at hio
    obtain ⟨⟨i0, v0⟩, ⟨i1, v1⟩, ⟨i2, v2⟩, i3, v3⟩ := hio
    obtain ⟨r, hr⟩ := Option.isSome_iff_exists.1 hret
    refine ⟨s, r, reach_runA _ _ _ .init ?_ hs, ⟨by decide, ⟨rfl, rfl⟩, ⟨i1, hp1⟩, ⟨i2, hp2⟩, ⟨v3, hk, i3⟩, ⟨[], [], [], [], ?_, by simp, by simp⟩, ?_⟩, hr⟩
    · intro act hact
      simp only [noopDemo, List.mem_cons, List.not_mem_nil, or_false] at hact
      rcases hact with rfl | rfl | rfl | rfl | rfl | rfl | rfl | rfl | rfl | hact
      case inr.inr.inr.inr.inr.inr.inr.inr.inl => exact ⟨4, noop_fits (size := fun _ => 3) (a := 0) (b := 1) rfl (by decide) (by decide)⟩
      all_goals first
        | trivial
        | rfl
        | (rcases hact with rfl | rfl | rfl | rfl | rfl | rfl | rfl | rfl | rfl | rfl | rfl | rfl | rfl | rfl | rfl | rfl | rfl | rfl | rfl | rfl | rfl | rfl | rfl | rfl | rfl | rfl | rfl | rfl | rfl | rfl | rfl | rfl | rfl | rfl <;> trivial)
    · rw [hl]; simp [ofVac, v0, v1, v2, v3]
    · intro p hp q hq hpv hqv d hd hd'
      rw [hl] at hp hq
      simp only [List.mem_cons, List.not_mem_nil, or_false] at hp hq
      rcases hq with rfl | rfl | rfl | rfl
      · rw [i0] at hd'
        rcases hp with rfl | rfl | rfl | rfl
        · rw [v0] at hpv; omega
        · rw [i1] at hd; simp_all
        · rw [i2] at hd; simp_all
        · rw [i3] at hd; simp_all
      · exact hqv v1
      · exact hqv v2
      · exact hqv v3

/-- **C98 fails for long texts.** The size is converted to `int`; from 2 GiB to 4 GiB it is negative, the loop has no round, and the answer is empty, whatever the text. -/
theorem C98_violated_long (n : Nat) (h1 : 2147483648 ≤ n) (h2 : n < 4294967296) (a b : Nat) (m : Mem) (h : Host) : (run [a, b] (noopProg n) m h).1 b 0 = 0 := by
  have e : noopProg n = .write 1 0 0 .done := by
    unfold noopProg
    have : (toInt n - 1).toNat = 0 := by unfold toInt; rw [if_neg (by omega)]; omega
    rw [this]; rfl
  rw [e]
  show (upd m b (upd (m b) 0 0)) b 0 = 0
  rw [upd_same, upd_same]

/-- **C98 fails for buffers without a byte**: the handler writes behind the buffer. -/
theorem C98_violated_empty : ¬ (noopProg 0).Fits 2 (fun _ => 0) 4 := by
  intro h
  exact absurd h.2.1 (by decide)

end Arax.Exec
