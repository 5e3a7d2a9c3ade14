import Verif.Queue.ConcProps
/-!
# `/repo/src/utils/queue.c` on processors that delay stores

The machine of `Verif/Queue/Conc.lean` with a store buffer per thread: the stores to `entries` [queue.c:114] and `bottom` [116]
enter the buffer of their thread and reach memory later, in any order that keeps the order of stores to the same address.
`__sync_synchronize` [115], the compare-and-swaps and the `__sync_fetch_and_and` of the unlock wait for an empty buffer.
`pushed` grows when the store of `bottom` reaches memory (the instant from which other threads can see the element).
-/
namespace Arax.Tso.QueueC
open Arax.Queue.Conc

/-- Control state: that of `Conc`, and `fence`: at `__sync_synchronize` [queue.c:115]. -/
inductive TPc where
  | at (p : Pc)
  | fence (v b : Nat)
  deriving DecidableEq

/-- A store in a buffer: of entry `j` [114], or of `b + 1` to `bottom` [116] (`v` is a history value: the element). (/repo/src/utils/queue.c:105-119.) -/
inductive W where
  | ent (j v : Nat)
  | bot (b v : Nat)
  deriving DecidableEq

/-- Shared memory, buffers (oldest first) and threads. /repo/src/utils/queue.h:15-28. -/
structure TSt where
  entries : Nat → Nat
  top     : Nat
  bottom  : Nat
  lock    : Nat
  pushed  : List Nat
  popped  : List Nat
  pc      : Nat → TPc
  buf     : Nat → List W

/-- After `utils_queue_init`, all threads idle, nothing buffered. queue.c:39-49. -/
def tinit : TSt :=
  { entries := fun _ => 0, top := 0, bottom := 0, lock := 0, pushed := [], popped := [], pc := fun _ => .at .idle, buf := fun _ => [] }

/-- Model bookkeeping, no code of its own. -/
def TSt.goto (s : TSt) (i : Nat) (p : TPc) : TSt := { s with pc := fun j => if j = i then p else s.pc j }

/-- Model bookkeeping, no code of its own. -/
def TSt.setBuf (s : TSt) (i : Nat) (b : List W) : TSt := { s with buf := fun j => if j = i then b else s.buf j }

/-- What thread `i` reads from `bottom`: its own latest buffered store, else memory. queue.c:73, 99. -/
def seeBottom : List W → Nat → Nat
  | [], m => m
  | .bot b _ :: l, _ => seeBottom l ((b + 1) % 65536)
  | .ent _ _ :: l, m => seeBottom l m

/-- What thread `i` reads from entry `x`. queue.c:81. -/
def seeEntry (x : Nat) : List W → Nat → Nat
  | [], m => m
  | .ent j v :: l, m => seeEntry x l (if j = x then v else m)
  | .bot _ _ :: l, m => seeEntry x l m

/-- One instruction of thread `i`. /repo/src/utils/queue.c:63-124, /repo/src/utils/spinlock.h:32-52. -/
def tstep (cap : Nat) (s : TSt) (i : Nat) (cmd : Cmd) : TSt :=
  match s.pc i with
  | .at .idle =>
    match cmd with
    | .pop => s.goto i (.at (.popB s.top s.popped.length))
    | .push v => s.goto i (.at (.pushSpin v))
  | .at (.popB t gt) => if seeBottom (s.buf i) s.bottom = t then s.goto i (.at .idle) else s.goto i (.at (.popE t gt))
  | .at (.popE t gt) => s.goto i (.at (.popC t gt (seeEntry (t &&& (cap - 1)) (s.buf i) (s.entries (t &&& (cap - 1))))))
  | .at (.popC t _ v) =>
    if s.buf i ≠ [] then s
    else if s.top = t then { s with top := (t + 1) % 65536, popped := s.popped ++ [v] }.goto i (.at .idle)
    else s.goto i (.at .idle)
  | .at (.pushSpin v) => if s.lock ≠ 0 then s else s.goto i (.at (.pushCas v))
  | .at (.pushCas v) =>
    if s.buf i ≠ [] then s
    else if s.lock = 0 then { s with lock := 1 }.goto i (.at (.pushRB v)) else s.goto i (.at (.pushSpin v))
  | .at (.pushRB v) => s.goto i (.at (.pushRT v (seeBottom (s.buf i) s.bottom)))
  | .at (.pushRT v b) => if Queue.diff16 b s.top = cap then s.goto i (.at .pushU) else s.goto i (.at (.pushW v b))
  | .at (.pushW v b) => (s.setBuf i (s.buf i ++ [.ent (b &&& (cap - 1)) v])).goto i (.fence v b)
  | .fence v b => if s.buf i ≠ [] then s else s.goto i (.at (.pushB v b))
  | .at (.pushB v b) => (s.setBuf i (s.buf i ++ [.bot b v])).goto i (.at .pushU)
  | .at .pushU => if s.buf i ≠ [] then s else { s with lock := 0 }.goto i (.at .idle)

/-- Do the two stores go to the same address? (The processor (x86-TSO).) -/
def W.same : W → W → Bool
  | .ent j _, .ent k _ => j == k
  | .bot _ _, .bot _ _ => true
  | _, _ => false

/-- A store reaches memory. (The processor (x86-TSO).) -/
def TSt.write (s : TSt) : W → TSt
  | .ent j v => { s with entries := fun k => if k = j then v else s.entries k }
  | .bot b v => { s with bottom := (b + 1) % 65536, pushed := s.pushed ++ [v] }

/-- The processor of `i` writes its `n`-th buffered store, unless an older one to the same address is waiting. (The processor (x86-TSO).) -/
def flush (s : TSt) (i n : Nat) : TSt :=
  match (s.buf i)[n]? with
  | none => s
  | some w => if ((s.buf i).take n).all (fun u => !u.same w) then (s.write w).setBuf i ((s.buf i).eraseIdx n) else s

/-- No pop is overtaken by 65536 or more other pops (as `Conc.WindowAt`). (No code of its own.) -/
def WindowAt (s : TSt) (i : Nat) : Prop :=
  ∀ t gt v, s.pc i = .at (.popC t gt v) → s.popped.length < gt + 65536

/-- Every schedule of threads and store buffers in which no pop is overtaken by 65536 others. (No code of its own.) -/
inductive TReach (cap : Nat) : TSt → Prop where
  | init : TReach cap tinit
  | step {s} (i : Nat) (cmd : Cmd) : TReach cap s → WindowAt s i → TReach cap (tstep cap s i cmd)
  | flush {s} (i n : Nat) : TReach cap s → TReach cap (flush s i n)

/-! ## Refinement to the sequentially consistent machine -/

/-- A buffered store has not been executed yet, as others see it. (No code of its own.) -/
def absPc (b : List W) : TPc → Pc
  | .at .pushU => match b with
    | .bot b v :: _ => .pushB v b
    | _ => .pushU
  | .at p => p
  | .fence v b' => match b with
    | [] => .pushB v b'
    | _ :: _ => .pushW v b'

/-- The state of `Conc` that the others see. (No code of its own.) -/
def abs (s : TSt) : St :=
  { entries := s.entries, top := s.top, bottom := s.bottom, lock := s.lock, pushed := s.pushed, popped := s.popped, pc := fun i => absPc (s.buf i) (s.pc i) }

/-- What can be in a buffer. (No code of its own.) -/
def BufOk (cap : Nat) (b : List W) : TPc → Prop
  | .at .pushU => b = [] ∨ ∃ x v, b = [.bot x v]
  | .fence v b' => b = [] ∨ b = [.ent (b' &&& (cap - 1)) v]
  | _ => b = []

theorem abs_goto (s : TSt) (i : Nat) (p : TPc) : abs (s.goto i p) = (abs s).goto i (absPc (s.buf i) p) := by
  simp only [abs, TSt.goto, St.goto, St.mk.injEq, true_and]
  funext j; by_cases h : j = i
  · subst h; simp
  · simp [h]

theorem goto_self (s : St) (i : Nat) (p : Pc) (h : s.pc i = p) : s.goto i p = s := by
  cases s; simp only [St.goto, St.mk.injEq, true_and]
  funext j; split <;> simp_all

theorem bufOk_goto (cap : Nat) (s : TSt) (i : Nat) (p : TPc) (h : ∀ j, BufOk cap (s.buf j) (s.pc j)) (hp : BufOk cap (s.buf i) p) :
    ∀ j, BufOk cap ((s.goto i p).buf j) ((s.goto i p).pc j) := by
  intro j
  by_cases hj : j = i
  · subst hj; simpa only [TSt.goto, if_pos] using hp
  · simpa only [TSt.goto, if_neg hj] using h j

/-- A thread that is not in the middle of a store has nothing buffered, and the others see it where it is. (No code of its own.) -/
def Plain : Pc → Prop
  | .pushU => False
  | _ => True

theorem plain_buf (cap : Nat) (b : List W) (p : Pc) (hp : Plain p) (h : BufOk cap b (.at p)) : b = [] := by
  cases p <;> first | exact h | exact absurd hp id

theorem plain_abs (b : List W) (p : Pc) (hp : Plain p) : absPc b (.at p) = p := by
  cases p <;> first | rfl | exact absurd hp id

theorem bufOk_nil (cap : Nat) (p : TPc) : BufOk cap [] p := by
  cases p with
  | fence => exact .inl rfl
  | «at» p => cases p <;> first | rfl | exact .inl rfl

theorem hnil {cap : Nat} (p : TPc) (b : List W) (h : b = []) : BufOk cap b p := by rw [h]; exact bufOk_nil _ _

/-- One instruction is one step of the sequentially consistent machine, or none. -/
theorem step_sim (cap : Nat) (s : TSt) (h : ∀ j, BufOk cap (s.buf j) (s.pc j)) (i : Nat) (cmd : Cmd) :
    (∀ j, BufOk cap ((tstep cap s i cmd).buf j) ((tstep cap s i cmd).pc j)) ∧
      (abs (tstep cap s i cmd) = abs s ∨ (abs (tstep cap s i cmd) = step cap (abs s) i cmd ∧ s.pc i = .at ((abs s).pc i))) := by
  have hi := h i
  have hpc : (abs s).pc i = absPc (s.buf i) (s.pc i) := rfl
  unfold tstep
  split
  · rename_i hp
    have hb : s.buf i = [] := plain_buf cap _ .idle trivial (hp ▸ hi)
    rw [hp] at hpc
    cases cmd with
    | pop =>
      refine ⟨bufOk_goto cap s i _ h (hnil _ _ hb), .inr ⟨?_, by rw [hpc]; exact hp⟩⟩
      rw [abs_goto, hb, step.eq_def, hpc]; rfl
    | push v =>
      refine ⟨bufOk_goto cap s i _ h (hnil _ _ hb), .inr ⟨?_, by rw [hpc]; exact hp⟩⟩
      rw [abs_goto, hb, step.eq_def, hpc]; rfl
  · rename_i t gt hp
    have hb : s.buf i = [] := plain_buf cap _ (.popB t gt) trivial (hp ▸ hi)
    rw [hp] at hpc
    rw [hb]
    by_cases hc : s.bottom = t
    · rw [if_pos (show seeBottom [] s.bottom = t from hc)]
      refine ⟨bufOk_goto cap s i _ h (hnil _ _ hb), .inr ⟨?_, by rw [hpc]; exact hp⟩⟩
      rw [abs_goto, hb, step.eq_def, hpc]; exact (if_pos (show (abs s).bottom = t from hc)).symm
    · rw [if_neg (show ¬ seeBottom [] s.bottom = t from hc)]
      refine ⟨bufOk_goto cap s i _ h (hnil _ _ hb), .inr ⟨?_, by rw [hpc]; exact hp⟩⟩
      rw [abs_goto, hb, step.eq_def, hpc]; exact (if_neg (show ¬ (abs s).bottom = t from hc)).symm
  · rename_i t gt hp
    have hb : s.buf i = [] := plain_buf cap _ (.popE t gt) trivial (hp ▸ hi)
    rw [hp] at hpc
    rw [hb]
    refine ⟨bufOk_goto cap s i _ h (hnil _ _ hb), .inr ⟨?_, by rw [hpc]; exact hp⟩⟩
    rw [abs_goto, hb, step.eq_def, hpc]; rfl
  · rename_i t gt v hp
    have hb : s.buf i = [] := plain_buf cap _ (.popC t gt v) trivial (hp ▸ hi)
    rw [hp] at hpc
    rw [if_neg (by rw [hb]; exact fun h => h rfl)]
    by_cases hc : s.top = t
    · rw [if_pos hc]
      refine ⟨bufOk_goto cap { s with top := (t + 1) % 65536, popped := s.popped ++ [v] } i _ h (hnil _ _ hb), .inr ⟨?_, by rw [hpc]; exact hp⟩⟩
      rw [abs_goto, show ({ s with top := (t + 1) % 65536, popped := s.popped ++ [v] } : TSt).buf i = [] from hb, step.eq_def, hpc]
      exact (if_pos (show (abs s).top = t from hc)).symm
    · rw [if_neg hc]
      refine ⟨bufOk_goto cap s i _ h (hnil _ _ hb), .inr ⟨?_, by rw [hpc]; exact hp⟩⟩
      rw [abs_goto, hb, step.eq_def, hpc]; exact (if_neg (show ¬ (abs s).top = t from hc)).symm
  · rename_i v hp
    have hb : s.buf i = [] := plain_buf cap _ (.pushSpin v) trivial (hp ▸ hi)
    rw [hp] at hpc
    by_cases hc : s.lock ≠ 0
    · rw [if_pos hc]; exact ⟨h, .inl rfl⟩
    · rw [if_neg hc]
      refine ⟨bufOk_goto cap s i _ h (hnil _ _ hb), .inr ⟨?_, by rw [hpc]; exact hp⟩⟩
      rw [abs_goto, hb, step.eq_def, hpc]; exact (if_neg (show ¬ (abs s).lock ≠ 0 from hc)).symm
  · rename_i v hp
    have hb : s.buf i = [] := plain_buf cap _ (.pushCas v) trivial (hp ▸ hi)
    rw [hp] at hpc
    rw [if_neg (by rw [hb]; exact fun h => h rfl)]
    by_cases hc : s.lock = 0
    · rw [if_pos hc]
      refine ⟨bufOk_goto cap { s with lock := 1 } i _ h (hnil _ _ hb), .inr ⟨?_, by rw [hpc]; exact hp⟩⟩
      rw [abs_goto, show ({ s with lock := 1 } : TSt).buf i = [] from hb, step.eq_def, hpc]
      exact (if_pos (show (abs s).lock = 0 from hc)).symm
    · rw [if_neg hc]
      refine ⟨bufOk_goto cap s i _ h (hnil _ _ hb), .inr ⟨?_, by rw [hpc]; exact hp⟩⟩
      rw [abs_goto, hb, step.eq_def, hpc]; exact (if_neg (show ¬ (abs s).lock = 0 from hc)).symm
  · rename_i v hp
    have hb : s.buf i = [] := plain_buf cap _ (.pushRB v) trivial (hp ▸ hi)
    rw [hp] at hpc
    rw [hb]
    refine ⟨bufOk_goto cap s i _ h (hnil _ _ hb), .inr ⟨?_, by rw [hpc]; exact hp⟩⟩
    rw [abs_goto, hb, step.eq_def, hpc]; rfl
  · rename_i v b hp
    have hb : s.buf i = [] := plain_buf cap _ (.pushRT v b) trivial (hp ▸ hi)
    rw [hp] at hpc
    by_cases hc : Queue.diff16 b s.top = cap
    · rw [if_pos hc]
      refine ⟨bufOk_goto cap s i _ h (hnil _ _ hb), .inr ⟨?_, by rw [hpc]; exact hp⟩⟩
      rw [abs_goto, hb, step.eq_def, hpc]; exact (if_pos (show Queue.diff16 b (abs s).top = cap from hc)).symm
    · rw [if_neg hc]
      refine ⟨bufOk_goto cap s i _ h (hnil _ _ hb), .inr ⟨?_, by rw [hpc]; exact hp⟩⟩
      rw [abs_goto, hb, step.eq_def, hpc]; exact (if_neg (show ¬ Queue.diff16 b (abs s).top = cap from hc)).symm
  · rename_i v b hp
    have hb : s.buf i = [] := plain_buf cap _ (.pushW v b) trivial (hp ▸ hi)
    rw [hp] at hpc
    rw [hb]
    refine ⟨fun j => ?_, .inl ?_⟩
    · by_cases hj : j = i
      · subst hj; simp only [TSt.goto, TSt.setBuf, if_pos]; exact .inr rfl
      · simp only [TSt.goto, TSt.setBuf, if_neg hj]; exact h j
    · simp only [abs, TSt.goto, TSt.setBuf, St.mk.injEq, true_and]
      funext j
      by_cases hj : j = i
      · subst hj; rw [if_pos rfl, if_pos rfl, hp, hb]; rfl
      · rw [if_neg hj, if_neg hj]
  · rename_i v b hp
    by_cases hb : s.buf i = []
    · rw [if_neg (by rw [hb]; exact fun h => h rfl)]
      refine ⟨bufOk_goto cap s i _ h (hnil _ _ hb), .inl ?_⟩
      rw [abs_goto, hb]
      refine goto_self _ _ _ ?_
      rw [hpc, hp, hb]; rfl
    · rw [if_pos hb]; exact ⟨h, .inl rfl⟩
  · rename_i v b hp
    have hb : s.buf i = [] := plain_buf cap _ (.pushB v b) trivial (hp ▸ hi)
    rw [hp] at hpc
    rw [hb]
    refine ⟨fun j => ?_, .inl ?_⟩
    · by_cases hj : j = i
      · subst hj; simp only [TSt.goto, TSt.setBuf, if_pos]; exact .inr ⟨b, v, rfl⟩
      · simp only [TSt.goto, TSt.setBuf, if_neg hj]; exact h j
    · simp only [abs, TSt.goto, TSt.setBuf, St.mk.injEq, true_and]
      funext j
      by_cases hj : j = i
      · subst hj; rw [if_pos rfl, if_pos rfl, hp, hb]; rfl
      · rw [if_neg hj, if_neg hj]
  · rename_i hp
    by_cases hb : s.buf i = []
    · rw [if_neg (by rw [hb]; exact fun h => h rfl)]
      rw [hp, hb] at hpc
      refine ⟨bufOk_goto cap { s with lock := 0 } i _ h (hnil _ _ hb), .inr ⟨?_, by rw [hpc]; exact hp⟩⟩
      rw [abs_goto, show ({ s with lock := 0 } : TSt).buf i = [] from hb, step.eq_def, hpc]; rfl
    · rw [if_pos hb]; exact ⟨h, .inl rfl⟩

/-- A store reaching memory is the store of the sequentially consistent machine. -/
theorem flush_sim (cap : Nat) (s : TSt) (h : ∀ j, BufOk cap (s.buf j) (s.pc j)) (i n : Nat) :
    (∀ j, BufOk cap ((flush s i n).buf j) ((flush s i n).pc j)) ∧
      (abs (flush s i n) = abs s ∨ (abs (flush s i n) = step cap (abs s) i .pop ∧
        ((∃ v b, (abs s).pc i = .pushW v b) ∨ ∃ v b, (abs s).pc i = .pushB v b))) := by
  have hi := h i
  have hpc : (abs s).pc i = absPc (s.buf i) (s.pc i) := rfl
  unfold flush
  split
  · exact ⟨h, .inl rfl⟩
  · rename_i w hw
    have hne : s.buf i ≠ [] := by intro e; rw [e] at hw; simp at hw
    have hcase : (∃ v b, s.pc i = .fence v b ∧ s.buf i = [.ent (b &&& (cap - 1)) v]) ∨
        (∃ x v, s.pc i = .at .pushU ∧ s.buf i = [.bot x v]) := by
      cases hp : s.pc i with
      | fence v b => rw [hp] at hi; exact .inl ⟨v, b, rfl, hi.resolve_left hne⟩
      | «at» p =>
        rw [hp] at hi
        cases p <;> first
          | exact absurd hi hne
          | (obtain ⟨x, v, e⟩ := hi.resolve_left hne; exact .inr ⟨x, v, rfl, e⟩)
    rcases hcase with ⟨v, b, hp, hb⟩ | ⟨x, v, hp, hb⟩
    · rw [hb] at hw
      have hn : n = 0 := by cases n with
        | zero => rfl
        | succ n => simp at hw
      subst hn
      have hw' : W.ent (b &&& (cap - 1)) v = w := by simpa using hw
      subst hw'
      rw [hb, if_pos (by rfl)]
      rw [hp, hb] at hpc
      refine ⟨fun j => ?_, .inr ⟨?_, .inl ⟨v, b, hpc⟩⟩⟩
      · by_cases hj : j = i
        · subst hj; simp only [TSt.setBuf, if_pos]; exact bufOk_nil _ _
        · simp only [TSt.setBuf, if_neg hj]; exact h j
      · rw [step.eq_def, hpc]
        simp only [abs, TSt.setBuf, TSt.write, St.goto, absPc, St.mk.injEq, true_and]
        funext j
        by_cases hj : j = i
        · subst hj; rw [if_pos rfl, if_pos rfl, hp]; rfl
        · rw [if_neg hj, if_neg hj]
    · rw [hb] at hw
      have hn : n = 0 := by cases n with
        | zero => rfl
        | succ n => simp at hw
      subst hn
      have hw' : W.bot x v = w := by simpa using hw
      subst hw'
      rw [hb, if_pos (by rfl)]
      rw [hp, hb] at hpc
      refine ⟨fun j => ?_, .inr ⟨?_, .inr ⟨v, x, hpc⟩⟩⟩
      · by_cases hj : j = i
        · subst hj; simp only [TSt.setBuf, if_pos]; exact bufOk_nil _ _
        · simp only [TSt.setBuf, if_neg hj]; exact h j
      · rw [step.eq_def, hpc]
        simp only [abs, TSt.setBuf, TSt.write, St.goto, absPc, St.mk.injEq, true_and]
        funext j
        by_cases hj : j = i
        · subst hj; rw [if_pos rfl, if_pos rfl, hp]; rfl
        · rw [if_neg hj, if_neg hj]

/-- Every execution with store buffers is, for its observers, an execution of the sequentially consistent machine. -/
theorem reach_abs (cap : Nat) (s : TSt) (h : TReach cap s) :
    (∀ j, BufOk cap (s.buf j) (s.pc j)) ∧ ReachW cap (abs s) := by
  induction h with
  | init => exact ⟨fun _ => rfl, .init⟩
  | @step s i cmd _ hw ih =>
    obtain ⟨h1, h2⟩ := step_sim cap s ih.1 i cmd
    refine ⟨h1, ?_⟩
    rcases h2 with h2 | ⟨h2, h3⟩
    · rw [h2]; exact ih.2
    · rw [h2]; exact .step i cmd ih.2 (fun t gt v e => hw t gt v (by rw [h3, e]))
  | @flush s i n _ ih =>
    obtain ⟨h1, h2⟩ := flush_sim cap s ih.1 i n
    refine ⟨h1, ?_⟩
    rcases h2 with h2 | ⟨h2, h3⟩
    · rw [h2]; exact ih.2
    · rw [h2]; exact .step i .pop ih.2 (fun t gt v e => by rcases h3 with ⟨_, _, h3⟩ | ⟨_, _, h3⟩ <;> rw [h3] at e <;> cases e)

/-! ## Properties -/

/-- C83 (partial): on processors that delay stores and write them back in any order, the queue is a FIFO queue: the popped
values are a prefix of the pushed ones and at most the capacity are in it.  Missing: loads that are executed out of order
(`C83_violated_load_order`), and pops overtaken by 65536 others (C08). -/
theorem C83_fifo_partial (k : Nat) (hk : k ≤ 15) (s : TSt) (h : TReach (2 ^ k) s) :
    s.popped <+: s.pushed ∧ s.pushed.length ≤ s.popped.length + 2 ^ k :=
  C08_fifo_linearizable_partial k hk (abs s) (reach_abs _ s h).2

/-- C83: a push that has returned is visible to every other thread: an idle thread has nothing buffered. -/
theorem C83_push_visible (cap : Nat) (s : TSt) (h : TReach cap s) (i : Nat) (hi : s.pc i = .at .idle) : s.buf i = [] := by
  have := (reach_abs cap s h).1 i
  rw [hi] at this; exact this

/-- C83: a pop executed alone returns the oldest value pushed and not yet popped. -/
theorem C83_solo_pop (k : Nat) (hk : k ≤ 15) (s : TSt) (h : TReach (2 ^ k) s) (i : Nat) (hi : s.pc i = .at .idle)
    (v : Nat) (hv : s.pushed[s.popped.length]? = some v) :
    let s1 := tstep (2 ^ k) s i .pop
    let s2 := tstep (2 ^ k) s1 i .pop
    let s3 := tstep (2 ^ k) s2 i .pop
    let s4 := tstep (2 ^ k) s3 i .pop
    s4.popped = s.popped ++ [v] ∧ s4.pushed = s.pushed ∧ s4.pc i = .at .idle := by
  obtain ⟨hb, hr⟩ := reach_abs _ s h
  have hbi := C83_push_visible _ s h i hi
  have hia : (abs s).pc i = .idle := by show absPc (s.buf i) (s.pc i) = _; rw [hi]; rfl
  obtain ⟨g1, g2, g3⟩ := C08_solo_pop k hk (abs s) hr i hia v hv
  have key : ∀ (x : TSt), (∀ j, BufOk (2 ^ k) (x.buf j) (x.pc j)) → x.buf i = [] → (∃ p, x.pc i = .at p ∧ (p = .idle ∨ (∃ t g, p = .popB t g) ∨ (∃ t g, p = .popE t g) ∨ ∃ t g v, p = .popC t g v)) →
      abs (tstep (2 ^ k) x i .pop) = step (2 ^ k) (abs x) i .pop ∧ (tstep (2 ^ k) x i .pop).buf i = [] ∧
      (∃ p, (tstep (2 ^ k) x i .pop).pc i = .at p ∧ (p = .idle ∨ (∃ t g, p = .popB t g) ∨ (∃ t g, p = .popE t g) ∨ ∃ t g v, p = .popC t g v)) ∧
      (∀ j, BufOk (2 ^ k) ((tstep (2 ^ k) x i .pop).buf j) ((tstep (2 ^ k) x i .pop).pc j)) := by
    intro x hx hxb hp
    obtain ⟨p, hp, hc⟩ := hp
    have hpa : (abs x).pc i = p := by
      show absPc (x.buf i) (x.pc i) = p
      rw [hp]; rcases hc with rfl | ⟨t, g, rfl⟩ | ⟨t, g, rfl⟩ | ⟨t, g, v, rfl⟩ <;> rfl
    refine ⟨?_, ?_, ?_, (step_sim _ x hx i .pop).1⟩
    · rcases hc with rfl | ⟨t, g, rfl⟩ | ⟨t, g, rfl⟩ | ⟨t, g, v, rfl⟩
      · simp only [tstep, hp]; rw [abs_goto, hxb, step.eq_def, hpa]; rfl
      · simp only [tstep, hp, hxb, seeBottom]
        by_cases c : x.bottom = t
        · rw [if_pos c, abs_goto, hxb, step.eq_def, hpa]; exact (if_pos (show (abs x).bottom = t from c)).symm
        · rw [if_neg c, abs_goto, hxb, step.eq_def, hpa]; exact (if_neg (show ¬ (abs x).bottom = t from c)).symm
      · simp only [tstep, hp, hxb, seeEntry]; rw [abs_goto, hxb, step.eq_def, hpa]; rfl
      · simp only [tstep, hp]
        rw [if_neg (by rw [hxb]; exact fun h => h rfl)]
        by_cases c : x.top = t
        · rw [if_pos c, abs_goto, show ({ x with top := (t + 1) % 65536, popped := x.popped ++ [v] } : TSt).buf i = [] from hxb, step.eq_def, hpa]
          exact (if_pos (show (abs x).top = t from c)).symm
        · rw [if_neg c, abs_goto, hxb, step.eq_def, hpa]; exact (if_neg (show ¬ (abs x).top = t from c)).symm
    · rcases hc with rfl | ⟨t, g, rfl⟩ | ⟨t, g, rfl⟩ | ⟨t, g, v, rfl⟩ <;> simp only [tstep, hp]
      · exact hxb
      · split <;> exact hxb
      · exact hxb
      · split
        · exact hxb
        · split <;> exact hxb
    · rcases hc with rfl | ⟨t, g, rfl⟩ | ⟨t, g, rfl⟩ | ⟨t, g, v, rfl⟩ <;> simp only [tstep, hp]
      · exact ⟨_, by simp only [TSt.goto, if_pos] <;> rfl, .inr (.inl ⟨_, _, rfl⟩)⟩
      · split
        · exact ⟨_, by simp only [TSt.goto, if_pos] <;> rfl, .inl rfl⟩
        · exact ⟨_, by simp only [TSt.goto, if_pos] <;> rfl, .inr (.inr (.inl ⟨_, _, rfl⟩))⟩
      · exact ⟨_, by simp only [TSt.goto, if_pos] <;> rfl, .inr (.inr (.inr ⟨_, _, _, rfl⟩))⟩
      · rw [if_neg (by rw [hxb]; exact fun h => h rfl)]
        split
        · exact ⟨_, by simp only [TSt.goto, if_pos] <;> rfl, .inl rfl⟩
        · exact ⟨_, by simp only [TSt.goto, if_pos] <;> rfl, .inl rfl⟩
  intro s1 s2 s3 s4
  obtain ⟨a1, b1, c1, d1⟩ := key s hb hbi ⟨_, hi, .inl rfl⟩
  obtain ⟨a2, b2, c2, d2⟩ := key s1 d1 b1 c1
  obtain ⟨a3, b3, c3, d3⟩ := key s2 d2 b2 c2
  obtain ⟨a4, b4, c4, d4⟩ := key s3 d3 b3 c3
  have e : abs s4 = step (2 ^ k) (step (2 ^ k) (step (2 ^ k) (step (2 ^ k) (abs s) i .pop) i .pop) i .pop) i .pop := by
    rw [← a1, ← a2, ← a3, ← a4]
  refine ⟨?_, ?_, ?_⟩
  · have : (abs s4).popped = s.popped ++ [v] := by rw [e]; exact g1
    exact this
  · have : (abs s4).pushed = s.pushed := by rw [e]; exact g2
    exact this
  · obtain ⟨p, hp, hc⟩ := c4
    have hpa : (abs s4).pc i = p := by
      show absPc (s4.buf i) (s4.pc i) = p
      rw [show s4.pc i = .at p from hp]; rcases hc with rfl | ⟨t, g, rfl⟩ | ⟨t, g, rfl⟩ | ⟨t, g, v, rfl⟩ <;> rfl
    have : (abs s4).pc i = .idle := by rw [e]; exact g3
    rw [show s4.pc i = .at p from hp, ← hpa, this]

/-! ## Loads out of order

`pop` has no barrier between the load of `bottom` [queue.c:73] and the load of the entry [81].  Processors other than x86
(spinlock.h:6-12 provides for them) may execute the second before the first. -/

/-- The sequentially consistent machine, where a thread that is about to read `bottom` may have loaded the entry already. (/repo/src/utils/queue.c:63-103.) -/
structure LSt where
  s : St
  pre : Nat → Option Nat

/-- What happens next: an instruction of a thread, or the early load of an entry by a thread between queue.c:72 and 73. -/
inductive LAct where
  | instr (i : Nat) (cmd : Cmd)
  | early (i : Nat)

/-- One step; with the entry already loaded, queue.c:81 does not load it again. -/
def lstep (cap : Nat) (l : LSt) : LAct → LSt
  | .early i =>
    match l.s.pc i with
    | .popB t _ => { l with pre := fun j => if j = i then some (l.s.entries (t &&& (cap - 1))) else l.pre j }
    | _ => l
  | .instr i cmd =>
    match l.s.pc i, l.pre i with
    | .popE t gt, some v => { s := l.s.goto i (.popC t gt v), pre := fun j => if j = i then none else l.pre j }
    | .idle, some _ => { s := step cap l.s i cmd, pre := fun j => if j = i then none else l.pre j }
    | _, _ => { l with s := step cap l.s i cmd }

/-- The run of a schedule. (No code of its own.) -/
def lrun (cap : Nat) (l : LSt) (acts : List LAct) : LSt := acts.foldl (lstep cap) l

/-- C83 (violated): with loads executed out of order a pop takes an element out of the queue and returns what was in the entry
before the push: thread 1 reads `top`, loads the entry early; thread 0 pushes 5 completely; thread 1 reads `bottom`, and its
compare-and-swap succeeds.  The element 5 is lost: `utils_queue_pop` returned NULL. -/
theorem C83_violated_load_order :
    ∃ acts : List LAct, (lrun 4 ⟨init, fun _ => none⟩ acts).s.pushed = [5] ∧ (lrun 4 ⟨init, fun _ => none⟩ acts).s.popped = [0]
      ∧ (∀ i, (lrun 4 ⟨init, fun _ => none⟩ acts).s.pc i = .idle) := by
  refine ⟨[.instr 1 .pop, .early 1, .instr 0 (.push 5), .instr 0 .pop, .instr 0 .pop, .instr 0 .pop, .instr 0 .pop, .instr 0 .pop,
    .instr 0 .pop, .instr 0 .pop, .instr 1 .pop, .instr 1 .pop, .instr 1 .pop], by decide, by decide, fun i => ?_⟩
  by_cases h0 : i = 0
  · subst h0; decide
  by_cases h1 : i = 1
  · subst h1; decide
  · simp [lrun, lstep, step, init, St.goto, h0, h1, Queue.diff16]

/-! ## Cases -/

/-- A run of threads and buffers. (No code of its own.) -/
def trun (cap : Nat) (s : TSt) (acts : List (Nat × (Cmd ⊕ Nat))) : TSt :=
  acts.foldl (fun s a => match a.2 with | .inl c => tstep cap s a.1 c | .inr n => flush s a.1 n) s

theorem trun_reach (cap : Nat) : ∀ (acts : List (Nat × (Cmd ⊕ Nat))) (s : TSt), TReach cap s → s.popped.length + acts.length < 65536 →
    TReach cap (trun cap s acts) := by
  intro acts
  induction acts with
  | nil => intro s h _; exact h
  | cons a l ih =>
    intro s h hl
    simp only [List.length_cons] at hl
    have hlen : ∀ (i : Nat) (c : Cmd), (tstep cap s i c).popped.length ≤ s.popped.length + 1 := by
      intro i c
      unfold tstep
      split
      · cases c <;> simp [TSt.goto]
      all_goals (repeat' split) <;> simp [TSt.goto, TSt.setBuf]
    have hfl : ∀ (i n : Nat), (flush s i n).popped.length ≤ s.popped.length + 1 := by
      intro i n
      unfold flush
      split
      · omega
      · split
        · rename_i w _ _; cases w <;> simp [TSt.setBuf, TSt.write]
        · omega
    rcases a with ⟨i, c | n⟩
    · refine ih _ (.step i c h ?_) ?_
      · intro t gt v _; omega
      · have := hlen i c
        show (tstep cap s i c).popped.length + _ < _; omega
    · refine ih _ (.flush i n h) ?_
      have := hfl i n
      show (flush s i n).popped.length + _ < _; omega

/-- The hypotheses of the theorems are met while stores are delayed: thread 0 has pushed 5 and issued the store of its second
push, 6, which is still in its buffer; thread 1 pops 5 meanwhile and then finds the queue empty. -/
example : ∃ s, TReach (2 ^ 2) s ∧ s.pushed = [5] ∧ s.popped = [5] ∧ s.buf 0 = [.bot 1 6] ∧ s.pc 1 = .at .idle := by
  refine ⟨trun 4 tinit [(0, .inl (.push 5)), (0, .inl .pop), (0, .inl .pop), (0, .inl .pop), (0, .inl .pop), (0, .inl .pop), (0, .inr 0),
    (0, .inl .pop), (0, .inl .pop), (0, .inr 0), (0, .inl .pop), (0, .inl (.push 6)), (0, .inl .pop), (0, .inl .pop), (0, .inl .pop),
    (0, .inl .pop), (0, .inl .pop), (0, .inr 0), (0, .inl .pop), (0, .inl .pop), (1, .inl .pop), (1, .inl .pop), (1, .inl .pop), (1, .inl .pop),
    (1, .inl .pop), (1, .inl .pop)], trun_reach 4 _ _ .init (by decide), by decide, by decide, by decide, by decide⟩

/-- A pop waiting to run alone, as in `C83_solo_pop`. -/
example : ∃ s v, TReach (2 ^ 2) s ∧ s.pc 1 = .at .idle ∧ s.pushed[s.popped.length]? = some v := by
  refine ⟨trun 4 tinit [(0, .inl (.push 5)), (0, .inl .pop), (0, .inl .pop), (0, .inl .pop), (0, .inl .pop), (0, .inl .pop), (0, .inr 0),
    (0, .inl .pop), (0, .inl .pop), (0, .inr 0)], 5, trun_reach 4 _ _ .init (by decide), by decide, by decide⟩

end Arax.Tso.QueueC
