/-
C113. Which worker has the buffer?

With the build option MIGRATION, a worker that is about to run a task asks, for
each buffer of the task, which worker serves the accelerator that the buffer is
on. The table it asks (one for all workers) gets one entry per worker, when
that worker starts. Modelled: the controller's main thread that starts the
workers one after the other, announces that it is ready, and, after SIGINT,
ends, joins and deletes them; the workers; the table, which is being written as
long as a worker holds `thread_prep`. Every interleaving. Simplified: devices
come up (failing ones: C70, C103), an entry is written between lock and unlock
in one go, but a reader in between gets `race`.
-/
namespace Arax.Registry

/-- Where a worker is (/repo/controller/src/Core/accelThread.cpp:293-362; `deleted`: /repo/controller/src/Core/arax_controller.cpp:112). -/
inductive Ph where
  /-- its thread was not started -/
  | unborn
  /-- it initialises its device [accelThread.cpp:310-332] -/
  | starting
  /-- its accelerator is in the segment, where applications find it [333-336] -/
  | listed
  /-- it has set `readyToServe` [357] -/
  | ready
  /-- it holds `thread_prep` and writes the table [358-359] -/
  | writing
  /-- it serves tasks [362] -/
  | serving
  /-- its thread has ended -/
  | ended
  /-- `delete accelthread` -/
  | deleted
deriving DecidableEq, Repr

/-- Where the main thread is (/repo/controller/src/Core/arax_controller.cpp:86-114, 180-193). -/
inductive Main where
  /-- about to start worker `k` [86-87] -/
  | spawn (k : Nat)
  /-- waits until worker `k` is ready [88] -/
  | await (k : Nat)
  /-- applications were told that the controller is ready; waits for SIGINT [191-193] -/
  | running
  /-- about to end worker `k` [106-109] -/
  | term (k : Nat)
  /-- waits for worker `k` [110-111] -/
  | join (k : Nat)
  | done
deriving DecidableEq, Repr

/-- The controller. `table`: `VAQPhys2accelThread` (/repo/controller/src/Core/accelThread.cpp:33), newest entry first; `stop`: `stopExec` of each worker (/repo/controller/src/Core/accelThread.h). -/
structure St where
  main : Main
  ph : Nat → Ph
  stop : Nat → Bool
  table : List (Nat × Nat)

/-- Sets one place. (No code of its own.) -/
def upd {α : Type} (f : Nat → α) (i : Nat) (v : α) : Nat → α := fun j => if j = i then v else f j

/-- `readyToServe` was set by worker `k`: it is never unset. (/repo/controller/src/Core/accelThread.cpp:78, 357.) -/
def isReady : Ph → Bool
  | .unborn | .starting | .listed => false
  | _ => true

/-- Somebody holds `thread_prep` (/repo/controller/src/Core/accelThread.cpp:35, 358). -/
def locked (n : Nat) (s : St) : Bool := (List.range n).any fun w => decide (s.ph w = .writing)

/-- `unordered_map::insert`: an entry that exists stays. (/repo/controller/src/Core/accelThread.cpp:165-167.) -/
def insert (t : List (Nat × Nat)) (p w : Nat) : List (Nat × Nat) := if t.any (fun e => e.1 == p) then t else (p, w) :: t

/-- One step of the main thread, with `n` workers. (/repo/controller/src/Core/arax_controller.cpp:86-90, 106-113, 191; `sig`: 193.) -/
def mainStep (n : Nat) (s : St) : St :=
  match s.main with
  | .spawn k => if k < n then { s with main := .await k, ph := upd s.ph k .starting } else { s with main := .running }
  | .await k => if isReady (s.ph k) then { s with main := .spawn (k + 1) } else s
  | .running => s
  | .term k => if k < n then { s with main := .term (k + 1), stop := upd s.stop k true } else { s with main := .join 0 }
  | .join k =>
    if k < n then
      if s.ph k = .ended then { s with main := .join (k + 1), ph := upd s.ph k .deleted } else s
    else { s with main := .done }
  | .done => s

/-- One step of worker `w`; `addr w` is the address of its accelerator in the segment. (/repo/controller/src/Core/accelThread.cpp:310-362.) -/
def workStep (n : Nat) (addr : Nat → Nat) (s : St) (w : Nat) : St :=
  match s.ph w with
  | .starting => { s with ph := upd s.ph w .listed }
  | .listed => { s with ph := upd s.ph w .ready }
  | .ready => if locked n s then s else { s with ph := upd s.ph w .writing }
  | .writing => { s with ph := upd s.ph w .serving, table := insert s.table (addr w) w }
  | .serving => if s.stop w then { s with ph := upd s.ph w .ended } else s
  | _ => s

/-- What can happen. (No code of its own.) -/
inductive Ev where
  | main
  /-- SIGINT -/
  | sig
  | work (w : Nat)

/-- One step. (No code of its own; see `mainStep`, `workStep`; SIGINT: /repo/controller/src/Core/arax_controller.cpp:140, 193.) -/
def step (n : Nat) (addr : Nat → Nat) (s : St) : Ev → St
  | .main => mainStep n s
  | .sig => if s.main = .running then { s with main := .term 0 } else s
  | .work w => if w < n then workStep n addr s w else s

/-- Before the first worker (/repo/controller/src/Core/arax_controller.cpp:76-86). -/
def start : St := ⟨.spawn 0, fun _ => .unborn, fun _ => false, []⟩

/-- A history. (No code of its own.) -/
def run (n : Nat) (addr : Nat → Nat) (evs : List Ev) : St := evs.foldl (step n addr) start

/-- What comes of a look into the table. -/
inductive Look where
  /-- another thread is writing the table: undefined behaviour -/
  | race
  /-- `at` throws, nobody catches, the controller ends -/
  | throws
  /-- a worker that exists -/
  | found (w : Nat)
  /-- a worker that was deleted -/
  | dangling (w : Nat)
deriving DecidableEq, Repr

/-- `getVAQPhys2accelThread` for an address that is not null, without any lock. (/repo/controller/src/Core/accelThread.cpp:154-162, 214, 262.) -/
def look (n : Nat) (s : St) (p : Nat) : Look :=
  if locked n s then .race
  else match s.table.find? (fun e => e.1 == p) with
    | none => .throws
    | some e => if s.ph e.2 = .deleted then .dangling e.2 else .found e.2

/-! ### Specification -/

/-- Worker `w` has come so far that it serves tasks, or further. -/
def HasServed (s : St) (w : Nat) : Prop := s.ph w = .serving ∨ s.ph w = .ended ∨ s.ph w = .deleted

/-! ### Proofs -/

theorem upd_same {α : Type} (f : Nat → α) (i : Nat) (v : α) : upd f i v i = v := by simp [upd]
theorem upd_ne {α : Type} (f : Nat → α) {i j : Nat} (v : α) (h : j ≠ i) : upd f i v j = f j := by simp [upd, h]

theorem locked_iff {n : Nat} {s : St} : locked n s = true ↔ ∃ w, w < n ∧ s.ph w = .writing := by
  simp [locked]

/-- How far the main thread has started workers. -/
def started (n : Nat) : Main → Nat
  | .spawn k => k
  | .await k => k + 1
  | _ => n
/-- How many workers are known to be ready. -/
def known (n : Nat) : Main → Nat
  | .spawn k => k
  | .await k => k
  | _ => n

/-- What holds all the time. -/
structure Inv (n : Nat) (addr : Nat → Nat) (s : St) : Prop where
  bound : known n s.main ≤ n ∧ started n s.main ≤ n
  born : ∀ w, s.ph w ≠ .unborn ↔ w < started n s.main
  rdy : ∀ w, w < known n s.main → isReady (s.ph w) = true
  one : ∀ w v, s.ph w = .writing → s.ph v = .writing → w = v
  tab : ∀ p w, (p, w) ∈ s.table ↔ p = addr w ∧ HasServed s w
  del : ∀ w, s.ph w = .deleted → (∃ k, s.main = .join k ∧ w < k) ∨ s.main = .done

theorem inv_start (n : Nat) (addr : Nat → Nat) : Inv n addr start := by
  constructor <;> simp [start, known, started, HasServed]

theorem inv_main {n : Nat} {addr : Nat → Nat} {s : St} (h : Inv n addr s) : Inv n addr (mainStep n s) := by
  have hb := h.bound
  cases hm : s.main with
  | spawn k =>
    rw [hm] at hb
    simp only [known, started] at hb
    by_cases hk : k < n
    · have e : mainStep n s = { s with main := .await k, ph := upd s.ph k .starting } := by simp [mainStep, hm, hk]
      have hu : s.ph k = .unborn := by
        have := h.born k
        rw [hm] at this
        simp only [started, Nat.lt_irrefl, iff_false] at this
        exact Decidable.not_not.mp this
      rw [e]
      refine ⟨by simp only [known, started]; omega, fun w => ?_, fun w hw => ?_, fun w v hw hv => ?_, fun p w => ?_, fun w hw => ?_⟩
      · have := h.born w
        rw [hm] at this
        simp only [started] at this ⊢
        by_cases hwk : w = k
        · subst hwk; simp [upd]
        · rw [upd_ne _ _ hwk, this]; omega
      · simp only [known] at hw
        have hwk : w ≠ k := by omega
        dsimp only
        rw [upd_ne _ _ hwk]
        exact h.rdy w (by rw [hm]; exact hw)
      · by_cases a : w = k
        · subst a; simp [upd] at hw
        · by_cases b : v = k
          · subst b; simp [upd] at hv
          · dsimp only at hw hv
            rw [upd_ne _ _ a] at hw; rw [upd_ne _ _ b] at hv
            exact h.one w v hw hv
      · rw [h.tab p w]
        by_cases hwk : w = k
        · subst hwk; simp [HasServed, upd, hu]
        · simp [HasServed, upd, hwk]
      · by_cases hwk : w = k
        · subst hwk; simp [upd] at hw
        · dsimp only at hw
          rw [upd_ne _ _ hwk] at hw
          have := h.del w hw
          rw [hm] at this
          simp at this
    · have e : mainStep n s = { s with main := .running } := by simp [mainStep, hm, hk]
      have hkn : k = n := by omega
      subst hkn
      rw [e]
      refine ⟨by simp [known, started], fun w => ?_, fun w hw => ?_, h.one, h.tab, fun w hw => ?_⟩
      · have := h.born w; rw [hm] at this; exact this
      · exact h.rdy w (by rw [hm]; exact hw)
      · have := h.del w hw; rw [hm] at this; simp at this
  | await k =>
    rw [hm] at hb
    simp only [known, started] at hb
    by_cases hr : isReady (s.ph k) = true
    · have e : mainStep n s = { s with main := .spawn (k + 1) } := by simp [mainStep, hm, hr]
      rw [e]
      refine ⟨by simp only [known, started]; omega, fun w => ?_, fun w hw => ?_, h.one, h.tab, fun w hw => ?_⟩
      · have := h.born w; rw [hm] at this; exact this
      · simp only [known] at hw
        by_cases hwk : w = k
        · subst hwk; exact hr
        · exact h.rdy w (by rw [hm]; simp only [known]; omega)
      · have := h.del w hw; rw [hm] at this; simp at this
    · have e : mainStep n s = s := by simp [mainStep, hm, hr]
      rw [e]; exact h
  | running =>
    have e : mainStep n s = s := by simp [mainStep, hm]
    rw [e]; exact h
  | term k =>
    by_cases hk : k < n
    · have e : mainStep n s = { s with main := .term (k + 1), stop := upd s.stop k true } := by simp [mainStep, hm, hk]
      rw [e]
      refine ⟨by simp [known, started], fun w => ?_, fun w hw => ?_, h.one, h.tab, fun w hw => ?_⟩
      · have := h.born w; rw [hm] at this; exact this
      · exact h.rdy w (by rw [hm]; exact hw)
      · have := h.del w hw; rw [hm] at this; simp at this
    · have e : mainStep n s = { s with main := .join 0 } := by simp [mainStep, hm, hk]
      rw [e]
      refine ⟨by simp [known, started], fun w => ?_, fun w hw => ?_, h.one, h.tab, fun w hw => ?_⟩
      · have := h.born w; rw [hm] at this; exact this
      · exact h.rdy w (by rw [hm]; exact hw)
      · have := h.del w hw; rw [hm] at this; simp at this
  | join k =>
    by_cases hk : k < n
    · by_cases he : s.ph k = .ended
      · have e : mainStep n s = { s with main := .join (k + 1), ph := upd s.ph k .deleted } := by simp [mainStep, hm, hk, he]
        rw [e]
        refine ⟨by simp [known, started], fun w => ?_, fun w hw => ?_, fun w v hw hv => ?_, fun p w => ?_, fun w hw => ?_⟩
        · have := h.born w; rw [hm] at this
          simp only [started] at this ⊢
          by_cases hwk : w = k
          · subst hwk; simp [upd]; exact hk
          · rw [upd_ne _ _ hwk]; exact this
        · by_cases hwk : w = k
          · subst hwk; simp [upd, isReady]
          · dsimp only; rw [upd_ne _ _ hwk]; exact h.rdy w (by rw [hm]; exact hw)
        · by_cases a : w = k
          · subst a; simp [upd] at hw
          · by_cases b : v = k
            · subst b; simp [upd] at hv
            · dsimp only at hw hv
              rw [upd_ne _ _ a] at hw; rw [upd_ne _ _ b] at hv
              exact h.one w v hw hv
        · rw [h.tab p w]
          by_cases hwk : w = k
          · subst hwk; simp [HasServed, upd, he]
          · simp [HasServed, upd, hwk]
        · left
          refine ⟨k + 1, rfl, ?_⟩
          by_cases hwk : w = k
          · omega
          · dsimp only at hw
            rw [upd_ne _ _ hwk] at hw
            rcases h.del w hw with ⟨j, hj, hlt⟩ | hj
            · rw [hm] at hj; injection hj with hj; omega
            · rw [hm] at hj; simp at hj
      · have e : mainStep n s = s := by simp [mainStep, hm, hk, he]
        rw [e]; exact h
    · have e : mainStep n s = { s with main := .done } := by simp [mainStep, hm, hk]
      rw [e]
      refine ⟨by simp [known, started], fun w => ?_, fun w hw => ?_, h.one, h.tab, fun w _ => Or.inr rfl⟩
      · have := h.born w; rw [hm] at this; exact this
      · exact h.rdy w (by rw [hm]; exact hw)
  | done =>
    have e : mainStep n s = s := by simp [mainStep, hm]
    rw [e]; exact h

/-- A step of a worker that changes its place only, and neither enters the table nor leaves it. -/
theorem inv_move {n : Nat} {addr : Nat → Nat} {s : St} (h : Inv n addr s) (w : Nat) (v : Ph)
    (h1 : s.ph w ≠ .unborn) (h2 : v ≠ .unborn) (h3 : isReady (s.ph w) = true → isReady v = true)
    (h4 : v = .writing → ∀ x, s.ph x ≠ .writing) (h5 : (v = .serving ∨ v = .ended ∨ v = .deleted) ↔ HasServed s w) (h6 : v ≠ .deleted) :
    Inv n addr { s with ph := upd s.ph w v } := by
  refine ⟨h.bound, fun x => ?_, fun x hx => ?_, fun x y hx hy => ?_, fun p x => ?_, fun x hx => ?_⟩
  · by_cases a : x = w
    · subst a; rw [← h.born x]; simp [upd, h1, h2]
    · dsimp only; rw [upd_ne _ _ a]; exact h.born x
  · by_cases a : x = w
    · subst a; dsimp only; rw [upd_same]; exact h3 (h.rdy x hx)
    · dsimp only; rw [upd_ne _ _ a]; exact h.rdy x hx
  · dsimp only at hx hy
    by_cases a : x = w
    · by_cases b : y = w
      · omega
      · rw [a, upd_same] at hx; rw [upd_ne _ _ b] at hy; exact absurd hy (h4 hx y)
    · by_cases b : y = w
      · rw [b, upd_same] at hy; rw [upd_ne _ _ a] at hx; exact absurd hx (h4 hy x)
      · rw [upd_ne _ _ a] at hx; rw [upd_ne _ _ b] at hy; exact h.one x y hx hy
  · rw [h.tab p x]
    by_cases a : x = w
    · subst a; simp only [← h5]; simp [HasServed, upd]
    · simp [HasServed, upd, a]
  · dsimp only at hx
    by_cases a : x = w
    · rw [a, upd_same] at hx; exact absurd hx h6
    · rw [upd_ne _ _ a] at hx; exact h.del x hx

theorem inv_work {n : Nat} {addr : Nat → Nat} (ha : ∀ i j, addr i = addr j → i = j) {s : St} (h : Inv n addr s) (w : Nat) (hwn : w < n) :
    Inv n addr (workStep n addr s w) := by
  cases hp : s.ph w with
  | starting =>
    have e : workStep n addr s w = { s with ph := upd s.ph w .listed } := by simp [workStep, hp]
    rw [e]; exact inv_move h w _ (by simp [hp]) (by simp) (by simp [hp, isReady]) (by simp) (by simp [HasServed, hp]) (by simp)
  | listed =>
    have e : workStep n addr s w = { s with ph := upd s.ph w .ready } := by simp [workStep, hp]
    rw [e]; exact inv_move h w _ (by simp [hp]) (by simp) (by simp [isReady]) (by simp) (by simp [HasServed, hp]) (by simp)
  | ready =>
    by_cases hl : locked n s = true
    · have e : workStep n addr s w = s := by simp [workStep, hp, hl]
      rw [e]; exact h
    · have e : workStep n addr s w = { s with ph := upd s.ph w .writing } := by simp [workStep, hp, hl]
      rw [e]
      refine inv_move h w _ (by simp [hp]) (by simp) (by simp [isReady]) (fun _ x hx => hl ?_) (by simp [HasServed, hp]) (by simp)
      have := (h.born x).1 (by simp [hx])
      exact locked_iff.2 ⟨x, by have := h.bound.2; omega, hx⟩
  | writing =>
    have hno : s.table.any (fun e => e.1 == addr w) = false := by
      rw [Bool.eq_false_iff]
      intro hc
      obtain ⟨⟨p, x⟩, hm, hq⟩ := List.any_eq_true.1 hc
      have := (h.tab p x).1 hm
      have hpx : p = addr w := by simpa using hq
      have : x = w := ha x w (by rw [← this.1, hpx])
      subst this
      have := ((h.tab p x).1 hm).2
      simp [HasServed, hp] at this
    have e : workStep n addr s w = { s with ph := upd s.ph w .serving, table := (addr w, w) :: s.table } := by
      simp [workStep, hp, insert, hno]
    rw [e]
    refine ⟨h.bound, fun x => ?_, fun x hx => ?_, fun x y hx hy => ?_, fun p x => ?_, fun x hx => ?_⟩
    · by_cases a : x = w
      · subst a; rw [← h.born x]; simp [upd, hp]
      · dsimp only; rw [upd_ne _ _ a]; exact h.born x
    · by_cases a : x = w
      · subst a; simp [upd, isReady]
      · dsimp only; rw [upd_ne _ _ a]; exact h.rdy x hx
    · dsimp only at hx hy
      by_cases a : x = w
      · rw [a, upd_same] at hx; simp at hx
      · by_cases b : y = w
        · rw [b, upd_same] at hy; simp at hy
        · rw [upd_ne _ _ a] at hx; rw [upd_ne _ _ b] at hy; exact h.one x y hx hy
    · dsimp only
      rw [List.mem_cons, h.tab p x]
      by_cases a : x = w
      · subst a; simp [HasServed, upd, hp]
      · simp [HasServed, upd, a]
    · dsimp only at hx
      by_cases a : x = w
      · rw [a, upd_same] at hx; simp at hx
      · rw [upd_ne _ _ a] at hx; exact h.del x hx
  | serving =>
    by_cases hs : s.stop w = true
    · have e : workStep n addr s w = { s with ph := upd s.ph w .ended } := by simp [workStep, hp, hs]
      rw [e]; exact inv_move h w _ (by simp [hp]) (by simp) (by simp [isReady]) (by simp) (by simp [HasServed, hp]) (by simp)
    · have e : workStep n addr s w = s := by simp [workStep, hp, hs]
      rw [e]; exact h
  | unborn => have e : workStep n addr s w = s := by simp [workStep, hp]
              rw [e]; exact h
  | ended => have e : workStep n addr s w = s := by simp [workStep, hp]
             rw [e]; exact h
  | deleted => have e : workStep n addr s w = s := by simp [workStep, hp]
               rw [e]; exact h

theorem inv_step {n : Nat} {addr : Nat → Nat} (ha : ∀ i j, addr i = addr j → i = j) {s : St} (h : Inv n addr s) (e : Ev) : Inv n addr (step n addr s e) := by
  cases e with
  | main => exact inv_main h
  | sig =>
    by_cases hm : s.main = .running
    · have e : step n addr s .sig = { s with main := .term 0 } := by simp [step, hm]
      rw [e]
      refine ⟨by simp [known, started], fun w => ?_, fun w hw => ?_, h.one, h.tab, fun w hw => ?_⟩
      · have := h.born w; rw [hm] at this; exact this
      · exact h.rdy w (by rw [hm]; exact hw)
      · have := h.del w hw; rw [hm] at this; simp at this
    · have e : step n addr s .sig = s := by simp [step, hm]
      rw [e]; exact h
  | work w =>
    by_cases hw : w < n
    · have e : step n addr s (.work w) = workStep n addr s w := by simp [step, hw]
      rw [e]; exact inv_work ha h w hw
    · have e : step n addr s (.work w) = s := by simp [step, hw]
      rw [e]; exact h

theorem inv_run {n : Nat} {addr : Nat → Nat} (ha : ∀ i j, addr i = addr j → i = j) (evs : List Ev) : Inv n addr (run n addr evs) := by
  unfold run
  have : ∀ (evs : List Ev) s, Inv n addr s → Inv n addr (evs.foldl (step n addr) s) := by
    intro evs
    induction evs with
    | nil => intro s h; exact h
    | cons e es ih => intro s h; exact ih _ (inv_step ha h e)
  exact this evs _ (inv_start n addr)

/-! ### The property -/

variable {n : Nat} {addr : Nat → Nat}

/-- **C113 (writers).** Two workers never write the table at the same time. -/
theorem C113_writers (ha : ∀ i j, addr i = addr j → i = j) (evs : List Ev) (w v : Nat) (hw : (run n addr evs).ph w = .writing) (hv : (run n addr evs).ph v = .writing) :
    w = v := (inv_run ha evs).one w v hw hv

/-- **C113 (never a wrong one).** Whatever a worker finds is the worker of that accelerator, which serves tasks or has ended. -/
theorem C113_right (ha : ∀ i j, addr i = addr j → i = j) (evs : List Ev) (p w : Nat) (h : look n (run n addr evs) p = .found w) :
    p = addr w ∧ w < n ∧ ((run n addr evs).ph w = .serving ∨ (run n addr evs).ph w = .ended) := by
  have hi := inv_run (n := n) ha evs
  unfold look at h
  split at h
  · simp at h
  · split at h
    · simp at h
    · rename_i e he
      split at h
      · simp at h
      · rename_i hd
        injection h with h
        subst h
        have hm := List.mem_of_find?_eq_some he
        have hp : e.1 = p := by simpa using List.find?_some he
        have := (hi.tab e.1 e.2).1 hm
        have hb := (hi.born e.2).1 (by rcases this.2 with x | x | x <;> simp [x])
        have := hi.bound.2
        refine ⟨by rw [← hp]; exact ((hi.tab e.1 e.2).1 hm).1, by omega, ?_⟩
        rcases ((hi.tab e.1 e.2).1 hm).2 with x | x | x
        · exact Or.inl x
        · exact Or.inr x
        · exact absurd x hd

/-- **C113 (found).** While no worker is on its way into the table and no worker was deleted, every worker that serves tasks is found by the address of its accelerator, at once and without an exception.
Missing: the time around the start and the end of other workers (`C113_violated_race`, `C113_violated_throws`, `C113_violated_end`). -/
theorem C113_found_partial (ha : ∀ i j, addr i = addr j → i = j) (evs : List Ev) (w : Nat) (hs : (run n addr evs).ph w = .serving ∨ (run n addr evs).ph w = .ended)
    (hq : ∀ v, v < n → (run n addr evs).ph v ≠ .writing) : look n (run n addr evs) (addr w) = .found w := by
  have hi := inv_run (n := n) ha evs
  have hl : locked n (run n addr evs) = false := by
    rw [Bool.eq_false_iff]
    intro hc
    obtain ⟨v, hv, hw⟩ := locked_iff.1 hc
    exact hq v hv hw
  have hm : (addr w, w) ∈ (run n addr evs).table := (hi.tab _ _).2 ⟨rfl, by rcases hs with x | x; exact Or.inl x; exact Or.inr (Or.inl x)⟩
  unfold look
  rw [hl]
  simp only [Bool.false_eq_true, if_false]
  cases hf : (run n addr evs).table.find? (fun e => e.1 == addr w) with
  | none =>
    have := List.find?_eq_none.1 hf _ hm
    simp at this
  | some e =>
    have hp : e.1 = addr w := by simpa using List.find?_some hf
    have he := (hi.tab e.1 e.2).1 (List.mem_of_find?_eq_some hf)
    have : e.2 = w := ha _ _ (by rw [← he.1, hp])
    dsimp only
    rw [this, if_neg]
    rcases hs with x | x <;> simp [x]

/-- **C113 (announced).** When applications are told that the controller is ready, every worker has said that it is ready and its accelerator is in the segment; every accelerator of a worker before worker `k` is there when worker `k` starts. -/
theorem C113_announced (ha : ∀ i j, addr i = addr j → i = j) (evs : List Ev) (h : (run n addr evs).main = .running) (w : Nat) (hw : w < n) :
    (run n addr evs).ph w ∉ [.unborn, .starting, .listed] := by
  have := (inv_run ha evs).rdy w (by rw [h]; exact hw)
  revert this
  cases (run n addr evs).ph w <;> simp [isReady]
/-- See `C113_announced`. -/
theorem C113_in_order (ha : ∀ i j, addr i = addr j → i = j) (evs : List Ev) (k : Nat) (h : (run n addr evs).ph k ≠ .unborn) (w : Nat) (hw : w < k) :
    (run n addr evs).ph w ∉ [.unborn, .starting, .listed] := by
  have hi := inv_run (n := n) ha evs
  have := (hi.born k).1 h
  have hr : isReady ((run n addr evs).ph w) = true := by
    apply hi.rdy
    revert this
    cases (run n addr evs).main <;> simp only [started, known] <;> omega
  revert hr
  cases (run n addr evs).ph w <;> simp [isReady]

/-! ### The controller comes up and goes down -/

/-- What a schedule `f` leads to. -/
def after (n : Nat) (addr : Nat → Nat) (f : Nat → Ev) : Nat → St
  | 0 => start
  | k + 1 => step n addr (after n addr f k) (f k)

/-- The main thread and each of the `n` workers get their turns, again and again. -/
def Fair (n : Nat) (f : Nat → Ev) : Prop := (∀ k, ∃ m, k ≤ m ∧ f m = .main) ∧ ∀ w, w < n → ∀ k, ∃ m, k ≤ m ∧ f m = .work w

/-- More of what holds all the time: after `SIGINT` workers are told in order, and deleted in order. -/
structure Inv2 (n : Nat) (s : St) : Prop where
  told : ∀ k w, s.main = .term k → w < k → s.stop w = true
  all : ∀ k w, s.main = .join k ∨ s.main = .done → w < n → s.stop w = true
  gone : ∀ k w, s.main = .join k → w < k → s.ph w = .deleted
  end_ : ∀ w, s.main = .done → w < n → s.ph w = .deleted

theorem inv2_step {n : Nat} {addr : Nat → Nat} {s : St} (h : Inv2 n s) (e : Ev) : Inv2 n (step n addr s e) := by
  cases e with
  | main =>
    show Inv2 n (mainStep n s)
    cases hm : s.main with
    | spawn k =>
      by_cases hk : k < n
      · have e : mainStep n s = { s with main := .await k, ph := upd s.ph k .starting } := by simp [mainStep, hm, hk]
        rw [e]; constructor <;> simp
      · have e : mainStep n s = { s with main := .running } := by simp [mainStep, hm, hk]
        rw [e]; constructor <;> simp
    | await k =>
      by_cases hk : isReady (s.ph k) = true
      · have e : mainStep n s = { s with main := .spawn (k + 1) } := by simp [mainStep, hm, hk]
        rw [e]; constructor <;> simp
      · have e : mainStep n s = s := by simp [mainStep, hm, hk]
        rw [e]; exact h
    | running => have e : mainStep n s = s := by simp [mainStep, hm]
                 rw [e]; exact h
    | done => have e : mainStep n s = s := by simp [mainStep, hm]
              rw [e]; exact h
    | term k =>
      by_cases hk : k < n
      · have e : mainStep n s = { s with main := .term (k + 1), stop := upd s.stop k true } := by simp [mainStep, hm, hk]
        rw [e]
        refine ⟨fun j w hj hw => ?_, by simp, by simp, by simp⟩
        injection hj with hj
        by_cases hwk : w = k
        · subst hwk; exact upd_same _ _ _
        · dsimp only; rw [upd_ne _ _ hwk]; exact h.told k w hm (by omega)
      · have e : mainStep n s = { s with main := .join 0 } := by simp [mainStep, hm, hk]
        rw [e]
        exact ⟨by simp, fun j w _ hw => h.told k w hm (by omega), fun j w hj hw => by injection hj with hj; omega, by simp⟩
    | join k =>
      by_cases hk : k < n
      · by_cases hp : s.ph k = .ended
        · have e : mainStep n s = { s with main := .join (k + 1), ph := upd s.ph k .deleted } := by simp [mainStep, hm, hk, hp]
          rw [e]
          refine ⟨by simp, fun j w _ hw => h.all k w (.inl hm) hw, fun j w hj hw => ?_, by simp⟩
          injection hj with hj
          by_cases hwk : w = k
          · subst hwk; exact upd_same _ _ _
          · dsimp only; rw [upd_ne _ _ hwk]; exact h.gone k w hm (by omega)
        · have e : mainStep n s = s := by simp [mainStep, hm, hk, hp]
          rw [e]; exact h
      · have e : mainStep n s = { s with main := .done } := by simp [mainStep, hm, hk]
        rw [e]
        exact ⟨by simp, fun j w _ hw => h.all k w (.inl hm) hw, by simp, fun w _ hw => h.gone k w hm (by omega)⟩
  | sig =>
    by_cases hm : s.main = .running
    · have e : step n addr s .sig = { s with main := .term 0 } := by simp [step, hm]
      rw [e]
      exact ⟨fun j w hj hw => by injection hj with hj; omega, by simp, by simp, by simp⟩
    · have e : step n addr s .sig = s := by simp [step, hm]
      rw [e]; exact h
  | work w =>
    have key : ∀ v, s.ph w ≠ .deleted → ∀ t, Inv2 n { s with ph := upd s.ph w v, table := t } := fun v hd t =>
      ⟨h.told, h.all, fun k x hk hx => by
        have := h.gone k x hk hx
        have hne : x ≠ w := fun c => hd (c ▸ this)
        dsimp only; rw [upd_ne _ _ hne]; exact this, fun x hk hx => by
        have := h.end_ x hk hx
        have hne : x ≠ w := fun c => hd (c ▸ this)
        dsimp only; rw [upd_ne _ _ hne]; exact this⟩
    simp only [step]
    split
    · unfold workStep
      split
      · rename_i hp; exact key _ (by simp [hp]) _
      · rename_i hp; exact key _ (by simp [hp]) _
      · rename_i hp; split
        · exact h
        · exact key _ (by simp [hp]) _
      · rename_i hp; exact key _ (by simp [hp]) _
      · rename_i hp; split
        · exact key _ (by simp [hp]) _
        · exact h
      · exact h
    · exact h

/-- How far a worker is from its end. -/
def Ph.rank : Ph → Nat
  | .unborn => 7 | .starting => 6 | .listed => 5 | .ready => 4 | .writing => 3 | .serving => 2 | .ended => 1 | .deleted => 0

/-- How far the main thread is from its end. -/
def Main.rank (n : Nat) : Main → Nat
  | .spawn k => 2 * (n - k) + (2 * n + 4)
  | .await k => 2 * (n - k - 1) + 1 + (2 * n + 4)
  | .running => 2 * n + 3
  | .term k => (n - k) + n + 2
  | .join k => n - k + 1
  | .done => 0

/-- The sum of the ranks of the first `n` workers. -/
def tot (f : Nat → Ph) : Nat → Nat
  | 0 => 0
  | n + 1 => tot f n + (f n).rank

theorem tot_other (f : Nat → Ph) (w : Nat) (v : Ph) : ∀ n, n ≤ w → tot (upd f w v) n = tot f n
  | 0, _ => rfl
  | n + 1, h => by simp only [tot]; rw [tot_other f w v n (by omega), upd_ne _ _ (by omega)]

theorem tot_less (f : Nat → Ph) (w : Nat) (v : Ph) (hv : v.rank < (f w).rank) : ∀ n, w < n → tot (upd f w v) n < tot f n
  | 0, h => by omega
  | n + 1, h => by
    simp only [tot]
    by_cases hw : w = n
    · subst hw; rw [tot_other f w v w (by omega), upd_same]; omega
    · rw [upd_ne _ _ (by omega)]
      have := tot_less f w v hv n (by omega)
      omega

/-- How far everything is from its end. -/
def size (n : Nat) (s : St) : Nat := s.main.rank n + tot s.ph n

/-- A step changes nothing or takes everything nearer to its end. -/
theorem step_less {n : Nat} {addr : Nat → Nat} {s : St} (h : Inv n addr s) (e : Ev) : step n addr s e = s ∨ size n (step n addr s e) < size n s := by
  cases e with
  | main =>
    show mainStep n s = s ∨ size n (mainStep n s) < size n s
    cases hm : s.main with
    | spawn k =>
      right
      by_cases hk : k < n
      · have e : mainStep n s = { s with main := .await k, ph := upd s.ph k .starting } := by simp [mainStep, hm, hk]
        have hu : s.ph k = .unborn := Decidable.byContradiction fun hc => by
          have := (h.born k).1 hc; rw [hm] at this; simp [started] at this
        have := tot_less s.ph k .starting (by rw [hu]; decide) n hk
        rw [e]; simp only [size, hm, Main.rank]; omega
      · have e : mainStep n s = { s with main := .running } := by simp [mainStep, hm, hk]
        rw [e]; simp only [size, hm, Main.rank]; omega
    | await k =>
      by_cases hk : isReady (s.ph k) = true
      · right
        have e : mainStep n s = { s with main := .spawn (k + 1) } := by simp [mainStep, hm, hk]
        rw [e]; simp only [size, hm, Main.rank]; omega
      · left; simp [mainStep, hm, hk]
    | running => left; simp [mainStep, hm]
    | done => left; simp [mainStep, hm]
    | term k =>
      right
      by_cases hk : k < n
      · have e : mainStep n s = { s with main := .term (k + 1), stop := upd s.stop k true } := by simp [mainStep, hm, hk]
        rw [e]; simp only [size, hm, Main.rank]; omega
      · have e : mainStep n s = { s with main := .join 0 } := by simp [mainStep, hm, hk]
        rw [e]; simp only [size, hm, Main.rank]; omega
    | join k =>
      by_cases hk : k < n
      · by_cases hp : s.ph k = .ended
        · right
          have e : mainStep n s = { s with main := .join (k + 1), ph := upd s.ph k .deleted } := by simp [mainStep, hm, hk, hp]
          have := tot_less s.ph k .deleted (by rw [hp]; decide) n hk
          rw [e]; simp only [size, hm, Main.rank]; omega
        · left; simp [mainStep, hm, hk, hp]
      · right
        have e : mainStep n s = { s with main := .done } := by simp [mainStep, hm, hk]
        rw [e]; simp only [size, hm, Main.rank]; omega
  | sig =>
    by_cases hm : s.main = .running
    · right
      have e : step n addr s .sig = { s with main := .term 0 } := by simp [step, hm]
      rw [e]; simp only [size, hm, Main.rank]; omega
    · left; simp [step, hm]
  | work w =>
    by_cases hw : w < n
    · have e : step n addr s (.work w) = workStep n addr s w := by simp [step, hw]
      rw [e]
      have key : ∀ v t, v.rank < (s.ph w).rank → size n { s with ph := upd s.ph w v, table := t } < size n s := fun v t hv => by
        have := tot_less s.ph w v hv n hw
        simp only [size]; omega
      unfold workStep
      split
      · rename_i hp; exact .inr (key _ _ (by rw [hp]; decide))
      · rename_i hp; exact .inr (key _ _ (by rw [hp]; decide))
      · rename_i hp; split
        · exact .inl rfl
        · exact .inr (key _ _ (by rw [hp]; decide))
      · rename_i hp; exact .inr (key _ _ (by rw [hp]; decide))
      · rename_i hp; split
        · exact .inr (key _ _ (by rw [hp]; decide))
        · exact .inl rfl
      · exact .inl rfl
    · left; simp [step, hw]

/-- A worker on its way to its first task, or another one, can go on. -/
theorem work_on {n : Nat} {addr : Nat → Nat} {s : St} (w : Nat) (hw : w < n) (hu : s.ph w ≠ .unborn) (hs : ¬ HasServed s w) : ∃ v, step n addr s (.work v) ≠ s := by
  have ne : ∀ (v : Ph) (x : Nat) (t : List (Nat × Nat)), v ≠ s.ph x → ({ s with ph := upd s.ph x v, table := t } : St) ≠ s := fun v x t hv hc => by
    have : upd s.ph x v x = s.ph x := congrFun (congrArg St.ph hc) x
    rw [upd_same] at this; exact hv this
  have wr : ∀ x, x < n → s.ph x = .writing → step n addr s (.work x) ≠ s := fun x hx hp => by
    have e : step n addr s (.work x) = { s with ph := upd s.ph x .serving, table := insert s.table (addr x) x } := by simp [step, hx, workStep, hp]
    rw [e]; exact ne _ _ _ (by simp [hp])
  cases hp : s.ph w with
  | unborn => exact absurd hp hu
  | starting =>
    refine ⟨w, ?_⟩
    have e : step n addr s (.work w) = { s with ph := upd s.ph w .listed, table := s.table } := by simp [step, hw, workStep, hp]
    rw [e]; exact ne _ _ _ (by simp [hp])
  | listed =>
    refine ⟨w, ?_⟩
    have e : step n addr s (.work w) = { s with ph := upd s.ph w .ready, table := s.table } := by simp [step, hw, workStep, hp]
    rw [e]; exact ne _ _ _ (by simp [hp])
  | ready =>
    by_cases hl : locked n s = true
    · obtain ⟨x, hx, hpx⟩ := locked_iff.1 hl
      exact ⟨x, wr x hx hpx⟩
    · refine ⟨w, ?_⟩
      have e : step n addr s (.work w) = { s with ph := upd s.ph w .writing, table := s.table } := by simp [step, hw, workStep, hp, hl]
      rw [e]; exact ne _ _ _ (by simp [hp])
  | writing => exact ⟨w, wr w hw hp⟩
  | serving => exact absurd (.inl hp) hs
  | ended => exact absurd (.inr (.inl hp)) hs
  | deleted => exact absurd (.inr (.inr hp)) hs

/-- All workers serve, or did, and the start is over. -/
def Up (n : Nat) (s : St) : Prop := (∀ k, s.main ≠ .spawn k ∧ s.main ≠ .await k) ∧ ∀ w, w < n → HasServed s w

theorem main_ne {s : St} {s' : St} (h : s'.main ≠ s.main) : s' ≠ s := fun hc => h (by rw [hc])

/-- As long as the start is not over, somebody can go on. -/
theorem up_progress {n : Nat} {addr : Nat → Nat} {s : St} (h : Inv n addr s) (h2 : Inv2 n s) (hn : ¬ Up n s) : ∃ e, e ≠ .sig ∧ step n addr s e ≠ s := by
  have lift : (∃ v, step n addr s (.work v) ≠ s) → ∃ e, e ≠ .sig ∧ step n addr s e ≠ s := fun ⟨v, hv⟩ => ⟨.work v, by simp, hv⟩
  have served : (∀ k, s.main ≠ .spawn k ∧ s.main ≠ .await k) → ∃ w, w < n ∧ ¬ HasServed s w := fun hk =>
    Classical.byContradiction fun hc => hn ⟨hk, fun w hw => Classical.byContradiction fun h' => hc ⟨w, hw, h'⟩⟩
  cases hm : s.main with
  | spawn k =>
    refine ⟨.main, by simp, main_ne ?_⟩
    show (mainStep n s).main ≠ _
    unfold mainStep; rw [hm]; dsimp only; split <;> simp
  | await k =>
    by_cases hk : isReady (s.ph k) = true
    · refine ⟨.main, by simp, main_ne ?_⟩
      show (mainStep n s).main ≠ _
      unfold mainStep; rw [hm]; simp [hk]
    · have hb := h.bound.2
      rw [hm] at hb
      refine lift (work_on k hb ((h.born k).2 (by rw [hm]; simp [started])) ?_)
      intro hc
      apply hk
      rcases hc with hc | hc | hc <;> rw [hc] <;> rfl
  | running =>
    obtain ⟨w, hw, hs⟩ := served (by simp [hm])
    exact lift (work_on w hw ((h.born w).2 (by rw [hm]; exact hw)) hs)
  | term k =>
    obtain ⟨w, hw, hs⟩ := served (by simp [hm])
    exact lift (work_on w hw ((h.born w).2 (by rw [hm]; exact hw)) hs)
  | join k =>
    obtain ⟨w, hw, hs⟩ := served (by simp [hm])
    exact lift (work_on w hw ((h.born w).2 (by rw [hm]; exact hw)) hs)
  | done =>
    obtain ⟨w, hw, hs⟩ := served (by simp [hm])
    exact absurd (.inr (.inr (h2.end_ w hm hw))) hs

/-- After `SIGINT`, as long as the end is not reached, somebody can go on. -/
theorem down_progress {n : Nat} {addr : Nat → Nat} {s : St} (h : Inv n addr s) (h2 : Inv2 n s)
    (hs : (∃ k, s.main = .term k) ∨ ∃ k, s.main = .join k) : ∃ e, e ≠ .sig ∧ step n addr s e ≠ s := by
  rcases hs with ⟨k, hm⟩ | ⟨k, hm⟩
  · refine ⟨.main, by simp, main_ne ?_⟩
    show (mainStep n s).main ≠ _
    unfold mainStep; rw [hm]; dsimp only; split <;> simp
  · by_cases hk : k < n
    · by_cases hv : HasServed s k
      · rcases hv with hv | hv | hv
        · refine ⟨.work k, by simp, fun hc => ?_⟩
          have e : step n addr s (.work k) = { s with ph := upd s.ph k .ended } := by simp [step, hk, workStep, hv, h2.all k k (.inl hm) hk]
          rw [e] at hc
          have : upd s.ph k .ended k = s.ph k := congrFun (congrArg St.ph hc) k
          rw [upd_same, hv] at this; cases this
        · refine ⟨.main, by simp, main_ne ?_⟩
          show (mainStep n s).main ≠ _
          simp [mainStep, hm, hk, hv]
        · rcases h.del k hv with ⟨j, hj, hlt⟩ | hd
          · rw [hm] at hj; injection hj with hj; omega
          · rw [hm] at hd; cases hd
      · obtain ⟨v, hv⟩ := work_on (addr := addr) k hk ((h.born k).2 (by rw [hm]; exact hk)) hv
        exact ⟨.work v, by simp, hv⟩
    · refine ⟨.main, by simp, main_ne ?_⟩
      show (mainStep n s).main ≠ _
      simp [mainStep, hm, hk]

theorem inv_after {n : Nat} {addr : Nat → Nat} (ha : ∀ i j, addr i = addr j → i = j) (f : Nat → Ev) : ∀ k, Inv n addr (after n addr f k) ∧ Inv2 n (after n addr f k)
  | 0 => ⟨inv_start n addr, by constructor <;> simp [after, start]⟩
  | k + 1 => ⟨inv_step ha (inv_after ha f k).1 (f k), inv2_step (inv_after ha f k).2 (f k)⟩

/-- Under fair schedules, what can be reached by going on is reached. -/
theorem goes_on {n : Nat} {addr : Nat → Nat} (ha : ∀ i j, addr i = addr j → i = j) {f : Nat → Ev} (hf : Fair n f) (P : St → Prop) (k0 : Nat)
    (hp : ∀ k, k0 ≤ k → ¬ P (after n addr f k) → ∃ e, e ≠ .sig ∧ step n addr (after n addr f k) e ≠ after n addr f k) :
    ∃ k, k0 ≤ k ∧ P (after n addr f k) := by
  have main : ∀ m k, k0 ≤ k → size n (after n addr f k) ≤ m → ∃ k, k0 ≤ k ∧ P (after n addr f k) := by
    intro m
    induction m using Nat.strongRecOn with
    | _ m ih =>
      intro k hk hsz
      by_cases hP : P (after n addr f k)
      · exact ⟨k, hk, hP⟩
      · obtain ⟨e, hne, he⟩ := hp k hk hP
        have ht : ∃ t, k ≤ t ∧ f t = e := by
          cases e with
          | main => exact hf.1 k
          | sig => exact absurd rfl hne
          | work w => exact hf.2 w (Decidable.byContradiction fun hw => he (by simp [step, hw])) k
        obtain ⟨t, hkt, hte⟩ := ht
        -- either something changed before `t`, or the step at `t` does
        have walk : ∀ d, (after n addr f (k + d) = after n addr f k) ∨ size n (after n addr f (k + d)) < size n (after n addr f k) := by
          intro d
          induction d with
          | zero => exact .inl rfl
          | succ d ihd =>
            have hl := step_less (inv_after (n := n) ha f (k + d)).1 (f (k + d))
            have e2 : after n addr f (k + (d + 1)) = step n addr (after n addr f (k + d)) (f (k + d)) := rfl
            rw [e2]
            rcases ihd with h1 | h1 <;> rcases hl with h2 | h2
            · left; rw [h2, h1]
            · right; rw [← h1]; exact h2
            · right; rw [h2]; exact h1
            · right; omega
        have hless : ∃ t', k ≤ t' ∧ size n (after n addr f t') < size n (after n addr f k) := by
          have w1 := walk (t - k)
          rw [Nat.add_sub_cancel' hkt] at w1
          rcases w1 with h1 | h1
          · refine ⟨t + 1, by omega, ?_⟩
            have hl := step_less (inv_after (n := n) ha f t).1 (f t)
            show size n (step n addr (after n addr f t) (f t)) < _
            rcases hl with h2 | h2
            · rw [hte, h1] at h2; exact absurd h2 he
            · rw [← h1]; exact h2
          · exact ⟨t, hkt, h1⟩
        obtain ⟨t', ht', hlt⟩ := hless
        exact ih _ (by omega) t' (by omega) (Nat.le_refl _)
  exact main _ k0 (Nat.le_refl _) (Nat.le_refl _)

/-- **C113 (comes up).** Under every schedule in which every thread gets its turn again and again, the controller announces that it is ready, and all workers come to serve and to be in the table. -/
theorem C113_comes_up (ha : ∀ i j, addr i = addr j → i = j) (f : Nat → Ev) (hf : Fair n f) :
    ∃ k, (∀ j, (after n addr f k).main ≠ .spawn j ∧ (after n addr f k).main ≠ .await j) ∧ ∀ w, w < n → HasServed (after n addr f k) w ∧ (addr w, w) ∈ (after n addr f k).table := by
  obtain ⟨k, _, h⟩ := goes_on (n := n) ha hf (Up n) 0 (fun k _ hn => up_progress (inv_after ha f k).1 (inv_after ha f k).2 hn)
  exact ⟨k, h.1, fun w hw => ⟨h.2 w hw, ((inv_after ha f k).1.tab (addr w) w).2 ⟨rfl, h.2 w hw⟩⟩⟩

/-- **C113 (goes down).** If `SIGINT` comes when the controller runs, the controller ends, and all workers have been deleted before. -/
theorem C113_goes_down (ha : ∀ i j, addr i = addr j → i = j) (f : Nat → Ev) (hf : Fair n f) (m : Nat) (hm : (after n addr f m).main = .running) (hs : f m = .sig) :
    ∃ k, (after n addr f k).main = .done ∧ ∀ w, w < n → (after n addr f k).ph w = .deleted := by
  have hterm : ∀ k, m + 1 ≤ k → (∃ j, (after n addr f k).main = .term j) ∨ (∃ j, (after n addr f k).main = .join j) ∨ (after n addr f k).main = .done := by
    intro k hk
    obtain ⟨d, rfl⟩ := Nat.exists_eq_add_of_le hk
    clear hk
    induction d with
    | zero =>
      left
      refine ⟨0, ?_⟩
      show (step n addr (after n addr f m) (f m)).main = _
      rw [hs]; simp [step, hm]
    | succ d ih =>
      have e2 : after n addr f (m + 1 + (d + 1)) = step n addr (after n addr f (m + 1 + d)) (f (m + 1 + d)) := rfl
      rw [e2]
      generalize after n addr f (m + 1 + d) = s at ih
      have wk : ∀ w, (step n addr s (.work w)).main = s.main := fun w => by
        simp only [step]; split
        · unfold workStep; split <;> (try split) <;> rfl
        · rfl
      cases hev : f (m + 1 + d) with
      | work w => rw [wk]; exact ih
      | sig =>
        have : step n addr s .sig = s := by
          have : s.main ≠ .running := by rcases ih with ⟨j, h⟩ | ⟨j, h⟩ | h <;> simp [h]
          simp [step, this]
        rw [this]; exact ih
      | main =>
        show (∃ j, (mainStep n s).main = .term j) ∨ (∃ j, (mainStep n s).main = .join j) ∨ (mainStep n s).main = .done
        rcases ih with ⟨j, h⟩ | ⟨j, h⟩ | h
        · unfold mainStep; rw [h]; dsimp only; split <;> simp
        · unfold mainStep; rw [h]; dsimp only; split
          · split
            · simp
            · simp [h]
          · simp
        · simp [mainStep, h]
  obtain ⟨k, _, h⟩ := goes_on (n := n) ha hf (fun s => s.main = .done) (m + 1) (fun k hk hn => by
    refine down_progress (inv_after ha f k).1 (inv_after ha f k).2 ?_
    rcases hterm k hk with h | h | h
    · exact .inl h
    · exact .inr h
    · exact absurd h hn)
  exact ⟨k, h, fun w hw => (inv_after ha f k).2.end_ w h hw⟩

/-- The threads one after the other, and `SIGINT` at time 40. -/
def turns (n : Nat) (k : Nat) : Ev := if k = 40 then .sig else match k % (n + 1) with
  | 0 => .main
  | w + 1 => .work w

/-- Non-vacuity: this is fair, for any number of workers; with two of them, `SIGINT` comes when the controller runs. -/
theorem turns_fair (n : Nat) : Fair n (turns n) := by
  have big : ∀ k, k + 41 ≤ (k + 41) * (n + 1) := fun k => Nat.le_mul_of_pos_right _ (by omega)
  refine ⟨fun k => ⟨(k + 41) * (n + 1), by have := big k; omega, ?_⟩, fun w hw k => ⟨(k + 41) * (n + 1) + (w + 1), by have := big k; omega, ?_⟩⟩
  · have := big k
    rw [turns, if_neg (by omega), Nat.mul_mod_left]
  · have := big k
    rw [turns, if_neg (by omega), Nat.mul_add_mod_self_right, Nat.mod_eq_of_lt (by omega)]
example : (after 2 (· + 100) (turns 2) 40).main = .running ∧ turns 2 40 = .sig ∧ (after 2 (· + 100) (turns 2) 60).main = .done := ⟨by decide +kernel, rfl, by decide +kernel⟩

/-- A whole start of two workers. -/
def startTwo : List Ev := [.main, .work 0, .work 0, .work 0, .work 0, .main, .main, .work 1, .work 1, .main, .main]

/-- Non-vacuity: two workers serve, and find each other by addresses 100 and 101. -/
example : (run 2 (· + 100) (startTwo ++ [.work 1, .work 1])).main = .running ∧
    look 2 (run 2 (· + 100) (startTwo ++ [.work 1, .work 1])) 100 = .found 0 ∧
    look 2 (run 2 (· + 100) (startTwo ++ [.work 1, .work 1])) 101 = .found 1 := by decide

/-- After the announcement, with worker 0 serving, worker 1 writes the table: worker 0's look, for any buffer, is undefined behaviour: `readyToServe` is set before the entry is made, and readers take no lock. -/
theorem C113_violated_race :
    ∃ evs, (run 2 (· + 100) evs).main = .running ∧ (run 2 (· + 100) evs).ph 0 = .serving ∧ ∀ p, look 2 (run 2 (· + 100) evs) p = .race :=
  ⟨startTwo ++ [.work 1], by decide, by decide, fun p => by
    have : locked 2 (run 2 (· + 100) (startTwo ++ [.work 1])) = true := by decide
    simp [look, this]⟩

/-- After the announcement, with worker 0 serving and accelerator 1 in the segment (so that a virtual accelerator, and by it a buffer, may be on it): the look for accelerator 1 throws, and the controller ends. -/
theorem C113_violated_throws :
    ∃ evs, (run 2 (· + 100) evs).main = .running ∧ (run 2 (· + 100) evs).ph 0 = .serving ∧ (run 2 (· + 100) evs).ph 1 = .ready ∧
      look 2 (run 2 (· + 100) evs) 101 = .throws :=
  ⟨startTwo, by decide, by decide, by decide, by decide⟩

/-- At the end of the controller workers are deleted one after the other, while later ones may still run their last task: the look for a buffer of worker 0 gives a worker that was deleted. -/
theorem C113_violated_end :
    ∃ evs, (run 2 (· + 100) evs).ph 1 = .serving ∧ look 2 (run 2 (· + 100) evs) 100 = .dangling 0 :=
  ⟨startTwo ++ [.work 1, .work 1, .sig, .main, .main, .main, .work 0, .main], by decide, by decide⟩

end Arax.Registry
