/-!
# The helpers kernels are written with (C108)

`controller/include/AraxLibUtilsCPU.h`, `AraxLibUtilsGPU.h`, `AraxLibUtilsHIPGPU.h`,
`AraxLibUtilsOpenCL.h` declare, for each kind of accelerator, a pair of functions
for people who write kernels: `Host2X(task, io)` gives the kernel a pointer for
every buffer of its task, inputs first, then outputs; `X2Host(task, io)` says
that the task is done.  A kernel calls the first, computes, calls the second.

Modelled: the four pairs, and a kernel in two styles: one that ignores what
`Host2X` returns, and one that gives up when it returns false.  The driver's
allocations are arbitrary.  A pointer is a number, 0 is the null pointer.  Not
modelled: the prints, and that the ROCm one does not compile at this commit
(`REMT_SYNC`, HIPaccelThread.cpp:235, is not defined anywhere).
-/
namespace Arax.Helpers

/-- The four kinds with a pair of helpers. -/
inductive Kind
  | cpu | cuda | hip | opencl
  deriving DecidableEq, Repr

/-- `arax_task_state_e`, as far as it is used here (include/arax_types.h:61-66). -/
inductive TaskState
  | issued | completed | failed
  deriving DecidableEq, Repr

/-- What happens, as seen by the world. -/
inductive Act
  /-- the kernel computes with these pointers -/
  | body (io : List Nat)
  /-- the task is marked done: whoever waits for it goes on -/
  | done (s : TaskState)
  /-- the controller exits -/
  | exit
  deriving DecidableEq, Repr

/-- The world of one task. -/
structure St where
  /-- `data->remote` of every buffer -/
  remote : Nat → Nat
  /-- device allocations asked for so far -/
  asked : Nat
  /-- `task->state` -/
  state : TaskState
  acts : List Act

/-- What is fixed: the address of every buffer in shared memory, its size, the
driver's answer to the k-th allocation (`none`: it fails), and whether
ERROR_CHECKING is compiled in (controller/src/Cuda/cuda_utils.h:9-27). -/
structure Env where
  shm : Nat → Nat
  size : Nat → Nat
  ans : Nat → Option Nat
  check : Bool

/-- Change one value of a function. -/
def upd (f : Nat → Nat) (i x : Nat) : Nat → Nat := fun j => if j = i then x else f j

/-- `arax_task_mark_done` (src/core/arax_task.c:83-87). -/
def markDone (t : TaskState) (s : St) : St := { s with state := t, acts := s.acts ++ [.done t] }

/-- `cudaMalloc`/`hipMalloc` into `data->remote`: nothing for zero bytes;
unchanged when it fails. The result says whether it succeeded. (The driver.) -/
def devAlloc (e : Env) (s : St) (d : Nat) : St × Bool :=
  if e.size d = 0 then (s, true)
  else match e.ans s.asked with
    | none => ({ s with asked := s.asked + 1 }, false)
    | some p => ({ s with asked := s.asked + 1, remote := upd s.remote d p }, true)

/-- Has the controller exited? -/
def St.gone (s : St) : Bool := s.acts.contains .exit

/-- One round of the loop of `Host2GPU` (CUDAaccelThread.cpp:187-206) with
`cuda_alloc_no_throttle` (CUDAaccelThread.cpp:382-398): a failed allocation
exits, if errors are checked. -/
def cudaOne (e : Env) (r : St × List Nat) (d : Nat) : St × List Nat :=
  if r.1.gone then r
  else if r.1.remote d ≠ 0 then (r.1, r.2 ++ [r.1.remote d])
  else
    let q := devAlloc e r.1 d
    if q.2 = false ∧ e.check = true then ({ q.1 with acts := q.1.acts ++ [.exit] }, r.2)
    else (q.1, r.2 ++ [q.1.remote d])

/-- One round of the loop of `hip_Host2GPU` (HIPaccelThread.cpp:221-244) with
`hip_alloc_gpu` (HIPaccelThread.cpp:184-206). The third component is `completed`. -/
def hipOne (e : Env) (r : St × List Nat × Bool) (d : Nat) : St × List Nat × Bool :=
  if r.1.remote d ≠ 0 then (r.1, r.2.1 ++ [r.1.remote d], r.2.2)
  else
    let q := devAlloc e r.1 d
    if q.2 then (q.1, r.2.1 ++ [q.1.remote d], r.2.2)
    else ({ q.1 with state := .failed }, r.2.1 ++ [q.1.remote d], false)

/-- `Host2X`: `Host2CPU` (CPUaccelThread.cpp:47-59), `Host2GPU` (CUDAaccelThread.cpp:182-209;
the Async one is the same, 176-180), `hip_Host2GPU` (HIPaccelThread.cpp:216-247, Async 210-214),
`Host2OpenCL` (OpenclaccelThread.cpp:274-280). Returns the pointers and the result. -/
def enter (e : Env) (k : Kind) (ins outs : List Nat) (s : St) : St × List Nat × Bool :=
  match k with
  | .cpu => (s, ins.map e.shm ++ outs.map e.shm, true)
  | .cuda => let r := (ins ++ outs).foldl (cudaOne e) (s, []); (r.1, r.2, true)
  | .hip => (ins ++ outs).foldl (hipOne e) (s, [], true)
  | .opencl => (markDone .completed s, [], true)

/-- `X2Host`: CPUaccelThread.cpp:62-65, CUDAaccelThread.cpp:220-227 (Async 213-217),
HIPaccelThread.cpp:258-265 (Async 251-255), OpenclaccelThread.cpp:283-290: all the same. -/
def leave (s : St) : St := markDone .completed s

/-- A kernel written with the helpers; a `careful` one gives up when `Host2X`
returns false. -/
def kernel (e : Env) (careful : Bool) (k : Kind) (ins outs : List Nat) (s : St) : St :=
  let r := enter e k ins outs s
  if r.1.gone then r.1
  else if careful && !r.2.2 then r.1
  else leave { r.1 with acts := r.1.acts ++ [.body r.2.1] }

/-- A task that has been picked up. -/
def start (remote : Nat → Nat) : St := ⟨remote, 0, .issued, []⟩

/-! ## Specification -/

/-- The task ran: the kernel computed once, with the pointers of its buffers,
inputs first, and then the task was marked completed, once. -/
def Ran (place : Nat → Nat) (ins outs : List Nat) (s : St) : Prop :=
  s.acts = [.body ((ins ++ outs).map place), .done .completed] ∧ s.state = .completed

/-- The driver: memory it gives is not null and is not given twice, nor in use. -/
structure Driver (e : Env) (remote : Nat → Nat) : Prop where
  notNull : ∀ k p, e.ans k = some p → p ≠ 0
  fresh : ∀ k p d, e.ans k = some p → remote d ≠ p
  once : ∀ j k p, e.ans j = some p → e.ans k = some p → j = k

/-- Buffers in device memory have memory of their own. -/
def Apart (remote : Nat → Nat) : Prop := ∀ a b, remote a ≠ 0 → remote a = remote b → a = b

/-! ## Proofs -/

/-- What holds of the memory while allocations are made. -/
structure Mem (e : Env) (r0 : Nat → Nat) (s : St) : Prop where
  grow : ∀ d, r0 d ≠ 0 → s.remote d = r0 d
  zero : ∀ d, e.size d = 0 → s.remote d = r0 d
  apart : Apart s.remote
  used : ∀ k p d, s.asked ≤ k → e.ans k = some p → s.remote d ≠ p

theorem devAlloc_mem (e : Env) (r0 : Nat → Nat) (dr : Driver e r0) (s : St) (d : Nat) (h : Mem e r0 s)
    (hz : s.remote d = 0) :
    Mem e r0 (devAlloc e s d).1 ∧ (∀ x, s.remote x ≠ 0 → (devAlloc e s d).1.remote x = s.remote x) ∧
    (devAlloc e s d).1.acts = s.acts ∧ (devAlloc e s d).1.state = s.state ∧
    ((devAlloc e s d).2 = true → e.size d ≠ 0 → (devAlloc e s d).1.remote d ≠ 0) := by
  unfold devAlloc
  by_cases hs : e.size d = 0
  · rw [if_pos hs]; exact ⟨h, fun _ _ => rfl, rfl, rfl, fun _ h => absurd hs h⟩
  · rw [if_neg hs]
    cases ha : e.ans s.asked with
    | none =>
      exact ⟨⟨h.grow, h.zero, h.apart, fun k p x hk => h.used k p x (by dsimp only at hk; omega)⟩, fun _ _ => rfl, rfl, rfl, by simp⟩
    | some p =>
      refine ⟨⟨?_, ?_, ?_, ?_⟩, ?_, rfl, rfl, ?_⟩
      · intro x hx; dsimp only [upd]
        by_cases hxd : x = d
        · subst hxd; have := h.grow x hx; rw [hz] at this; exact absurd this.symm hx
        · simp [hxd]; exact h.grow x hx
      · intro x hx; dsimp only [upd]
        by_cases hxd : x = d
        · subst hxd; exact absurd hx hs
        · simp [hxd]; exact h.zero x hx
      · intro a b; dsimp only [upd]
        by_cases had : a = d <;> by_cases hbd : b = d <;> simp only [had, hbd, if_true, if_false]
        · intro _ _; trivial
        · intro _ hh; exact absurd hh.symm (h.used _ p b (Nat.le_refl _) ha)
        · intro _ hh; exact absurd hh (h.used _ p a (Nat.le_refl _) ha)
        · exact h.apart a b
      · intro k q x hk hq; dsimp only [upd] at hk ⊢
        by_cases hxd : x = d
        · simp only [hxd, if_true]; intro hpq; subst hpq
          have := dr.once _ _ _ ha hq; omega
        · simp only [hxd, if_false]; exact h.used k q x (by omega) hq
      · intro x hx; dsimp only [upd]
        by_cases hxd : x = d
        · subst hxd; exact absurd hz hx
        · simp [hxd]
      · intro _ _; simp only [upd, if_true]; exact dr.notNull _ _ ha

/-- Buffers that are settled: they have memory, or need none. -/
def Settled (e : Env) (s : St) (l : List Nat) : Prop := ∀ d, d ∈ l → s.remote d ≠ 0 ∨ e.size d = 0

theorem cuda_fold (e : Env) (hc : e.check = true) (r0 : Nat → Nat) (dr : Driver e r0) :
    ∀ (l pre : List Nat) (s : St), Mem e r0 s → s.acts = [] → Settled e s pre →
      (l.foldl (cudaOne e) (s, pre.map s.remote)).1.gone = true ∨
      (let r := l.foldl (cudaOne e) (s, pre.map s.remote)
       Mem e r0 r.1 ∧ r.1.acts = [] ∧ Settled e r.1 (pre ++ l) ∧ r.2 = (pre ++ l).map r.1.remote ∧ r.1.state = s.state) := by
  intro l
  induction l with
  | nil => intro pre s h ha hp; right; exact ⟨h, ha, by simpa using hp, by simp, rfl⟩
  | cons d ds ih =>
    intro pre s h ha hp
    have hg : s.gone = false := by simp [St.gone, ha]
    simp only [List.foldl_cons]
    by_cases hz : s.remote d = 0
    · obtain ⟨hM, hk, hacts, hst, hok⟩ := devAlloc_mem e r0 dr s d h hz
      cases hq : (devAlloc e s d).2 with
      | false =>
        left
        have h1 : cudaOne e (s, pre.map s.remote) d = ({ (devAlloc e s d).1 with acts := (devAlloc e s d).1.acts ++ [.exit] }, pre.map s.remote) := by
          simp [cudaOne, hg, hz, hq, hc]
        rw [h1]
        have stuck : ∀ (l : List Nat) (r : St × List Nat), r.1.gone = true → (l.foldl (cudaOne e) r).1.gone = true := by
          intro l
          induction l with
          | nil => intro r hr; exact hr
          | cons x xs ih2 => intro r hr; simp only [List.foldl_cons]; rw [show cudaOne e r x = r by simp [cudaOne, hr]]; exact ih2 r hr
        exact stuck ds _ (by simp [St.gone])
      | true =>
        have hpre : pre.map s.remote = pre.map (devAlloc e s d).1.remote := by
          apply List.map_congr_left
          intro x hx
          rcases hp x hx with h1 | h1
          · exact (hk x h1).symm
          · rw [h.zero x h1, hM.zero x h1]
        have h1 : cudaOne e (s, pre.map s.remote) d = ((devAlloc e s d).1, (pre ++ [d]).map (devAlloc e s d).1.remote) := by
          simp [cudaOne, hg, hz, hq, hpre]
        rw [h1]
        have hp' : Settled e (devAlloc e s d).1 (pre ++ [d]) := by
          intro x hx
          rw [List.mem_append, List.mem_singleton] at hx
          rcases hx with hx | hx
          · rcases hp x hx with h2 | h2
            · left; rw [hk x h2]; exact h2
            · right; exact h2
          · subst hx
            by_cases hs : e.size x = 0
            · right; exact hs
            · left; exact hok hq hs
        have := ih (pre ++ [d]) (devAlloc e s d).1 hM (by rw [hacts]; exact ha) hp'
        rw [List.append_assoc, hst] at this
        exact this
    · have h1 : cudaOne e (s, pre.map s.remote) d = (s, (pre ++ [d]).map s.remote) := by
        simp [cudaOne, hg, hz]
      rw [h1]
      have hp' : Settled e s (pre ++ [d]) := by
        intro x hx
        rw [List.mem_append, List.mem_singleton] at hx
        rcases hx with hx | hx
        · exact hp x hx
        · subst hx; left; exact hz
      have := ih (pre ++ [d]) s h ha hp'
      rw [List.append_assoc] at this
      exact this

theorem hip_false (e : Env) : ∀ (l : List Nat) (r : St × List Nat × Bool), r.2.2 = false →
    (l.foldl (hipOne e) r).2.2 = false := by
  intro l
  induction l with
  | nil => intro r h; exact h
  | cons d ds ih =>
    intro r h; simp only [List.foldl_cons]; apply ih
    unfold hipOne
    by_cases hz : r.1.remote d ≠ 0
    · rw [if_pos hz]; exact h
    · rw [if_neg hz]; dsimp only; cases (devAlloc e r.1 d).2 <;> simp [h]

theorem hip_acts (e : Env) : ∀ (l : List Nat) (r : St × List Nat × Bool),
    (l.foldl (hipOne e) r).1.acts = r.1.acts := by
  intro l
  induction l with
  | nil => intro r; rfl
  | cons d ds ih =>
    intro r; simp only [List.foldl_cons]; rw [ih]
    have hd : (devAlloc e r.1 d).1.acts = r.1.acts := by
      unfold devAlloc; by_cases hs : e.size d = 0
      · rw [if_pos hs]
      · rw [if_neg hs]; cases e.ans r.1.asked <;> rfl
    unfold hipOne
    by_cases hz : r.1.remote d ≠ 0
    · rw [if_pos hz]
    · rw [if_neg hz]; dsimp only; cases (devAlloc e r.1 d).2 <;> simp [hd]

theorem hip_fold (e : Env) (r0 : Nat → Nat) (dr : Driver e r0) :
    ∀ (l pre : List Nat) (s : St), Mem e r0 s → Settled e s pre →
      (l.foldl (hipOne e) (s, pre.map s.remote, true)).2.2 = true →
      let r := l.foldl (hipOne e) (s, pre.map s.remote, true)
      Mem e r0 r.1 ∧ Settled e r.1 (pre ++ l) ∧ r.2.1 = (pre ++ l).map r.1.remote ∧ r.1.state = s.state := by
  intro l
  induction l with
  | nil => intro pre s h hp _; exact ⟨h, by simpa using hp, by simp, rfl⟩
  | cons d ds ih =>
    intro pre s h hp hr
    simp only [List.foldl_cons] at hr ⊢
    by_cases hz : s.remote d = 0
    · obtain ⟨hM, hk, hacts, hst, hok⟩ := devAlloc_mem e r0 dr s d h hz
      cases hq : (devAlloc e s d).2 with
      | false =>
        have h1 : (hipOne e (s, pre.map s.remote, true) d).2.2 = false := by simp [hipOne, hz, hq]
        rw [hip_false e ds _ h1] at hr; cases hr
      | true =>
        have hpre : pre.map s.remote = pre.map (devAlloc e s d).1.remote := by
          apply List.map_congr_left
          intro x hx
          rcases hp x hx with h1 | h1
          · exact (hk x h1).symm
          · rw [h.zero x h1, hM.zero x h1]
        have h1 : hipOne e (s, pre.map s.remote, true) d = ((devAlloc e s d).1, (pre ++ [d]).map (devAlloc e s d).1.remote, true) := by
          simp [hipOne, hz, hq, hpre]
        rw [h1] at hr ⊢
        have hp' : Settled e (devAlloc e s d).1 (pre ++ [d]) := by
          intro x hx
          rw [List.mem_append, List.mem_singleton] at hx
          rcases hx with hx | hx
          · rcases hp x hx with h2 | h2
            · left; rw [hk x h2]; exact h2
            · right; exact h2
          · subst hx
            by_cases hs : e.size x = 0
            · right; exact hs
            · left; exact hok hq hs
        have := ih (pre ++ [d]) (devAlloc e s d).1 hM hp' hr
        rw [List.append_assoc, hst] at this
        exact this
    · have h1 : hipOne e (s, pre.map s.remote, true) d = (s, (pre ++ [d]).map s.remote, true) := by
        simp [hipOne, hz]
      rw [h1] at hr ⊢
      have hp' : Settled e s (pre ++ [d]) := by
        intro x hx
        rw [List.mem_append, List.mem_singleton] at hx
        rcases hx with hx | hx
        · exact hp x hx
        · subst hx; left; exact hz
      have := ih (pre ++ [d]) s h hp' hr
      rw [List.append_assoc] at this
      exact this

theorem mem_start (e : Env) (r0 : Nat → Nat) (dr : Driver e r0) (ha : Apart r0) : Mem e r0 (start r0) :=
  ⟨fun _ _ => rfl, fun _ _ => rfl, ha, fun k p d _ hp => dr.fresh k p d hp⟩

/-! ## Properties -/

/-- On a CPU: every kernel of either style, with any buffers, gets the addresses
of its buffers in shared memory, inputs first, and completes its task once,
after computing. -/
theorem C108_cpu (e : Env) (careful : Bool) (ins outs : List Nat) (r0 : Nat → Nat) :
    Ran e.shm ins outs (kernel e careful .cpu ins outs (start r0)) := by
  simp [kernel, enter, start, St.gone, leave, markDone, Ran]

/-- With CUDA, when errors are checked: a kernel that gets to run gets the
device memory of its buffers, inputs first; every buffer that has bytes has
memory, of its own; buffers that had memory keep it; and the task is completed
once, after the kernel. Missing: builds without ERROR_CHECKING
(`C108_violated_cuda_unchecked`). -/
theorem C108_cuda_partial (e : Env) (hc : e.check = true) (careful : Bool) (ins outs : List Nat) (r0 : Nat → Nat)
    (dr : Driver e r0) (ha : Apart r0)
    (hrun : Act.exit ∉ (kernel e careful .cuda ins outs (start r0)).acts) :
    let s := kernel e careful .cuda ins outs (start r0)
    Ran s.remote ins outs s ∧ (∀ d, d ∈ ins ++ outs → s.remote d ≠ 0 ∨ e.size d = 0) ∧ Apart s.remote ∧
    (∀ d, r0 d ≠ 0 → s.remote d = r0 d) := by
  have key := cuda_fold e hc r0 dr (ins ++ outs) [] (start r0) (mem_start e r0 dr ha) rfl (by intro d hd; cases hd)
  have hent : enter e .cuda ins outs (start r0)
      = (((ins ++ outs).foldl (cudaOne e) (start r0, ([] : List Nat).map (start r0).remote)).1,
         ((ins ++ outs).foldl (cudaOne e) (start r0, ([] : List Nat).map (start r0).remote)).2, true) := rfl
  generalize hr : (ins ++ outs).foldl (cudaOne e) (start r0, ([] : List Nat).map (start r0).remote) = r at key hent
  rcases key with hg | hk
  · exfalso; apply hrun
    have : kernel e careful .cuda ins outs (start r0) = r.1 := by simp only [kernel]; rw [hent]; simp [hg]
    rw [this]; simpa [St.gone] using hg
  · obtain ⟨hM, hacts, hset, hio, _⟩ := hk
    have hg : r.1.gone = false := by simp [St.gone, hacts]
    have hk : kernel e careful .cuda ins outs (start r0) = leave { r.1 with acts := r.1.acts ++ [.body r.2] } := by
      simp only [kernel]; rw [hent]; simp [hg]
    rw [hk]
    refine ⟨⟨?_, rfl⟩, ?_, hM.apart, hM.grow⟩
    · simp only [leave, markDone, hacts, hio, List.nil_append, List.cons_append]
    · intro d hd; exact hset d (by simpa using hd)

/-- With ROCm, when no allocation fails: as with CUDA. Missing: failing
allocations (`C108_violated_hip_failure`). -/
theorem C108_hip_partial (e : Env) (careful : Bool) (ins outs : List Nat) (r0 : Nat → Nat)
    (dr : Driver e r0) (ha : Apart r0) (hall : ∀ k, e.ans k ≠ none) :
    let s := kernel e careful .hip ins outs (start r0)
    Ran s.remote ins outs s ∧ (∀ d, d ∈ ins ++ outs → s.remote d ≠ 0 ∨ e.size d = 0) ∧ Apart s.remote ∧
    (∀ d, r0 d ≠ 0 → s.remote d = r0 d) := by
  have htrue : ∀ (l : List Nat) (r : St × List Nat × Bool), r.2.2 = true → (l.foldl (hipOne e) r).2.2 = true := by
    intro l
    induction l with
    | nil => intro r h; exact h
    | cons d ds ih =>
      intro r h; simp only [List.foldl_cons]; apply ih
      have hd : (devAlloc e r.1 d).2 = true := by
        unfold devAlloc; by_cases hs : e.size d = 0
        · rw [if_pos hs]
        · rw [if_neg hs]
          cases hx : e.ans r.1.asked with
          | none => exact absurd hx (hall _)
          | some p => rfl
      unfold hipOne
      by_cases hz : r.1.remote d ≠ 0
      · rw [if_pos hz]; exact h
      · rw [if_neg hz]; dsimp only; rw [hd]; exact h
  have hent : enter e .hip ins outs (start r0)
      = (ins ++ outs).foldl (hipOne e) (start r0, ([] : List Nat).map (start r0).remote, true) := rfl
  have h1 := htrue (ins ++ outs) (start r0, ([] : List Nat).map (start r0).remote, true) rfl
  have h2 := hip_acts e (ins ++ outs) (start r0, ([] : List Nat).map (start r0).remote, true)
  have key := hip_fold e r0 dr (ins ++ outs) [] (start r0) (mem_start e r0 dr ha) (by intro d hd; cases hd) h1
  generalize hr : (ins ++ outs).foldl (hipOne e) (start r0, ([] : List Nat).map (start r0).remote, true) = r at key hent h1 h2
  obtain ⟨hM, hset, hio, _⟩ := key
  have hacts : r.1.acts = [] := h2
  have hg : r.1.gone = false := by simp [St.gone, hacts]
  have hk : kernel e careful .hip ins outs (start r0) = leave { r.1 with acts := r.1.acts ++ [.body r.2.1] } := by
    simp only [kernel]; rw [hent]; simp [hg, h1]
  rw [hk]
  refine ⟨⟨?_, rfl⟩, ?_, hM.apart, hM.grow⟩
  · simp only [leave, markDone, hacts, hio, List.nil_append, List.cons_append]
  · intro d hd; exact hset d (by simpa using hd)

/-- Violated, for every task with ROCm for which `hip_Host2GPU` reports a
failure: a kernel that ignores the report ends with a task marked *completed*,
one that heeds it ends with a task that is never marked done, so that whoever
waits for it waits forever (HIPaccelThread.cpp:226-231, 262). -/
theorem C108_violated_hip_failure (e : Env) (ins outs : List Nat) (r0 : Nat → Nat)
    (hf : (enter e .hip ins outs (start r0)).2.2 = false) :
    (kernel e false .hip ins outs (start r0)).state = .completed ∧
    (∃ io, (kernel e false .hip ins outs (start r0)).acts = [.body io, .done .completed]) ∧
    (∀ t, Act.done t ∉ (kernel e true .hip ins outs (start r0)).acts) := by
  have h2 : (enter e .hip ins outs (start r0)).1.acts = [] := hip_acts e (ins ++ outs) (start r0, [], true)
  have e1 : kernel e false .hip ins outs (start r0)
      = leave { (enter e .hip ins outs (start r0)).1 with acts := [.body (enter e .hip ins outs (start r0)).2.1] } := by
    simp [kernel, St.gone, h2]
  have e2 : kernel e true .hip ins outs (start r0) = (enter e .hip ins outs (start r0)).1 := by
    simp [kernel, St.gone, h2, hf]
  refine ⟨by rw [e1]; rfl, ⟨(enter e .hip ins outs (start r0)).2.1, by rw [e1]; rfl⟩, ?_⟩
  intro t ht; rw [e2, h2] at ht; cases ht

/-- A driver without memory. -/
def noMemory (check : Bool) : Env := ⟨fun d => 1000 + d, fun _ => 8, fun _ => none, check⟩

/-- A driver that gives 1, 2, 3, … -/
def plenty : Env := ⟨fun d => 1000 + d, fun d => if d = 9 then 0 else 8, fun k => some (k + 1), true⟩

/-- The hypothesis of `C108_violated_hip_failure` is met, and then the kernel
computes with a null pointer. -/
example : (enter (noMemory true) .hip [0] [1] (start (fun _ => 0))).2.2 = false ∧
    (kernel (noMemory true) false .hip [0] [1] (start (fun _ => 0))).acts = [.body [0, 0], .done .completed] ∧
    (kernel (noMemory true) true .hip [0] [1] (start (fun _ => 0))).acts = [] := by decide

/-- Violated: without ERROR_CHECKING a CUDA kernel whose buffers could not be
allocated computes with null pointers, and its task is completed; with it the
controller exits (CUDAaccelThread.cpp:397, cuda_utils.h:9-27). -/
theorem C108_violated_cuda_unchecked :
    (kernel (noMemory false) true .cuda [0] [1] (start (fun _ => 0))).acts = [.body [0, 0], .done .completed] ∧
    (kernel (noMemory true) true .cuda [0] [1] (start (fun _ => 0))).acts = [.exit] := by decide

/-- Violated, for every task with OpenCL: the task is marked completed *before*
the kernel computes and again after it, and the kernel gets no pointers at all
(OpenclaccelThread.cpp:274-280). -/
theorem C108_violated_opencl (e : Env) (careful : Bool) (ins outs : List Nat) (r0 : Nat → Nat) :
    (kernel e careful .opencl ins outs (start r0)).acts = [.done .completed, .body [], .done .completed] := by
  simp [kernel, enter, start, St.gone, leave, markDone]

/-- The hypotheses of the two partial theorems are met by a task with two
inputs, one of them twice, a buffer of no bytes and a buffer that has memory. -/
example : let r0 := fun d => if d = 4 then 77 else 0
    (kernel plenty true .cuda [3, 4, 3] [5, 9] (start r0)).acts = [.body [1, 77, 1, 2, 0], .done .completed] ∧
    (kernel plenty true .hip [3, 4, 3] [5, 9] (start r0)).acts = [.body [1, 77, 1, 2, 0], .done .completed] ∧
    (kernel plenty true .cpu [3, 4, 3] [5, 9] (start r0)).acts = [.body [1003, 1004, 1003, 1005, 1009], .done .completed] := by
  decide

/-- … of the driver and of the memory in use: -/
example : Driver plenty (fun _ => 0) ∧ Apart (fun _ => 0) ∧ ∀ k, plenty.ans k ≠ none := by
  refine ⟨⟨?_, ?_, ?_⟩, ?_, ?_⟩
  · intro k p h; simp [plenty] at h; omega
  · intro k p d h; simp [plenty] at h; omega
  · intro j k p h1 h2; simp [plenty] at h1 h2; omega
  · intro a b h; exact absurd rfl h
  · intro k; simp [plenty]

end Arax.Helpers
