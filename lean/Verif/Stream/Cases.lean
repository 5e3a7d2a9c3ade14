import Verif.Stream.Builtin

/-!
# C81, C82: concrete histories; what goes wrong
-/
namespace Arax.Stream

/-- Two accelerators, virtual accelerator `v` on accelerator `v`, data objects of 4 bytes. -/
def two (be : Backend) : Conf := ⟨be, fun _ => 4, fun v => v, 2⟩

/-- Two virtual accelerators (two clients) on one accelerator, data objects of 8 bytes. -/
def one (be : Backend) : Conf := ⟨be, fun _ => 8, fun _ => 0, 1⟩

/-- The device executes `k` steps of stream `p`. -/
def devs (p k : Nat) : List Act := List.replicate k (.dev p)

theorem two_sane (be) : (two be).Sane := fun _ => by show (4 : Nat) < 2 ^ 64; decide
theorem one_sane (be) : (one be).Sane := fun _ => by show (8 : Nat) < 2 ^ 64; decide

/-- Set, memset, get on accelerator 0; meanwhile accelerator 1 works for another client. The memset is done (for the user) before the device has begun with it. -/
def busy : List Act := [Act.issue 0 (.set 0 (· + 10)), .issue 0 (.memset 0 1 7 2), .issue 1 (.set 1 (· + 50)), .issue 0 (.get 0), .take 0 0, .alloc 0 0 100, .launch 0, .take 1 1, .alloc 1 1 104, .launch 1] ++ devs 1 3 ++ devs 0 9 ++
  [Act.finish 0, .take 0 0, .launch 0, .userFree 1, .scribble 1 (fun _ => 99), .take 0 0, .launch 0] ++ devs 1 6 ++ devs 0 12 ++ [Act.finish 0, .finish 1]

theorem busy_legal (be) : AllLegal (two be) busy := by
  intro v r hr
  simp only [busy, devs, List.mem_append, List.mem_cons, List.mem_replicate, List.not_mem_nil, or_false, reduceCtorEq, and_false, false_or, Act.issue.injEq] at hr
  rcases hr with ⟨_, rfl⟩ | ⟨_, rfl⟩ | ⟨_, rfl⟩ | ⟨_, rfl⟩ <;> first | trivial | (show 1 + 2 ≤ 4; decide)

/-- The hypotheses of `C81_outputs`, `C81_get_returns` are met: the `get` (task 3) is done and has been executed after the memset that was in flight, and the user sees 10, 7, 7, 13. -/
example : ((start fun _ => 33).exec (two .hip) [0, 1] busy).log = [0, 2, 1] ++ 3 :: [] ∧ ((start fun _ => 33).exec (two .hip) [0, 1] busy).done 3 = true ∧
    ((start fun _ => 33).exec (two .hip) [0, 1] busy).gone 3 = false ∧ (List.range 4).map (((start fun _ => 33).exec (two .hip) [0, 1] busy).host 3) = [10, 7, 7, 13] := by decide +kernel

/-- The memset was marked as done, and freed by the user, while it was still in the stream. -/
example : let s := (start fun _ => 33).exec (two .cuda) [0, 1] (busy.take 29); s.done 1 = true ∧ s.gone 1 = true ∧ (s.stream 0).length = 2 ∧ (List.range 4).map (fun i => s.mem (100 + i)) = [10, 11, 12, 13] := by decide +kernel

/-- `C81_order`: the tasks of virtual accelerator 0. -/
example : let s := (start fun _ => 33).exec (two .hip) [0, 1] busy; s.log.filter (fun t => (s.task t).vac = 0) = [0, 1, 3] := by decide +kernel

/-- A client drops its data while the other virtual accelerator is idle; the device memory is given back and reused for the data of another client, where it holds the old bytes until that client's set. -/
def reuse : List Act := [Act.issue 0 (.set 0 (· + 10)), .take 0 0, .alloc 0 0 100, .launch 0] ++ devs 0 17 ++ [Act.finish 0, .drop 0, .freeDev 0 0, .issue 1 (.memset 1 0 7 4), .take 0 1, .alloc 0 1 100, .launch 0, .issue 1 (.get 1), .take 0 1, .launch 0] ++ devs 0 22 ++ [Act.finish 0]

/-- `C81_outputs` covers reuse: device memory of data object 0 is gone, data object 1 has its place. -/
example : let s := (start fun _ => 33).exec (one .hip) [0, 1] reuse; s.log = [0, 1, 2] ∧ s.dropped 0 = true ∧ s.remote 0 = none ∧ s.remote 1 = some 100 ∧ s.done 2 = true ∧
    (List.range 8).map (s.host 2) = [7, 7, 7, 7, 14, 15, 16, 17] := by decide +kernel

/-- While a task that uses the data has not been executed, dropping the last reference is not possible (the task has one). -/
example : ((start fun _ => 33).exec (one .hip) [0, 1] (reuse.take 1)).step (one .hip) [0, 1] (.drop 0) |>.isNone := by decide +kernel

/-- Set and get of one client, in between a memset of another one on the same accelerator. -/
def back : List Act := [Act.issue 0 (.set 0 (· + 10)), .issue 1 (.memset 1 0 7 8), .issue 0 (.get 0), .take 0 0, .alloc 0 0 100, .launch 0] ++ devs 0 17 ++ [Act.finish 0, .take 0 1, .alloc 0 1 200, .launch 0, .take 0 0, .launch 0] ++ devs 0 26 ++ [Act.finish 0]

theorem back_legal : AllLegal (one .hip) back := by
  intro v r hr
  simp only [back, devs, List.mem_append, List.mem_cons, List.mem_replicate, List.not_mem_nil, or_false, reduceCtorEq, and_false, Act.issue.injEq] at hr
  rcases hr with ⟨_, rfl⟩ | ⟨_, rfl⟩ | ⟨_, rfl⟩ <;> first | trivial | (show 0 + 8 ≤ 8; decide)

set_option maxRecDepth 100000 in
/-- `C81_read_back` applies. -/
example : ∀ off, off < 8 → ((start fun _ => 33).exec (one .hip) [0, 1] back).host 2 off = off + 10 := by
  have hn : ((start fun _ => 33).exec (one .hip) [0, 1] back).n = 3 := by decide +kernel
  refine C81_read_back (one .hip) (one_sane _) [0, 1] (fun _ => 33) back back_legal 0 2 0 0 (· + 10) (by decide) rfl rfl (by decide +kernel) (by decide +kernel) ?_ ?_
  · intro w hw hd
    rw [hn] at hw
    have : w = 0 ∨ w = 1 ∨ w = 2 := by omega
    rcases this with rfl | rfl | rfl
    · rfl
    · exact absurd hd (show ¬ 0 ∈ [1] by decide)
    · rfl
  · intro w h1 h2
    have : w = 1 := by omega
    subst this
    exact (show ¬ 0 ∈ [1] by decide)

/-- `C82_marked_partial`, `C82_valid_partial`: the memset (task 1) of `busy` has been run, nobody waits in it; the user frees it. -/
example : let s := (start fun _ => 33).exec (two .hip) [0, 1] (busy.take 25); 1 ∈ s.log ∧ s.worker 0 = .idle ∧ s.done 1 = true ∧ s.gone 1 = false ∧ ((s.step (two .hip) [0, 1] (.userFree 1)).map (·.gone 1)) = some true := by decide +kernel

/-! ## C82 -/

example : ((two .cuda).be ≠ .opencl ∨ (two .cuda).size 0 < 2 ^ 31) ∧ ((two .opencl).be ≠ .opencl ∨ (two .opencl).size 0 < 2 ^ 31) := by decide +kernel

example : (0 : Nat) < 2 ∧ 1 + 2 ≤ (two .hip).size 0 ∧ 2 + 2 ≤ (two .hip).size 1 := by decide +kernel

/-- Violated (OpenclBuiltins.cpp:161-162): on OpenCL a legal `memset` of 4 of the 8 bytes overwrites all 8 of them, and not with the byte asked for but with the 4 bytes of the `int`: 7 0 0 0. On CUDA and HIP it is as asked for. -/
theorem C82_violated_opencl_memset :
    let h := [Act.issue 0 (.set 0 (· + 10)), .issue 0 (.memset 0 0 7 4), .issue 0 (.get 0), .take 0 0, .alloc 0 0 100, .launch 0] ++ devs 0 17 ++ [Act.finish 0, .take 0 0, .launch 0, .take 0 0, .launch 0] ++ devs 0 26 ++ [Act.finish 0]
    let h' := [Act.issue 0 (.set 0 (· + 10)), .issue 0 (.memset 0 0 7 4), .issue 0 (.get 0), .take 0 0, .alloc 0 0 100, .launch 0] ++ devs 0 17 ++ [Act.finish 0, .take 0 0, .launch 0, .take 0 0, .launch 0] ++ devs 0 22 ++ [Act.finish 0]
    (Req.memset 0 0 7 4).Legal (one .opencl) ∧
    ((start fun _ => 33).exec (one .opencl) [0] h).done 2 = true ∧ (List.range 8).map (((start fun _ => 33).exec (one .opencl) [0] h).host 2) = [7, 0, 0, 0, 7, 0, 0, 0] ∧
    ((start fun _ => 33).exec (one .cuda) [0] h').done 2 = true ∧ (List.range 8).map (((start fun _ => 33).exec (one .cuda) [0] h').host 2) = [7, 7, 7, 7, 14, 15, 16, 17] ∧
    ((start fun _ => 33).exec (one .hip) [0] h').done 2 = true ∧ (List.range 8).map (((start fun _ => 33).exec (one .hip) [0] h').host 2) = [7, 7, 7, 7, 14, 15, 16, 17] :=
  ⟨by show 0 + 4 ≤ 8; decide, by decide +kernel, by decide +kernel, by decide +kernel, by decide +kernel, by decide +kernel, by decide +kernel⟩

/-- On OpenCL a `memset` of a whole data object of a multiple of 4 bytes writes, in each group of 4 bytes, the value as a little-endian `int`, of which only the low one was
asked for. -/
theorem C82_opencl_memset_int (cf : Conf) (hb : cf.be = .opencl) (d val n : Nat) (h4 : cf.dsz d % 4 = 0) (k : Nat) :
    cf.prog (.memset d 0 val n) = some (fill (pattern val) (cf.dsz d) 0) ∧
    pattern val (4 * k) + 256 * pattern val (4 * k + 1) + 65536 * pattern val (4 * k + 2) + 16777216 * pattern val (4 * k + 3) = val % 4294967296 ∧
    ∀ j, pattern val j < 256 := by
  have e0 : (4 * k) % 4 = 0 := by omega
  have e1 : (4 * k + 1) % 4 = 1 := by omega
  have e2 : (4 * k + 2) % 4 = 2 := by omega
  have e3 : (4 * k + 3) % 4 = 3 := by omega
  refine ⟨?_, ?_, fun j => Nat.mod_lt _ (by decide)⟩
  · simp [Conf.prog, hb, toInt, h4]
  · simp only [pattern, e0, e1, e2, e3]
    omega

example : (one .opencl).be = .opencl ∧ (one .opencl).dsz 0 % 4 = 0 := by decide +kernel

/-- Violated: on OpenCL a legal `memset` with an offset does nothing at all, for every data object, offset, value and size (the size of the whole data object is given, from the offset on: too much). -/
theorem C82_violated_opencl_offset (cf : Conf) (hb : cf.be = .opencl) (d off val n : Nat) (h0 : off % 2 ^ 32 ≠ 0) : cf.prog (.memset d off val n) = some .done := by
  simp only [Conf.prog, hb]
  split
  · rfl
  · next o ho =>
    rw [if_neg]
    intro hc
    have : o = 0 := by omega
    simp only [toInt] at ho
    split at ho
    · cases ho; exact h0 this
    · cases ho

/-- … such requests are legal: -/
example : (Req.memset 0 4 7 4).Legal (one .opencl) ∧ 4 % 2 ^ 32 ≠ 0 := ⟨by show 4 + 4 ≤ 8; decide, by decide⟩

/-- Violated (OpenclBuiltins.cpp:165): on OpenCL the handler of `memset` frees the task that the user waits for: marked as done and freed, the user has not freed it, and what the user then reads (`task->state`, the completion) may be anything. -/
theorem C82_violated_opencl_free :
    let s := (start fun _ => 33).exec (one .opencl) [0] [Act.issue 0 (.memset 0 0 7 8), .take 0 0, .alloc 0 0 100, .launch 0]
    s.done 0 = true ∧ s.gone 0 = true ∧ ∀ f, ((s.step (one .opencl) [0] (.scribble 0 f)).map (fun x => x.host 0)) = some f := by
  refine ⟨by decide +kernel, by decide +kernel, fun f => ?_⟩
  simp only [St.step]
  rw [if_pos (by decide +kernel)]
  simp only [Option.map_some, upd_same]

/-- Violated (OpenclBuiltins.cpp:136): on OpenCL `memcpy` copies as many bytes as the source has, not as many as asked for: 4 of 8 bytes asked for, all 8 bytes overwritten. On HIP: 4. -/
theorem C82_violated_opencl_memcpy :
    let h := fun (k : Nat) => [Act.issue 0 (.set 0 (· + 10)), .issue 0 (.set 1 (· + 50)), .issue 0 (.memcpy 0 1 0 0 4 true), .issue 0 (.get 1), .take 0 0, .alloc 0 0 100, .launch 0] ++ devs 0 17 ++ [Act.finish 0, .take 0 0, .alloc 0 1 200, .launch 0] ++ devs 0 17 ++
      [Act.finish 0, .take 0 0, .launch 0, .take 0 0, .launch 0] ++ devs 0 k ++ [Act.finish 0]
    (Req.memcpy 0 1 0 0 4 true).Legal (one .opencl) ∧
    ((start fun _ => 33).exec (one .opencl) [0, 1] (h 34)).done 3 = true ∧ (List.range 8).map (((start fun _ => 33).exec (one .opencl) [0, 1] (h 34)).host 3) = [10, 11, 12, 13, 14, 15, 16, 17] ∧
    ((start fun _ => 33).exec (one .hip) [0, 1] (h 26)).done 3 = true ∧ (List.range 8).map (((start fun _ => 33).exec (one .hip) [0, 1] (h 26)).host 3) = [10, 11, 12, 13, 54, 55, 56, 57] :=
  ⟨⟨Nat.zero_le _, Nat.zero_le _⟩, by decide +kernel, by decide +kernel, by decide +kernel, by decide +kernel⟩

/-- Violated (CUDABuiltins.cu:149-160, HIPBuiltins.cpp:239-250): the check of `memcpy` wraps around when an offset is larger than the data object. One client copies one byte of its data to offset 9 of its data of 8 bytes: the check passes, and the data of
another client has changed. -/
theorem C82_violated_wrap (be : Backend) (hb : be ≠ .opencl) :
    let h := [Act.issue 1 (.set 1 (· + 50)), .issue 0 (.set 0 (· + 10)), .issue 0 (.set 2 (· + 20)), .issue 0 (.memcpy 0 2 0 9 1 true), .issue 1 (.get 1), .take 0 0, .alloc 0 0 100, .launch 0] ++ devs 0 17 ++ [Act.finish 0, .take 0 0, .alloc 0 2 108, .launch 0] ++ devs 0 17 ++
      [Act.finish 0, .take 0 1, .alloc 0 1 116, .launch 0] ++ devs 0 17 ++ [Act.finish 0, .take 0 0, .launch 0, .take 0 1, .launch 0] ++ devs 0 20 ++ [Act.finish 0]
    ((start fun _ => 33).exec (one be) [0, 1, 2] h).done 4 = true ∧ (List.range 8).map (((start fun _ => 33).exec (one be) [0, 1, 2] h).host 4) = [50, 10, 52, 53, 54, 55, 56, 57] := by
  cases be
  · exact ⟨by decide +kernel, by decide +kernel⟩
  · exact ⟨by decide +kernel, by decide +kernel⟩
  · exact absurd rfl hb

/-- Violated (CUDABuiltins.cu:207, HIPBuiltins.cpp:286): `memset` checks nothing; one byte too many is another client's. -/
theorem C82_violated_memset_bounds (be : Backend) (hb : be ≠ .opencl) :
    let h := [Act.issue 1 (.set 1 (· + 50)), .issue 0 (.memset 0 0 7 9), .issue 1 (.get 1), .take 0 1, .alloc 0 1 108, .launch 0] ++ devs 0 17 ++ [Act.finish 0, .take 0 0, .alloc 0 0 100, .launch 0, .take 0 1, .launch 0] ++ devs 0 28 ++ [Act.finish 0]
    ((start fun _ => 33).exec (one be) [0, 1] h).done 2 = true ∧ (List.range 8).map (((start fun _ => 33).exec (one be) [0, 1] h).host 2) = [7, 51, 52, 53, 54, 55, 56, 57] := by
  cases be
  · exact ⟨by decide +kernel, by decide +kernel⟩
  · exact ⟨by decide +kernel, by decide +kernel⟩
  · exact absurd rfl hb

/-- Violated (CUDABuiltins.cu:131-135, 149-160; HIPBuiltins.cpp:215-219, 239-250; OpenclBuiltins.cpp:103-107, 124-135): a `memcpy` of no bytes, or of too many, stops the controller, and with it everybody else: the other client's `memset` is never done, whatever
happens afterwards. -/
theorem C82_violated_abort (be : Backend) (n : Nat) (hn : n = 0 ∨ 8 < n) (rest : List Act) :
    let h := [Act.issue 1 (.memset 1 0 7 8), .issue 0 (.memcpy 0 0 0 0 n true), .take 0 0, .alloc 0 0 100, .launch 0]
    let s0 : St := start (fun _ => 33)
    (s0.exec (one be) [0, 1] (h ++ rest)).done 0 = false := by
  intro h s0
  have hp : (one be).prog (.memcpy 0 0 0 0 n true) = none := by
    simp only [Conf.prog]
    rw [usub_eq _ _ (one_sane be 0) (Nat.zero_le _)]
    exact if_pos (by rcases hn with h | h; · exact .inl h
                     · exact .inr (.inl h))
  have e : s0.exec (one be) [0, 1] (h ++ rest) = (s0.exec (one be) [0, 1] h).exec (one be) [0, 1] rest := by simp [St.exec, List.foldl_append]
  rw [e]
  have key : (s0.exec (one be) [0, 1] h).dead = true ∧ (s0.exec (one be) [0, 1] h).done 0 = false := by
    have he : (s0.exec (one be) [0, 1] (h.take 4)).dead = false ∧ (s0.exec (one be) [0, 1] (h.take 4)).worker 0 = .begin 1 ∧ ((s0.exec (one be) [0, 1] (h.take 4)).task 1) = ⟨0, .memcpy 0 0 0 0 n true⟩ ∧
        ((s0.exec (one be) [0, 1] (h.take 4)).remote 0) = some 100 ∧ (s0.exec (one be) [0, 1] (h.take 4)).done 0 = false := by
      cases be <;> exact ⟨rfl, rfl, rfl, rfl, rfl⟩
    have hl : s0.exec (one be) [0, 1] h = (s0.exec (one be) [0, 1] (h.take 4)).act (one be) [0, 1] (.launch 0) := rfl
    rw [hl]
    generalize s0.exec (one be) [0, 1] (h.take 4) = s at *
    obtain ⟨h1, h2, h3, h4, h5⟩ := he
    have hr : ∀ d ∈ (s.task 1).req.io, (s.remote d).isSome = true := by
      rw [h3]
      intro d hd
      have : d = 0 := by simpa [Req.io] using hd
      rw [this, h4]; rfl
    have hx : s.step (one be) [0, 1] (.launch 0) = some { s with dead := true } := by
      simp only [St.step, h2]
      rw [if_pos hr]
      simp only [h3, hp]
    simp only [St.act, h1, hx, Bool.false_eq_true, if_false, Option.getD_some]
    exact ⟨trivial, h5⟩
  rw [dead_exec _ _ _ key.1]
  exact key.2

/-- Violated (CLHelper.h:35, 52, 69): on OpenCL sizes are cut to `int`: of a data object of 2^32 + 4 bytes, 4 are kept. The user sets all bytes to 1 and gets the first 4 back; the rest is whatever was in the task. -/
theorem C82_violated_opencl_size :
    let cf : Conf := ⟨.opencl, fun _ => 2 ^ 32 + 4, fun _ => 0, 1⟩
    let h := [Act.issue 0 (.set 0 (fun _ => 1)), .issue 0 (.get 0), .take 0 0, .alloc 0 0 100, .launch 0] ++ devs 0 9 ++ [Act.finish 0, .take 0 0, .launch 0] ++ devs 0 9 ++ [Act.finish 0]
    ((start fun _ => 33).exec cf [0] h).done 1 = true ∧ (List.range 6).map (((start fun _ => 33).exec cf [0] h).host 1) = [1, 1, 1, 1, 0, 0] := by
  exact ⟨by decide +kernel, by decide +kernel⟩

/-- Violated (CLHelper.h:35-49, OpenclaccelThread.cpp:349-377): for a data object of 2^31 to 2^32 - 1 bytes there is no memory, and the controller stops on the first task that uses it. -/
theorem C82_violated_opencl_big :
    let cf : Conf := ⟨.opencl, fun _ => 2 ^ 31, fun _ => 0, 1⟩
    ((start fun _ => 33).exec cf [0] [Act.issue 0 (.set 0 (fun _ => 1)), .take 0 0, .alloc 0 0 100]).dead = true := by decide +kernel

/-- `C82_violated_cuda_memcpy` is about something that happens: the copy has been executed, the worker goes on, the task is neither marked nor freed. -/
example : let h := [Act.issue 0 (.memcpy 0 1 0 0 4 false), .take 0 0, .alloc 0 0 100, .alloc 0 1 200, .launch 0] ++ devs 0 9 ++ [Act.finish 0]
    ((start (fun a => a)).exec (one .cuda) [0, 1] h).task 0 = ⟨0, .memcpy 0 1 0 0 4 false⟩ ∧ ((start (fun a => a)).exec (one .cuda) [0, 1] h).worker 0 = .idle ∧
    ((start (fun a => a)).exec (one .cuda) [0, 1] h).mem 203 = 103 ∧ ((start (fun a => a)).exec (one .cuda) [0, 1] h).done 0 = false := by
  exact ⟨rfl, by decide +kernel, by decide +kernel, by decide +kernel⟩

end Arax.Stream
