/-!
# C119: the Java classes

`/repo/Java/*.java` are the library for Java programs (build option JAVA_WRAPS):
classes around the C calls, by way of JNA.

Modelled: the constants and the struct the classes repeat, which references each
call takes and drops, what becomes of the arguments of a task, and what set and
get copy.  The C calls have the effects proved elsewhere (C25, C28, C48, C55);
here each is what it does to references, states and bytes.

JNA is not in the repository as source.  What is used of it: `Structure` keeps
native memory of its own, zero at first, which only `write()` brings up to date
with the fields (passing `getPointer()` does not); `Memory(n)` is `malloc(n)`, not
cleared, refused with an exception for n = 0; a native call is not checked.
-/
namespace Arax.Java

/-! ## Constants and layout -/

/-- /repo/Java/AraxAccelerator.java:7-15 `Type`. -/
inductive JType where
  | any | gpu | gpuSoft | cpu | fpga | nanoArm | nanoCore | endMarker
  deriving DecidableEq

/-- /repo/Java/AraxAccelerator.java:8-15, 18-21 `getAsInt`. -/
def JType.asInt : JType → Nat
  | .any => 0
  | .gpu => 1
  | .gpuSoft => 2
  | .cpu => 3
  | .fpga => 4
  | .nanoArm => 5
  | .nanoCore => 6
  | .endMarker => 7

/-- The types of accelerators of the library. -/
inductive CType where
  | any | gpu | gpuSoft | cpu | sda | nanoArm | nanoCore | openCl | hip
  deriving DecidableEq

/-- /repo/include/arax_types.h:78-90 `arax_accel_type_e`; other numbers are no type. -/
def cType : Nat → Option CType
  | 0 => some .any
  | 1 => some .gpu
  | 2 => some .gpuSoft
  | 3 => some .cpu
  | 4 => some .sda
  | 5 => some .nanoArm
  | 6 => some .nanoCore
  | 7 => some .openCl
  | 8 => some .hip
  | _ => none

/-- What the constants mean by their names and comments. The end marker means no type. (Specification; the FPGA accelerators of the library are those of Xilinx' SDAccel.) -/
def JType.meant : JType → Option CType
  | .any => some .any
  | .gpu => some .gpu
  | .gpuSoft => some .gpuSoft
  | .cpu => some .cpu
  | .fpga => some .sda
  | .nanoArm => some .nanoArm
  | .nanoCore => some .nanoCore
  | .endMarker => none

/-- States of a task. -/
inductive TS where
  | failed | issued | completed
  deriving DecidableEq

/-- /repo/include/arax_types.h:59-64 `arax_task_state_e`: what the library returns. -/
def TS.code : TS → Nat
  | .failed => 0
  | .issued => 1
  | .completed => 2

/-- /repo/Java/AraxTask.java:10-13 `State.values()`, in the order they are declared. -/
def stateValues : List TS := [.failed, .issued, .completed]

/-- Fields and their sizes of `arax_object_s` (/repo/src/core/arax_object.h:40-48, its list node /repo/src/utils/list.h:10-15), where pointers and `size_t` have 8 bytes. -/
def cFields : List (String × Nat) := [("repo", 8), ("next", 8), ("prev", 8), ("owner", 8), ("alloc_size", 8), ("type", 4), ("ref_count", 4), ("name", 8)]

/-- /repo/Java/AraxObject.java:11-19, 25-28 `cRep`: fields in the order `getFieldOrder` gives. -/
def jFields : List (String × Nat) := [("repo", 8), ("prev", 8), ("next", 8), ("owner", 8), ("alloc_size", 8), ("type", 4), ("ref_count", 4), ("name", 8)]

/-- Offset and size of a field if fields follow each other, each aligned to its size. (C and JNA both do so.) -/
def place (f : String) : List (String × Nat) → Nat → Option (Nat × Nat)
  | [], _ => none
  | (g, n) :: l, at_ =>
    let o := (at_ + n - 1) / n * n
    if f = g then some (o, n) else place f l (o + n)

/-- **C119** (constants). Every type of accelerator a Java program can ask for is the type of the library that it means; every state the library returns is shown as that state. -/
theorem C119_constants_partial : (∀ t ct, JType.meant t = some ct → cType t.asInt = some ct) ∧ ∀ s : TS, stateValues[s.code]? = some s := by
  refine ⟨?_, ?_⟩
  · intro t ct h
    cases t <;> simp_all [JType.meant, JType.asInt, cType]
  · intro s; cases s <;> rfl

/-- **C119** violated (constants): the end marker is the OpenCL type; OpenCL and HIP cannot be asked for by any type that means something. -/
theorem C119_violated_constants : cType JType.endMarker.asInt = some .openCl
    ∧ ∀ t : JType, t.meant ≠ none → cType t.asInt ≠ some .openCl ∧ cType t.asInt ≠ some .hip := by
  refine ⟨rfl, ?_⟩
  intro t h
  cases t <;> simp_all [JType.meant, JType.asInt, cType]

/-- **C119** (header). The fields of an object the classes read (`getName`, `toString`: name, type, owner) are where C has them. -/
theorem C119_header : ∀ f ∈ ["name", "type", "owner", "alloc_size", "ref_count", "repo"], place f jFields 0 = place f cFields 0 ∧ (place f cFields 0).isSome := by
  decide

/-! ## References -/

/-- Kinds of objects. -/
inductive Kind where
  | phys | virt | proc | data | task
  deriving DecidableEq

/-- An object of the library. `st` is for tasks. -/
structure Ob where
  kind : Kind
  refs : Nat
  st : TS
  deriving DecidableEq

/-- The classes: AraxAccelerator, AraxProcedure, AraxBuffer, AraxTask. -/
inductive Cls where
  | accel | proc | buf | task
  deriving DecidableEq

/-- An instance: the pointer it has (`ptr`, `arax_data`, `task`; null is `none`). `held` is a ghost: the program was given a reference with it, and has not given it back. -/
structure H where
  cls : Cls
  ptr : Option Nat
  held : Bool
  deriving DecidableEq

/-- The library's objects, and the instances of the Java program in the order they were made. `ext` (ghost) counts the references of all others: controller, other clients, tasks, data. `bad`: freed memory or a null pointer was used, or an assertion has ended the program. Addresses are not used again. -/
structure St where
  objs : Nat → Option Ob
  next : Nat
  ext : Nat → Nat
  hs : List H
  bad : Bool

/-- One entry replaced. (No code of its own.) -/
def put {α : Type} (f : Nat → α) (o : Nat) (v : α) : Nat → α := fun x => if x = o then v else f x

/-- `arax_object_ref_inc`, /repo/src/core/arax_object.c:145-159. -/
def refInc (s : St) (o : Nat) : St :=
  match s.objs o with
  | none => { s with bad := true }
  | some ob => { s with objs := put s.objs o (some { ob with refs := ob.refs + 1 }) }

/-- `arax_object_ref_dec`, /repo/src/core/arax_object.c:161-209; what the object referred to is dropped by `envDec`. -/
def refDec (s : St) (o : Nat) : St :=
  match s.objs o with
  | none => { s with bad := true }
  | some ob => if ob.refs ≤ 1 then { s with objs := put s.objs o none } else { s with objs := put s.objs o (some { ob with refs := ob.refs - 1 }) }

/-- A new object with one reference for the instance `h` made with it. `arax_object_register`, /repo/src/core/arax_object.c:98-126. -/
def fresh (s : St) (k : Kind) : St := { s with objs := put s.objs s.next (some ⟨k, 1, .issued⟩), next := s.next + 1 }

/-- `new AraxAccelerator(ptr)` and the like: one more instance. -/
def made (s : St) (h : H) : St := { s with hs := s.hs ++ [h] }

/-- /repo/Java/Arax.java:52-55 `acquireAccelerator(type)`, /repo/src/arch/shm/impl.c:354-364. -/
def acquireType (s : St) : St := made (fresh s .virt) ⟨.accel, some s.next, true⟩

/-- /repo/Java/Arax.java:57-62 `acquireAccelerator(accel)`, /repo/src/arch/shm/impl.c:335-352: the result of `arax_accel_acquire_phys` is ignored; the pointer is only changed for a physical accelerator. -/
def acquireFrom (s : St) (i : Nat) : St :=
  match s.hs[i]? with
  | some ⟨.accel, some o, _⟩ =>
    match s.objs o with
    | none => { s with bad := true }
    | some ob => if ob.kind = .phys then made (fresh s .virt) ⟨.accel, some s.next, true⟩ else made s ⟨.accel, some o, true⟩
  | _ => s

/-- /repo/Java/Arax.java:36-50 `listAccelerators`, of the accelerators `os` that /repo/src/arch/shm/impl.c:249-275 puts into the array: a reference and an instance for each; the array is freed, the references stay. -/
def list (s : St) (os : List Nat) : St := os.foldl (fun s o => made (refInc s o) ⟨.accel, some o, true⟩) s

/-- /repo/Java/Arax.java:24-34 `acquireProcedure`, /repo/src/arch/shm/impl.c:400-411; `none`: not found, an exception. -/
def acquireProc (s : St) : Option Nat → St
  | none => s
  | some o => made (refInc s o) ⟨.proc, some o, true⟩

/-- `release()`: /repo/Java/AraxAccelerator.java:49-53 with /repo/src/arch/shm/impl.c:366-382 (the pointer set to null is that of the PointerByReference, not the one of the instance), /repo/Java/AraxProcedure.java:10-13 with impl.c:413-420. -/
def release (s : St) (i : Nat) : St :=
  match s.hs[i]? with
  | some ⟨.accel, some o, _⟩ => let s := refDec s o; { s with hs := s.hs.set i ⟨.accel, some o, false⟩ }
  | some ⟨.proc, some o, _⟩ => let s := refDec s o; { s with hs := s.hs.set i ⟨.proc, some o, false⟩ }
  | _ => s

/-- /repo/Java/AraxBuffer.java:14-18, /repo/src/arch/shm/impl.c:531-538. -/
def newBuffer (s : St) : St := made (fresh s .data) ⟨.buf, some s.next, true⟩

/-- /repo/Java/AraxBuffer.java:20-26 `free()`: an exception if it was freed before. -/
def freeBuffer (s : St) (i : Nat) : St :=
  match s.hs[i]? with
  | some ⟨.buf, some o, _⟩ => let s := refDec s o; { s with hs := s.hs.set i ⟨.buf, none, false⟩ }
  | _ => s

/-- /repo/Java/AraxTask.java:22-35: the constructors. -/
def newTask (s : St) : St := made s ⟨.task, none, false⟩

/-- The pointer of instance `i` refers to an object that exists. (No code of its own.) -/
def alive (s : St) (i : Nat) : Bool :=
  match s.hs[i]? with
  | some ⟨_, some o, _⟩ => (s.objs o).isSome
  | _ => false

/-- The kind of the object of instance `i`. (No code of its own.) -/
def kindOf (s : St) (i : Nat) : Option Kind :=
  match s.hs[i]? with
  | some ⟨_, some o, _⟩ => (s.objs o).map (·.kind)
  | _ => none

/-- /repo/Java/AraxAccelerator.java:37-47 `issue`, of the task `i` to the accelerator `a` with procedure `p` and buffers `bs`; /repo/src/arch/shm/impl.c:467-488. The references the task takes on accelerator and buffers are `envInc`. -/
def issue (s : St) (i a p : Nat) (bs : List Nat) : St :=
  if kindOf s a = some .virt ∧ alive s p = true ∧ bs.all (alive s) = true then
    let o := s.next
    let s := fresh s .task
    { s with hs := s.hs.set i ⟨.task, some o, true⟩ }
  else { s with bad := true }

/-- /repo/Java/AraxTask.java:120-126: a completed task is freed. -/
def freed (s : St) (i o : Nat) : St := let s := refDec s o; { s with hs := s.hs.set i ⟨.task, some o, false⟩ }

/-- /repo/Java/AraxTask.java:111-128 `status(sync)`. `early`: the wait began before the task ended; a wait that begins after a task has failed aborts (/repo/src/core/arax_task.c:77-81). While the task is not done, a wait does not return, which is no step. -/
def status (s : St) (i : Nat) (sync early : Bool) : St :=
  match s.hs[i]? with
  | some ⟨.task, some o, _⟩ =>
    match s.objs o with
    | none => { s with bad := true }
    | some ob =>
      match ob.st with
      | .completed => freed s i o
      | .issued => s
      | .failed => if sync && !early then { s with bad := true } else s
  | some ⟨.task, none, _⟩ => { s with bad := true }
  | _ => s

/-- What `status` returns: /repo/Java/AraxTask.java:113-118, 127. -/
def statusResult (s : St) (i : Nat) : Option TS :=
  match s.hs[i]? with
  | some ⟨.task, some o, _⟩ => (s.objs o).bind (fun ob => stateValues[ob.st.code]?)
  | _ => none

/-- `getName`, `toString`, `getQueueSize`, `set`, `get`: the object is read. /repo/Java/AraxObject.java:37-55, AraxAccelerator.java:29-35, AraxBuffer.java:43-53. -/
def use (s : St) (i : Nat) : St := if alive s i then s else { s with bad := true }

/-- Everything that can happen: calls of the Java program, and what others do with their own references and with tasks. -/
inductive Ev where
  | acquireType | acquireFrom (i : Nat) | list (os : List Nat) | acquireProc (o : Option Nat) | release (i : Nat)
  | newBuffer | freeBuffer (i : Nat) | newTask | issue (i a p : Nat) (bs : List Nat) | status (i : Nat) (sync early : Bool) | use (i : Nat)
  | envNew (k : Kind) | envInc (o : Nat) | envDec (o : Nat) | envFinish (o : Nat) (st : TS)

/-- One event. -/
def step (s : St) : Ev → St
  | .acquireType => acquireType s
  | .acquireFrom i => acquireFrom s i
  | .list os => list s os
  | .acquireProc o => acquireProc s o
  | .release i => release s i
  | .newBuffer => newBuffer s
  | .freeBuffer i => freeBuffer s i
  | .newTask => newTask s
  | .issue i a p bs => issue s i a p bs
  | .status i sync early => status s i sync early
  | .use i => use s i
  | .envNew k => { fresh s k with ext := put s.ext s.next 1 }
  | .envInc o => { refInc s o with ext := put s.ext o (s.ext o + 1) }
  | .envDec o => { refDec s o with ext := put s.ext o (s.ext o - 1) }
  | .envFinish o st =>
    match s.objs o with
    | some ob => { s with objs := put s.objs o (some { ob with st := st }) }
    | none => s

/-- The program has instance `i`, with a reference it has not given back, on `o`. (Specification.) -/
def Has (s : St) (i : Nat) (c : Cls) (o : Nat) : Prop := s.hs[i]? = some ⟨c, some o, true⟩

/-- What a careful program does, and what the library and others can do. (Specification.) An accelerator is only acquired from a physical one; what was released is not used; a task is not issued again before it was seen completed, nor asked after that; nobody begins to wait for a task that has failed. -/
def Careful (s : St) : Ev → Prop
  | .acquireType => True
  | .acquireFrom i => ∃ o ob, Has s i .accel o ∧ s.objs o = some ob ∧ ob.kind = .phys
  | .list os => ∀ o ∈ os, (s.objs o).isSome
  | .acquireProc none => True
  | .acquireProc (some o) => (s.objs o).isSome
  | .release i => ∃ o, Has s i .accel o ∨ Has s i .proc o
  | .newBuffer => True
  | .freeBuffer i => ∃ h, s.hs[i]? = some h ∧ h.cls = .buf ∧ (h.held = false → h.ptr = none)
  | .newTask => True
  | .issue i a p bs => (∃ x, s.hs[i]? = some ⟨.task, x, false⟩) ∧ (∃ o ob, Has s a .accel o ∧ s.objs o = some ob ∧ ob.kind = .virt) ∧ (∃ o, Has s p .proc o) ∧ ∀ b ∈ bs, ∃ o, Has s b .buf o
  | .status i sync early => ∃ o, Has s i .task o ∧ (∀ ob, s.objs o = some ob → ob.st = .failed → sync = true → early = true)
  | .use i => ∃ c o, Has s i c o
  | .envNew _ => True
  | .envInc o => (s.objs o).isSome
  | .envDec o => 0 < s.ext o
  | .envFinish _ _ => True

/-- A segment that others use, before the Java program starts. -/
structure Begin (s : St) : Prop where
  hs : s.hs = []
  bad : s.bad = false
  refs : ∀ o ob, s.objs o = some ob → ob.refs = s.ext o ∧ 0 < ob.refs
  gone : ∀ o, s.objs o = none → s.ext o = 0
  bound : ∀ o, s.next ≤ o → s.objs o = none

/-- Every history with a careful program. -/
inductive Reach : St → Prop where
  | start {s} : Begin s → Reach s
  | step {s} (e) : Reach s → Careful s e → Reach (step s e)

/-- How many references on `o` the program was given and has not given back. (Specification.) -/
def owned (s : St) (o : Nat) : Nat := s.hs.countP (fun h => h.held && h.ptr == some o)

/-- Invariant. -/
structure Inv (s : St) : Prop where
  bad : s.bad = false
  refs : ∀ o ob, s.objs o = some ob → ob.refs = s.ext o + owned s o ∧ 0 < ob.refs
  gone : ∀ o, s.objs o = none → s.ext o = 0 ∧ owned s o = 0
  bound : ∀ o, s.next ≤ o → s.objs o = none
  lost : ∀ (i : Nat) h, s.hs[i]? = some h → h.cls = .buf → h.held = false → h.ptr = none

theorem owned_made (s : St) (h : H) (o : Nat) : owned (made s h) o = owned s o + if h.held && h.ptr == some o then 1 else 0 := by
  simp [owned, made, List.countP_append, List.countP_singleton]

theorem owned_set {s : St} {i : Nat} {h : H} (hi : s.hs[i]? = some h) (h' : H) (o : Nat) :
    (s.hs.set i h').countP (fun h => h.held && h.ptr == some o) + (if h.held && h.ptr == some o then 1 else 0) = owned s o + if h'.held && h'.ptr == some o then 1 else 0 := by
  obtain ⟨hl, he⟩ := List.getElem?_eq_some_iff.mp hi
  have hm : (if h.held && h.ptr == some o then 1 else 0) ≤ owned s o := by
    unfold owned
    by_cases hp : (h.held && h.ptr == some o) = true
    · rw [if_pos hp]
      exact List.countP_pos_iff.mpr ⟨h, he ▸ List.getElem_mem hl, hp⟩
    · rw [if_neg hp]; exact Nat.zero_le _
  unfold owned at hm ⊢
  rw [List.countP_set hl, he]
  omega

theorem has_owned {s : St} {i : Nat} {c : Cls} {o : Nat} (h : Has s i c o) : 0 < owned s o := by
  obtain ⟨hl, he⟩ := List.getElem?_eq_some_iff.mp h
  exact List.countP_pos_iff.mpr ⟨_, he ▸ List.getElem_mem hl, by simp⟩

theorem has_alive {s : St} (hi : Inv s) {i : Nat} {c : Cls} {o : Nat} (h : Has s i c o) : ∃ ob, s.objs o = some ob := by
  cases e : s.objs o with
  | none => exact absurd (hi.gone o e).2 (Nat.ne_of_gt (has_owned h))
  | some ob => exact ⟨ob, rfl⟩

theorem put_same {α : Type} (f : Nat → α) (o : Nat) (v : α) : put f o v o = v := by simp [put]
theorem put_ne {α : Type} (f : Nat → α) {o x : Nat} (v : α) (h : x ≠ o) : put f o v x = f x := by simp [put, h]

/-- New object with a new instance. -/
theorem inv_fresh_made {s : St} (hi : Inv s) (k : Kind) (c : Cls) : Inv (made (fresh s k) ⟨c, some s.next, true⟩) := by
  have h0 := hi.gone s.next (hi.bound _ (Nat.le_refl _))
  have ho : ∀ o, owned (made (fresh s k) ⟨c, some s.next, true⟩) o = owned s o + if s.next = o then 1 else 0 := by
    intro o
    rw [owned_made]
    show owned s o + _ = _
    simp
  refine ⟨hi.bad, ?_, ?_, ?_, ?_⟩
  · intro o ob h
    rw [ho]
    change put s.objs s.next (some ⟨k, 1, .issued⟩) o = some ob at h
    show ob.refs = s.ext o + _ ∧ _
    by_cases e : o = s.next
    · subst e
      rw [put_same] at h
      injection h with h
      subst h
      simp [h0.1, h0.2]
    · rw [put_ne _ _ e] at h
      rw [if_neg (fun h => e h.symm)]
      exact hi.refs o ob h
  · intro o h
    rw [ho]
    change put s.objs s.next (some ⟨k, 1, .issued⟩) o = none at h
    show s.ext o = 0 ∧ _
    by_cases e : o = s.next
    · subst e; rw [put_same] at h; cases h
    · rw [put_ne _ _ e] at h
      rw [if_neg (fun h => e h.symm)]
      exact hi.gone o h
  · intro o h
    change s.next + 1 ≤ o at h
    show put s.objs s.next _ o = none
    rw [put_ne _ _ (by omega)]
    exact hi.bound o (by omega)
  · intro i h hh hc hd
    change (s.hs ++ [(⟨c, some s.next, true⟩ : H)])[i]? = some h at hh
    rw [List.getElem?_append] at hh
    split at hh
    · exact hi.lost i h hh hc hd
    · rw [List.getElem?_singleton] at hh
      split at hh
      · injection hh with hh
        subst hh
        cases hd
      · cases hh

/-- A reference more, with a new instance. -/
theorem inv_inc_made {s : St} (hi : Inv s) {o : Nat} (he : (s.objs o).isSome) (c : Cls) : Inv (made (refInc s o) ⟨c, some o, true⟩) := by
  obtain ⟨ob, hob⟩ := Option.isSome_iff_exists.mp he
  have e : refInc s o = { s with objs := put s.objs o (some { ob with refs := ob.refs + 1 }) } := by simp [refInc, hob]
  rw [e]
  have ho : ∀ x, owned (made { s with objs := put s.objs o (some { ob with refs := ob.refs + 1 }) } ⟨c, some o, true⟩) x = owned s x + if o = x then 1 else 0 := by
    intro x
    rw [owned_made]
    show owned s x + _ = _
    simp
  refine ⟨hi.bad, ?_, ?_, ?_, ?_⟩
  · intro x ox h
    rw [ho]
    change put s.objs o _ x = some ox at h
    show ox.refs = s.ext x + _ ∧ _
    by_cases ex : x = o
    · subst ex
      rw [put_same] at h
      injection h with h
      subst h
      have := hi.refs x ob hob
      simp only [if_true]
      omega
    · rw [put_ne _ _ ex] at h
      rw [if_neg (fun h => ex h.symm)]
      exact hi.refs x ox h
  · intro x h
    rw [ho]
    change put s.objs o _ x = none at h
    show s.ext x = 0 ∧ _
    by_cases ex : x = o
    · subst ex; rw [put_same] at h; cases h
    · rw [put_ne _ _ ex] at h
      rw [if_neg (fun h => ex h.symm)]
      exact hi.gone x h
  · intro x h
    show put s.objs o _ x = none
    have hx := hi.bound x h
    by_cases ex : x = o
    · subst ex; rw [hx] at hob; cases hob
    · rw [put_ne _ _ ex]; exact hx
  · intro i h hh hc hd
    change (s.hs ++ [(⟨c, some o, true⟩ : H)])[i]? = some h at hh
    rw [List.getElem?_append] at hh
    split at hh
    · exact hi.lost i h hh hc hd
    · rw [List.getElem?_singleton] at hh
      split at hh
      · injection hh with hh
        subst hh
        cases hd
      · cases hh

/-- The reference of an instance given back. -/
theorem inv_give {s : St} (hi : Inv s) {i : Nat} {c : Cls} {o : Nat} (h : Has s i c o) (q : Option Nat) (hq : c = .buf → q = none) :
    Inv { refDec s o with hs := (refDec s o).hs.set i ⟨c, q, false⟩ } := by
  obtain ⟨ob, hob⟩ := has_alive hi h
  have hr := hi.refs o ob hob
  have hw := has_owned h
  have key := fun x => owned_set h (⟨c, q, false⟩ : H) x
  simp only [Bool.true_and, Bool.false_and, Bool.false_eq_true, if_false, Nat.add_zero, beq_iff_eq, Option.some.injEq] at key
  have lost : ∀ (j : Nat) h', (s.hs.set i ⟨c, q, false⟩)[j]? = some h' → h'.cls = .buf → h'.held = false → h'.ptr = none := by
    intro j h' hh hc hd
    rw [List.getElem?_set] at hh
    split at hh
    · split at hh
      · injection hh with hh
        subst hh
        exact hq hc
      · cases hh
    · exact hi.lost j h' hh hc hd
  by_cases h1 : ob.refs ≤ 1
  · have e : refDec s o = { s with objs := put s.objs o none } := by simp [refDec, hob, h1]
    rw [e]
    refine ⟨hi.bad, ?_, ?_, ?_, lost⟩
    · intro x ox hx
      change put s.objs o none x = some ox at hx
      show ox.refs = s.ext x + (s.hs.set i ⟨c, q, false⟩).countP _ ∧ _
      by_cases ex : x = o
      · subst ex; rw [put_same] at hx; cases hx
      · rw [put_ne _ _ ex] at hx
        have k := key x
        rw [if_neg (fun h => ex h.symm)] at k
        have := hi.refs x ox hx
        omega
    · intro x hx
      change put s.objs o none x = none at hx
      show s.ext x = 0 ∧ (s.hs.set i ⟨c, q, false⟩).countP _ = 0
      have k := key x
      by_cases ex : x = o
      · subst ex
        simp only [if_true] at k
        omega
      · rw [put_ne _ _ ex] at hx
        rw [if_neg (fun h => ex h.symm)] at k
        have := hi.gone x hx
        omega
    · intro x hx
      show put s.objs o none x = none
      by_cases ex : x = o
      · subst ex; exact put_same _ _ _
      · rw [put_ne _ _ ex]; exact hi.bound x hx
  · have e : refDec s o = { s with objs := put s.objs o (some { ob with refs := ob.refs - 1 }) } := by simp [refDec, hob, h1]
    rw [e]
    refine ⟨hi.bad, ?_, ?_, ?_, lost⟩
    · intro x ox hx
      change put s.objs o _ x = some ox at hx
      show ox.refs = s.ext x + (s.hs.set i ⟨c, q, false⟩).countP _ ∧ _
      have k := key x
      by_cases ex : x = o
      · subst ex
        rw [put_same] at hx
        injection hx with hx
        subst hx
        simp only [if_true] at k
        dsimp only
        omega
      · rw [put_ne _ _ ex] at hx
        rw [if_neg (fun h => ex h.symm)] at k
        have := hi.refs x ox hx
        omega
    · intro x hx
      change put s.objs o _ x = none at hx
      show s.ext x = 0 ∧ (s.hs.set i ⟨c, q, false⟩).countP _ = 0
      have k := key x
      by_cases ex : x = o
      · subst ex; rw [put_same] at hx; cases hx
      · rw [put_ne _ _ ex] at hx
        rw [if_neg (fun h => ex h.symm)] at k
        have := hi.gone x hx
        omega
    · intro x hx
      show put s.objs o _ x = none
      have hb := hi.bound x hx
      by_cases ex : x = o
      · subst ex; rw [hb] at hob; cases hob
      · rw [put_ne _ _ ex]; exact hb

/-- A task issued. -/
theorem inv_issued {s : St} (hi : Inv s) {i : Nat} {x : Option Nat} (h : s.hs[i]? = some ⟨.task, x, false⟩) :
    Inv { fresh s .task with hs := (fresh s .task).hs.set i ⟨.task, some s.next, true⟩ } := by
  have h0 := hi.gone s.next (hi.bound _ (Nat.le_refl _))
  have key := fun y => owned_set h (⟨.task, some s.next, true⟩ : H) y
  simp only [Bool.true_and, Bool.false_and, Bool.false_eq_true, if_false, Nat.add_zero, beq_iff_eq, Option.some.injEq] at key
  refine ⟨hi.bad, ?_, ?_, ?_, ?_⟩
  · intro y oy hy
    change put s.objs s.next _ y = some oy at hy
    show oy.refs = s.ext y + (s.hs.set i ⟨.task, some s.next, true⟩).countP _ ∧ _
    rw [key y]
    by_cases e : y = s.next
    · subst e
      rw [put_same] at hy
      injection hy with hy
      subst hy
      simp [h0.1, h0.2]
    · rw [put_ne _ _ e] at hy
      rw [if_neg (fun h => e h.symm)]
      exact hi.refs y oy hy
  · intro y hy
    change put s.objs s.next _ y = none at hy
    show s.ext y = 0 ∧ (s.hs.set i ⟨.task, some s.next, true⟩).countP _ = 0
    rw [key y]
    by_cases e : y = s.next
    · subst e; rw [put_same] at hy; cases hy
    · rw [put_ne _ _ e] at hy
      rw [if_neg (fun h => e h.symm)]
      exact hi.gone y hy
  · intro y hy
    change s.next + 1 ≤ y at hy
    show put s.objs s.next _ y = none
    rw [put_ne _ _ (by omega)]
    exact hi.bound y (by omega)
  · intro j h' hh hc hd
    change (s.hs.set i ⟨.task, some s.next, true⟩)[j]? = some h' at hh
    rw [List.getElem?_set] at hh
    split at hh
    · split at hh
      · injection hh with hh
        subst hh
        cases hc
      · cases hh
    · exact hi.lost j h' hh hc hd

theorem inv_list {os : List Nat} : ∀ {s : St}, Inv s → (∀ o ∈ os, (s.objs o).isSome) → Inv (list s os) := by
  induction os with
  | nil => intro s hi _; exact hi
  | cons o os ih =>
    intro s hi h
    show Inv (list (made (refInc s o) ⟨.accel, some o, true⟩) os)
    have ho := h o List.mem_cons_self
    refine ih (inv_inc_made hi ho .accel) (fun x hx => ?_)
    have hx' := h x (List.mem_cons_of_mem _ hx)
    obtain ⟨ob, hob⟩ := Option.isSome_iff_exists.mp ho
    have e : refInc s o = { s with objs := put s.objs o (some { ob with refs := ob.refs + 1 }) } := by simp [refInc, hob]
    rw [e]
    show (put s.objs o _ x).isSome
    by_cases ex : x = o
    · subst ex; rw [put_same]; rfl
    · rw [put_ne _ _ ex]; exact hx'

theorem inv_env {s : St} (hi : Inv s) {o : Nat} (ob' : Option Ob) (n : Nat) (ob : Ob) (hob : s.objs o = some ob)
    (hs : match ob' with | some b => b.refs = n + owned s o ∧ 0 < b.refs | none => n = 0 ∧ owned s o = 0) :
    Inv { s with objs := put s.objs o ob', ext := put s.ext o n } := by
  refine ⟨hi.bad, ?_, ?_, ?_, hi.lost⟩
  · intro x ox hx
    change put s.objs o ob' x = some ox at hx
    show ox.refs = put s.ext o n x + owned s x ∧ _
    by_cases ex : x = o
    · subst ex
      rw [put_same] at hx
      subst hx
      rw [put_same]
      exact hs
    · rw [put_ne _ _ ex] at hx
      rw [put_ne _ _ ex]
      exact hi.refs x ox hx
  · intro x hx
    change put s.objs o ob' x = none at hx
    show put s.ext o n x = 0 ∧ owned s x = 0
    by_cases ex : x = o
    · subst ex
      rw [put_same] at hx
      subst hx
      rw [put_same]
      exact hs
    · rw [put_ne _ _ ex] at hx
      rw [put_ne _ _ ex]
      exact hi.gone x hx
  · intro x hx
    show put s.objs o ob' x = none
    have hb := hi.bound x hx
    by_cases ex : x = o
    · subst ex; rw [hb] at hob; cases hob
    · rw [put_ne _ _ ex]; exact hb

theorem alive_of_has {s : St} (hi : Inv s) {i : Nat} {c : Cls} {o : Nat} (h : Has s i c o) : alive s i = true := by
  obtain ⟨ob, hob⟩ := has_alive hi h
  unfold alive
  rw [h]
  simp [hob]

theorem inv_step {s : St} (hi : Inv s) (e : Ev) (hc : Careful s e) : Inv (step s e) := by
  cases e with
  | acquireType => exact inv_fresh_made hi _ _
  | acquireFrom i =>
    obtain ⟨o, ob, h, hob, hk⟩ := hc
    have e : step s (.acquireFrom i) = made (fresh s .virt) ⟨.accel, some s.next, true⟩ := by
      show acquireFrom s i = _
      unfold acquireFrom
      rw [h]
      simp [hob, hk]
    rw [e]
    exact inv_fresh_made hi _ _
  | list os => exact inv_list hi hc
  | acquireProc o =>
    cases o with
    | none => exact hi
    | some o => exact inv_inc_made hi hc .proc
  | release i =>
    obtain ⟨o, h | h⟩ := hc
    · have e : step s (.release i) = { refDec s o with hs := (refDec s o).hs.set i ⟨.accel, some o, false⟩ } := by
        show release s i = _
        unfold release
        rw [h]
      rw [e]
      exact inv_give hi h _ (fun h => by cases h)
    · have e : step s (.release i) = { refDec s o with hs := (refDec s o).hs.set i ⟨.proc, some o, false⟩ } := by
        show release s i = _
        unfold release
        rw [h]
      rw [e]
      exact inv_give hi h _ (fun h => by cases h)
  | newBuffer => exact inv_fresh_made hi _ _
  | freeBuffer i =>
    obtain ⟨⟨c, p, held⟩, h, hb, hd⟩ := hc
    dsimp only at hb hd
    subst hb
    cases held with
    | false =>
      have hp := hd rfl
      subst hp
      have e : step s (.freeBuffer i) = s := by
        show freeBuffer s i = _
        unfold freeBuffer
        rw [h]
      rw [e]
      exact hi
    | true =>
      cases p with
      | none =>
        have e : step s (.freeBuffer i) = s := by
          show freeBuffer s i = _
          unfold freeBuffer
          rw [h]
        rw [e]
        exact hi
      | some o =>
        have e : step s (.freeBuffer i) = { refDec s o with hs := (refDec s o).hs.set i ⟨.buf, none, false⟩ } := by
          show freeBuffer s i = _
          unfold freeBuffer
          rw [h]
        rw [e]
        exact inv_give hi (c := .buf) h _ (fun _ => rfl)
  | newTask =>
    have ho : ∀ o, owned (made s ⟨.task, none, false⟩) o = owned s o := by intro o; rw [owned_made]; simp
    refine ⟨hi.bad, ?_, ?_, hi.bound, ?_⟩
    · intro o ob h
      show ob.refs = s.ext o + owned (made s ⟨.task, none, false⟩) o ∧ _
      rw [ho]; exact hi.refs o ob h
    · intro o h
      show s.ext o = 0 ∧ owned (made s ⟨.task, none, false⟩) o = 0
      rw [ho]; exact hi.gone o h
    · intro i h hh hc hd
      change (s.hs ++ [(⟨.task, none, false⟩ : H)])[i]? = some h at hh
      rw [List.getElem?_append] at hh
      split at hh
      · exact hi.lost i h hh hc hd
      · rw [List.getElem?_singleton] at hh
        split at hh
        · injection hh with hh
          subst hh
          rfl
        · cases hh
  | issue i a p bs =>
    obtain ⟨⟨x, hx⟩, ⟨o, ob, ha, hob, hk⟩, ⟨op, hp⟩, hbs⟩ := hc
    have h1 : kindOf s a = some .virt := by
      unfold kindOf
      rw [ha]
      simp [hob, hk]
    have h3 : bs.all (alive s) = true := by
      rw [List.all_eq_true]
      intro b hb
      obtain ⟨ob', hb'⟩ := hbs b hb
      exact alive_of_has hi hb'
    have e : step s (.issue i a p bs) = { fresh s .task with hs := (fresh s .task).hs.set i ⟨.task, some s.next, true⟩ } := by
      show issue s i a p bs = _
      unfold issue
      rw [if_pos ⟨h1, alive_of_has hi hp, h3⟩]
    rw [e]
    exact inv_issued hi hx
  | status i sync early =>
    obtain ⟨o, h, hf⟩ := hc
    obtain ⟨ob, hob⟩ := has_alive hi h
    have e : step s (.status i sync early) = match ob.st with | .completed => freed s i o | .issued => s | .failed => if sync && !early then { s with bad := true } else s := by
      show status s i sync early = _
      unfold status
      rw [h]
      simp only [hob]
    rw [e]
    cases hst : ob.st with
    | completed => exact inv_give hi h _ (fun h => by cases h)
    | issued => exact hi
    | failed =>
      have := hf ob hob hst
      have e2 : (sync && !early) = false := by
        cases sync
        · rfl
        · rw [this rfl]; rfl
      dsimp only
      rw [e2]
      exact hi
  | use i =>
    obtain ⟨c, o, h⟩ := hc
    show Inv (use s i)
    unfold use
    rw [if_pos (alive_of_has hi h)]
    exact hi
  | envNew k =>
    have h0 := hi.gone s.next (hi.bound _ (Nat.le_refl _))
    refine ⟨hi.bad, ?_, ?_, ?_, hi.lost⟩
    · intro o ob h
      change put s.objs s.next (some ⟨k, 1, .issued⟩) o = some ob at h
      show ob.refs = put s.ext s.next 1 o + owned s o ∧ _
      by_cases e : o = s.next
      · subst e
        rw [put_same] at h
        injection h with h
        subst h
        rw [put_same]
        simp [h0.2]
      · rw [put_ne _ _ e] at h
        rw [put_ne _ _ e]
        exact hi.refs o ob h
    · intro o h
      change put s.objs s.next (some ⟨k, 1, .issued⟩) o = none at h
      show put s.ext s.next 1 o = 0 ∧ owned s o = 0
      by_cases e : o = s.next
      · subst e; rw [put_same] at h; cases h
      · rw [put_ne _ _ e] at h
        rw [put_ne _ _ e]
        exact hi.gone o h
    · intro o h
      change s.next + 1 ≤ o at h
      show put s.objs s.next _ o = none
      rw [put_ne _ _ (by omega)]
      exact hi.bound o (by omega)
  | envInc o =>
    obtain ⟨ob, hob⟩ := Option.isSome_iff_exists.mp (show (s.objs o).isSome from hc)
    have e : step s (.envInc o) = { s with objs := put s.objs o (some { ob with refs := ob.refs + 1 }), ext := put s.ext o (s.ext o + 1) } := by
      simp [step, refInc, hob]
    rw [e]
    have := hi.refs o ob hob
    exact inv_env hi _ _ ob hob ⟨by show ob.refs + 1 = _; omega, Nat.succ_pos _⟩
  | envDec o =>
    have hc : 0 < s.ext o := hc
    cases hob : s.objs o with
    | none => exact absurd (hi.gone o hob).1 (Nat.ne_of_gt hc)
    | some ob =>
      have hr := hi.refs o ob hob
      by_cases h1 : ob.refs ≤ 1
      · have e : step s (.envDec o) = { s with objs := put s.objs o none, ext := put s.ext o (s.ext o - 1) } := by
          simp [step, refDec, hob, h1]
        rw [e]
        exact inv_env hi none _ ob hob ⟨by omega, by omega⟩
      · have e : step s (.envDec o) = { s with objs := put s.objs o (some { ob with refs := ob.refs - 1 }), ext := put s.ext o (s.ext o - 1) } := by
          simp [step, refDec, hob, h1]
        rw [e]
        exact inv_env hi (some _) _ ob hob ⟨by show ob.refs - 1 = _; omega, by show 0 < ob.refs - 1; omega⟩
  | envFinish o st =>
    cases hob : s.objs o with
    | none =>
      have e : step s (.envFinish o st) = s := by simp [step, hob]
      rw [e]; exact hi
    | some ob =>
      have e : step s (.envFinish o st) = { s with objs := put s.objs o (some { ob with st := st }) } := by simp [step, hob]
      have e2 : put s.ext o (s.ext o) = s.ext := by
        funext x
        by_cases ex : x = o
        · subst ex; exact put_same _ _ _
        · exact put_ne _ _ ex
      have := inv_env hi (some { ob with st := st }) (s.ext o) ob hob (hi.refs o ob hob)
      rw [e2] at this
      rw [e]
      exact this

theorem inv_reach {s : St} (hr : Reach s) : Inv s := by
  induction hr with
  | start h =>
    have ho : ∀ (s : St) o, s.hs = [] → owned s o = 0 := by intro s o h; simp [owned, h]
    refine ⟨h.bad, fun o ob hob => ?_, fun o hob => ⟨h.gone o hob, ho _ o h.hs⟩, h.bound, ?_⟩
    · rw [ho _ o h.hs]; exact h.refs o ob hob
    · intro i x hx
      rw [h.hs] at hx
      simp at hx
  | step e _ hc ih => exact inv_step ih e hc

/-- **C119** (references). In every history of a careful program: nothing freed is used and no assertion fails; whatever the program has exists; and the library counts exactly the references the program was given and has not given back, besides those of others. Missing: programs that are not careful (the `violated` theorems). -/
theorem C119_references_partial {s : St} (hr : Reach s) : s.bad = false
    ∧ (∀ i c o, Has s i c o → ∃ ob, s.objs o = some ob)
    ∧ (∀ o ob, s.objs o = some ob → ob.refs = s.ext o + owned s o) :=
  ⟨(inv_reach hr).bad, fun _ _ _ h => has_alive (inv_reach hr) h, fun o ob h => ((inv_reach hr).refs o ob h).1⟩

/-- **C119** (everything given back). When the careful program has given everything back, each object that exists is in use by somebody else, who has all its references. -/
theorem C119_given_back_partial {s : St} (hr : Reach s) (h : ∀ hd ∈ s.hs, hd.held = false) : ∀ o ob, s.objs o = some ob → ob.refs = s.ext o ∧ 0 < s.ext o := by
  intro o ob hob
  have h1 := (inv_reach hr).refs o ob hob
  have h2 : owned s o = 0 := by
    unfold owned
    rw [List.countP_eq_zero]
    intro hd hm
    simp [h hd hm]
  omega

/-- **C119** (status). What `status` returns is the state of the task the instance has. -/
theorem C119_status {s : St} {i : Nat} {b : Bool} {o : Nat} {ob : Ob} (h : s.hs[i]? = some ⟨.task, some o, b⟩) (ho : s.objs o = some ob) :
    statusResult s i = some ob.st := by
  unfold statusResult
  rw [h]
  show (s.objs o).bind _ = _
  rw [ho]
  exact C119_constants_partial.2 ob.st

/-- An empty segment. -/
def empty : St := ⟨fun _ => none, 0, fun _ => 0, [], false⟩

theorem empty_begin : Begin empty := ⟨rfl, rfl, (fun o ob h => by cases h), (fun _ _ => rfl), (fun _ _ => rfl)⟩

/-- **C119** violated: acquiring an accelerator from a virtual one gives the same accelerator without a reference, so that releasing what was acquired twice uses freed memory. -/
theorem C119_violated_acquire : ([.acquireType, .acquireFrom 0, .release 1, .release 0].foldl step empty).bad = true
    ∧ ([.acquireType, .acquireFrom 0, .release 1].foldl step empty).bad = false := by
  decide

/-- A history up to a task that was issued: objects 0 (accelerator), 1 (procedure of somebody else), 2 (task); instances 0, 1, 2. -/
def upToIssue : List Ev := [.acquireType, .envNew .proc, .acquireProc (some 1), .newTask, .issue 2 0 1 []]

/-- **C119** violated: asking twice for the status of a completed task uses freed memory. -/
theorem C119_violated_status_twice : ((upToIssue ++ [Ev.envFinish 2 .completed, Ev.status 2 true true, Ev.status 2 true true]).foldl step empty).bad = true
    ∧ ((upToIssue ++ [Ev.envFinish 2 .completed, Ev.status 2 true true]).foldl step empty).bad = false := by
  decide

/-- **C119** violated: a task issued again before its status was asked for is lost: object 2 keeps a reference nobody has, and no instance has its address. -/
theorem C119_violated_reissue :
    let s := (upToIssue ++ [Ev.envFinish 2 .completed, Ev.issue 2 0 1 []]).foldl step empty
    s.objs 2 = some ⟨.task, 1, .completed⟩ ∧ s.ext 2 = 0 ∧ ∀ h ∈ s.hs, h.ptr ≠ some 2 := by
  decide

/-- **C119** violated: a failed task is never given back: whatever is asked about it, in every state, its references stay (or the program is ended by an assertion). -/
theorem C119_violated_failed {s : St} {i o : Nat} {ob : Ob} (hf : ob.st = .failed) (ho : s.objs o = some ob) (sync early b : Bool) (h : s.hs[i]? = some ⟨.task, some o, b⟩) :
    (status s i sync early).objs = s.objs := by
  unfold status
  rw [h]
  simp only [ho, hf]
  split <;> rfl

/-- A careful program exists: hello (/repo/Java/hello.java:40-77) with both buffers, from an empty segment in which somebody registered the procedure, up to the end: everything is given back. -/
def helloRun : List Ev := [.envNew .proc, .acquireType, .use 0, .acquireProc (some 0), .use 1, .newTask, .newBuffer, .use 3, .newBuffer,
  .issue 2 0 1 [3, 4], .envFinish 4 .completed, .status 2 true true, .use 4, .freeBuffer 3, .freeBuffer 4, .release 1, .release 0]

/-- Steps of a careful program, one after the other. (No code of its own.) -/
inductive Run : St → List Ev → St → Prop where
  | nil (s) : Run s [] s
  | cons {s t} (e) {es} : Careful s e → Run (step s e) es t → Run s (e :: es) t

theorem Run.reach {s t : St} {es : List Ev} (h : Run s es t) (hr : Reach s) : Reach t := by
  induction h with
  | nil => exact hr
  | cons e hc _ ih => exact ih (.step e hr hc)

theorem hello_careful : Run empty helloRun (helloRun.foldl step empty) := by
  refine .cons _ trivial (.cons _ trivial (.cons _ ⟨_, _, rfl⟩ (.cons _ rfl (.cons _ ⟨_, _, rfl⟩ (.cons _ trivial (.cons _ trivial (.cons _ ⟨_, _, rfl⟩ (.cons _ trivial
    (.cons _ ⟨⟨_, rfl⟩, ⟨_, _, rfl, rfl, rfl⟩, ⟨_, rfl⟩, ?_⟩ (.cons _ trivial (.cons _ ⟨_, rfl, fun _ _ _ _ => rfl⟩ (.cons _ ⟨_, _, rfl⟩ (.cons _ ⟨_, rfl, rfl, by decide⟩
    (.cons _ ⟨_, rfl, rfl, by decide⟩ (.cons _ ⟨_, Or.inr rfl⟩ (.cons _ ⟨_, Or.inl rfl⟩ (.nil _)))))))))))))))))
  intro b hb
  simp at hb
  rcases hb with rfl | rfl
  · exact ⟨_, rfl⟩
  · exact ⟨_, rfl⟩

example : Reach (helloRun.foldl step empty) := hello_careful.reach (.start empty_begin)
example : (∀ hd ∈ (helloRun.foldl step empty).hs, hd.held = false) ∧ (helloRun.foldl step empty).objs 0 = some ⟨.proc, 1, .issued⟩
    ∧ (helloRun.foldl step empty).objs 4 = none := by decide

/-! ## Arguments of a task -/

/-- A `Structure`: the fields of the Java object as bytes, and its native memory. -/
structure Args where
  fields : List Nat
  native : List Nat
  deriving DecidableEq

/-- A Java program that makes, changes and issues tasks with arguments. `structs`: by number; `tasks`: which arguments; `given`: the bytes the library was given with each issue, and those of the fields at that moment. -/
structure ASt where
  structs : Nat → Args
  tasks : Nat → Option Nat
  given : List (Nat × List Nat × List Nat)

/-- What the program does. -/
inductive AEv where
  | make (a : Nat) (bytes : List Nat)     -- new Structure, fields set by its constructor
  | change (a : Nat) (bytes : List Nat)   -- assignments to its fields
  | task (t : Nat) (a : Nat)              -- new AraxTask(proc, args)
  | bare (t : Nat)                        -- new AraxTask(proc)
  | setArgs (t a : Nat)
  | write (a : Nat)                       -- the program calls `write` of its Structure itself
  | issue (t : Nat)

/-- `getArg` and `getArgSize` (/repo/Java/AraxTask.java:45-57) with the copy of /repo/src/arch/shm/impl.c:482-483. -/
def argBytes (s : ASt) (t : Nat) : List Nat :=
  match s.tasks t with
  | none => []
  | some a => (s.structs a).native

/-- One step. /repo/Java/AraxTask.java:22-28 (the constructor does not call `write`), 30-35, 82-87 `setArgs` (calls it once), AraxAccelerator.java:46. -/
def aStep (s : ASt) : AEv → ASt
  | .make a b => { s with structs := put s.structs a ⟨b, List.replicate b.length 0⟩ }
  | .change a b => { s with structs := put s.structs a ⟨b, (s.structs a).native⟩ }
  | .task t a => { s with tasks := put s.tasks t (some a) }
  | .bare t => { s with tasks := put s.tasks t none }
  | .setArgs t a => { s with tasks := put s.tasks t (some a), structs := put s.structs a ⟨(s.structs a).fields, (s.structs a).fields⟩ }
  | .write a => { s with structs := put s.structs a ⟨(s.structs a).fields, (s.structs a).fields⟩ }
  | .issue t => { s with given := s.given ++ [(t, argBytes s t, ((s.tasks t).map (fun a => (s.structs a).fields)).getD [])] }

/-- The event leaves task `t` and arguments `a` as they are. (Specification.) -/
def AEv.spares (t a : Nat) : AEv → Prop
  | .make a' _ => a' ≠ a
  | .change a' _ => a' ≠ a
  | .task t' _ => t' ≠ t
  | .bare t' => t' ≠ t
  | .setArgs t' _ => t' ≠ t
  | .write _ => True
  | .issue _ => True

theorem spared {t a : Nat} {b : List Nat} : ∀ (es : List AEv) (s : ASt), (∀ e ∈ es, e.spares t a) → s.tasks t = some a → s.structs a = ⟨b, b⟩ →
    (es.foldl aStep s).tasks t = some a ∧ (es.foldl aStep s).structs a = ⟨b, b⟩ := by
  intro es
  induction es with
  | nil => intro s _ h1 h2; exact ⟨h1, h2⟩
  | cons e es ih =>
    intro s hs h1 h2
    have he := hs e List.mem_cons_self
    refine ih (aStep s e) (fun x hx => hs x (List.mem_cons_of_mem _ hx)) ?_ ?_
    · cases e with
      | make => exact h1
      | change => exact h1
      | task t' a' => show put s.tasks t' _ t = _; rw [put_ne _ _ (Ne.symm he)]; exact h1
      | bare t' => show put s.tasks t' _ t = _; rw [put_ne _ _ (Ne.symm he)]; exact h1
      | setArgs t' a' => show put s.tasks t' _ t = _; rw [put_ne _ _ (Ne.symm he)]; exact h1
      | write => exact h1
      | issue => exact h1
    · cases e with
      | make a' b' => show put s.structs a' _ a = _; rw [put_ne _ _ (Ne.symm he)]; exact h2
      | change a' b' => show put s.structs a' _ a = _; rw [put_ne _ _ (Ne.symm he)]; exact h2
      | task => exact h2
      | bare => exact h2
      | setArgs t' a' =>
        show put s.structs a' _ a = _
        by_cases ea : a = a'
        · subst ea; rw [put_same, h2]
        · rw [put_ne _ _ ea]; exact h2
      | write a' =>
        show put s.structs a' _ a = _
        by_cases ea : a = a'
        · subst ea; rw [put_same, h2]
        · rw [put_ne _ _ ea]; exact h2
      | issue => exact h2

/-- **C119** (arguments). Whatever the program did before: if arguments are set by `setArgs`, or the program writes them itself, and neither they nor the task's arguments are changed after, the kernel is given exactly the fields as they are. Missing: arguments given to the constructor and not written, or changed after. -/
theorem C119_arguments_partial (s : ASt) (t a : Nat) (e : AEv) (he : e = .setArgs t a ∨ (e = .write a ∧ s.tasks t = some a)) (es : List AEv) (h : ∀ e ∈ es, e.spares t a) :
    (aStep (es.foldl aStep (aStep s e)) (.issue t)).given
      = (es.foldl aStep (aStep s e)).given ++ [(t, (s.structs a).fields, (s.structs a).fields)] := by
  have h0 : (aStep s e).tasks t = some a ∧ (aStep s e).structs a = ⟨(s.structs a).fields, (s.structs a).fields⟩ := by
    rcases he with rfl | ⟨rfl, ht⟩
    · exact ⟨put_same _ _ _, put_same _ _ _⟩
    · exact ⟨ht, put_same _ _ _⟩
  have := spared (t := t) (a := a) (b := (s.structs a).fields) es (aStep s e) h h0.1 h0.2
  show _ ++ [(t, argBytes _ t, _)] = _
  simp only [argBytes, this.1, this.2, Option.map_some, Option.getD_some]

/-- No instance yet. -/
def aStart : ASt := ⟨fun _ => ⟨[], []⟩, fun _ => none, []⟩

/-- **C119** violated: arguments given to the constructor arrive as zeros, for all arguments; arguments changed after `setArgs` arrive as they were. -/
theorem C119_violated_arguments (b b' : List Nat) :
    ([AEv.make 0 b, .task 0 0, .issue 0].foldl aStep aStart).given = [(0, List.replicate b.length 0, b)]
    ∧ ([AEv.make 0 b, .bare 0, .setArgs 0 0, .change 0 b', .issue 0].foldl aStep aStart).given = [(0, b, b')] := by
  constructor <;> simp [aStep, aStart, argBytes, put]

example : ∀ e ∈ [AEv.make 1 [5], .issue 3, .setArgs 2 0], e.spares 0 0 := by
  intro e he
  simp at he
  rcases he with rfl | rfl | rfl <;> simp [AEv.spares]

/-! ## Set and get -/

/-- Result of a copy: the bytes, and whether memory outside the block was read or written. -/
structure Copy where
  bytes : List Nat
  outside : Bool
  deriving DecidableEq

/-- /repo/Java/AraxBuffer.java:43-47 `set` of a buffer of `n` bytes: `none` is the exception of `Memory(0)`; else what the library takes (/repo/src/core/arax_data.c:88-90: `n` bytes, whatever the length of the array). `junk`: what lies behind the block. -/
def javaSet (junk : Nat → Nat) (n : Nat) (d : List Nat) : Option Copy :=
  if d.length = 0 then none
  else some ⟨(List.range n).map (fun i => (d[i]?).getD (junk i)), decide (d.length < n)⟩

/-- /repo/Java/AraxBuffer.java:49-53 `get` of a buffer with bytes `c` (/repo/src/core/arax_data.c:68 copies all of them) into an array of `len`: what the array has afterwards. `junk`: what the block of `malloc` held before. -/
def javaGet (junk : Nat → Nat) (c : List Nat) (len : Nat) : Option Copy :=
  if len = 0 then none
  else some ⟨(List.range len).map (fun i => (c[i]?).getD (junk i)), decide (len < c.length)⟩

theorem map_range_get (d : List Nat) (junk : Nat → Nat) (n : Nat) (h : n ≤ d.length) : (List.range n).map (fun i => (d[i]?).getD (junk i)) = d.take n := by
  apply List.ext_getElem
  · simp; omega
  · intro i h1 h2
    have : i < d.length := by simp at h1; omega
    simp [this]

/-- **C119** (bytes). If array and buffer have the same length, which is not 0: `set` stores the array, `get` returns the buffer, no other memory is touched. With a longer array `set` stores its beginning. Missing: other lengths. -/
theorem C119_bytes_partial (junk : Nat → Nat) (n : Nat) (d c : List Nat) (h0 : 0 < n) :
    (n ≤ d.length → javaSet junk n d = some ⟨d.take n, false⟩) ∧ (c.length = n → javaGet junk c n = some ⟨c, false⟩) := by
  constructor
  · intro h
    unfold javaSet
    rw [if_neg (by omega), map_range_get _ _ _ h]
    simp; omega
  · intro h
    unfold javaGet
    rw [if_neg (by omega), map_range_get _ _ _ (by omega)]
    simp [← h]

/-- **C119** (bytes, where it goes wrong). `set` reads outside the array exactly if it is shorter than the buffer, `get` writes outside exactly then. -/
theorem C119_bytes_outside_partial (junk : Nat → Nat) (n : Nat) (d c : List Nat) (len : Nat) (hd : d ≠ []) (hl : len ≠ 0) :
    (∃ r, javaSet junk n d = some r ∧ (r.outside = true ↔ d.length < n)) ∧ (∃ r, javaGet junk c len = some r ∧ (r.outside = true ↔ len < c.length)) := by
  have : d.length ≠ 0 := fun h => hd (List.length_eq_zero_iff.mp h)
  refine ⟨⟨_, by unfold javaSet; rw [if_neg this], by simp⟩, ⟨_, by unfold javaGet; rw [if_neg hl], by simp⟩⟩

/-- **C119** violated: an array shorter than the buffer is read, or written, behind its end, for all lengths; `get` into a longer one leaves in it what was in the process' memory before; an empty array is refused. -/
theorem C119_violated_bytes (junk : Nat → Nat) (n : Nat) (d c : List Nat) (hd : d ≠ []) :
    (d.length < n → ∃ r, javaSet junk n d = some r ∧ r.outside = true ∧ r.bytes[d.length]? = some (junk d.length))
    ∧ (∃ r, javaGet junk c (c.length + 1) = some r ∧ r.bytes = c ++ [junk c.length])
    ∧ javaSet junk 0 [] = none := by
  have h0 : d.length ≠ 0 := fun h => hd (List.length_eq_zero_iff.mp h)
  refine ⟨fun h => ⟨_, by unfold javaSet; rw [if_neg h0], by simpa using h, ?_⟩, ⟨_, by unfold javaGet; rw [if_neg (Nat.succ_ne_zero _)], ?_⟩, rfl⟩
  · simp [h]
  · dsimp only
    rw [List.range_succ, List.map_append, map_range_get _ _ _ (Nat.le_refl _)]
    simp

/-! ## hello -/

/-- `Arrays.copyOf(bytes, n)`: cut, or filled with zeros. -/
def copyOf (b : List Nat) (n : Nat) : List Nat := b.take n ++ List.replicate (n - b.length) 0

/-- /repo/Java/hello.java:54: the bytes hello sends for a text of `chars` characters that is `b` in the platform's encoding. -/
def helloInput (b : List Nat) (chars : Nat) : List Nat := copyOf b (chars + 1)

/-- **C119** (hello). For a text with one byte per character hello sends the text and a zero, as the C program does (C98 is what comes back). Missing: other texts. -/
theorem C119_hello_partial (b : List Nat) : helloInput b b.length = b ++ [0] ∧ (helloInput b b.length).length = b.length + 1 := by
  have : helloInput b b.length = b ++ [0] := by
    unfold helloInput copyOf
    rw [List.take_of_length_le (by omega)]
    simp
  exact ⟨this, by rw [this]; simp⟩

/-- **C119** violated (hello): a text with more bytes than characters is cut, without a zero at the end. -/
theorem C119_violated_hello (b : List Nat) (chars : Nat) (h : chars < b.length) : helloInput b chars = b.take (chars + 1) := by
  unfold helloInput copyOf
  rw [show chars + 1 - b.length = 0 by omega]
  simp

end Arax.Java
