import Verif.Outcome
/-!
# `arax_data_memcpy` (C49)

The call is sequential: `arax_data_get` waits for all earlier tasks on the source (C48, `Verif.Exec.Theorems`), so the model starts from the contents
after these tasks.
-/
namespace Arax.DataCopy

/-- Data objects: size, accelerator they are bound to, contents. /repo/src/core/arax_data.h:36-51. -/
structure W where
  size : Nat → Nat
  accel : Nat → Option Nat
  mem : Nat → List Nat

/-- `memcpy(user, …, n)`: with a NULL destination only `n = 0` does nothing. (C library.) -/
def copyTo (user : Option Nat) (bytes : List Nat) : Res (List Nat) :=
  if bytes.length = 0 then .ok []
  else
    match user with
    | none => .ub
    | some _ => .ok bytes

/-- `arax_data_get(d, user)` (/repo/src/core/arax_data.c:52-73): returns what was copied to `user`. -/
def get (w : W) (d : Nat) (user : Option Nat) : Res (List Nat) :=
  match w.accel d with
  | none => .abort
  | some _ => copyTo user (w.mem d)

/-- `arax_data_set(d, a, bytes)` (/repo/src/core/arax_data.c:75-93), after the task it issues has run. -/
def set (w : W) (d a : Nat) (bytes : List Nat) : Res W :=
  if w.accel d = none ∨ w.accel d = some a then
    .ok { w with accel := fun x => if x = d then some a else w.accel x, mem := fun x => if x = d then bytes.take (w.size d) else w.mem x }
  else .abort

/-- `arax_data_memcpy(a, dst, src, block)` (/repo/src/core/arax_data.c:95-113): the get at line 110 has destination 0. -/
def memcpy (w : W) (a dst src : Nat) : Res W :=
  if dst = src then .ok w
  else if w.size dst ≠ w.size src then .abort
  else get w src none >>= fun _ => set w dst a (w.mem src)

/-- **C49** (same object) Copying a data object onto itself does nothing. -/
theorem C49_same (w : W) (a d : Nat) : memcpy w a d d = .ok w := by simp [memcpy]

/-- **C49** (size mismatch) Different sizes abort. -/
theorem C49_mismatch (w : W) (a dst src : Nat) (h : w.size dst ≠ w.size src) : memcpy w a dst src = .abort := by
  unfold memcpy
  rw [if_neg (by rintro rfl; exact h rfl), if_pos h]

/-- **C49 is violated by the code**: for every two distinct non-empty data objects of the same size, whatever their contents, `arax_data_memcpy` copies the source to
address 0 (undefined behaviour; a crash in practice) before it would set the destination. -/
theorem C49_violated (w : W) (a dst src : Nat) (hne : dst ≠ src) (hsz : w.size dst = w.size src) (hb : (w.accel src).isSome)
    (hlen : (w.mem src).length = w.size src) (hpos : 0 < w.size src) : memcpy w a dst src = .ub := by
  unfold memcpy get
  rw [if_neg hne, if_neg (by simpa using hsz)]
  cases ha : w.accel src with
  | none => rw [ha] at hb; simp at hb
  | some v =>
    have : copyTo none (w.mem src) = .ub := by unfold copyTo; rw [if_neg (by omega)]
    rw [this]; rfl

/-- **C49** (source without accelerator) A source that no task used yet ends the application: there is nothing to copy. -/
theorem C49_unassigned_source (w : W) (a dst src : Nat) (hne : dst ≠ src) (h : w.accel src = none) : memcpy w a dst src = .abort := by
  unfold memcpy get
  rw [if_neg hne, h]
  split
  · rfl
  · rfl

/-- Non-vacuity. -/
example : memcpy { size := fun _ => 1, accel := fun _ => none, mem := fun d => [d] } 0 1 2 = .abort := C49_unassigned_source _ 0 1 2 (by decide) rfl

/-- **C49** (partial) Only empty data objects are copied. Missing: every non-empty one (`C49_violated`). -/
theorem C49_empty_partial (w : W) (a dst src : Nat) (hne : dst ≠ src) (hsz : w.size dst = w.size src) (hb : (w.accel src).isSome)
    (hd : w.accel dst = none ∨ w.accel dst = some a) (hm : w.mem src = []) :
    ∃ w', memcpy w a dst src = .ok w' ∧ w'.mem dst = w.mem src := by
  unfold memcpy get set
  rw [if_neg hne, if_neg (by simpa using hsz)]
  cases ha : w.accel src with
  | none => rw [ha] at hb; simp at hb
  | some v =>
    have : copyTo none (w.mem src) = .ok [] := by unfold copyTo; rw [if_pos (by simp [hm])]
    simp only [this, Res.bind_ok, if_pos hd]
    exact ⟨_, rfl, by simp [hm]⟩

/-- Non-vacuity of `C49_violated`: two one-byte data objects on one accelerator. -/
example : memcpy { size := fun _ => 1, accel := fun _ => some 0, mem := fun d => [d] } 0 1 2 = .ub :=
  C49_violated _ 0 1 2 (by decide) rfl rfl rfl (by decide)

/-- Non-vacuity of `C49_mismatch` and `C49_empty_partial`. -/
example : memcpy { size := id, accel := fun _ => some 0, mem := fun d => List.replicate d 0 } 0 1 2 = .abort := C49_mismatch _ 0 1 2 (by decide)
example : ∃ w', memcpy { size := fun _ => 0, accel := fun _ => some 0, mem := fun _ => [] } 0 1 2 = .ok w' ∧ w'.mem 1 = [] :=
  C49_empty_partial { size := fun _ => 0, accel := fun _ => some 0, mem := fun _ => [] } 0 1 2 (by decide) rfl rfl (Or.inr rfl) rfl

end Arax.DataCopy
