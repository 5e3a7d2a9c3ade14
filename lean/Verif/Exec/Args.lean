import Verif.Outcome
/-!
# `arax_task_issue`: validation of the arguments (C46)

Pointers are `Option Nat` (`none` = NULL).  Reference counts, annotations and statistics are left out (the counts
are modelled in `Verif.Object`).  `arax_assert_obj` expands to a function declaration and checks nothing
(/repo/src/utils/arax_assert.h:12-13), so it appears nowhere below.
-/
namespace Arax.Args

/-- `arax_object_type_e` (/repo/src/core/arax_object.h:14-22). -/
inductive Kind where
  | physAccel | virtAccel | proc | data | task | count
  deriving DecidableEq, Repr

/-- Pointers to library objects (`arax_data *`, `arax_accel *`, `arax_proc *`; arguments of /repo/src/arch/shm/impl.c:467-470). -/
abbrev Ptr := Option Nat

/-- What `arax_task_issue` looks at: the type stored in each object, for data objects `accel` and whether `remote` is set
(/repo/src/core/arax_data.h:36-51), for virtual accelerators `phys`. -/
structure World where
  kind : Nat → Kind
  accel : Nat → Ptr
  remote : Nat → Bool
  phys : Nat → Ptr

/-- Choose from inputs or outputs (/repo/src/arch/shm/impl.c:433-436 and 449-452). -/
def pick (inC : Nat) (input output : Nat → Ptr) (i : Nat) : Ptr := if i < inC then input i else output (i - inC)

/-- The inner loop (/repo/src/arch/shm/impl.c:447-462): `n` iterations left, index `j`. -/
def dupLoop (w : World) (inC : Nat) (input output : Nat → Ptr) : Nat → Nat → Bool
  | 0, _ => true
  | n + 1, j =>
    match pick inC input output j with
    | none => false
    | some d => if w.kind d ≠ .data then false else dupLoop w inC input output n (j + 1)

/-- The outer loop (/repo/src/arch/shm/impl.c:431-463). -/
def ioLoop (w : World) (inC allIo : Nat) (input output : Nat → Ptr) : Nat → Nat → Bool
  | 0, _ => true
  | n + 1, i =>
    match pick inC input output i with
    | none => false
    | some d =>
      if w.kind d ≠ .data then false
      else if dupLoop w inC input output allIo 0 then ioLoop w inC allIo input output n (i + 1) else false

/-- `check_semantics` (/repo/src/arch/shm/impl.c:422-465); `size_t` arithmetic wraps. -/
def checkSemantics (w : World) (inC : Nat) (input : Nat → Ptr) (outC : Nat) (output : Nat → Ptr) : Bool :=
  let allIo := (outC + inC) % 2 ^ 64
  ioLoop w inC allIo input output allIo 0

/-- Conversion `size_t` → `int` at the call of `arax_task_alloc` (/repo/src/arch/shm/impl.c:478,
/repo/src/core/arax_task.c:7-8). -/
def toInt (n : Nat) : Int := if n % 2 ^ 32 < 2 ^ 31 then ((n % 2 ^ 32 : Nat) : Int) else ((n % 2 ^ 32 : Nat) : Int) - 2 ^ 32

/-- Number of iterations of `for (cnt = 0; cnt < ins; cnt++)`. (/repo/src/core/arax_task.c.) -/
def iters (n : Nat) : Nat := (toInt n).toNat

/-- `arax_data_migrate_accel` (/repo/src/core/arax_data.c:117-160): the new `accel` of data object `d`. -/
def migrate (w : World) (d a : Nat) : Res World :=
  if w.accel d = some a then .ok w
  else
    match w.accel d with
    | none => if w.remote d then .abort else .ok { w with accel := fun x => if x = d then some a else w.accel x }
    | some o =>
      if w.kind o = .virtAccel ∧ w.kind a = .virtAccel then
        if w.phys o = w.phys a then .ok { w with accel := fun x => if x = d then some a else w.accel x } else .abort
      else .abort

/-- The argument loops of `arax_task_alloc` (/repo/src/core/arax_task.c:36-46): `n` iterations left, index `i`. A NULL argument is
dereferenced. -/
def argLoop (arr : Nat → Ptr) (a : Nat) : Nat → Nat → World → List Nat → Res (World × List Nat)
  | 0, _, w, io => .ok (w, io)
  | n + 1, i, w, io =>
    match arr i with
    | none => .ub
    | some d => migrate w d a >>= fun w' => argLoop arr a n (i + 1) w' (io ++ [d])

/-- An issued task: its accelerator, procedure, arguments and host data. /repo/src/core/arax_task.h:9-23. -/
structure Task where
  accel : Nat
  proc : Nat
  io : List Nat
  host : List Nat
  deriving DecidableEq, Repr

/-- The task's host area after /repo/src/arch/shm/impl.c:482-483. -/
def hostBytes (host : Option (List Nat)) (hostSize : Nat) : List Nat :=
  match host with
  | some bs => bs.take hostSize
  | none => List.replicate hostSize 0

/-- `arax_task_issue` (/repo/src/arch/shm/impl.c:467-488) with `arax_task_alloc` (/repo/src/core/arax_task.c:7-49) and the
type assumption of `arax_task_submit` (/repo/src/core/arax_task.c:64-75): `allocOk` says whether the allocation of the task object
succeeds.  `ins + outs` is an `int` addition (overflow is undefined).  A task for something that is not a virtual
accelerator is queued in memory that is not a queue: undefined.  `host` are the bytes at `host_init` (`none` if NULL), of which
`hostSize` are copied; otherwise the host area is left as allocated (zeroed, /repo/src/core/arax_object.c). -/
def issue (allocOk : Bool) (w : World) (accel proc : Ptr) (host : Option (List Nat)) (hostSize inC : Nat) (input : Nat → Ptr)
    (outC : Nat) (output : Nat → Ptr) : Res (World × Task) :=
  if checkSemantics w inC input outC output then
    match accel, proc with
    | some a, some p =>
      if toInt inC + toInt outC < -2 ^ 31 ∨ 2 ^ 31 ≤ toInt inC + toInt outC then .ub
      else if allocOk then
        argLoop input a (iters inC) 0 w [] >>= fun r1 =>
        argLoop output a (iters outC) 0 r1.1 r1.2 >>= fun r2 =>
        if w.kind a = .virtAccel then
          .ok (r2.1, { accel := a, proc := p, io := r2.2, host := hostBytes host hostSize })
        else .ub
      else .abort
    | _, _ => .abort
  else .abort

/-! ## Specification -/

/-- A good argument: not NULL and a data object. -/
def Good (w : World) (p : Ptr) : Prop := ∃ d, p = some d ∧ w.kind d = .data

/-- `d` can be used on virtual accelerator `a`: it is not bound to an accelerator yet (and has no device copy), or bound to a
virtual accelerator that sits on the same physical accelerator. -/
def Usable (w : World) (a d : Nat) : Prop :=
  w.accel d = none ∧ w.remote d = false ∨ w.accel d = some a ∨
    ∃ o, w.accel d = some o ∧ w.kind o = .virtAccel ∧ w.phys o = w.phys a

/-! ## Proofs -/

theorem pick_in {inC : Nat} {input output : Nat → Ptr} {i : Nat} (h : i < inC) : pick inC input output i = input i := by simp [pick, h]
theorem pick_out {inC : Nat} {input output : Nat → Ptr} (j : Nat) : pick inC input output (inC + j) = output j := by
  unfold pick; rw [if_neg (by omega), Nat.add_sub_cancel_left]

theorem dupLoop_iff (w : World) (inC : Nat) (input output : Nat → Ptr) : ∀ n j,
    dupLoop w inC input output n j = true ↔ ∀ i, j ≤ i → i < j + n → Good w (pick inC input output i) := by
  intro n
  induction n with
  | zero => intro j; simp only [dupLoop, true_iff]; intro i h1 h2; omega
  | succ n ih =>
    intro j
    simp only [dupLoop]
    cases hp : pick inC input output j with
    | none =>
      simp only [Bool.false_eq_true, false_iff]
      intro h
      obtain ⟨d, hd, -⟩ := h j (Nat.le_refl _) (by omega)
      rw [hp] at hd; simp at hd
    | some d =>
      by_cases hk : w.kind d = .data
      · simp only [hk, ne_eq, not_true_eq_false, if_false]
        rw [ih]
        constructor
        · intro h i h1 h2
          by_cases hij : i = j
          · subst hij; exact ⟨d, hp, hk⟩
          · exact h i (by omega) (by omega)
        · intro h i h1 h2; exact h i (by omega) (by omega)
      · simp only [hk, ne_eq, not_false_eq_true, if_true, Bool.false_eq_true, false_iff]
        intro h
        obtain ⟨d', hd', hk'⟩ := h j (Nat.le_refl _) (by omega)
        rw [hp] at hd'
        injection hd' with hd'
        rw [hd'] at hk; exact hk hk'

theorem ioLoop_iff (w : World) (inC allIo : Nat) (input output : Nat → Ptr) : ∀ n j, n + j = allIo →
    (ioLoop w inC allIo input output n j = true ↔ n = 0 ∨ ∀ i, i < allIo → Good w (pick inC input output i)) := by
  intro n
  induction n with
  | zero => intro j _; simp [ioLoop]
  | succ n ih =>
    intro j hj
    simp only [ioLoop]
    have hbad : (¬ ∀ i, i < allIo → Good w (pick inC input output i)) →
        (false = true ↔ n + 1 = 0 ∨ ∀ i, i < allIo → Good w (pick inC input output i)) := by
      intro h; simp only [Bool.false_eq_true, false_iff, not_or]; exact ⟨by omega, h⟩
    cases hp : pick inC input output j with
    | none =>
      apply hbad
      intro h
      obtain ⟨d, hd, -⟩ := h j (by omega)
      rw [hp] at hd; simp at hd
    | some d =>
      by_cases hk : w.kind d = .data
      · simp only [hk, ne_eq, not_true_eq_false, if_false]
        have hdup := dupLoop_iff w inC input output allIo 0
        by_cases hd : dupLoop w inC input output allIo 0 = true
        · have hall : ∀ i, i < allIo → Good w (pick inC input output i) := fun i hi => hdup.mp hd i (Nat.zero_le _) (by omega)
          simp only [hd, if_true]
          rw [ih (j + 1) (by omega)]
          exact ⟨fun _ => Or.inr hall, fun _ => Or.inr hall⟩
        · rw [if_neg hd]
          apply hbad
          intro h
          exact hd (hdup.mpr (fun i _ hi => h i (by omega)))
      · simp only [hk, ne_eq, not_false_eq_true, if_true]
        apply hbad
        intro h
        obtain ⟨d', hd', hk'⟩ := h j (by omega)
        rw [hp] at hd'
        injection hd' with hd'
        rw [hd'] at hk; exact hk hk'

theorem check_iff (w : World) {inC : Nat} (input : Nat → Ptr) {outC : Nat} (output : Nat → Ptr) (hsz : inC + outC < 2 ^ 64) :
    checkSemantics w inC input outC output = true ↔
      (∀ i, i < inC → Good w (input i)) ∧ ∀ j, j < outC → Good w (output j) := by
  unfold checkSemantics
  have hmod : (outC + inC) % 2 ^ 64 = outC + inC := Nat.mod_eq_of_lt (by omega)
  simp only [hmod]
  rw [ioLoop_iff _ _ _ _ _ _ _ (by omega)]
  constructor
  · rintro (h | h)
    · exact ⟨fun i hi => by omega, fun j hj => by omega⟩
    · refine ⟨fun i hi => ?_, fun j hj => ?_⟩
      · have := h i (by omega); rwa [pick_in hi] at this
      · have := h (inC + j) (by omega); rwa [pick_out] at this
  · rintro ⟨h1, h2⟩
    right
    intro i hi
    by_cases hlt : i < inC
    · rw [pick_in hlt]; exact h1 i hlt
    · have := h2 (i - inC) (by omega)
      rwa [show i = inC + (i - inC) by omega, pick_out]

/-- **C46** (rejection) Whatever the lengths of the two arrays and wherever the bad entry is: an input or output that is NULL or not a data
object makes `arax_task_issue` abort, whatever the other arguments are. -/
theorem C46_rejects (allocOk : Bool) (w : World) (accel proc : Ptr) (host : Option (List Nat)) (hostSize : Nat) {inC : Nat} (input : Nat → Ptr)
    {outC : Nat} (output : Nat → Ptr) (hsz : inC + outC < 2 ^ 64)
    (hbad : (∃ i, i < inC ∧ ¬ Good w (input i)) ∨ ∃ j, j < outC ∧ ¬ Good w (output j)) :
    issue allocOk w accel proc host hostSize inC input outC output = .abort := by
  have hc : ¬ checkSemantics w inC input outC output = true := by
    rw [check_iff w input output hsz]
    rintro ⟨h1, h2⟩
    rcases hbad with ⟨i, hi, hb⟩ | ⟨j, hj, hb⟩
    · exact hb (h1 i hi)
    · exact hb (h2 j hj)
  unfold issue
  rw [if_neg hc]

theorem iters_small {n : Nat} (h : n < 2 ^ 31) : iters n = n := by
  unfold iters toInt
  rw [Nat.mod_eq_of_lt (by omega), if_pos h]
  simp

/-- `w'` differs from `w` only in that some data objects are now bound to `a`. -/
structure Bound (w w' : World) (a : Nat) : Prop where
  kind : w'.kind = w.kind
  remote : w'.remote = w.remote
  phys : w'.phys = w.phys
  accel : ∀ x, w'.accel x = w.accel x ∨ w'.accel x = some a

theorem Bound.refl (w : World) (a : Nat) : Bound w w a := ⟨rfl, rfl, rfl, fun _ => Or.inl rfl⟩

theorem Bound.trans {w1 w2 w3 : World} {a : Nat} (h1 : Bound w1 w2 a) (h2 : Bound w2 w3 a) : Bound w1 w3 a := by
  refine ⟨h2.kind.trans h1.kind, h2.remote.trans h1.remote, h2.phys.trans h1.phys, fun x => ?_⟩
  rcases h2.accel x with h | h
  · rw [h]; exact h1.accel x
  · exact Or.inr h

theorem Bound.usable {w w' : World} {a d : Nat} (h : Bound w w' a) (hu : Usable w a d) : Usable w' a d := by
  unfold Usable at *
  rcases h.accel d with e | e
  · rw [e, h.kind, h.remote, h.phys]; exact hu
  · exact Or.inr (Or.inl e)

theorem migrate_ok {w : World} {d a : Nat} (ha : w.kind a = .virtAccel) (hu : Usable w a d) :
    ∃ w', migrate w d a = .ok w' ∧ Bound w w' a ∧ w'.accel d = some a := by
  unfold migrate
  by_cases h : w.accel d = some a
  · rw [if_pos h]; exact ⟨w, rfl, Bound.refl w a, h⟩
  · rw [if_neg h]
    have hb : Bound w { w with accel := fun x => if x = d then some a else w.accel x } a := by
      refine ⟨rfl, rfl, rfl, fun x => ?_⟩
      dsimp only
      split
      · exact Or.inr rfl
      · exact Or.inl rfl
    rcases hu with ⟨h1, h2⟩ | h1 | ⟨o, h1, h2, h3⟩
    · rw [h1]; simp only [h2, Bool.false_eq_true, if_false]
      exact ⟨_, rfl, hb, by simp⟩
    · exact absurd h1 h
    · rw [h1]; simp only [h2, ha, h3, and_self, if_true]
      exact ⟨_, rfl, hb, by simp⟩

theorem argLoop_ok {arr : Nat → Ptr} {a : Nat} {ds : Nat → Nat} : ∀ n i (w : World) (io : List Nat), w.kind a = .virtAccel →
    (∀ k, i ≤ k → k < i + n → arr k = some (ds k) ∧ Usable w a (ds k)) →
    ∃ w', argLoop arr a n i w io = .ok (w', io ++ (List.range' i n).map ds) ∧ Bound w w' a ∧
      ∀ k, i ≤ k → k < i + n → w'.accel (ds k) = some a := by
  intro n
  induction n with
  | zero => intro i w io _ _; exact ⟨w, by simp [argLoop], Bound.refl w a, fun k h1 h2 => by omega⟩
  | succ n ih =>
    intro i w io ha h
    obtain ⟨hi, hui⟩ := h i (Nat.le_refl _) (by omega)
    obtain ⟨w1, e1, b1, a1⟩ := migrate_ok ha hui
    obtain ⟨w2, e2, b2, a2⟩ := ih (i + 1) w1 (io ++ [ds i]) (by rw [b1.kind]; exact ha)
      (fun k h1 h2 => ⟨(h k (by omega) (by omega)).1, b1.usable (h k (by omega) (by omega)).2⟩)
    refine ⟨w2, ?_, b1.trans b2, ?_⟩
    · simp only [argLoop, hi, e1, Res.bind_ok, e2, List.range'_succ, List.map_cons, List.append_assoc, List.cons_append, List.nil_append]
    · intro k h1 h2
      by_cases hk : k = i
      · subst hk
        rcases b2.accel (ds k) with e | e
        · rw [e]; exact a1
        · exact e
      · exact a2 k (by omega) (by omega)

/-- **C46** (acceptance) If every input and output is a data object (usable on the device of the accelerator), accelerator and procedure are not
NULL and the task can be allocated, then `arax_task_issue` accepts: the task carries exactly the inputs followed by the outputs, in
order (duplicates included), and the first `hostSize` host bytes; every argument is bound to the accelerator. Counts must fit an `int`. -/
theorem C46_accepts (w : World) (a p : Nat) (bs : List Nat) (hostSize : Nat) (hhs : hostSize ≤ bs.length) {inC : Nat} {input : Nat → Ptr} {outC : Nat} {output : Nat → Ptr}
    (hsz : inC + outC < 2 ^ 31) (ha : w.kind a = .virtAccel) (di dout : Nat → Nat)
    (hin : ∀ i, i < inC → input i = some (di i) ∧ w.kind (di i) = .data ∧ Usable w a (di i))
    (hout : ∀ j, j < outC → output j = some (dout j) ∧ w.kind (dout j) = .data ∧ Usable w a (dout j)) :
    ∃ w' t, issue true w (some a) (some p) (some bs) hostSize inC input outC output = .ok (w', t) ∧
      t.accel = a ∧ t.proc = p ∧ t.io = (List.range inC).map di ++ (List.range outC).map dout ∧
      t.host.length = hostSize ∧ (∀ k, k < hostSize → t.host[k]? = bs[k]?) ∧
      (∀ i, i < inC → w'.accel (di i) = some a) ∧ (∀ j, j < outC → w'.accel (dout j) = some a) := by
  have hc : checkSemantics w inC input outC output = true :=
    (check_iff w input output (by omega)).mpr ⟨fun i hi => ⟨di i, (hin i hi).1, (hin i hi).2.1⟩, fun j hj => ⟨dout j, (hout j hj).1, (hout j hj).2.1⟩⟩
  obtain ⟨w1, e1, b1, a1⟩ := argLoop_ok (arr := input) (a := a) (ds := di) inC 0 w [] ha
    (fun k _ h2 => ⟨(hin k (by omega)).1, (hin k (by omega)).2.2⟩)
  obtain ⟨w2, e2, b2, a2⟩ := argLoop_ok (arr := output) (a := a) (ds := dout) outC 0 w1 ([] ++ (List.range' 0 inC).map di)
    (by rw [b1.kind]; exact ha) (fun k _ h2 => ⟨(hout k (by omega)).1, b1.usable (hout k (by omega)).2.2⟩)
  rw [List.nil_append] at e1 e2
  have ti : ∀ n, n < 2 ^ 31 → toInt n = (n : Int) := by
    intro n hn
    unfold toInt
    rw [Nat.mod_eq_of_lt (by omega), if_pos hn]
  have hint : ¬ (toInt inC + toInt outC < -2 ^ 31 ∨ 2 ^ 31 ≤ toInt inC + toInt outC) := by
    rw [ti inC (by omega), ti outC (by omega)]
    omega
  refine ⟨w2, { accel := a, proc := p, io := (List.range inC).map di ++ (List.range outC).map dout, host := hostBytes (some bs) hostSize }, ?_, rfl, rfl, rfl,
    by simp [hostBytes, hhs], fun k hk => by simp [hostBytes, List.getElem?_take, hk], ?_, ?_⟩
  · unfold issue
    rw [if_pos hc]
    simp only [hint, if_false, if_true, iters_small (show inC < 2 ^ 31 by omega), iters_small (show outC < 2 ^ 31 by omega), e1, Res.bind_ok, e2, ha,
      List.nil_append]
    simp only [List.range_eq_range']
  · intro i hi
    rcases b2.accel (di i) with e | e
    · rw [e]; exact a1 i (Nat.zero_le _) (by omega)
    · exact e
  · intro j hj; exact a2 j (Nat.zero_le _) (by omega)

theorem migrate_bad {w : World} {d a : Nat} (hu : ¬ Usable w a d) : migrate w d a = .abort := by
  have h1 : w.accel d ≠ some a := fun h => hu (Or.inr (Or.inl h))
  unfold migrate
  rw [if_neg h1]
  cases h : w.accel d with
  | none =>
    cases hr : w.remote d with
    | true => simp
    | false => exact absurd (Or.inl ⟨h, hr⟩) hu
  | some o =>
    dsimp only
    split
    · rename_i hk
      rw [if_neg (fun hp => hu (Or.inr (Or.inr ⟨o, h, hk.1, hp⟩)))]
    · rfl

theorem Bound.unusable {w w' : World} {a d : Nat} (h : Bound w w' a) (hu : ¬ Usable w a d) (hd : w'.accel d = w.accel d) : ¬ Usable w' a d := by
  unfold Usable at *
  rwa [hd, h.kind, h.remote, h.phys]

theorem migrate_frame {w w' : World} {d a : Nat} (h : migrate w d a = .ok w') : ∀ x, x ≠ d → w'.accel x = w.accel x := by
  intro x hx
  unfold migrate at h
  split at h
  · cases h; rfl
  · split at h
    · split at h
      · cases h
      · cases h; exact if_neg hx
    · split at h
      · split at h
        · cases h; exact if_neg hx
        · cases h
      · cases h

theorem argLoop_bad {arr : Nat → Ptr} {a : Nat} {ds : Nat → Nat} : ∀ n i (w : World) (io : List Nat), w.kind a = .virtAccel →
    (∀ k, i ≤ k → k < i + n → arr k = some (ds k)) → (∃ k, i ≤ k ∧ k < i + n ∧ ¬ Usable w a (ds k)) →
    argLoop arr a n i w io = .abort := by
  intro n
  induction n with
  | zero => intro i w io _ _ h; obtain ⟨k, h1, h2, _⟩ := h; omega
  | succ n ih =>
    intro i w io ha h hb
    have hi := h i (Nat.le_refl _) (by omega)
    by_cases hu : Usable w a (ds i)
    · obtain ⟨w1, e1, b1, _⟩ := migrate_ok ha hu
      obtain ⟨k, h1, h2, h3⟩ := hb
      have hki : k ≠ i := fun e => h3 (e ▸ hu)
      have hne : ds k ≠ ds i := fun e => h3 (e ▸ hu)
      simp only [argLoop, hi, e1, Res.bind_ok]
      exact ih (i + 1) w1 _ (by rw [b1.kind]; exact ha) (fun k h1 h2 => h k (by omega) (by omega))
        ⟨k, by omega, by omega, b1.unusable h3 (migrate_frame e1 _ hne)⟩
    · simp only [argLoop, hi, migrate_bad hu, Res.bind_abort]

theorem argLoop_frame {arr : Nat → Ptr} {a : Nat} {ds : Nat → Nat} : ∀ n i (w w' : World) (io io' : List Nat),
    (∀ k, i ≤ k → k < i + n → arr k = some (ds k)) → argLoop arr a n i w io = .ok (w', io') →
    ∀ x, (∀ k, i ≤ k → k < i + n → ds k ≠ x) → w'.accel x = w.accel x := by
  intro n
  induction n with
  | zero => intro i w w' io io' _ h x _; simp only [argLoop, Res.ok.injEq, Prod.mk.injEq] at h; rw [h.1]
  | succ n ih =>
    intro i w w' io io' hs h x hx
    simp only [argLoop, hs i (Nat.le_refl _) (by omega)] at h
    cases hm : migrate w (ds i) a with
    | ok w1 =>
      rw [hm, Res.bind_ok] at h
      rw [ih (i + 1) w1 w' _ io' (fun k h1 h2 => hs k (by omega) (by omega)) h x (fun k h1 h2 => hx k (by omega) (by omega))]
      exact migrate_frame hm x (fun e => hx i (Nat.le_refl _) (by omega) e.symm)
    | abort => rw [hm, Res.bind_abort] at h; cases h
    | ub => rw [hm] at h; cases h

/-- **C46** (data of another device) Whatever the lengths of the arrays and wherever it stands: if all inputs and outputs are data objects but
one of them cannot be used on the device of the accelerator (it is bound to an accelerator of another device, or to one that is not a virtual
accelerator, or it lies on a device with no accelerator bound), `arax_task_issue` aborts. -/
theorem C46_unusable_aborts (w : World) (a p : Nat) (host : Option (List Nat)) (hostSize : Nat) {inC : Nat} {input : Nat → Ptr} {outC : Nat}
    {output : Nat → Ptr} (hsz : inC + outC < 2 ^ 31) (ha : w.kind a = .virtAccel) (di dout : Nat → Nat)
    (hin : ∀ i, i < inC → input i = some (di i) ∧ w.kind (di i) = .data)
    (hout : ∀ j, j < outC → output j = some (dout j) ∧ w.kind (dout j) = .data)
    (hbad : (∃ i, i < inC ∧ ¬ Usable w a (di i)) ∨ ∃ j, j < outC ∧ ¬ Usable w a (dout j)) :
    issue true w (some a) (some p) host hostSize inC input outC output = .abort := by
  have ti : ∀ n, n < 2 ^ 31 → toInt n = (n : Int) := by
    intro n hn
    unfold toInt
    rw [Nat.mod_eq_of_lt (by omega), if_pos hn]
  have hint : ¬ (toInt inC + toInt outC < -2 ^ 31 ∨ 2 ^ 31 ≤ toInt inC + toInt outC) := by
    rw [ti inC (by omega), ti outC (by omega)]
    omega
  have hc : checkSemantics w inC input outC output = true :=
    (check_iff w input output (by omega)).mpr ⟨fun i hi => ⟨di i, (hin i hi).1, (hin i hi).2⟩, fun j hj => ⟨dout j, (hout j hj).1, (hout j hj).2⟩⟩
  unfold issue
  rw [if_pos hc]
  simp only [hint, if_false, if_true, iters_small (show inC < 2 ^ 31 by omega), iters_small (show outC < 2 ^ 31 by omega)]
  by_cases hi : ∃ i, i < inC ∧ ¬ Usable w a (di i)
  · obtain ⟨i, h1, h2⟩ := hi
    rw [argLoop_bad (ds := di) inC 0 w [] ha (fun k _ hk => (hin k (by omega)).1) ⟨i, Nat.zero_le _, by omega, h2⟩, Res.bind_abort]
  · have hall : ∀ i, i < inC → Usable w a (di i) := fun i h => Classical.byContradiction fun h' => hi ⟨i, h, h'⟩
    obtain ⟨j, h1, h2⟩ := hbad.resolve_left hi
    obtain ⟨w1, e1, b1, _⟩ := argLoop_ok (arr := input) (a := a) (ds := di) inC 0 w [] ha
      (fun k _ h2 => ⟨(hin k (by omega)).1, hall k (by omega)⟩)
    have hf : w1.accel (dout j) = w.accel (dout j) := argLoop_frame inC 0 w w1 [] _ (fun k _ hk => (hin k (by omega)).1) e1 _
      (fun k _ hk e => h2 (e ▸ hall k (by omega)))
    rw [e1, Res.bind_ok]
    rw [argLoop_bad (ds := dout) outC 0 w1 _ (by rw [b1.kind]; exact ha) (fun k _ hk => (hout k (by omega)).1)
      ⟨j, Nat.zero_le _, by omega, b1.unusable h2 hf⟩, Res.bind_abort]

/-- A data object that is bound to a virtual accelerator of another device is not accepted: the call aborts (documented in
/repo/src/core/arax_data_private.h:21). -/
theorem C46_other_device_aborts (w : World) (a p : Nat) (host : Option (List Nat)) (hs d o : Nat) {outC : Nat} (output : Nat → Ptr)
    (hd : w.accel d = some o) (hoa : o ≠ a) (hph : w.phys o ≠ w.phys a) :
    issue true w (some a) (some p) host hs 1 (fun _ => some d) 0 output = .abort := by
  unfold issue
  split
  · have hm : migrate w d a = .abort := by
      unfold migrate
      rw [hd, if_neg (by simpa using hoa)]
      simp only [hph, if_false]
      split <;> rfl
    have h1 : iters 1 = 1 := rfl
    have h2 : ¬ (toInt 1 + toInt 0 < -2 ^ 31 ∨ 2 ^ 31 ≤ toInt 1 + toInt 0) := by decide
    simp only [h2, if_false, if_true, h1, argLoop, hm, Res.bind_abort]
  · rfl

/-- Counts that do not fit an `int` are outside `C46_accepts`: with 2^32 inputs every one of them is checked, and then the task is issued with no
argument at all. -/
theorem C46_count_truncated (w : World) (a p d : Nat) (bs : List Nat) (ha : w.kind a = .virtAccel) (hd : w.kind d = .data) (output : Nat → Ptr) :
    issue true w (some a) (some p) (some bs) bs.length (2 ^ 32) (fun _ => some d) 0 output =
      .ok (w, { accel := a, proc := p, io := [], host := bs }) := by
  have hc : checkSemantics w (2 ^ 32) (fun _ => some d) 0 output = true :=
    (check_iff w _ output (by decide)).mpr ⟨fun _ _ => ⟨d, rfl, hd⟩, fun j hj => absurd hj (Nat.not_lt_zero _)⟩
  unfold issue
  rw [if_pos hc]
  have h1 : iters (2 ^ 32) = 0 := by decide
  have h0 : iters 0 = 0 := by decide
  have h2 : ¬ (toInt (2 ^ 32) + toInt 0 < -2 ^ 31 ∨ 2 ^ 31 ≤ toInt (2 ^ 32) + toInt 0) := by decide
  simp only [h2, if_false, if_true, h1, h0, argLoop, Res.bind_ok, ha, List.take_length, hostBytes]

/-- A count that is negative as an `int` makes the size of the task wrap around to nearly 2^64 bytes; the allocation fails, and the program aborts after it has looked at every argument. -/
theorem C46_count_negative (w : World) (a p d n : Nat) (bs : List Nat) (hd : w.kind d = .data) (output : Nat → Ptr) (h1 : 2 ^ 31 ≤ n) (h2 : n < 2 ^ 32) :
    issue false w (some a) (some p) (some bs) bs.length n (fun _ => some d) 0 output = .abort := by
  have hc : checkSemantics w n (fun _ => some d) 0 output = true :=
    (check_iff w _ output (by omega)).mpr ⟨fun _ _ => ⟨d, rfl, hd⟩, fun j hj => absurd hj (Nat.not_lt_zero _)⟩
  have t1 : toInt n = (n : Int) - 2 ^ 32 := by
    unfold toInt
    rw [Nat.mod_eq_of_lt h2, if_neg (by omega)]
  have t0 : toInt 0 = 0 := by decide
  unfold issue
  rw [if_pos hc]
  simp only [t1, t0]
  rw [if_neg (by omega)]
  rfl

/-- A small world: 0 is a physical accelerator, 1 and 2 are virtual ones on it, 3 and 4 are data objects (4 bound to 2), 5 is a procedure. -/
def demo : World :=
  { kind := fun x => match x with
      | 0 => .physAccel
      | 1 => .virtAccel
      | 2 => .virtAccel
      | 3 => .data
      | 4 => .data
      | _ => .proc
    accel := fun x => if x = 4 then some 2 else none, remote := fun _ => false, phys := fun _ => some 0 }

/-- Non-vacuity of `C46_accepts`: a fresh buffer, the same buffer again, and one bound to a sibling accelerator. -/
example : (∀ i, i < 2 → (fun _ => some 3 : Nat → Ptr) i = some 3 ∧ demo.kind 3 = .data ∧ Usable demo 1 3) ∧
    (∀ j, j < 1 → (fun _ => some 4 : Nat → Ptr) j = some 4 ∧ demo.kind 4 = .data ∧ Usable demo 1 4) := by
  refine ⟨fun i _ => ⟨rfl, rfl, Or.inl ⟨rfl, rfl⟩⟩, fun j _ => ⟨rfl, rfl, Or.inr (Or.inr ⟨2, rfl, rfl, rfl⟩)⟩⟩

/-- Non-vacuity of `C46_unusable_aborts`: the second output is bound to the physical accelerator itself. -/
example : (∀ j, j < 2 → (fun j => some (j + 3) : Nat → Ptr) j = some (j + 3) ∧ ({ demo with accel := fun _ => some 0 } : World).kind (j + 3) = .data) ∧
    ¬ Usable { demo with accel := fun _ => some 0 } 1 4 := by
  constructor
  · intro j hj
    have : j = 0 ∨ j = 1 := by omega
    rcases this with rfl | rfl <;> exact ⟨rfl, rfl⟩
  · rintro (⟨h, _⟩ | h | ⟨o, h, hk, _⟩)
    · cases h
    · cases h
    · injection h with h; subst h; cases hk

/-- Non-vacuity of `C46_rejects`: the third input is a procedure. -/
example : ∃ i, i < 3 ∧ ¬ Good demo ((fun i => some (i + 3) : Nat → Ptr) i) := by
  refine ⟨2, by decide, ?_⟩
  rintro ⟨d, hd, hk⟩
  injection hd with hd
  subst hd
  simp [demo] at hk

end Arax.Args
