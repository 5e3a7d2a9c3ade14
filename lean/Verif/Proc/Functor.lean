import Verif.Outcome
/-!
# C30: the functor table of a procedure (`/repo/src/core/arax_proc.c`); C31: accelerator type names (`/repo/src/core/arax_accel_types.c`)

Functor pointers are numbers, `none` being NULL. A type is any value of the (unsigned) enumeration.
-/
namespace Arax.Functor

/-- /repo/include/arax_types.h:84-93: `ARAX_ACCEL_TYPES`. -/
def nTypes : Nat := 9

/-- /repo/src/core/arax_proc.h:15-21: `canrun` and `functors[ARAX_ACCEL_TYPES]`. -/
structure Proc where
  canrun : BitVec 64
  functors : Vector (Option Nat) 9

/-- /repo/src/core/arax_object.c:120-121: the structure is zeroed when registered. -/
def init : Proc := { canrun := 0, functors := Vector.replicate 9 none }

/-- /repo/src/core/arax_proc.c:16-20 `arax_proc_get_functor` (validity: arax_accel_types.c:22-25). -/
def getFunctor (p : Proc) (type : Nat) : Res (Option Nat) :=
  if h : type < 9 then .ok p.functors[type] else .abort

/-- /repo/src/core/arax_proc.c:22-31 `arax_proc_set_functor`. -/
def setFunctor (p : Proc) (type : Nat) (fn : Option Nat) : Res (Proc × Option Nat) := do
  let ret ← getFunctor p type
  if h : type < 9 then
    .ok ({ canrun := p.canrun ||| (1#64 <<< type), functors := p.functors.set type fn }, ret)
  else .ub

/-- /repo/src/core/arax_proc.c:33-39 `arax_proc_can_run_at`. -/
def canRunAt (p : Proc) (type : Nat) : Res Bool :=
  if ¬ type < 9 then .abort
  else if type = 0 then .abort
  else .ok (p.canrun &&& (1#64 <<< type) != 0#64)

/-! ### Specification: the history of `arax_proc_set_functor` calls on one procedure -/

/-- The functor most recently set for `t` in the history (oldest first). -/
def lastSet : List (Nat × Option Nat) → Nat → Option Nat
  | [], _ => none
  | (u, f) :: r, t => if (r.map (·.1)).contains t then lastSet r t else if u = t then f else none

/-- Running a history; the list of returned values, oldest first. -/
def runSets (p : Proc) : List (Nat × Option Nat) → Res (Proc × List (Option Nat))
  | [] => .ok (p, [])
  | (t, f) :: r => do
    let (p, ret) ← setFunctor p t f
    let (p, rets) ← runSets p r
    .ok (p, ret :: rets)

theorem bit_or (c : BitVec 64) (u t : Nat) (hu : u < 64) (ht : t < 64) : (c ||| (1#64 <<< u)).getLsbD t = (c.getLsbD t || decide (u = t)) := by
  simp only [BitVec.getLsbD_or, BitVec.getLsbD_shiftLeft, BitVec.getLsbD_one]
  congr 1
  by_cases h : u = t
  · subst h; simp [ht]
  · simp [h, ht]; omega

theorem bit_test (c : BitVec 64) (t : Nat) (ht : t < 64) : (c &&& (1#64 <<< t) != 0#64) = c.getLsbD t := by
  by_cases h : c.getLsbD t
  · rw [h]
    simp only [bne_iff_ne, ne_eq]
    intro e
    have : (c &&& (1#64 <<< t)).getLsbD t = false := by rw [e]; simp
    rw [BitVec.getLsbD_and, BitVec.getLsbD_shiftLeft, h] at this
    simp [ht] at this
  · have e : c &&& (1#64 <<< t) = 0#64 := by
      apply BitVec.eq_of_getLsbD_eq
      intro i hi
      simp only [BitVec.getLsbD_and, BitVec.getLsbD_shiftLeft, BitVec.getLsbD_one, BitVec.getLsbD_zero]
      by_cases hit : i = t
      · subst hit; simp [h]
      · by_cases hlt : i < t
        · simp [hlt]
        · simp; intro _ _ _; omega
    rw [e]; simp [h]

/-- A procedure agrees with a history. -/
def Agrees (p : Proc) (h : List (Nat × Option Nat)) : Prop :=
  ∀ t, t < 9 → getFunctor p t = .ok (lastSet h t) ∧ p.canrun.getLsbD t = (h.map (·.1)).contains t

theorem contains_append (h : List (Nat × Option Nat)) (u : Nat) (f : Option Nat) (t : Nat) :
    ((h ++ [(u, f)]).map (·.1)).contains t = ((h.map (·.1)).contains t || decide (u = t)) := by
  rw [List.map_append, List.contains_eq_mem, List.contains_eq_mem, ← Bool.decide_or]
  apply decide_eq_decide.mpr
  rw [List.mem_append]
  constructor
  · rintro (h | h)
    · exact Or.inl h
    · exact Or.inr (by simpa [eq_comm] using h)
  · rintro (h | h)
    · exact Or.inl h
    · exact Or.inr (by simp [h])

theorem lastSet_append (h : List (Nat × Option Nat)) (u : Nat) (f : Option Nat) (t : Nat) :
    lastSet (h ++ [(u, f)]) t = if u = t then f else lastSet h t := by
  induction h with
  | nil => simp [lastSet]
  | cons a r ih =>
    obtain ⟨v, g⟩ := a
    simp only [List.cons_append, lastSet, ih]
    rw [contains_append]
    by_cases e : u = t
    · simp [e]
    · rw [decide_eq_false e, Bool.or_false, if_neg e, if_neg e]

theorem agrees_set {p : Proc} {h : List (Nat × Option Nat)} (ha : Agrees p h) {u : Nat} (hu : u < 9) (f : Option Nat) :
    ∃ p', setFunctor p u f = .ok (p', lastSet h u) ∧ Agrees p' (h ++ [(u, f)]) := by
  refine ⟨{ canrun := p.canrun ||| (1#64 <<< u), functors := p.functors.set u f }, ?_, ?_⟩
  · simp only [setFunctor, (ha u hu).1, Res.bind_ok, hu, dif_pos]
  · intro t ht
    refine ⟨?_, ?_⟩
    · rw [lastSet_append]
      have := (ha t ht).1
      simp only [getFunctor, ht, dif_pos, Res.ok.injEq] at this ⊢
      rw [Vector.getElem_set, this]
    · show (p.canrun ||| (1#64 <<< u)).getLsbD t = _
      rw [bit_or _ _ _ (by omega) (by omega), (ha t ht).2, contains_append]

theorem agrees_init : Agrees init [] := by
  intro t ht
  refine ⟨?_, by simp [init]⟩
  simp [getFunctor, ht, init, lastSet]

/-- What the calls of a history return: each the functor set before it for its type. -/
def previous (before : List (Nat × Option Nat)) : List (Nat × Option Nat) → List (Option Nat)
  | [] => []
  | (t, f) :: r => lastSet before t :: previous (before ++ [(t, f)]) r

theorem runSets_spec : ∀ (l before : List (Nat × Option Nat)) (p : Proc), Agrees p before → (∀ c ∈ l, c.1 < 9) →
    ∃ p', runSets p l = .ok (p', previous before l) ∧ Agrees p' (before ++ l)
  | [], before, p, ha, _ => ⟨p, rfl, by simpa using ha⟩
  | (t, f) :: r, before, p, ha, hl => by
    obtain ⟨p1, e1, a1⟩ := agrees_set ha (hl (t, f) (by simp)) f
    obtain ⟨p2, e2, a2⟩ := runSets_spec r (before ++ [(t, f)]) p1 a1 (fun c hc => hl c (by simp [hc]))
    refine ⟨p2, ?_, by simpa using a2⟩
    simp only [runSets, e1, Res.bind_ok, e2, previous]

/-- **C30.** After any history of `arax_proc_set_functor` calls for valid types on a new procedure: every call returned the functor set before it for that type;
`arax_proc_get_functor` returns the most recent one (NULL if none); and `arax_proc_can_run_at` tells exactly the types that have been set. -/
theorem C30_functor_table (l : List (Nat × Option Nat)) (hl : ∀ c ∈ l, c.1 < nTypes) :
    ∃ p, runSets init l = .ok (p, previous [] l) ∧ (∀ t, t < nTypes → getFunctor p t = .ok (lastSet l t)) ∧
      (∀ t, t ≠ 0 → t < nTypes → canRunAt p t = .ok ((l.map (·.1)).contains t)) := by
  obtain ⟨p, e, ha⟩ := runSets_spec l [] init agrees_init hl
  refine ⟨p, e, fun t ht => (ha t ht).1, ?_⟩
  intro t h0 ht
  have ht : t < 9 := ht
  simp only [canRunAt, ht, not_true_eq_false, if_false, h0]
  rw [bit_test _ _ (by omega), (ha t ht).2]
  rfl

/-- **C30** (invalid types). Every call with an invalid type aborts, and so does `arax_proc_can_run_at(ANY)`. -/
theorem C30_invalid_aborts (p : Proc) (t : Nat) (f : Option Nat) (h : nTypes ≤ t) :
    getFunctor p t = .abort ∧ setFunctor p t f = .abort ∧ canRunAt p t = .abort ∧ canRunAt p 0 = .abort := by
  have h : ¬ t < 9 := by unfold nTypes at h; omega
  refine ⟨by simp [getFunctor, h], by simp [setFunctor, getFunctor, h], by simp [canRunAt, h], by simp [canRunAt]⟩

/-- **C30** (NULL functors). Setting NULL counts as setting: the procedure then claims to run on a type for which it has no functor. -/
theorem C30_null_functor_can_run : ∃ p r, runSets init [(3, none)] = .ok (p, r) ∧ canRunAt p 3 = .ok true ∧ getFunctor p 3 = .ok none := by
  obtain ⟨p, e, h1, h2⟩ := C30_functor_table [(3, none)] (by decide)
  exact ⟨p, _, e, h2 3 (by decide) (by decide), h1 3 (by decide)⟩

/-- Non-vacuity: three calls, two of them for the same type. -/
example : lastSet [(3, some 7), (1, some 8), (3, some 9)] 3 = some 9 ∧ lastSet [(3, some 7), (1, some 8), (3, some 9)] 2 = none ∧
    previous [] [(3, some 7), (1, some 8), (3, some 9)] = [none, none, some 7] := by decide

/-! ### C31 -/

/-- /repo/src/core/arax_accel_types.c:10-20 `types_map`, indexed by type. -/
def typesMap : List (List Char) :=
  ["any".toList, "gpu".toList, "gpu_soft".toList, "cpu".toList, "sda".toList, "nano_arm".toList, "nano_core".toList, "Open_CL".toList, "HIP".toList]

/-- `strcasecmp` in the C locale (`Char.toLower` changes A-Z only). (C library.) -/
def sameCI (a b : List Char) : Bool := a.map Char.toLower == b.map Char.toLower

/-- /repo/src/core/arax_accel_types.c:27-33 `arax_accel_type_to_str`; NULL is `none`. -/
def toStr (t : Nat) : Option (List Char) := if h : t < 9 then some (typesMap[t]'h) else none

/-- The loop of arax_accel_types.c:42-47 from `cnt`. -/
def scan (s : List Char) : List (List Char) → Nat → Nat
  | [], cnt => cnt
  | x :: r, cnt => if sameCI s x then cnt else scan s r (cnt + 1)

/-- /repo/src/core/arax_accel_types.c:35-49 `arax_accel_type_from_str`. -/
def fromStr : Option (List Char) → Nat
  | none => 9
  | some s => scan s typesMap 0

theorem scan_spec (s : List Char) : ∀ (l : List (List Char)) (k : Nat),
    (∃ i, ∃ h : i < l.length, scan s l k = k + i ∧ sameCI s l[i] = true ∧ ∀ j, ∀ hj : j < l.length, j < i → sameCI s l[j] = false) ∨
    (scan s l k = k + l.length ∧ ∀ x ∈ l, sameCI s x = false)
  | [], k => Or.inr ⟨rfl, by simp⟩
  | x :: r, k => by
    simp only [scan]
    by_cases h : sameCI s x
    · left; exact ⟨0, by simp, by simp [h], by simpa using h, by omega⟩
    · have h' : sameCI s x = false := by simpa using h
      rcases scan_spec s r (k + 1) with ⟨i, hi, e, hs, hj⟩ | ⟨e, hn⟩
      · left
        refine ⟨i + 1, by simp; omega, by simp only [h', Bool.false_eq_true, if_false, e]; omega, by simpa using hs, ?_⟩
        intro j hj1 hj2
        cases j with
        | zero => simpa using h'
        | succ j => simpa using hj j (by simp at hj1; omega) (by omega)
      · right
        refine ⟨by simp only [h', Bool.false_eq_true, if_false, e]; simp; omega, ?_⟩
        intro y hy
        rcases List.mem_cons.mp hy with rfl | hy
        · exact h'
        · exact hn y hy

/-- The names differ even ignoring case. -/
theorem names_distinct : ∀ i, ∀ hi : i < 9, ∀ j, ∀ hj : j < 9, sameCI (typesMap[i]'hi) (typesMap[j]'hj) = true → i = j := by decide +kernel

/-- **C31.** For every string: the result is the type `t` exactly when the string equals the name of `t` ignoring case, and `ARAX_ACCEL_TYPES` exactly when it
equals no name. -/
theorem C31_from_str (s : List Char) :
    (∀ t name, toStr t = some name → (fromStr (some s) = t ↔ s.map Char.toLower = name.map Char.toLower)) ∧
    (fromStr (some s) = nTypes ↔ ∀ t name, toStr t = some name → s.map Char.toLower ≠ name.map Char.toLower) ∧ fromStr (some s) ≤ nTypes := by
  have eqv : ∀ x, sameCI s x = true ↔ s.map Char.toLower = x.map Char.toLower := by intro x; simp [sameCI]
  have trans : ∀ x y, sameCI s x = true → sameCI s y = true → sameCI x y = true := by
    intro x y h1 h2
    rw [eqv] at h1 h2
    simp [sameCI, ← h1, ← h2]
  have hs := scan_spec s typesMap 0
  have hlen : typesMap.length = 9 := rfl
  simp only [fromStr, nTypes]
  rcases hs with ⟨i, hi, e, h1, -⟩ | ⟨e, hn⟩
  · have hi9 : i < 9 := hi
    rw [e]
    refine ⟨?_, ?_, by omega⟩
    · intro t name ht
      simp only [toStr] at ht
      split at ht
      · next htl =>
        simp only [Option.some.injEq] at ht
        subst ht
        rw [← eqv]
        constructor
        · intro h; have : i = t := by omega
          subst this; exact h1
        · intro h; have := names_distinct i hi9 t htl (trans _ _ h1 h); omega
      · cases ht
    · constructor
      · intro h; omega
      · intro h
        exact absurd ((eqv _).mp h1) (h i _ (by simp only [toStr, hi9, dif_pos]; rfl))
  · rw [e, hlen]
    refine ⟨?_, ?_, by omega⟩
    · intro t name ht
      simp only [toStr] at ht
      split at ht
      · next htl =>
        simp only [Option.some.injEq] at ht
        subst ht
        constructor
        · intro h; omega
        · intro h
          have := hn _ (List.getElem_mem (l := typesMap) htl)
          rw [(eqv _).mpr h] at this; cases this
      · cases ht
    · simp only [Nat.zero_add, true_iff]
      intro t name ht h
      simp only [toStr] at ht
      split at ht
      · next htl =>
        simp only [Option.some.injEq] at ht
        subst ht
        have := hn _ (List.getElem_mem (l := typesMap) htl)
        rw [(eqv _).mpr h] at this; cases this
      · cases ht

/-- **C31** (round trip). `arax_accel_type_to_str` gives a name for exactly the valid types, and `arax_accel_type_from_str` inverts it; NULL is not a type. -/
theorem C31_round_trip (t : Nat) : (toStr t = none ↔ nTypes ≤ t) ∧ (∀ name, toStr t = some name → fromStr (some name) = t) ∧ fromStr none = nTypes := by
  refine ⟨?_, ?_, rfl⟩
  · simp only [toStr, nTypes]
    split
    · simp; omega
    · simp; omega
  · intro name h
    exact ((C31_from_str name).1 t name h).mpr rfl

/-- Non-vacuity. -/
example : fromStr (some "OpEn_cl".toList) = 7 ∧ fromStr (some "hip".toList) = 8 ∧ fromStr (some "gpu_".toList) = 9 ∧ fromStr (some []) = 9 := by decide +kernel

end Arax.Functor
