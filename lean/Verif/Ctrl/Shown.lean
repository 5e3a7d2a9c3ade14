import Verif.Ctrl.CpuSet
/-!
# C97: the configuration the controller shows is the one it uses

*Property.* A set of cores after any `set` and `clear` calls has exactly the cores whose last call was a `set` (a call for a core that does not exist is refused and changes nothing). The printed form
of a set of cores, used as `cpu_core`, is read as the same set. Two configurations that are printed alike have the same paths, the same accelerators with the same types, names and cores, and the
same groups.
-/
namespace Arax.Ctrl.Shown

open Arax.Ctrl.Cpu

/-- Texts. `std::string`. -/
abbrev Str := List Char

/-! ## Model -/

/-- `CpuSet::clear` (/repo/controller/src/Core/Config.cpp:184-193, with `clearAll` :171). `none` is the exception. -/
def clearCore (hw : Nat) (set : Nat → Bool) (core : Int) : Option (Nat → Bool) :=
  if 0 ≤ core then
    if (hw : Int) ≤ core then none else some (fun k => if k = core.toNat then false else set k)
  else some (fun _ => false)

/-- A call of `CpuSet::set` or `CpuSet::clear`. (/repo/controller/src/Core/Config.cpp:173, :184.) -/
inductive Op where
  | set (core : Int)
  | clear (core : Int)
  deriving Repr, DecidableEq

/-- One call; a refused one leaves the set. (/repo/controller/src/Core/Config.cpp:173-193.) -/
def op (hw : Nat) (s : Nat → Bool) : Op → (Nat → Bool)
  | .set c => (setCore hw s c).getD s
  | .clear c => (clearCore hw s c).getD s

/-- Calls on a new set. (`CpuSet::CpuSet`, /repo/controller/src/Core/Config.cpp:160.) -/
def ops (hw : Nat) (l : List Op) : Nat → Bool := l.foldl (op hw) (fun _ => false)

/-- `operator <<` of `Formater` (/repo/controller/include/Formater.h:21-35). -/
def formater (pre aft fin : Str) (items : List Str) : Str :=
  pre ++ (items.foldl (fun (acc : Str × Str) i => (acc.1 ++ acc.2 ++ i, aft)) (([] : Str), ([] : Str))).1 ++ fin

/-- `operator << (ostream &, CpuSet &)` (/repo/controller/src/Core/Config.cpp:430-443). -/
def showCores (hw : Nat) (s : Nat → Bool) : Str := formater [] [','] [] (((List.range hw).filter s).map (fun (k : Nat) => Nat.toDigits 10 k))

/-- The printed part of `AccelConfig` (/repo/controller/src/Core/Config.h:37-54): `type` is the text of the type. -/
structure Accel where
  type : Str
  name : Str
  cores : Nat → Bool

/-- `operator << (ostream &, const AccelConfig *)` (/repo/controller/src/Core/Config.cpp:445-457). The affinity is copied (:447) before the pointer is tested (:449): `none`, undefined, for null. -/
def showAccel (hw : Nat) : Option Accel → Option Str
  | none => none
  | some a => some (a.type ++ ", ".toList ++ a.name ++ ", ".toList ++ showCores hw a.cores ++ ", \"".toList ++ "\"".toList)

/-- A group and the names of its accelerators in the order of the map. (/repo/controller/src/Core/Config.h:64-83.) -/
structure Group where
  name : Str
  accels : List Str

/-- `operator << (ostream &, const GroupConfig *)` (/repo/controller/src/Core/Config.cpp:459-470). -/
def showGroup (g : Group) : Str := g.name ++ ['{'] ++ (g.accels.foldl (fun (acc : Str × Str) i => (acc.1 ++ acc.2 ++ i, [','])) (([] : Str), ([] : Str))).1 ++ ['}']

/-- The printed part of `Config` (/repo/controller/src/Core/Config.h:92-113); accelerators and groups in the order of their maps. -/
structure Conf where
  paths : List Str
  accels : List Accel
  groups : List Group

/-- `operator << (ostream &, const Config &)` (/repo/controller/src/Core/Config.cpp:472-481), with `getAccelerators` (:316-330) and `getGroups` (:379-385), for a configuration without null entries. -/
def showConf (hw : Nat) (c : Conf) : Str :=
  "Repository Paths:".toList ++ ['\n'] ++ (formater ['\t'] ['\n', '\t'] ['\n'] c.paths ++ ['\n']) ++
  "Accelerators:".toList ++ ['\n'] ++ formater ['\t'] ['\n', '\t'] ['\n'] (c.accels.map (fun (a : Accel) => (showAccel hw (some a)).getD [])) ++
  "Groups:".toList ++ ['\n'] ++ formater ['\t'] ['\n', '\t'] ['\n'] (c.groups.map showGroup)

/-- The map of accelerators (/repo/controller/src/Core/Config.h:110), as an association list; null pointers are `none`. -/
abbrev AMap := List (Str × Option Accel)

/-- `Config::getAccelerator` (/repo/controller/src/Core/Config.cpp:311-314) of a configuration that is not `const`: `operator []` of the map inserts a null pointer under an unknown name. -/
def getAccelerator (m : AMap) (name : Str) : AMap × Option Accel :=
  match m.find? (fun (p : Str × Option Accel) => p.1 = name) with
  | some p => (m, p.2)
  | none => (m ++ [(name, none)], none)

/-! ## Specification -/

/-- The call says something about core `k`: `some true` it is in, `some false` it is out. -/
def says (hw k : Nat) : Op → Option Bool
  | .set c => if c < 0 ∧ k < hw ∨ c = k ∧ k < hw then some true else none
  | .clear c => if c < 0 ∨ c = k ∧ k < hw then some false else none

/-- What the last call that says something says; out if none does. -/
def last (hw k : Nat) (l : List Op) : Bool := ((l.reverse.findSome? (says hw k))).getD false

/-- Texts without characters that the printed form uses itself. -/
structure Plain (hw : Nat) (c : Conf) : Prop where
  paths : ∀ p ∈ c.paths, p ≠ [] ∧ '\n' ∉ p
  types : ∀ a ∈ c.accels, ',' ∉ a.type ∧ '\n' ∉ a.type
  names : ∀ a ∈ c.accels, '\n' ∉ a.name
  cores : ∀ a ∈ c.accels, ∀ k, a.cores k = true → k < hw
  groups : ∀ g ∈ c.groups, '\n' ∉ g.name ∧ '{' ∉ g.name
  members : ∀ g ∈ c.groups, ∀ n ∈ g.accels, n ≠ [] ∧ ',' ∉ n ∧ '\n' ∉ n

/-! ## Sets of cores -/

theorem op_says (hw k : Nat) (s : Nat → Bool) (o : Op) : op hw s o k = (says hw k o).getD (s k) := by
  cases o with
  | set c =>
    simp only [op, says, setCore]
    by_cases h0 : 0 ≤ c
    · rw [if_pos h0]
      by_cases h1 : (hw : Int) ≤ c
      · rw [if_pos h1, if_neg (by omega)]; rfl
      · rw [if_neg h1]
        simp only [Option.getD_some]
        by_cases hk : k = c.toNat
        · rw [if_pos hk, if_pos (by omega)]; rfl
        · rw [if_neg hk, if_neg (by omega)]; rfl
    · rw [if_neg h0]
      simp only [Option.getD_some]
      by_cases hk : k < hw
      · rw [if_pos hk, if_pos (by omega)]; rfl
      · rw [if_neg hk, if_neg (by omega)]; rfl
  | clear c =>
    simp only [op, says, clearCore]
    by_cases h0 : 0 ≤ c
    · rw [if_pos h0]
      by_cases h1 : (hw : Int) ≤ c
      · rw [if_pos h1, if_neg (by omega)]; rfl
      · rw [if_neg h1]
        simp only [Option.getD_some]
        by_cases hk : k = c.toNat
        · rw [if_pos hk, if_pos (by omega)]; rfl
        · rw [if_neg hk, if_neg (by omega)]; rfl
    · rw [if_neg h0, if_pos (by omega)]; rfl

theorem foldl_says (hw k : Nat) (l : List Op) : ∀ s : Nat → Bool, l.foldl (op hw) s k = (l.reverse.findSome? (says hw k)).getD (s k) := by
  induction l with
  | nil => intro s; rfl
  | cons o l ih =>
    intro s
    rw [List.foldl_cons, ih, List.reverse_cons, List.findSome?_append, op_says]
    cases l.reverse.findSome? (says hw k) with
    | some b => rfl
    | none => simp only [Option.getD_none, List.findSome?_cons, List.findSome?_nil, Option.none_or]; cases says hw k o <;> rfl

/-- **C97 (sets of cores).** After any sequence of calls, core `k` is in the set exactly if the last call about it put it in. -/
theorem C97_cores (hw : Nat) (l : List Op) (k : Nat) : ops hw l k = last hw k l := foldl_says hw k l _

/-- Non-vacuity: everything, but for core 1; then core 7, which does not exist. -/
example : (List.range 6).map (ops 4 [.set (-1), .clear 1, .set 7]) = [true, false, true, true, false, false] := by decide

/-! ## Printing and reading back -/

/-- The items with the separator between them. (No code of its own.) -/
def joined (aft : Str) : List Str → Str
  | [] => []
  | [i] => i
  | i :: j :: r => i ++ aft ++ joined aft (j :: r)

theorem foldl_joined (aft : Str) : ∀ (l : List Str) (acc : Str), (l.foldl (fun (acc : Str × Str) i => (acc.1 ++ acc.2 ++ i, aft)) (acc, aft)).1 = acc ++ (l.flatMap (fun (i : Str) => aft ++ i)) := by
  intro l
  induction l with
  | nil => intro acc; simp
  | cons i l ih => intro acc; rw [List.foldl_cons, ih]; simp

theorem flat_joined (aft : Str) : ∀ (l : List Str) (i : Str), i ++ l.flatMap (fun (i : Str) => aft ++ i) = joined aft (i :: l) := by
  intro l
  induction l with
  | nil => intro i; simp [joined]
  | cons j l ih => intro i; rw [joined, ← ih j]; simp

theorem foldl_eq_joined (aft : Str) (l : List Str) : (l.foldl (fun (acc : Str × Str) i => (acc.1 ++ acc.2 ++ i, aft)) (([] : Str), ([] : Str))).1 = joined aft l := by
  cases l with
  | nil => rfl
  | cons i l => rw [List.foldl_cons, foldl_joined, ← flat_joined]; simp

theorem formater_eq (pre aft fin : Str) (l : List Str) : formater pre aft fin l = pre ++ joined aft l ++ fin := by
  unfold formater; rw [foldl_eq_joined]

theorem joined_written : ∀ l : List Nat, joined [','] (l.map (fun (k : Nat) => Nat.toDigits 10 k)) = written (l.map (fun (k : Nat) => (k : Int))) := by
  intro l
  induction l with
  | nil => rfl
  | cons a l ih =>
    have hd : decimal (a : Int) = Nat.toDigits 10 a := by unfold decimal; rw [if_neg (by omega)]; simp
    cases l with
    | nil => simp [joined, written, hd]
    | cons b l =>
      simp only [List.map_cons] at ih ⊢
      rw [joined, written, ih, hd]; simp

theorem showCores_eq (hw : Nat) (s : Nat → Bool) : showCores hw s = written (((List.range hw).filter s).map (fun (k : Nat) => (k : Int))) := by
  unfold showCores; rw [formater_eq, joined_written]; simp

/-- **C97 (reading back).** For every machine and every set of its cores, the printed set is accepted as `cpu_core` and read as the same set. -/
theorem C97_read_back (hw : Nat) (hhw : hw ≤ 2147483648) (s : Nat → Bool) (hs : ∀ k, s k = true → k < hw) : parse hw (showCores hw s) = some s := by
  rw [showCores_eq]
  have := C59_affinity hw (((List.range hw).filter s).map (fun (k : Nat) => (k : Int))) (by
    intro c hc
    obtain ⟨k, hk, rfl⟩ := List.mem_map.1 hc
    have := List.mem_range.1 (List.mem_filter.1 hk).1
    omega)
  rw [if_neg (by
    rintro ⟨c, hc, h⟩
    obtain ⟨k, hk, rfl⟩ := List.mem_map.1 hc
    have := List.mem_range.1 (List.mem_filter.1 hk).1
    omega)] at this
  obtain ⟨s', e, h⟩ := this
  rw [e]
  congr 1
  funext k
  rw [Bool.eq_iff_iff, h k]
  constructor
  · rintro (h1 | ⟨-, c, hc, h0⟩)
    · obtain ⟨j, hj, e⟩ := List.mem_map.1 h1
      have : j = k := by omega
      exact this ▸ (List.mem_filter.1 hj).2
    · obtain ⟨j, -, e⟩ := List.mem_map.1 hc
      omega
  · intro hk
    exact .inl (List.mem_map.2 ⟨k, List.mem_filter.2 ⟨List.mem_range.2 (hs k hk), hk⟩, rfl⟩)

/-- Non-vacuity: cores 0, 2 and 11 of a machine with twelve. -/
example : showCores 12 (fun k => k == 0 || k == 2 || k == 11) = "0,2,11".toList := by decide +kernel

/-! ## The whole configuration -/

/-- Up to the first occurrence of a character the texts agree if the first parts lack it. -/
theorem first_inj {x : Char} : ∀ {a b r r' : Str}, x ∉ a → x ∉ b → a ++ x :: r = b ++ x :: r' → a = b ∧ r = r' := by
  intro a
  induction a with
  | nil =>
    intro b r r' _ hb e
    cases b with
    | nil => simpa using e
    | cons c b => simp only [List.nil_append, List.cons_append, List.cons.injEq] at e; exact absurd (by rw [e.1]; simp) hb
  | cons c a ih =>
    intro b r r' ha hb e
    cases b with
    | nil => simp only [List.nil_append, List.cons_append, List.cons.injEq] at e; exact absurd (by rw [e.1]; simp) ha
    | cons d b =>
      simp only [List.cons_append, List.cons.injEq] at e
      obtain ⟨h1, h2⟩ := ih (fun h => ha (by simp [h])) (fun h => hb (by simp [h])) e.2
      exact ⟨by rw [e.1, h1], h2⟩

/-- The same from the end. -/
theorem last_inj {x : Char} {a b r r' : Str} (hr : x ∉ r) (hr' : x ∉ r') (e : a ++ x :: r = b ++ x :: r') : a = b ∧ r = r' := by
  have := congrArg List.reverse e
  simp only [List.reverse_append, List.reverse_cons, List.append_assoc, List.singleton_append] at this
  obtain ⟨h1, h2⟩ := first_inj (by simpa using hr) (by simpa using hr') this
  exact ⟨by simpa using congrArg List.reverse h2, by simpa using congrArg List.reverse h1⟩

/-- Every item on a line of its own, behind a tab. (No code of its own.) -/
def lines (l : List Str) : Str := l.flatMap (fun (i : Str) => '\t' :: (i ++ ['\n']))

theorem block_lines : ∀ (l : List Str) (i : Str), ['\t'] ++ joined ['\n', '\t'] (i :: l) ++ ['\n'] = lines (i :: l) := by
  intro l
  induction l with
  | nil => intro i; simp [joined, lines]
  | cons j l ih =>
    intro i
    have := ih j
    rw [joined]
    simp only [lines, List.flatMap_cons] at this ⊢
    rw [← this]; simp

theorem formater_lines (l : List Str) : formater ['\t'] ['\n', '\t'] ['\n'] l = lines (if l = [] then [[]] else l) := by
  rw [formater_eq]
  cases l with
  | nil => rfl
  | cons i l => rw [if_neg (by simp), block_lines]

theorem lines_inj : ∀ {l m : List Str} {r r' : Str}, (∀ i ∈ l, '\n' ∉ i) → (∀ i ∈ m, '\n' ∉ i) → r.head? ≠ some '\t' → r'.head? ≠ some '\t' → lines l ++ r = lines m ++ r' → l = m ∧ r = r' := by
  intro l
  induction l with
  | nil =>
    intro m r r' _ _ hr _ e
    cases m with
    | nil => exact ⟨rfl, by simpa [lines] using e⟩
    | cons j m => simp only [lines, List.flatMap_nil, List.nil_append, List.flatMap_cons, List.cons_append] at e; rw [e] at hr; exact absurd rfl hr
  | cons i l ih =>
    intro m r r' hl hm hr hr' e
    cases m with
    | nil => simp only [lines, List.flatMap_nil, List.nil_append, List.flatMap_cons, List.cons_append] at e; rw [← e] at hr'; exact absurd rfl hr'
    | cons j m =>
      have e' : i ++ '\n' :: (lines l ++ r) = j ++ '\n' :: (lines m ++ r') := by
        simpa [lines] using e
      obtain ⟨h1, h2⟩ := first_inj (hl i (by simp)) (hm j (by simp)) e'
      obtain ⟨h3, h4⟩ := ih (fun x hx => hl x (by simp [hx])) (fun x hx => hm x (by simp [hx])) hr hr' h2
      exact ⟨by rw [h1, h3], h4⟩

/-- A block of lines, no item of which is empty, determines its items. -/
theorem block_inj {l m : List Str} {r r' : Str} (hl : ∀ i ∈ l, i ≠ [] ∧ '\n' ∉ i) (hm : ∀ i ∈ m, i ≠ [] ∧ '\n' ∉ i) (hr : r.head? ≠ some '\t') (hr' : r'.head? ≠ some '\t')
    (e : formater ['\t'] ['\n', '\t'] ['\n'] l ++ r = formater ['\t'] ['\n', '\t'] ['\n'] m ++ r') : l = m ∧ r = r' := by
  rw [formater_lines, formater_lines] at e
  have hn : ∀ k : List Str, (∀ i ∈ k, i ≠ [] ∧ '\n' ∉ i) → ∀ i ∈ (if k = [] then [[]] else k), '\n' ∉ i := by
    intro k hk i hi
    by_cases h : k = []
    · rw [if_pos h, List.mem_singleton] at hi; rw [hi]; simp
    · rw [if_neg h] at hi; exact (hk i hi).2
  obtain ⟨h1, h2⟩ := lines_inj (hn l hl) (hn m hm) hr hr' e
  refine ⟨?_, h2⟩
  by_cases hl0 : l = [] <;> by_cases hm0 : m = []
  · rw [hl0, hm0]
  · rw [if_pos hl0, if_neg hm0] at h1; exact absurd rfl (hm [] (by rw [← h1]; simp)).1
  · rw [if_neg hl0, if_pos hm0] at h1; exact absurd rfl (hl [] (by rw [h1]; simp)).1
  · rwa [if_neg hl0, if_neg hm0] at h1

theorem showCores_chars (hw : Nat) (s : Nat → Bool) : ∀ x ∈ showCores hw s, x ≠ ' ' ∧ x ≠ '\n' := by
  intro x hx
  rw [showCores_eq] at hx
  have := written_chars _ x hx
  constructor <;> (intro e; subst e; revert this; decide)

theorem accel_inj {hw : Nat} (hhw : hw ≤ 2147483648) {a b : Accel} (ha : ',' ∉ a.type) (hb : ',' ∉ b.type) (ca : ∀ k, a.cores k = true → k < hw) (cb : ∀ k, b.cores k = true → k < hw)
    (e : showAccel hw (some a) = showAccel hw (some b)) : a = b := by
  have e := Option.some.inj e
  have e1 : a.type ++ ',' :: (' ' :: (a.name ++ ", ".toList ++ showCores hw a.cores ++ ", \"\"".toList)) = b.type ++ ',' :: (' ' :: (b.name ++ ", ".toList ++ showCores hw b.cores ++ ", \"\"".toList)) := by
    simpa using e
  obtain ⟨h1, h2⟩ := first_inj ha hb e1
  rw [List.cons.injEq] at h2
  have h3 := List.append_cancel_right h2.2
  have h4 : (a.name ++ [',']) ++ ' ' :: showCores hw a.cores = (b.name ++ [',']) ++ ' ' :: showCores hw b.cores := by simpa using h3
  obtain ⟨h5, h6⟩ := last_inj (fun h => (showCores_chars hw _ _ h).1 rfl) (fun h => (showCores_chars hw _ _ h).1 rfl) h4
  have h7 : a.name = b.name := List.append_cancel_right h5
  have h8 := C97_read_back hw hhw a.cores ca
  rw [h6, C97_read_back hw hhw b.cores cb] at h8
  cases a; cases b; simp_all

theorem joined_inj : ∀ {l m : List Str}, (∀ i ∈ l, i ≠ [] ∧ ',' ∉ i) → (∀ i ∈ m, i ≠ [] ∧ ',' ∉ i) → joined [','] l = joined [','] m → l = m := by
  intro l
  induction l with
  | nil =>
    intro m _ hm e
    cases m with
    | nil => rfl
    | cons j m =>
      have h := (hm j (by simp)).1
      rw [← flat_joined] at e
      simp only [joined] at e
      exact absurd (List.append_eq_nil_iff.1 e.symm).1 h
  | cons i l ih =>
    intro m hl hm e
    cases m with
    | nil =>
      have h := (hl i (by simp)).1
      rw [← flat_joined] at e
      simp only [joined] at e
      exact absurd (List.append_eq_nil_iff.1 e).1 h
    | cons j m =>
      have hi := (hl i (by simp)).2
      have hj := (hm j (by simp)).2
      cases l with
      | nil =>
        cases m with
        | nil => simpa [joined] using e
        | cons k m => simp only [joined] at e; exact absurd (by rw [e]; simp) hi
      | cons i' l =>
        cases m with
        | nil => simp only [joined] at e; exact absurd (by rw [← e]; simp) hj
        | cons j' m =>
          rw [joined, joined] at e
          obtain ⟨h1, h2⟩ := first_inj hi hj (by simpa using e)
          rw [h1, ih (fun x hx => hl x (List.mem_cons_of_mem _ hx)) (fun x hx => hm x (List.mem_cons_of_mem _ hx)) h2]

theorem group_inj {g h : Group} (hg : '{' ∉ g.name) (hh : '{' ∉ h.name) (mg : ∀ n ∈ g.accels, n ≠ [] ∧ ',' ∉ n) (mh : ∀ n ∈ h.accels, n ≠ [] ∧ ',' ∉ n) (e : showGroup g = showGroup h) : g = h := by
  unfold showGroup at e
  rw [foldl_eq_joined, foldl_eq_joined] at e
  obtain ⟨h1, h2⟩ := first_inj hg hh (by simpa using e)
  have h3 := joined_inj mg mh (List.append_cancel_right h2)
  cases g; cases h; simp_all

theorem map_inj_on {α β : Type} (f : α → β) : ∀ {l m : List α}, (∀ x ∈ l, ∀ y ∈ m, f x = f y → x = y) → l.map f = m.map f → l = m := by
  intro l
  induction l with
  | nil => intro m _ e; cases m with
    | nil => rfl
    | cons _ _ => simp at e
  | cons x l ih => intro m h e; cases m with
    | nil => simp at e
    | cons y m =>
      simp only [List.map_cons, List.cons.injEq] at e
      rw [h x (by simp) y (by simp) e.1, ih (fun a ha b hb => h a (by simp [ha]) b (by simp [hb])) e.2]

theorem joined_chars (aft : Str) (x : Char) (hx : x ∉ aft) : ∀ l : List Str, (∀ i ∈ l, x ∉ i) → x ∉ joined aft l := by
  intro l
  induction l with
  | nil => intro _; simp [joined]
  | cons i l ih =>
    intro h
    cases l with
    | nil => simpa [joined] using h
    | cons j l =>
      rw [joined]
      have := ih (fun y hy => h y (List.mem_cons_of_mem _ hy))
      simp [h i (by simp), hx, this]

theorem accel_line {hw : Nat} {a : Accel} (ht : '\n' ∉ a.type) (hn : '\n' ∉ a.name) : (showAccel hw (some a)).getD [] ≠ [] ∧ '\n' ∉ (showAccel hw (some a)).getD [] := by
  unfold showAccel
  rw [Option.getD_some]
  constructor
  · simp
  · have : '\n' ∉ showCores hw a.cores := fun h => (showCores_chars hw _ _ h).2 rfl
    simp [ht, hn, this]

theorem group_line {g : Group} (hg : '\n' ∉ g.name) (hm : ∀ n ∈ g.accels, '\n' ∉ n) : showGroup g ≠ [] ∧ '\n' ∉ showGroup g := by
  unfold showGroup
  rw [foldl_eq_joined]
  have := joined_chars [','] '\n' (by decide) g.accels hm
  constructor
  · simp
  · simp [hg, this]

/-- **C97 (the whole configuration).** Two configurations with plain texts that are printed alike are the same. -/
theorem C97_unambiguous_partial (hw : Nat) (hhw : hw ≤ 2147483648) (c d : Conf) (hc : Plain hw c) (hd : Plain hw d) (e : showConf hw c = showConf hw d) : c = d := by
  unfold showConf at e
  simp only [List.append_assoc] at e
  replace e := List.append_cancel_left (List.append_cancel_left e)
  obtain ⟨h1, e⟩ := block_inj hc.paths hd.paths (by simp) (by simp) e
  replace e := List.append_cancel_left (List.append_cancel_left (List.append_cancel_left e))
  have la : ∀ c : Conf, Plain hw c → ∀ i ∈ c.accels.map (fun (a : Accel) => (showAccel hw (some a)).getD []), i ≠ [] ∧ '\n' ∉ i := by
    intro c hc i hi
    obtain ⟨a, ha, rfl⟩ := List.mem_map.1 hi
    exact accel_line (hc.types a ha).2 (hc.names a ha)
  have lg : ∀ c : Conf, Plain hw c → ∀ i ∈ c.groups.map showGroup, i ≠ [] ∧ '\n' ∉ i := by
    intro c hc i hi
    obtain ⟨g, hg, rfl⟩ := List.mem_map.1 hi
    exact group_line (hc.groups g hg).1 (fun n hn => (hc.members g hg n hn).2.2)
  obtain ⟨h2, e⟩ := block_inj (la c hc) (la d hd) (by simp) (by simp) e
  replace e := List.append_cancel_left (List.append_cancel_left e)
  obtain ⟨h3, -⟩ := block_inj (r := []) (r' := []) (lg c hc) (lg d hd) (by simp) (by simp) (by simpa using e)
  have h4 : c.accels = d.accels := map_inj_on _ (fun a ha b hb e => accel_inj hhw (hc.types a ha).1 (hd.types b hb).1 (hc.cores a ha) (hd.cores b hb) (congrArg some e)) h2
  have h5 : c.groups = d.groups := map_inj_on _ (fun a ha b hb e => group_inj (hc.groups a ha).2 (hd.groups b hb).2 (fun n hn => ⟨(hc.members a ha n hn).1, (hc.members a ha n hn).2.1⟩)
    (fun n hn => ⟨(hd.members b hb n hn).1, (hd.members b hb n hn).2.1⟩) e) h3
  cases c; cases d; simp_all

/-- A configuration with two accelerators in one group. (No code of its own.) -/
def demo : Conf := ⟨["/opt/lib".toList], [⟨"GPU".toList, "g0".toList, fun k => k == 1⟩, ⟨"CPU".toList, "c0".toList, fun k => decide (k < 4)⟩], [⟨"all".toList, ["c0".toList, "g0".toList]⟩]⟩

/-- Non-vacuity: the configuration is plain, and what is printed. -/
example : showConf 4 demo = "Repository Paths:\n\t/opt/lib\n\nAccelerators:\n\tGPU, g0, 1, \"\"\n\tCPU, c0, 0,1,2,3, \"\"\nGroups:\n\tall{c0,g0}\n".toList := by decide +kernel

example : Plain 4 demo where
  paths := by decide
  types := by intro a ha; revert a; simp only [demo, List.forall_mem_cons]; decide
  names := by intro a ha; revert a; simp only [demo, List.forall_mem_cons]; decide
  cores := by
    intro a ha k hk
    simp only [demo, List.mem_cons, List.not_mem_nil, or_false] at ha
    rcases ha with rfl | rfl
    · simp at hk; omega
    · simpa using hk
  groups := by intro a ha; revert a; simp only [demo, List.forall_mem_cons]; decide
  members := by intro a ha; revert a; simp only [demo, List.forall_mem_cons]; decide

/-- **C97 fails for other names**: accelerators with commas in their names, and the empty path. -/
theorem C97_violated_names : showGroup ⟨"g".toList, ["a,b".toList]⟩ = showGroup ⟨"g".toList, ["a".toList, "b".toList]⟩ ∧ showConf 4 ⟨[], [], []⟩ = showConf 4 ⟨[[]], [], []⟩ := by decide +kernel

/-- **C97 fails for what is looked up**: asking a configuration for an accelerator it does not have adds a null accelerator under that name, and printing that one, for which the code has a message, is
undefined. -/
theorem C97_violated_lookup (m : AMap) (name : Str) (h : ∀ p ∈ m, p.1 ≠ name) : (getAccelerator m name).1 = m ++ [(name, none)] ∧ ∀ hw, showAccel hw none = none := by
  refine ⟨?_, fun _ => rfl⟩
  have : m.find? (fun (p : Str × Option Accel) => p.1 = name) = none := by simpa using h
  unfold getAccelerator; rw [this]

end Arax.Ctrl.Shown
