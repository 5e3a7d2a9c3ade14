import Verif.Json.Props
import Verif.Ctrl.Conf
/-!
# C85: from the configuration text to the configuration

`Config::Config` (/repo/controller/src/Core/Config.cpp:217-302), `GroupConfig::GroupConfig` (:37-86) and `AccelConfig::AccelConfig` (:118-158) on JSON
values; the accelerators themselves are made by the model of C51 (`Verif/Ctrl/Conf.lean`).  An exception is `none`; which of several mistakes is
reported is not modelled.  Bytes of strings become characters of the same number.
-/
namespace Arax.Json
open Arax.Ctrl.Conf

/-- The bytes of a key. (No code of its own.) -/
def key (s : String) : List Nat := s.toList.map Char.toNat

/-- A `std::string` of bytes as the characters of the model of C51. (No code of its own.) -/
def chars (s : List Nat) : List Char := s.map Char.ofNat

/-- `obj.count(key)`, `obj[key]` (/repo/controller/include/Utilities.h:38, 49, 54). -/
def mget (o : List (List Nat × JVal)) (k : String) : Option JVal := (o.find? (fun m => m.1 == key k)).map (·.2)

/-- `jsonGetSafeOptional` for a string (Utilities.h:45-59): `none` is an exception; else the string, or nothing if there is no such key. -/
def optStr (o : List (List Nat × JVal)) (k : String) : Option (Option (List Char)) :=
  match mget o k with
  | none => some none
  | some (.str s) => some (some (chars s))
  | some _ => none

/-- `jsonGetSafe` for a string (Utilities.h:33-43). -/
def reqStr (o : List (List Nat × JVal)) (k : String) : Option (List Char) :=
  match mget o k with
  | some (.str s) => some (chars s)
  | _ => none

/-- What `AccelConfig::AccelConfig` takes from its object (Config.cpp:69, 122, 128, 143, 151). -/
def accelOf (v : JVal) : Option AccelDef :=
  match v with
  | .obj o =>
    match reqStr o "arch", optStr o "name", optStr o "cpu_core", optStr o "job_pref" with
    | some a, some n, some c, some p => some { arch := a, name := n, cpuCore := c, jobPref := p }
    | _, _, _, _ => none
  | _ => none

/-- `sched` and `class` of a group (Config.cpp:40-48): default "RoundRobin". -/
def schedOf (o : List (List Nat × JVal)) : Option (List Char) :=
  match mget o "sched" with
  | none => some "RoundRobin".toList
  | some (.obj so) => (optStr so "class").map (fun c => c.getD "RoundRobin".toList)
  | some _ => none

/-- All of a list, or an exception (the loops of Config.cpp:66-78, 253-264, 280-297). -/
def allOf {α β : Type} (f : α → Option β) : List α → Option (List β)
  | [] => some []
  | a :: l => match f a, allOf f l with
    | some b, some bs => some (b :: bs)
    | _, _ => none

/-- What `GroupConfig::GroupConfig` takes from its object (Config.cpp:37-86); `scheds` are the registered scheduler classes without the suffix
"Scheduler" (/repo/controller/include/Factory.h:27-46). -/
def groupOf (scheds : List (List Char)) (g : List Nat × JVal) : Option (List Char × GroupDef) :=
  match g.2 with
  | .obj o =>
    match schedOf o, mget o "accels" with
    | some s, some (.arr l) =>
      if s ∈ scheds then (allOf accelOf l).map (fun as => (s, { name := chars g.1, accels := as })) else none
    | _, _ => none
  | _ => none

/-- An element of `paths` (Config.cpp:253-264). -/
def pathOf (v : JVal) : Option (List Char) :=
  match v with
  | .str s => if s.head? = some 47 then none else some (chars s)
  | _ => none

/-- A `Config` object: `clean_shm`, `paths`, `schedulers` (by group), `accelerators` (/repo/controller/src/Core/Config.h:107-113). -/
structure Cfg where
  clean : Bool
  paths : List (List Char)
  scheds : List (List Char × List Char)
  accels : AMap

/-- `clean_shm` (Config.cpp:246). -/
def cleanOf (o : List (List Nat × JVal)) : Option Bool :=
  match mget o "clean_shm" with
  | none => some true
  | some (.bool b) => some b
  | some _ => none

/-- `paths` (Config.cpp:248-268). -/
def pathsOf (o : List (List Nat × JVal)) : Option (List (List Char)) :=
  match mget o "paths" with
  | none => some []
  | some (.arr l) => allOf pathOf l
  | some _ => none

/-- `groups` (Config.cpp:270-301). -/
def groupsOf (scheds : List (List Char)) (o : List (List Nat × JVal)) : Option (List (List Char × GroupDef)) :=
  match mget o "groups" with
  | some (.obj gs) => if gs = [] then none else allOf (groupOf scheds) gs
  | _ => none

/-- `Config::Config` after parsing (Config.cpp:242-301). -/
def configOf (threads scheds : List (List Char)) (hw : Nat) (v : JVal) : Option Cfg :=
  match v with
  | .obj o =>
    match cleanOf o, pathsOf o, groupsOf scheds o with
    | some c, some ps, some gs =>
      (config threads hw (gs.map (·.2))).map (fun m => { clean := c, paths := ps, scheds := gs.map (fun g => (g.2.name, g.1)), accels := m })
    | _, _, _ => none
  | _ => none

/-- `Config::Config` (Config.cpp:217-302): the file must be readable; the text is that of the environment variable ARAXCNTRL_CONF if it is set, else that
of the file. -/
def load (threads scheds : List (List Char)) (hw : Nat) (env file : Option (List Nat)) : Option Cfg :=
  match file with
  | none => none
  | some f => match parse (env.getD f) with
    | .ok v _ => configOf threads scheds hw v
    | _ => none

/-- The schedulers that are built (/repo/controller/src/Schedulers/CMakeLists.txt:1-13). -/
def builtScheds : List (List Char) := ["RoundRobin".toList, "Heterogeneous".toList, "Elastic".toList]

/-! ## Specification -/

/-- Two lists of the same length with related elements. -/
inductive All2 {α β : Type} (R : α → β → Prop) : List α → List β → Prop where
  | nil : All2 R [] []
  | cons {a b l m} : R a b → All2 R l m → All2 R (a :: l) (b :: m)

/-- The object has no entry `k`, or the entry is the string `s`. -/
def StrEntry (o : List (List Nat × JVal)) (k : String) : Option (List Char) → Prop
  | none => entry o (key k) = none
  | some s => ∃ b, entry o (key k) = some (.str b) ∧ s = chars b

/-- The JSON value describes this accelerator: an object with a string "arch" and optional strings "name", "cpu_core", "job_pref". -/
def IsAccel (v : JVal) (d : AccelDef) : Prop :=
  ∃ o, v = .obj o ∧ StrEntry o "arch" (some d.arch) ∧ StrEntry o "name" d.name ∧ StrEntry o "cpu_core" d.cpuCore ∧ StrEntry o "job_pref" d.jobPref

/-- The group's scheduler class: "class" of the object "sched", or RoundRobin. -/
def IsSched (o : List (List Nat × JVal)) (s : List Char) : Prop :=
  (entry o (key "sched") = none ∧ s = "RoundRobin".toList) ∨
  ∃ so, entry o (key "sched") = some (.obj so) ∧ (StrEntry so "class" (some s) ∨ (StrEntry so "class" none ∧ s = "RoundRobin".toList))

/-- The entry of "groups" describes this group with this scheduler. -/
def IsGroup (scheds : List (List Char)) (g : List Nat × JVal) (d : List Char × GroupDef) : Prop :=
  ∃ o l, g.2 = .obj o ∧ IsSched o d.1 ∧ d.1 ∈ scheds ∧ entry o (key "accels") = some (.arr l) ∧ d.2.name = chars g.1 ∧ All2 IsAccel l d.2.accels

/-- A path: a string that does not begin with `/`. -/
def IsPath (v : JVal) (p : List Char) : Prop := ∃ b, v = .str b ∧ b.head? ≠ some 47 ∧ p = chars b

/-- The JSON value describes this configuration; `gs` are the groups in the order of their names. -/
def IsConfig (threads scheds : List (List Char)) (hw : Nat) (v : JVal) (gs : List (List Char × GroupDef)) (c : Cfg) : Prop :=
  ∃ o go, v = .obj o ∧
    ((entry o (key "clean_shm") = none ∧ c.clean = true) ∨ entry o (key "clean_shm") = some (.bool c.clean)) ∧
    ((entry o (key "paths") = none ∧ c.paths = []) ∨ ∃ l, entry o (key "paths") = some (.arr l) ∧ All2 IsPath l c.paths) ∧
    entry o (key "groups") = some (.obj go) ∧ go ≠ [] ∧ All2 (IsGroup scheds) go gs ∧
    c.scheds = gs.map (fun g => (g.2.name, g.1)) ∧ config threads hw (gs.map (·.2)) = some c.accels

/-! ## Proofs -/

theorem mget_entry (o : List (List Nat × JVal)) (k : String) : mget o k = entry o (key k) := rfl

theorem optStr_iff (o : List (List Nat × JVal)) (k : String) (x : Option (List Char)) : optStr o k = some x ↔ StrEntry o k x := by
  unfold optStr
  rw [mget_entry]
  cases x with
  | none =>
    unfold StrEntry
    split
    · next h => simp [h]
    · next h => simp [h]
    · next h => simp [h]
  | some s =>
    unfold StrEntry
    split
    · next h => simp [h]
    · next b h =>
      constructor
      · intro e; exact ⟨b, h, (Option.some.inj (Option.some.inj e)).symm⟩
      · rintro ⟨b', hb, rfl⟩; rw [h] at hb; cases hb; rfl
    · next h1 h2 =>
      constructor
      · intro e; cases e
      · rintro ⟨b', hb, _⟩; rw [h2] at hb; exact absurd (Option.some.inj hb) (h1 b')

theorem reqStr_iff (o : List (List Nat × JVal)) (k : String) (s : List Char) : reqStr o k = some s ↔ StrEntry o k (some s) := by
  unfold reqStr StrEntry
  rw [mget_entry]
  split
  · next b h =>
    constructor
    · intro e; exact ⟨b, h, (Option.some.inj e).symm⟩
    · rintro ⟨b', hb, rfl⟩; rw [h] at hb; cases hb; rfl
  · next h =>
    constructor
    · intro e; cases e
    · rintro ⟨b', hb, _⟩; exact absurd hb (h b')

theorem accelOf_iff (v : JVal) (d : AccelDef) : accelOf v = some d ↔ IsAccel v d := by
  unfold accelOf IsAccel
  cases v with
  | obj o =>
    dsimp only
    constructor
    · intro e
      split at e
      · next a n c p h1 h2 h3 h4 =>
        cases e
        exact ⟨o, rfl, (reqStr_iff _ _ _).1 h1, (optStr_iff _ _ _).1 h2, (optStr_iff _ _ _).1 h3, (optStr_iff _ _ _).1 h4⟩
      · cases e
    · rintro ⟨o', ho, h1, h2, h3, h4⟩
      cases ho
      rw [(reqStr_iff _ _ _).2 h1, (optStr_iff _ _ _).2 h2, (optStr_iff _ _ _).2 h3, (optStr_iff _ _ _).2 h4]
  | _ =>
    constructor
    · intro e; cases e
    · rintro ⟨o', ho, _⟩; cases ho

theorem allOf_iff {α β : Type} {f : α → Option β} {R : α → β → Prop} (h : ∀ a b, f a = some b ↔ R a b) :
    ∀ (l : List α) (m : List β), allOf f l = some m ↔ All2 R l m := by
  intro l
  induction l with
  | nil =>
    intro m
    rw [allOf]
    constructor
    · intro e; cases e; exact .nil
    · intro e; cases e; rfl
  | cons a l ih =>
    intro m
    rw [allOf]
    constructor
    · intro e
      split at e
      · next b bs h1 h2 => cases e; exact .cons ((h a b).1 h1) ((ih bs).1 h2)
      · cases e
    · intro e
      cases e with
      | cons h1 h2 => rw [(h _ _).2 h1, (ih _).2 h2]

theorem schedOf_iff (o : List (List Nat × JVal)) (s : List Char) : schedOf o = some s ↔ IsSched o s := by
  unfold schedOf IsSched
  rw [mget_entry]
  split
  · next h =>
    constructor
    · intro e; exact .inl ⟨h, (Option.some.inj e).symm⟩
    · rintro (⟨_, rfl⟩ | ⟨so, hs, _⟩)
      · rfl
      · rw [h] at hs; cases hs
  · next so h =>
    constructor
    · intro e
      obtain ⟨x, hx, rfl⟩ := Option.map_eq_some_iff.1 e
      have := (optStr_iff _ _ _).1 hx
      cases x with
      | none => exact .inr ⟨so, h, .inr ⟨this, rfl⟩⟩
      | some y => exact .inr ⟨so, h, .inl this⟩
    · rintro (⟨h', _⟩ | ⟨so', hs, hc⟩)
      · rw [h] at h'; cases h'
      · rw [h] at hs
        cases hs
        rcases hc with hc | ⟨hc, rfl⟩
        · rw [(optStr_iff _ _ _).2 hc]; rfl
        · rw [(optStr_iff _ _ _).2 hc]; rfl
  · next h1 h2 =>
    constructor
    · intro e; cases e
    · rintro (⟨h', _⟩ | ⟨so', hs, _⟩)
      · rw [h2] at h'; cases h'
      · rw [h2] at hs; exact absurd (Option.some.inj hs) (h1 so')

theorem groupOf_iff (scheds : List (List Char)) (g : List Nat × JVal) (d : List Char × GroupDef) : groupOf scheds g = some d ↔ IsGroup scheds g d := by
  obtain ⟨k, v⟩ := g
  obtain ⟨s, n, as⟩ := d
  unfold groupOf IsGroup
  cases v with
  | obj o =>
    dsimp only
    rw [mget_entry]
    constructor
    · intro e
      split at e
      · next s' l h1 h2 =>
        by_cases hs : s' ∈ scheds
        · rw [if_pos hs] at e
          obtain ⟨as', ha, he⟩ := Option.map_eq_some_iff.1 e
          cases he
          exact ⟨o, l, rfl, (schedOf_iff _ _).1 h1, hs, h2, rfl, (allOf_iff accelOf_iff _ _).1 ha⟩
        · rw [if_neg hs] at e; cases e
      · cases e
    · rintro ⟨o', l, ho, h1, hs, h2, rfl, h3⟩
      cases ho
      rw [(schedOf_iff _ _).2 h1, h2]
      dsimp only
      rw [if_pos hs, (allOf_iff accelOf_iff _ _).2 h3]
      rfl
  | _ =>
    constructor
    · intro e; cases e
    · rintro ⟨o', l, ho, _⟩; cases ho

theorem pathOf_iff (v : JVal) (p : List Char) : pathOf v = some p ↔ IsPath v p := by
  unfold pathOf IsPath
  cases v with
  | str b =>
    dsimp only
    constructor
    · intro e
      by_cases h : b.head? = some 47
      · rw [if_pos h] at e; cases e
      · rw [if_neg h] at e; exact ⟨b, rfl, h, (Option.some.inj e).symm⟩
    · rintro ⟨b', hb, h, rfl⟩
      cases hb
      rw [if_neg h]
  | _ =>
    constructor
    · intro e; cases e
    · rintro ⟨o', ho, _⟩; cases ho

theorem cleanOf_iff (o : List (List Nat × JVal)) (b : Bool) :
    cleanOf o = some b ↔ (entry o (key "clean_shm") = none ∧ b = true) ∨ entry o (key "clean_shm") = some (.bool b) := by
  unfold cleanOf
  rw [mget_entry]
  split
  · next h => rw [h]; simp [eq_comm]
  · next b' h => rw [h]; simp
  · next h1 h2 =>
    constructor
    · intro e; cases e
    · rintro (⟨h', _⟩ | h')
      · rw [h2] at h'; cases h'
      · rw [h2] at h'; exact absurd (Option.some.inj h') (h1 b)

theorem pathsOf_iff (o : List (List Nat × JVal)) (ps : List (List Char)) :
    pathsOf o = some ps ↔ (entry o (key "paths") = none ∧ ps = []) ∨ ∃ l, entry o (key "paths") = some (.arr l) ∧ All2 IsPath l ps := by
  unfold pathsOf
  rw [mget_entry]
  split
  · next h => rw [h]; simp [eq_comm]
  · next l h =>
    rw [h, allOf_iff pathOf_iff]
    constructor
    · intro e; exact .inr ⟨l, rfl, e⟩
    · rintro (⟨h', _⟩ | ⟨l', h', e⟩)
      · cases h'
      · cases h'; exact e
  · next h1 h2 =>
    constructor
    · intro e; cases e
    · rintro (⟨h', _⟩ | ⟨l, h', _⟩)
      · rw [h2] at h'; cases h'
      · rw [h2] at h'; exact absurd (Option.some.inj h') (h1 l)

theorem groupsOf_iff (scheds : List (List Char)) (o : List (List Nat × JVal)) (gs : List (List Char × GroupDef)) :
    groupsOf scheds o = some gs ↔ ∃ go, entry o (key "groups") = some (.obj go) ∧ go ≠ [] ∧ All2 (IsGroup scheds) go gs := by
  unfold groupsOf
  rw [mget_entry]
  split
  · next go h =>
    rw [h]
    by_cases hg : go = []
    · rw [if_pos hg]
      constructor
      · intro e; cases e
      · rintro ⟨go', h', hne, _⟩; cases h'; exact absurd hg hne
    · rw [if_neg hg, allOf_iff (groupOf_iff scheds)]
      constructor
      · intro e; exact ⟨go, rfl, hg, e⟩
      · rintro ⟨go', h', _, e⟩; cases h'; exact e
  · next h =>
    constructor
    · intro e; cases e
    · rintro ⟨go, h', _⟩; exact absurd h' (h go)

theorem configOf_iff (threads scheds : List (List Char)) (hw : Nat) (v : JVal) (c : Cfg) :
    configOf threads scheds hw v = some c ↔ ∃ gs, IsConfig threads scheds hw v gs c := by
  unfold configOf IsConfig
  cases v with
  | obj o =>
    dsimp only
    constructor
    · intro e
      split at e
      · next b ps gs h1 h2 h3 =>
        obtain ⟨m, hm, he⟩ := Option.map_eq_some_iff.1 e
        obtain ⟨go, g1, g2, g3⟩ := (groupsOf_iff _ _ _).1 h3
        cases he
        exact ⟨gs, o, go, rfl, (cleanOf_iff _ _).1 h1, (pathsOf_iff _ _).1 h2, g1, g2, g3, rfl, hm⟩
      · cases e
    · rintro ⟨gs, o', go, ho, h1, h2, g1, g2, g3, hs, hm⟩
      cases ho
      rw [(cleanOf_iff _ _).2 h1, (pathsOf_iff _ _).2 h2, (groupsOf_iff _ _ _).2 ⟨go, g1, g2, g3⟩]
      dsimp only
      rw [hm]
      obtain ⟨a, b, s, m⟩ := c
      cases hs
      rfl
  | _ =>
    constructor
    · intro e; cases e
    · rintro ⟨gs, o', go, ho, _⟩; cases ho

/-- **C85** (configuration).  The controller given a JSON document `t` (in the file, or in ARAXCNTRL_CONF if that is set) starts with configuration `c` if and
only if the document describes `c`; every accelerator of `c` is described by an object of the document, and none appears twice. -/
theorem C85_config {t : List Nat} {v : JVal} (h : Doc Strict t v) (threads scheds : List (List Char)) (hw : Nat) (env : Option (List Nat)) (f : List Nat)
    (ht : env.getD f = t) (c : Cfg) :
    (load threads scheds hw env (some f) = some c ↔ ∃ gs, IsConfig threads scheds hw v gs c) ∧
    (load threads scheds hw env (some f) = some c → ∃ gs, IsConfig threads scheds hw v gs c ∧
      (∀ a ∈ getAccelerators c.accels 0, Describes hw (gs.map (·.2)) a) ∧ ((getAccelerators c.accels 0).map (fun a => (a.group, a.idx))).Nodup) := by
  obtain ⟨j, e⟩ := C85_reads h
  have hl : load threads scheds hw env (some f) = configOf threads scheds hw v := by
    unfold load
    dsimp only
    rw [ht, e]
  rw [hl, configOf_iff]
  refine ⟨Iff.rfl, ?_⟩
  rintro ⟨gs, hc⟩
  have hc' := hc
  obtain ⟨o, go, _, _, _, _, _, _, _, hm⟩ := hc'
  have := C51_sound threads hw _ c.accels hm 0
  exact ⟨gs, hc, fun a ha => (this.1 a ha).1, this.2⟩

/-- Text of a Lean string as bytes (ASCII). -/
def bytes (s : String) : List Nat := s.toList.map Char.toNat

/-- What the examples look at: the accelerators (group, position, type). -/
def seen (c : Option Cfg) : Option (List (String × Nat × Nat)) := c.map (fun c => c.accels.map (fun a => (String.ofList a.2.group, a.2.idx, a.2.type)))

end Arax.Json
