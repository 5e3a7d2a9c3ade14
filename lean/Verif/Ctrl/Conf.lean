import Verif.Ctrl.CpuSet
import Verif.Proc.Functor
/-!
# C51, C60: accelerators of the controller configuration (`/repo/controller/src/Core/Config.cpp`)

JSON parsing is modelled in `Verif/Json` (C85); here a configuration is the list of its groups, a group its list of accelerator objects. `std::map` is an association list; its iteration order (by key)
is not modelled. A thrown exception is `none`. Objects are identified by the group and the position in it.
-/
namespace Arax.Ctrl.Conf

open Arax.Functor (fromStr nTypes)

/-- An accelerator object of the configuration: `arch`, and the optional `name`, `cpu_core` and `job_pref`. /repo/controller/src/Core/Config.cpp:118-158. -/
structure AccelDef where
  arch : List Char
  name : Option (List Char)
  cpuCore : Option (List Char)
  jobPref : Option (List Char)

/-- A group: its name and its array `accels`. /repo/controller/src/Core/Config.cpp:37-86. -/
structure GroupDef where
  name : List Char
  accels : List AccelDef

/-- `AccelConfig::JobPreference`. /repo/controller/src/Core/Config.h:39. -/
inductive Pref
  | noJob | userJob | batchJob | anyJob
deriving DecidableEq

/-- An `AccelConfig` object: identity (group and position), name, type, affinity, job preference. /repo/controller/src/Core/Config.h:37-54. -/
structure Accel where
  group : List Char
  idx : Nat
  name : List Char
  type : Nat
  affinity : Nat → Bool
  pref : Pref

/-- `fromString` (/repo/controller/src/Core/Config.cpp:197-215). -/
def prefOf (s : List Char) : Option Pref :=
  let l := lower s
  if l = "nojob".toList then some .noJob
  else if l = "userjob".toList then some .userJob
  else if l = "batchjob".toList then some .batchJob
  else if l = "anyjob".toList then some .anyJob
  else none

/-- `map<string, AccelConfig *>` (/repo/controller/src/Core/Config.h:79, 110). -/
abbrev AMap := List (List Char × Accel)

/-- `accelerators[name] = accel` (/repo/controller/src/Core/Config.cpp:96). -/
def put (m : AMap) (k : List Char) (a : Accel) : AMap :=
  if m.any (fun p => p.1 == k) then m.map (fun p => if p.1 = k then (k, a) else p) else m ++ [(k, a)]

/-- `accelerators.emplace(…)` (/repo/controller/src/Core/Config.cpp:296): does nothing if the key is present. -/
def emplace (m : AMap) (p : List Char × Accel) : AMap := if m.any (fun q => q.1 == p.1) then m else m ++ [p]

/-- The registered accelerator thread classes without the suffix `accelThread` when every back end is built (/repo/controller/src/OpenCL/OpenclaccelThread.cpp:433, Cuda/CUDAaccelThread.cpp:419,
ROCm/HIPaccelThread.cpp:370, Cpu/CPUaccelThread.cpp:112, Sda/SDAaccelThread.cpp:210). -/
def allThreads : List (List Char) := ["OpenCL".toList, "GPU".toList, "HIP".toList, "CPU".toList, "SDA".toList]

/-- The check of /repo/controller/src/Core/Config.cpp:122-139: the arch must name an accelerator type (in any case) and, exactly, a thread class. -/
def archOk (threads : List (List Char)) (arch : List Char) : Bool := fromStr (some arch) != nTypes && threads.contains arch

/-- `group:arch:count` (/repo/controller/src/Core/Config.cpp:125-126). -/
def defaultName (group arch : List Char) (count : Nat) : List Char := group ++ ':' :: (arch ++ ':' :: Nat.toDigits 10 count)

/-- `AccelConfig::AccelConfig` (/repo/controller/src/Core/Config.cpp:118-158) for the `idx`-th object of group `g`, with the accelerators of the group so far. -/
def mkAccel (threads : List (List Char)) (hw : Nat) (g : List Char) (m : AMap) (idx : Nat) (d : AccelDef) : Option AMap :=
  let name := d.name.getD (defaultName g d.arch m.length)
  if archOk threads d.arch then
    match Cpu.parse hw (d.cpuCore.getD ['-', '1']) with
    | none => none
    | some aff =>
      match prefOf (d.jobPref.getD "AnyJob".toList) with
      | none => none
      | some p => some (put m name { group := g, idx := idx, name := name, type := fromStr (some d.arch), affinity := aff, pref := p })
  else none

/-- The loop of /repo/controller/src/Core/Config.cpp:65-78. -/
def mkAccels (threads : List (List Char)) (hw : Nat) (g : List Char) : AMap → Nat → List AccelDef → Option AMap
  | m, _, [] => some m
  | m, i, d :: ds => match mkAccel threads hw g m i d with
    | none => none
    | some m' => mkAccels threads hw g m' (i + 1) ds

/-- `GroupConfig::GroupConfig` (/repo/controller/src/Core/Config.cpp:37-86); the scheduler is not modelled. -/
def mkGroup (threads : List (List Char)) (hw : Nat) (g : GroupDef) : Option AMap :=
  if g.accels = [] then none else mkAccels threads hw g.name [] 0 g.accels

/-- The loop over the groups of `Config::Config` (/repo/controller/src/Core/Config.cpp:280-297); `seen`: names of earlier groups. -/
def mkConfig (threads : List (List Char)) (hw : Nat) : AMap → List (List Char) → List GroupDef → Option AMap
  | m, _, [] => some m
  | m, seen, g :: gs =>
    if g.name ∈ seen then none
    else match mkGroup threads hw g with
      | none => none
      | some gm => mkConfig threads hw (gm.foldl emplace m) (seen ++ [g.name]) gs

/-- `Config::Config` (/repo/controller/src/Core/Config.cpp:270-301). -/
def config (threads : List (List Char)) (hw : Nat) (gs : List GroupDef) : Option AMap :=
  if gs = [] then none else mkConfig threads hw [] [] gs

/-- `Config::getAccelerators(arax_accel_type_e)` (/repo/controller/src/Core/Config.cpp:349-369); 0 is `ANY`. -/
def getAccelerators (m : AMap) (t : Nat) : List Accel :=
  if t ≠ 0 then (m.filter (fun p => p.2.type == t)).map (·.2) else m.map (·.2)

/-! ### Specification -/

/-- `a` is the accelerator described by the configuration at that place: the type named by its arch, the affinity and job preference given for it or the defaults. -/
def Describes (hw : Nat) (gs : List GroupDef) (a : Accel) : Prop :=
  ∃ g ∈ gs, ∃ d, g.accels[a.idx]? = some d ∧ a.group = g.name ∧ a.type = fromStr (some d.arch) ∧ a.type < nTypes ∧
    Cpu.parse hw (d.cpuCore.getD ['-', '1']) = some a.affinity ∧ prefOf (d.jobPref.getD "AnyJob".toList) = some a.pref ∧
    ∀ n, d.name = some n → a.name = n

/-- The name an accelerator is meant to have: the given one, or group, arch and position. -/
def meantName (g : List Char) (i : Nat) (d : AccelDef) : List Char := d.name.getD (defaultName g d.arch i)

/-- All meant names of a configuration, in order. -/
def meantNames (gs : List GroupDef) : List (List Char) := gs.flatMap (fun g => g.accels.mapIdx (fun i d => meantName g.name i d))

/-! ### Lemmas -/

theorem put_keys (m : AMap) (k : List Char) (a : Accel) : (put m k a).map (·.1) = if k ∈ m.map (·.1) then m.map (·.1) else m.map (·.1) ++ [k] := by
  unfold put
  have hany : m.any (fun p => p.1 == k) = true ↔ k ∈ m.map (·.1) := by
    rw [List.any_eq_true, List.mem_map]
    constructor
    · rintro ⟨p, hp, e⟩; exact ⟨p, hp, by simpa using e⟩
    · rintro ⟨p, hp, e⟩; exact ⟨p, hp, by simpa using e⟩
  by_cases h : k ∈ m.map (·.1)
  · rw [if_pos (hany.mpr h), if_pos h, List.map_map]
    refine List.map_congr_left ?_
    intro p _
    show (if p.1 = k then (k, a) else p).1 = p.1
    split
    · rename_i e; exact e.symm
    · rfl
  · rw [if_neg (fun e => h (hany.mp e)), if_neg h, List.map_append]; rfl

theorem mem_put {m : AMap} {k : List Char} {a : Accel} {p : List Char × Accel} (h : p ∈ put m k a) : p = (k, a) ∨ (p ∈ m ∧ p.1 ≠ k) := by
  unfold put at h
  split at h
  · obtain ⟨q, hq, e⟩ := List.mem_map.mp h
    split at e
    · exact Or.inl e.symm
    · rename_i hne; subst e; exact Or.inr ⟨hq, hne⟩
  · rename_i hno
    rcases List.mem_append.mp h with h | h
    · refine Or.inr ⟨h, fun e => hno (List.any_eq_true.mpr ⟨p, h, by simp [e]⟩)⟩
    · exact Or.inl (List.mem_singleton.mp h)

theorem put_fresh {m : AMap} {k : List Char} {a : Accel} (h : k ∉ m.map (·.1)) : put m k a = m ++ [(k, a)] := by
  unfold put
  rw [if_neg]
  intro e
  obtain ⟨p, hp, e⟩ := List.any_eq_true.mp e
  exact h (List.mem_map.mpr ⟨p, hp, by simpa using e⟩)

/-- What is known of the accelerators of one group: distinct keys equal to the names, positions below `i` with their definitions. (No code of its own.) -/
structure GInv (hw : Nat) (g : List Char) (ds : List AccelDef) (i : Nat) (m : AMap) : Prop where
  keys : (m.map (·.1)).Nodup
  name : ∀ p ∈ m, p.1 = p.2.name
  grp : ∀ p ∈ m, p.2.group = g
  lt : ∀ p ∈ m, p.2.idx < i
  desc : ∀ p ∈ m, ∃ d, ds[p.2.idx]? = some d ∧ p.2.type = fromStr (some d.arch) ∧ p.2.type < nTypes ∧
    Cpu.parse hw (d.cpuCore.getD ['-', '1']) = some p.2.affinity ∧ prefOf (d.jobPref.getD "AnyJob".toList) = some p.2.pref ∧ ∀ n, d.name = some n → p.2.name = n
  idx : ∀ p ∈ m, ∀ q ∈ m, p.2.idx = q.2.idx → p = q

theorem archOk_type {threads : List (List Char)} {arch : List Char} (h : archOk threads arch = true) : fromStr (some arch) < nTypes := by
  unfold archOk at h
  rw [Bool.and_eq_true, bne_iff_ne] at h
  have := (Arax.Functor.C31_from_str arch).2.2
  have := h.1
  omega

theorem mkAccel_inv {threads : List (List Char)} {hw : Nat} {g : List Char} {ds : List AccelDef} {i : Nat} {m m' : AMap} {d : AccelDef}
    (inv : GInv hw g ds i m) (hd : ds[i]? = some d) (e : mkAccel threads hw g m i d = some m') : GInv hw g ds (i + 1) m' := by
  unfold mkAccel at e
  dsimp only at e
  split at e
  · rename_i hok
    split at e
    · cases e
    · rename_i aff haff
      split at e
      · cases e
      · rename_i pr hpr
        injection e with e
        obtain ⟨hk, hn, hg, hl, hdesc, hi⟩ := inv
        subst e
        refine ⟨?_, ?_, ?_, ?_, ?_, ?_⟩
        · rw [put_keys]
          split
          · exact hk
          · rename_i hfresh
            rw [List.nodup_append]
            refine ⟨hk, by simp, ?_⟩
            intro x hx y hy e
            rw [List.mem_singleton.mp hy] at e
            exact hfresh (e ▸ hx)
        · intro p hp
          rcases mem_put hp with rfl | ⟨hp, _⟩
          · rfl
          · exact hn p hp
        · intro p hp
          rcases mem_put hp with rfl | ⟨hp, _⟩
          · rfl
          · exact hg p hp
        · intro p hp
          rcases mem_put hp with rfl | ⟨hp, _⟩
          · exact Nat.lt_succ_self i
          · exact Nat.lt_succ_of_lt (hl p hp)
        · intro p hp
          rcases mem_put hp with rfl | ⟨hp, _⟩
          · refine ⟨d, hd, rfl, archOk_type hok, haff, hpr, ?_⟩
            intro n hn
            simp [hn]
          · exact hdesc p hp
        · intro p hp q hq e
          rcases mem_put hp with rfl | ⟨hp, _⟩
          · rcases mem_put hq with rfl | ⟨hq, _⟩
            · rfl
            · have := hl q hq; dsimp only at e; omega
          · rcases mem_put hq with rfl | ⟨hq, _⟩
            · have := hl p hp; dsimp only at e; omega
            · exact hi p hp q hq e
  · cases e

theorem mkAccels_inv {threads : List (List Char)} {hw : Nat} {g : List Char} {ds : List AccelDef} : ∀ (l : List AccelDef) (i : Nat) (m m' : AMap),
    GInv hw g ds i m → ds.drop i = l → mkAccels threads hw g m i l = some m' → GInv hw g ds ds.length m' := by
  intro l
  induction l with
  | nil =>
    intro i m m' inv hl e
    simp only [mkAccels, Option.some.injEq] at e
    subst e
    obtain ⟨h1, h2, h3, h4, h5, h6⟩ := inv
    refine ⟨h1, h2, h3, ?_, h5, h6⟩
    intro p hp
    obtain ⟨d, hd, _⟩ := h5 p hp
    exact (List.getElem?_eq_some_iff.mp hd).1
  | cons d l ih =>
    intro i m m' inv hl e
    simp only [mkAccels] at e
    have hd : ds[i]? = some d := by
      have := congrArg (fun x => x[0]?) hl
      simpa [List.getElem?_drop] using this
    split at e
    · cases e
    · rename_i m1 he
      refine ih (i + 1) m1 m' (mkAccel_inv inv hd he) ?_ e
      rw [← List.drop_drop, hl]; rfl

theorem mkGroup_inv {threads : List (List Char)} {hw : Nat} {g : GroupDef} {m : AMap} (e : mkGroup threads hw g = some m) :
    GInv hw g.name g.accels g.accels.length m := by
  unfold mkGroup at e
  split at e
  · cases e
  · exact mkAccels_inv g.accels 0 [] m ⟨by simp, by simp, by simp, by simp, by simp, by simp⟩ rfl e

/-- Of the whole configuration: keys distinct, each accelerator described by the groups `gs`, identities distinct. (No code of its own.) -/
structure CInv (hw : Nat) (gs : List GroupDef) (m : AMap) : Prop where
  keys : (m.map (·.1)).Nodup
  desc : ∀ p ∈ m, Describes hw gs p.2
  ident : ∀ p ∈ m, ∀ q ∈ m, p.2.group = q.2.group → p.2.idx = q.2.idx → p = q

theorem mem_foldl_emplace : ∀ (gm m : AMap) (p : List Char × Accel), p ∈ gm.foldl emplace m → p ∈ m ∨ p ∈ gm := by
  intro gm
  induction gm with
  | nil => intro m p h; exact Or.inl h
  | cons q gm ih =>
    intro m p h
    rcases ih _ p h with h | h
    · unfold emplace at h
      split at h
      · exact Or.inl h
      · rcases List.mem_append.mp h with h | h
        · exact Or.inl h
        · rw [List.mem_singleton.mp h]; exact Or.inr List.mem_cons_self
    · exact Or.inr (List.mem_cons_of_mem _ h)

theorem foldl_emplace_keys : ∀ (gm m : AMap), (m.map (·.1)).Nodup → ((gm.foldl emplace m).map (·.1)).Nodup := by
  intro gm
  induction gm with
  | nil => intro m h; exact h
  | cons q gm ih =>
    intro m h
    refine ih _ ?_
    unfold emplace
    split
    · exact h
    · rename_i hno
      rw [List.map_append, List.nodup_append]
      refine ⟨h, by simp, ?_⟩
      intro x hx y hy e
      simp only [List.map_cons, List.map_nil, List.mem_singleton] at hy
      subst hy; subst e
      obtain ⟨r, hr, er⟩ := List.mem_map.mp hx
      exact hno (List.any_eq_true.mpr ⟨r, hr, by simp [er]⟩)

theorem mkConfig_inv {threads : List (List Char)} {hw : Nat} {all : List GroupDef} : ∀ (gs : List GroupDef) (seen : List (List Char)) (m m' : AMap),
    CInv hw all m → (∀ p ∈ m, p.2.group ∈ seen) → (∀ g ∈ gs, g ∈ all) → mkConfig threads hw m seen gs = some m' → CInv hw all m' := by
  intro gs
  induction gs with
  | nil => intro seen m m' inv _ _ e; simp only [mkConfig, Option.some.injEq] at e; subst e; exact inv
  | cons g gs ih =>
    intro seen m m' inv hseen hall e
    simp only [mkConfig] at e
    split at e
    · cases e
    · rename_i hns
      split at e
      · cases e
      · rename_i gm hgm
        have gi := mkGroup_inv hgm
        refine ih (seen ++ [g.name]) (gm.foldl emplace m) m' ⟨foldl_emplace_keys _ _ inv.keys, ?_, ?_⟩ ?_
          (fun x hx => hall x (List.mem_cons_of_mem _ hx)) e
        · intro p hp
          rcases mem_foldl_emplace _ _ _ hp with hp | hp
          · exact inv.desc p hp
          · obtain ⟨d, h1, h2, h3, h4, h5, h6⟩ := gi.desc p hp
            exact ⟨g, hall g List.mem_cons_self, d, h1, gi.grp p hp, h2, h3, h4, h5, h6⟩
        · intro p hp q hq hgq hiq
          rcases mem_foldl_emplace _ _ _ hp with hp | hp <;> rcases mem_foldl_emplace _ _ _ hq with hq | hq
          · exact inv.ident p hp q hq hgq hiq
          · exact absurd (gi.grp q hq ▸ hgq ▸ hseen p hp) hns
          · exact absurd (gi.grp p hp ▸ hgq ▸ hseen q hq) hns
          · exact gi.idx p hp q hq hiq
        · intro p hp
          rcases mem_foldl_emplace _ _ _ hp with hp | hp
          · exact List.mem_append.mpr (Or.inl (hseen p hp))
          · exact List.mem_append.mpr (Or.inr (by rw [gi.grp p hp]; exact List.mem_singleton.mpr rfl))

/-- **C51** (soundness) For every configuration that is accepted and every type: each accelerator returned is described by the configuration and has the type asked for
(any type for `ANY`), and none is returned twice. -/
theorem C51_sound (threads : List (List Char)) (hw : Nat) (gs : List GroupDef) (m : AMap) (e : config threads hw gs = some m) (t : Nat) :
    (∀ a ∈ getAccelerators m t, Describes hw gs a ∧ (t = 0 ∨ a.type = t)) ∧
    ((getAccelerators m t).map (fun a => (a.group, a.idx))).Nodup := by
  unfold config at e
  split at e
  · cases e
  · have inv := mkConfig_inv gs [] [] m ⟨by simp, by simp, by simp⟩ (by simp) (fun g h => h) e
    have hsub : ∀ a ∈ getAccelerators m t, ∃ p ∈ m, p.2 = a ∧ (t = 0 ∨ a.type = t) := by
      intro a ha
      unfold getAccelerators at ha
      split at ha
      · obtain ⟨p, hp, rfl⟩ := List.mem_map.mp ha
        obtain ⟨h1, h2⟩ := List.mem_filter.mp hp
        exact ⟨p, h1, rfl, Or.inr (by simpa using h2)⟩
      · rename_i h0
        obtain ⟨p, hp, rfl⟩ := List.mem_map.mp ha
        exact ⟨p, hp, rfl, Or.inl (by omega)⟩
    refine ⟨fun a ha => ?_, ?_⟩
    · obtain ⟨p, hp, rfl, h⟩ := hsub a ha
      exact ⟨inv.desc p hp, h⟩
    · have hnd : m.Nodup := by
        have := inv.keys
        exact List.Pairwise.of_map (fun p => p.1) (fun _ _ h e => h (by rw [e])) this
      have key : ∀ l : AMap, l.Nodup → (∀ p ∈ l, p ∈ m) → ((l.map (·.2)).map (fun a => (a.group, a.idx))).Nodup := by
        intro l hl hm
        rw [List.map_map]
        induction l with
        | nil => simp
        | cons p l ih =>
          rw [List.nodup_cons] at hl
          rw [List.map_cons, List.nodup_cons]
          refine ⟨?_, ih hl.2 (fun x hx => hm x (List.mem_cons_of_mem _ hx))⟩
          intro hmem
          obtain ⟨q, hq, e⟩ := List.mem_map.mp hmem
          simp only [Function.comp, Prod.mk.injEq] at e
          have := inv.ident q (hm q (List.mem_cons_of_mem _ hq)) p (hm p List.mem_cons_self) e.1 e.2
          subst this
          exact hl.1 hq
      unfold getAccelerators
      split
      · exact key _ (hnd.filter _) (fun p hp => (List.mem_filter.mp hp).1)
      · exact key _ hnd (fun p hp => hp)

theorem mkAccels_complete {threads : List (List Char)} {hw : Nat} {g : List Char} : ∀ (l : List AccelDef) (m m' : AMap),
    (m.map (·.1) ++ l.mapIdx (fun j d => meantName g (m.length + j) d)).Nodup → mkAccels threads hw g m m.length l = some m' →
    m'.map (·.1) = m.map (·.1) ++ l.mapIdx (fun j d => meantName g (m.length + j) d) ∧
    m'.map (fun p => (p.2.group, p.2.idx)) = m.map (fun p => (p.2.group, p.2.idx)) ++ (List.range' m.length l.length).map (fun j => (g, j)) := by
  intro l
  induction l with
  | nil => intro m m' _ e; simp only [mkAccels, Option.some.injEq] at e; subst e; simp
  | cons d l ih =>
    intro m m' hnd e
    simp only [mkAccels] at e
    split at e
    · cases e
    · rename_i m1 he
      unfold mkAccel at he
      dsimp only at he
      split at he
      · split at he
        · cases he
        · rename_i aff _
          split at he
          · cases he
          · rename_i pr _
            injection he with he
            rw [List.mapIdx_cons] at hnd ⊢
            have hname : d.name.getD (defaultName g d.arch m.length) = meantName g (m.length + 0) d := rfl
            rw [hname] at he
            have hfresh : meantName g (m.length + 0) d ∉ m.map (·.1) := by
              intro hmem
              rw [List.nodup_append] at hnd
              exact hnd.2.2 _ hmem _ List.mem_cons_self rfl
            rw [put_fresh hfresh] at he
            have hlen : m1.length = m.length + 1 := by rw [← he]; simp
            rw [← hlen] at e
            have hk : m1.map (·.1) = m.map (·.1) ++ [meantName g (m.length + 0) d] := by rw [← he, List.map_append]; rfl
            have hi : m1.map (fun p => (p.2.group, p.2.idx)) = m.map (fun p => (p.2.group, p.2.idx)) ++ [(g, m.length)] := by rw [← he, List.map_append]; rfl
            have hmi : (l.mapIdx (fun j d => meantName g (m1.length + j) d)) = l.mapIdx (fun j d => meantName g (m.length + (j + 1)) d) := by
              congr 1
              funext j d
              rw [hlen, Nat.add_assoc, Nat.add_comm 1 j]
            have := ih m1 m' (by rw [hk, hmi, List.append_assoc]; exact hnd) e
            rw [hk, hi, hmi, List.append_assoc, List.append_assoc] at this
            refine ⟨this.1, ?_⟩
            rw [this.2, hlen, List.length_cons, List.range'_succ]
            rfl
      · cases he

theorem foldl_emplace_fresh : ∀ (gm m : AMap), (m.map (·.1) ++ gm.map (·.1)).Nodup → gm.foldl emplace m = m ++ gm := by
  intro gm
  induction gm with
  | nil => intro m _; simp
  | cons p gm ih =>
    intro m h
    have hfresh : p.1 ∉ m.map (·.1) := by
      intro hm
      rw [List.nodup_append] at h
      exact h.2.2 _ hm _ (by simp) rfl
    have he : emplace m p = m ++ [p] := by
      unfold emplace
      rw [if_neg]
      intro e
      obtain ⟨q, hq, e⟩ := List.any_eq_true.mp e
      exact hfresh (List.mem_map.mpr ⟨q, hq, by simpa using e⟩)
    rw [List.foldl_cons, he, ih]
    · simp
    · simpa using h

theorem mkConfig_complete {threads : List (List Char)} {hw : Nat} : ∀ (gs : List GroupDef) (seen : List (List Char)) (m m' : AMap),
    (m.map (·.1) ++ meantNames gs).Nodup → mkConfig threads hw m seen gs = some m' →
    m'.map (fun p => (p.2.group, p.2.idx)) = m.map (fun p => (p.2.group, p.2.idx)) ++ gs.flatMap (fun g => (List.range g.accels.length).map (fun i => (g.name, i))) := by
  intro gs
  induction gs with
  | nil => intro seen m m' _ e; simp only [mkConfig, Option.some.injEq] at e; subst e; simp
  | cons g gs ih =>
    intro seen m m' hnd e
    simp only [mkConfig] at e
    split at e
    · cases e
    · split at e
      · cases e
      · rename_i gm hgm
        unfold mkGroup at hgm
        split at hgm
        · cases hgm
        · rw [meantNames, List.flatMap_cons] at hnd
          have hg : (g.accels.mapIdx (fun j d => meantName g.name (0 + j) d)) = g.accels.mapIdx (fun j d => meantName g.name j d) := by
            congr 1; funext j d; rw [Nat.zero_add]
          have hc := mkAccels_complete (m := []) g.accels gm (by
            simp only [List.map_nil, List.nil_append, List.length_nil, hg]
            rw [List.nodup_append] at hnd
            exact (List.nodup_append.mp hnd.2.1).1) hgm
          simp only [List.map_nil, List.nil_append, List.length_nil, hg] at hc
          have hfold : gm.foldl emplace m = m ++ gm := foldl_emplace_fresh gm m (by
            rw [hc.1]
            rw [← List.append_assoc, List.nodup_append] at hnd
            exact hnd.1)
          rw [hfold] at e
          have := ih _ (m ++ gm) m' (by rw [List.map_append, hc.1, List.append_assoc]; exact hnd) e
          rw [this, List.map_append, hc.2, List.flatMap_cons, List.append_assoc, List.range_eq_range']

/-- **C51** (completeness, partial) If all the names the accelerators are meant to have are different, every accelerator object of an accepted configuration is returned by
`getAccelerators(ANY)`, and by `getAccelerators` of its type. Missing: configurations with equal names, for which it is false (`C51_violated`). -/
theorem C51_complete_partial (threads : List (List Char)) (hw : Nat) (gs : List GroupDef) (m : AMap) (e : config threads hw gs = some m)
    (hnames : (meantNames gs).Nodup) (g : GroupDef) (hg : g ∈ gs) (i : Nat) (hi : i < g.accels.length) :
    ∃ a ∈ getAccelerators m 0, a.group = g.name ∧ a.idx = i ∧ a ∈ getAccelerators m a.type := by
  unfold config at e
  split at e
  · cases e
  · have hc := mkConfig_complete gs [] [] m (by simpa using hnames) e
    simp only [List.map_nil, List.nil_append] at hc
    have hmem : (g.name, i) ∈ m.map (fun p => (p.2.group, p.2.idx)) := by
      rw [hc, List.mem_flatMap]
      exact ⟨g, hg, List.mem_map.mpr ⟨i, List.mem_range.mpr hi, rfl⟩⟩
    obtain ⟨p, hp, e2⟩ := List.mem_map.mp hmem
    injection e2 with e3 e4
    refine ⟨p.2, ?_, e3, e4, ?_⟩
    · exact List.mem_map.mpr ⟨p, hp, rfl⟩
    · unfold getAccelerators
      split
      · exact List.mem_map.mpr ⟨p, List.mem_filter.mpr ⟨hp, by simp⟩, rfl⟩
      · exact List.mem_map.mpr ⟨p, hp, rfl⟩

theorem default_inj {g g' a a' : List Char} {i i' : Nat} (ha : ':' ∉ a) (ha' : ':' ∉ a') (h : defaultName g a i = defaultName g' a' i') : g = g' ∧ a = a' ∧ i = i' := by
  have hd : ∀ n, ':' ∉ Nat.toDigits 10 n := by
    intro n hc
    have := Nat.isDigit_of_mem_toDigits (by omega) (by omega) hc
    revert this; decide
  have cut : ∀ (x y u v : List Char), ':' ∉ u → ':' ∉ v → x ++ ':' :: u = y ++ ':' :: v → x = y ∧ u = v := by
    intro x y u v hu hv e
    have er := congrArg List.reverse e
    simp only [List.reverse_append, List.reverse_cons, List.append_assoc, List.singleton_append] at er
    have s1 := scanTo_found (d := ':') (a := u.reverse) (b := x.reverse) (by simpa using hu)
    have s2 := scanTo_found (d := ':') (a := v.reverse) (b := y.reverse) (by simpa using hv)
    rw [er, s2] at s1
    injection s1 with h1 h2
    injection h2 with h2
    exact ⟨(List.reverse_inj.mp h2).symm, (List.reverse_inj.mp h1).symm⟩
  unfold defaultName at h
  have h2 := cut (g ++ ':' :: a) (g' ++ ':' :: a') (Nat.toDigits 10 i) (Nat.toDigits 10 i') (hd i) (hd i') (by simpa using h)
  have h3 := cut g g' a a' ha ha' h2.1
  refine ⟨h3.1, h3.2, ?_⟩
  have := congrArg (fun l => Nat.ofDigitChars 10 l 0) h2.2
  simpa [Nat.ofDigitChars_ten_toDigits] using this

/-- **C51** (default names) If no accelerator is given a name, group names differ and no arch contains a colon (no accepted one does), the meant names differ, so
`C51_complete_partial` applies. -/
theorem C51_default_names_differ (gs : List GroupDef) (hg : (gs.map (·.name)).Nodup) (h : ∀ g ∈ gs, ∀ d ∈ g.accels, d.name = none ∧ ':' ∉ d.arch) :
    (meantNames gs).Nodup := by
  have key : ∀ gs : List GroupDef, (∀ g ∈ gs, ∀ d ∈ g.accels, d.name = none ∧ ':' ∉ d.arch) → (gs.map (·.name)).Nodup → (meantNames gs).Nodup ∧
      ∀ n ∈ meantNames gs, ∃ g ∈ gs, ∃ d ∈ g.accels, ∃ i, n = defaultName g.name d.arch i := by
    intro gs
    induction gs with
    | nil => intro _ _; exact ⟨by simp [meantNames], by simp [meantNames]⟩
    | cons g gs ih =>
      intro h hg
      rw [List.map_cons, List.nodup_cons] at hg
      obtain ⟨i1, i2⟩ := ih (fun x hx => h x (List.mem_cons_of_mem _ hx)) hg.2
      have hgm : ∀ n ∈ g.accels.mapIdx (fun i d => meantName g.name i d), ∃ d ∈ g.accels, ∃ i, n = defaultName g.name d.arch i := by
        intro n hn
        obtain ⟨i, hi, rfl⟩ := List.mem_mapIdx.mp hn
        refine ⟨g.accels[i], List.getElem_mem hi, i, ?_⟩
        simp [meantName, (h g List.mem_cons_self _ (List.getElem_mem hi)).1]
      refine ⟨?_, ?_⟩
      · show (g.accels.mapIdx (fun i d => meantName g.name i d) ++ meantNames gs).Nodup
        rw [List.nodup_append]
        refine ⟨?_, i1, ?_⟩
        · refine List.pairwise_iff_getElem.mpr ?_
          intro i j hi hj hij e
          rw [List.length_mapIdx] at hi hj
          rw [List.getElem_mapIdx, List.getElem_mapIdx] at e
          have h1 := h g List.mem_cons_self _ (List.getElem_mem hi)
          have h2 := h g List.mem_cons_self _ (List.getElem_mem hj)
          simp only [meantName, h1.1, h2.1, Option.getD_none] at e
          have := (default_inj h1.2 h2.2 e).2.2
          omega
        · intro x hx y hy e
          subst e
          obtain ⟨d, hd, i, e1⟩ := hgm x hx
          obtain ⟨g', hg', d', hd', i', e2⟩ := i2 x hy
          have := (default_inj (h g List.mem_cons_self d hd).2 (h g' (List.mem_cons_of_mem _ hg') d' hd').2 (e1.symm.trans e2)).1
          exact hg.1 (this ▸ List.mem_map.mpr ⟨g', hg', rfl⟩)
      · intro n hn
        rcases List.mem_append.mp (show n ∈ g.accels.mapIdx (fun i d => meantName g.name i d) ++ meantNames gs from hn) with hn | hn
        · obtain ⟨d, hd, i, e⟩ := hgm n hn
          exact ⟨g, List.mem_cons_self, d, hd, i, e⟩
        · obtain ⟨g', hg', d, hd, i, e⟩ := i2 n hn
          exact ⟨g', List.mem_cons_of_mem _ hg', d, hd, i, e⟩
  exact (key gs h hg).1

/-- A CPU accelerator object with a given or default name. (No code of its own.) -/
def cpuDef (name : Option (List Char)) : AccelDef := { arch := "CPU".toList, name := name, cpuCore := none, jobPref := none }

/-- The identities of the accelerators a configuration ends up with. (No code of its own.) -/
def listed (gs : List GroupDef) : Option (List (List Char × Nat)) := (config allThreads 4 gs).map (fun m => (getAccelerators m 0).map (fun a => (a.group, a.idx)))

/-- **C51 is violated by the code** for equal names, without any error: in one group the later accelerator replaces the earlier; across groups the first group's one is kept; and
an explicit name can collide with a default name. -/
theorem C51_violated :
    listed [⟨['g'], [cpuDef (some ['a']), cpuDef (some ['a'])]⟩] = some [(['g'], 1)] ∧
    listed [⟨['g'], [cpuDef (some ['a'])]⟩, ⟨['h'], [cpuDef (some ['a']), cpuDef none]⟩] = some [(['g'], 0), (['h'], 1)] ∧
    listed [⟨['g'], [cpuDef (some "g:CPU:1".toList), cpuDef none]⟩] = some [(['g'], 1)] := by decide +kernel

/-- Non-vacuity: two groups, default and given names, all listed. -/
example : listed [⟨['g'], [cpuDef none, cpuDef (some ['a'])]⟩, ⟨['h'], [cpuDef none]⟩] = some [(['g'], 0), (['g'], 1), (['h'], 0)] := by decide +kernel

/-- **C60** (accepted architectures) With every back end built in, exactly the four spellings `GPU`, `HIP`, `CPU` and `SDA` are accepted as `arch`. -/
theorem C60_accepted (arch : List Char) : archOk allThreads arch = true ↔ arch ∈ ["GPU".toList, "HIP".toList, "CPU".toList, "SDA".toList] := by
  have hall : ∀ x ∈ allThreads, archOk allThreads x = true ↔ x ∈ ["GPU".toList, "HIP".toList, "CPU".toList, "SDA".toList] := by decide +kernel
  constructor
  · intro h
    have hx : arch ∈ allThreads := by
      unfold archOk at h
      rw [Bool.and_eq_true] at h
      simpa using h.2
    exact (hall arch hx).mp h
  · intro h
    refine (hall arch ?_).mpr h
    revert h
    simp only [List.mem_cons, List.not_mem_nil, or_false, allThreads]
    rintro (h | h | h | h) <;> simp [h]

/-- **C60 is violated by the code**: no configuration with an accelerator of the registered OpenCL back end is ever accepted, because the type is called `Open_CL` and the thread class
`OpenCL`: no `arch` yields type `ARAX_ACCEL_TYPE_OPEN_CL` (7). The shipped example configurations use `"arch": "OpenCL"`. -/
theorem C60_violated : (∀ arch, archOk allThreads arch = true → fromStr (some arch) ≠ 7) ∧
    ∀ gs : List GroupDef, (∃ g ∈ gs, ∃ d ∈ g.accels, d.arch = "OpenCL".toList) → ∀ hw, config allThreads hw gs = none := by
  constructor
  · intro arch h
    have := (C60_accepted arch).mp h
    revert this
    simp only [List.mem_cons, List.not_mem_nil, or_false]
    rintro (h | h | h | h) <;> (subst h; decide +kernel)
  · rintro gs ⟨g, hg, d, hd, harch⟩ hw
    have hacc : ∀ (l : List AccelDef) (m : AMap) (i : Nat), d ∈ l → mkAccels allThreads hw g.name m i l = none := by
      intro l
      induction l with
      | nil => intro m i h; cases h
      | cons x l ih =>
        intro m i h
        simp only [mkAccels]
        rcases List.mem_cons.mp h with rfl | h
        · have hx : archOk allThreads d.arch = false := by rw [harch]; decide +kernel
          simp [mkAccel, hx]
        · cases mkAccel allThreads hw g.name m i x with
          | none => rfl
          | some m' => exact ih m' (i + 1) h
    have hgrp : mkGroup allThreads hw g = none := by
      unfold mkGroup
      split
      · rfl
      · exact hacc _ _ _ hd
    have hcfg : ∀ (l : List GroupDef) (m : AMap) (seen : List (List Char)), g ∈ l → mkConfig allThreads hw m seen l = none := by
      intro l
      induction l with
      | nil => intro m seen h; cases h
      | cons x l ih =>
        intro m seen h
        simp only [mkConfig]
        split
        · rfl
        · rcases List.mem_cons.mp h with rfl | h
          · rw [hgrp]
          · cases mkGroup allThreads hw x with
            | none => rfl
            | some gm => exact ih _ _ h
    unfold config
    split
    · rfl
    · exact hcfg gs [] [] hg

/-- **C60** (job preference) The four names are recognised in any capitalisation and nothing else is. -/
theorem C60_pref (s : List Char) (p : Pref) : prefOf s = some p ↔
    s.map Char.toLower = (match p with | .noJob => "nojob" | .userJob => "userjob" | .batchJob => "batchjob" | .anyJob => "anyjob").toList := by
  unfold prefOf lower
  dsimp only
  have hd : ("nojob".toList ≠ "userjob".toList ∧ "nojob".toList ≠ "batchjob".toList ∧ "nojob".toList ≠ "anyjob".toList) ∧
    ("userjob".toList ≠ "batchjob".toList ∧ "userjob".toList ≠ "anyjob".toList ∧ "batchjob".toList ≠ "anyjob".toList) := by decide
  obtain ⟨⟨d1, d2, d3⟩, d4, d5, d6⟩ := hd
  cases p <;> dsimp only <;>
    (generalize "nojob".toList = a at *
     generalize "userjob".toList = b at *
     generalize "batchjob".toList = c at *
     generalize "anyjob".toList = d at *
     generalize s.map Char.toLower = x at *
     clear s
     by_cases h1 : x = a
     · subst h1; simp [d1, d2, d3]
     · by_cases h2 : x = b
       · subst h2; simp [h1, d4, d5]
       · by_cases h3 : x = c
         · subst h3; simp [h1, h2, d6]
         · by_cases h4 : x = d
           · subst h4; simp [h1, h2, h3]
           · simp [h1, h2, h3, h4])

end Arax.Ctrl.Conf
