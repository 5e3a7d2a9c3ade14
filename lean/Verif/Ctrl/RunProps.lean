import Verif.Ctrl.Run
/-!
# C95: a run of the controller leaves the segment as it found it

*Property.* However a run of the controller ends — wrong call, wrong configuration, missing folder, unknown accelerator, SIGINT — it ends with a status, 0 exactly if it served, and the segment is as
before: what the controller registered is gone, it is not counted as a user, others who use the segment keep it with all that is in it, and a segment nobody uses is removed.
-/
namespace Arax.Run

/-! ## Specification -/

/-- The segment others use; one without users counts as none. -/
def inUse : Option Seg → Option Seg
  | none => none
  | some s => if s.users = 0 then none else some s

/-- The same procedures, in any order. -/
def same (a b : Option Seg) : Prop :=
  match a, b with
  | none, none => True
  | some x, some y => x.users = y.users ∧ x.procs.Perm y.procs ∧ x.accels = y.accels
  | _, _ => False

/-- The run can serve: a configuration, every folder opens, every accelerator has a thread and cores. -/
def CanServe (e : Env) : Prop := e.arg = true ∧ ∃ c, e.conf = .ok c ∧ (∀ f ∈ c.folders, f ≠ none) ∧ ∀ a ∈ c.accels, a.known = true ∧ a.cores = true

/-- The property for one run. -/
def Proper (e : Env) (seg : Option Seg) : Prop :=
  (∃ n, (main e seg).2 = .status n ∧ (n = 0 ↔ CanServe e)) ∧
  (e.arg = true → (∃ c, e.conf = .ok c) → same (main e seg).1 (inUse seg)) ∧
  (e.arg = false ∨ (∃ w, e.conf = .error w) → (main e seg).1 = seg)

/-- The kernels of the folders. -/
def kernels (c : Conf) : List String := c.folders.flatMap (fun f => f.getD [])

/-! ## Lemmas -/

theorem foldl_register (ks : List String) : ∀ s : Seg, (ks.foldl register s).users = s.users ∧ (ks.foldl register s).accels = s.accels ∧
    (∀ k, k ∈ (ks.foldl register s).procs ↔ k ∈ s.procs ∨ k ∈ ks) ∧ ∃ new, (ks.foldl register s).procs = new ++ s.procs ∧ (new = [] ↔ ∀ k ∈ ks, k ∈ s.procs) := by
  induction ks with
  | nil => intro s; exact ⟨rfl, rfl, by simp, [], rfl, by simp⟩
  | cons k ks ih =>
    intro s
    obtain ⟨h1, h2, h3, new, h4, h5⟩ := ih (register s k)
    simp only [List.foldl_cons]
    by_cases hk : k ∈ s.procs
    · have e : register s k = s := by simp [register, hk]
      rw [e] at h1 h2 h3 h4 h5 ⊢
      refine ⟨h1, h2, fun x => ?_, new, h4, ?_⟩
      · rw [h3]; simp only [List.mem_cons]; constructor
        · rintro (h | h)
          · exact .inl h
          · exact .inr (.inr h)
        · rintro (h | h | h)
          · exact .inl h
          · subst h; exact .inl hk
          · exact .inr h
      · rw [h5]; simp [hk]
    · have e : register s k = { s with procs := k :: s.procs } := by simp [register, hk]
      rw [e] at h1 h2 h3 h4 h5 ⊢
      refine ⟨h1, h2, fun x => ?_, new ++ [k], by simp [h4], ?_⟩
      · rw [h3]; simp only [List.mem_cons]; grind
      · simp [hk]

theorem loadAll_ok (fs : List (Option (List String))) : ∀ s : Seg, (∀ f ∈ fs, f ≠ none) → (loadAll s fs).2 = true ∧ (loadAll s fs).1.users = s.users ∧ (loadAll s fs).1.accels = s.accels ∧
    ∃ new, (loadAll s fs).1.procs = new ++ s.procs ∧ (new = [] ↔ ∀ k ∈ fs.flatMap (fun f => f.getD []), k ∈ s.procs) := by
  induction fs with
  | nil => intro s _; exact ⟨rfl, rfl, rfl, [], rfl, by simp⟩
  | cons f fs ih =>
    intro s hf
    obtain ⟨ks, rfl⟩ := Option.ne_none_iff_exists'.1 (hf f (by simp))
    obtain ⟨a1, a2, a3, n1, a4, a5⟩ := foldl_register ks s
    obtain ⟨b1, b2, b3, n2, b4, b5⟩ := ih (ks.foldl register s) (fun f hf' => hf f (by simp [hf']))
    simp only [loadAll]
    refine ⟨b1, b2.trans a1, b3.trans a2, n2 ++ n1, by rw [b4, a4, List.append_assoc], ?_⟩
    rw [List.append_eq_nil_iff]
    simp only [List.flatMap_cons, Option.getD_some, List.mem_append]
    constructor
    · rintro ⟨h2, h1⟩ k (hk | hk)
      · exact a5.1 h1 k hk
      · have := b5.1 h2 k hk
        rw [a4, h1] at this
        exact this
    · intro h
      have h1 := a5.2 (fun k hk => h k (.inl hk))
      refine ⟨b5.2 (fun k hk => ?_), h1⟩
      rw [a4, h1]
      exact h k (.inr hk)

theorem loadAll_bad (fs : List (Option (List String))) : ∀ s : Seg, (∃ f ∈ fs, f = none) → (loadAll s fs).2 = false ∧ (loadAll s fs).1.users = s.users ∧ (loadAll s fs).1.accels = s.accels := by
  induction fs with
  | nil => intro s h; simp at h
  | cons f fs ih =>
    intro s h
    cases f with
    | none => exact ⟨rfl, rfl, rfl⟩
    | some ks =>
      obtain ⟨a1, a2, -, -⟩ := foldl_register ks s
      have h' : ∃ f ∈ fs, f = none := by
        obtain ⟨f, hf, rfl⟩ := h
        exact ⟨none, by simpa using hf, rfl⟩
      obtain ⟨b1, b2, b3⟩ := ih (ks.foldl register s) h'
      simp only [loadAll]
      exact ⟨b1, b2.trans a1, b3.trans a2⟩

theorem startAll_ok (as : List Accel) : ∀ s : Seg, (∀ a ∈ as, a.cores = true) → startAll s as = ({ s with accels := s.accels + as.length }, true) := by
  induction as with
  | nil => intro s _; rfl
  | cons a as ih =>
    intro s h
    simp only [startAll, h a (by simp), if_true]
    rw [ih _ (fun a ha => h a (by simp [ha]))]
    simp only [List.length_cons]
    congr 2; omega

theorem startAll_bad (as : List Accel) : ∀ s : Seg, (∃ a ∈ as, a.cores = false) → (startAll s as).2 = false := by
  induction as with
  | nil => intro s h; simp at h
  | cons a as ih =>
    intro s h
    unfold startAll
    cases hc : a.cores with
    | false => rfl
    | true =>
      obtain ⟨b, hb, e⟩ := h
      rcases List.mem_cons.1 hb with rfl | hb
      · rw [hc] at e; cases e
      · simp only [if_true]; exact ih _ ⟨b, hb, e⟩

theorem any_known (as : List Accel) (h : ∀ a ∈ as, a.known = true) : as.any (fun a => !a.known) = false := by
  rw [List.any_eq_false]; intro a ha; simp [h a ha]

theorem unload_nil (s : Seg) : unload [] s = s := by
  unfold unload
  rw [List.filter_eq_self.2 (by simp)]

/-- What a run does that can serve. -/
theorem main_serves (e : Env) (seg : Option Seg) (c : Conf) (ha : e.arg = true) (hc : e.conf = .ok c) (hf : ∀ f ∈ c.folders, f ≠ none)
    (hk : ∀ a ∈ c.accels, a.known = true ∧ a.cores = true) : ∃ new, (new = [] ↔ ∀ k ∈ kernels c, k ∈ (join (if c.clean then none else seg)).procs) ∧
      main e seg = leave (join (if c.clean then none else seg)).procs { join (if c.clean then none else seg) with procs := new ++ (join (if c.clean then none else seg)).procs } := by
  obtain ⟨h1, h2, h3, new, h4, h5⟩ := loadAll_ok c.folders (join (if c.clean then none else seg)) hf
  refine ⟨new, h5, ?_⟩
  unfold main
  simp only [ha, hc, Bool.not_true, Bool.false_eq_true, if_false, h1, any_known _ (fun a h => (hk a h).1), startAll_ok _ _ (fun a h => (hk a h).2), Nat.add_sub_cancel, unload_nil]
  congr 1
  generalize loadAll (join (if c.clean = true then none else seg)) c.folders = l at *
  obtain ⟨⟨u, p, a⟩, b⟩ := l
  simp only at *
  subst h2; subst h3; subst h4
  rfl

/-! ## What holds -/

/-- **C95 (partial): a run that registers nothing new.** If the libraries hold no kernel that is not already registered and `clean_shm` is not set, a run that can serve is proper. -/
theorem C95_no_kernels_partial (e : Env) (seg : Option Seg) (c : Conf) (hs : CanServe e) (hc : e.conf = .ok c) (hclean : c.clean = false)
    (hk : ∀ k ∈ kernels c, ∃ s, inUse seg = some s ∧ k ∈ s.procs) : Proper e seg := by
  obtain ⟨ha, c', hc', hf, hka⟩ := hs
  have : c' = c := by rw [hc] at hc'; injection hc' with h; exact h.symm
  subst this
  obtain ⟨new, hnew, hm⟩ := main_serves e seg c' ha hc hf hka
  have hb : (if c'.clean then none else seg) = seg := by simp [hclean]
  rw [hb] at hnew hm
  have hj : ∀ k ∈ kernels c', k ∈ (join seg).procs := by
    intro k hk'
    obtain ⟨s, h1, h2⟩ := hk k hk'
    cases seg with
    | none => simp [inUse] at h1
    | some s' =>
      simp only [inUse] at h1
      split at h1
      · cases h1
      · rename_i hu
        obtain rfl := Option.some.inj h1
        simpa [join, hu] using h2
  rw [hnew.2 hj] at hm
  have hserve : CanServe e := ⟨ha, c', hc, hf, hka⟩
  have key : (main e seg).2 = .status 0 ∧ same (main e seg).1 (inUse seg) := by
    rw [hm]
    cases seg with
    | none => simp [join, leave, inUse, same]
    | some s =>
      by_cases hu : s.users = 0
      · simp [join, leave, inUse, same, hu]
      · have : ¬ s.users + 1 = 1 := by omega
        simp [join, leave, inUse, same, hu]
  refine ⟨⟨0, key.1, by simp [hserve]⟩, fun _ _ => key.2, ?_⟩
  rintro (h | ⟨w, h⟩)
  · rw [ha] at h; cases h
  · rw [hc] at h; cases h

/-- **C95 (partial): wrong call.** Without an argument the controller returns -1 and touches nothing. -/
theorem C95_no_argument_partial (e : Env) (seg : Option Seg) (h : e.arg = false) : Proper e seg ∧ main e seg = (seg, .status (-1)) := by
  have hm : main e seg = (seg, .status (-1)) := by simp [main, h]
  have hns : ¬ CanServe e := fun hs => by have := hs.1; rw [h] at this; cases this
  refine ⟨⟨⟨-1, by rw [hm], ?_⟩, fun ha => (by rw [h] at ha; cases ha), fun _ => by rw [hm]⟩, hm⟩
  exact ⟨fun h => absurd h (by decide), fun h => absurd h hns⟩

/-- **C95 (partial): others keep what they have.** As long as somebody else uses the segment and `clean_shm` is not set, every procedure registered before a run is still registered after it, however the run
ends, and the segment is still there. -/
theorem C95_others_keep_partial (e : Env) (s : Seg) (hu : s.users ≠ 0) (hc : ∀ c, e.conf = .ok c → c.clean = false) :
    ∃ s', (main e (some s)).1 = some s' ∧ s'.users ≠ 0 ∧ ∀ k ∈ s.procs, k ∈ s'.procs := by
  have hj : join (some s) = { s with users := s.users + 1 } := by simp [join, hu]
  unfold main
  cases ha : e.arg with
  | false => exact ⟨s, rfl, hu, fun _ h => h⟩
  | true =>
    cases hcf : e.conf with
    | error w => exact ⟨s, rfl, hu, fun _ h => h⟩
    | ok c =>
      simp only [Bool.not_true, Bool.false_eq_true, if_false, hc c hcf, hj]
      have hl : ∀ (fs : List (Option (List String))) (t : Seg), (loadAll t fs).1.users = t.users ∧ ∀ k ∈ t.procs, k ∈ (loadAll t fs).1.procs := by
        intro fs
        induction fs with
        | nil => intro t; exact ⟨rfl, fun _ h => h⟩
        | cons f fs ih =>
          intro t
          cases f with
          | none => exact ⟨rfl, fun _ h => h⟩
          | some ks =>
            obtain ⟨a1, a2, a3, -⟩ := foldl_register ks t
            obtain ⟨b1, b2⟩ := ih (ks.foldl register t)
            exact ⟨b1.trans a1, fun k hk => b2 k ((a3 k).2 (.inl hk))⟩
      have hst : ∀ (as : List Accel) (t : Seg), (startAll t as).1.users = t.users ∧ (startAll t as).1.procs = t.procs := by
        intro as
        induction as with
        | nil => intro t; exact ⟨rfl, rfl⟩
        | cons a as ih =>
          intro t
          unfold startAll
          split
          · exact ih { t with accels := t.accels + 1 }
          · exact ⟨rfl, rfl⟩
      obtain ⟨l1, l2⟩ := hl c.folders { s with users := s.users + 1 }
      obtain ⟨t1, t2⟩ := hst c.accels (loadAll { s with users := s.users + 1 } c.folders).1
      simp only at l1
      split
      · exact ⟨_, rfl, by rw [l1]; omega, l2⟩
      · split
        · exact ⟨_, rfl, by rw [l1]; omega, l2⟩
        · split
          · exact ⟨_, rfl, by rw [t1, l1]; omega, fun k hk => by rw [t2]; exact l2 k hk⟩
          · rw [unload_nil]
            unfold leave
            simp only
            rw [if_neg (by rw [t1, l1]; omega)]
            refine ⟨_, rfl, ?_, fun k hk => ?_⟩
            · show (startAll _ _).1.users - 1 ≠ 0
              rw [t1, l1]; omega
            · show k ∈ (startAll _ _).1.procs
              rw [t2]; exact l2 k hk

/-! ## What does not hold -/

/-- **C95 violated: kernels stay.** For every run that can serve and loads a kernel that was not registered: it is not proper. As the last user it is aborted by its own leak check, and the segment is
never removed; with other users it returns 0, but the procedures stay. -/
theorem C95_violated_kernels (e : Env) (seg : Option Seg) (c : Conf) (hs : CanServe e) (hc : e.conf = .ok c) (hclean : c.clean = false) {k : String} (hk : k ∈ kernels c)
    (hnew : ∀ s, inUse seg = some s → k ∉ s.procs) :
    ¬ Proper e seg ∧ (inUse seg = none → (main e seg).2 = .aborted ∧ (main e seg).1 ≠ none) ∧
    (inUse seg ≠ none → (main e seg).2 = .status 0 ∧ ¬ same (main e seg).1 (inUse seg)) := by
  obtain ⟨ha, c', hc', hf, hka⟩ := hs
  have : c' = c := by rw [hc] at hc'; injection hc' with h; exact h.symm
  subst this
  obtain ⟨new, hn, hm⟩ := main_serves e seg c' ha hc hf hka
  have hb : (if c'.clean then none else seg) = seg := by simp [hclean]
  rw [hb] at hn hm
  have hne : new ≠ [] := by
    intro h
    have h1 := hn.1 h k hk
    cases seg with
    | none => simp [join] at h1
    | some s =>
      by_cases hu : s.users = 0
      · simp [join, hu] at h1
      · simp only [join, hu, if_false] at h1
        exact hnew s (by simp [inUse, hu]) h1
  have hlen : ∀ l : List String, (new ++ l).length ≠ l.length := by
    intro l h
    simp only [List.length_append] at h
    have : new.length = 0 := by omega
    exact hne (List.length_eq_zero_iff.1 this)
  have hA : inUse seg = none → (main e seg).2 = .aborted ∧ (main e seg).1 ≠ none := by
    intro hi
    have hj : join seg = { users := 1 } := by
      cases seg with
      | none => rfl
      | some s =>
        by_cases hu : s.users = 0
        · simp [join, hu]
        · simp [inUse, hu] at hi
    rw [hm, hj]
    have := hlen []
    simp only [leave, if_true]
    rw [if_neg (fun h => this h.1)]
    exact ⟨rfl, by simp⟩
  have hB : inUse seg ≠ none → (main e seg).2 = .status 0 ∧ ¬ same (main e seg).1 (inUse seg) := by
    intro hi
    cases seg with
    | none => simp [inUse] at hi
    | some s =>
      by_cases hu : s.users = 0
      · simp [inUse, hu] at hi
      · have hj : join (some s) = { s with users := s.users + 1 } := by simp [join, hu]
        rw [hm, hj]
        simp only [leave]
        rw [if_neg (by omega)]
        refine ⟨rfl, ?_⟩
        simp only [inUse, hu, if_false, same, not_and]
        intro _ hp
        exact absurd hp.length_eq (hlen _)
  refine ⟨fun hp => ?_, hA, hB⟩
  by_cases hi : inUse seg = none
  · obtain ⟨n, h, -⟩ := hp.1
    rw [(hA hi).1] at h; cases h
  · exact (hB hi).2 (hp.2.1 ha ⟨c', hc⟩)

/-- **C95 violated: wrong configuration.** Whatever is wrong with it, the process is aborted: exceptions are thrown by value and caught as pointers. -/
theorem C95_violated_config (e : Env) (seg : Option Seg) (ha : e.arg = true) (w : String) (hc : e.conf = .error w) : main e seg = (seg, .aborted) ∧ ¬ Proper e seg := by
  have hm : main e seg = (seg, .aborted) := by simp [main, ha, hc]
  refine ⟨hm, fun hp => ?_⟩
  obtain ⟨n, h, -⟩ := hp.1
  rw [hm] at h; cases h

/-- **C95 violated: a folder cannot be opened, or an accelerator has no thread.** The controller returns -1, but remains counted as a user of the segment, which therefore is never removed. -/
theorem C95_violated_refusal (e : Env) (seg : Option Seg) (c : Conf) (ha : e.arg = true) (hc : e.conf = .ok c) (hclean : c.clean = false)
    (h : (∃ f ∈ c.folders, f = none) ∨ ∃ a ∈ c.accels, a.known = false) :
    (main e seg).2 = .status (-1) ∧ (∃ s, (main e seg).1 = some s ∧ s.users = (join seg).users) ∧ ¬ Proper e seg := by
  have key : (main e seg).2 = .status (-1) ∧ ∃ s, (main e seg).1 = some s ∧ s.users = (join seg).users := by
    unfold main
    simp only [ha, hc, hclean, Bool.not_true, Bool.false_eq_true, if_false]
    by_cases hb : ∃ f ∈ c.folders, f = none
    · obtain ⟨h1, h2, -⟩ := loadAll_bad c.folders (join seg) hb
      rw [h1]
      exact ⟨rfl, _, rfl, h2⟩
    · have hf : ∀ f ∈ c.folders, f ≠ none := fun f hf e => hb ⟨f, hf, e⟩
      obtain ⟨h1, h2, -, -⟩ := loadAll_ok c.folders (join seg) hf
      rcases h with h | ⟨a, hm, hk⟩
      · exact absurd h hb
      · have : c.accels.any (fun a => !a.known) = true := List.any_eq_true.2 ⟨a, hm, by simp [hk]⟩
        rw [h1, this]
        exact ⟨rfl, _, rfl, h2⟩
  refine ⟨key.1, key.2, fun hp => ?_⟩
  have hs := hp.2.1 ha ⟨c, hc⟩
  obtain ⟨s, h1, h2⟩ := key.2
  rw [h1] at hs
  cases seg with
  | none => exact hs
  | some t =>
    by_cases hu : t.users = 0
    · simp [inUse, hu, same] at hs
    · simp only [inUse, hu, if_false, same] at hs
      simp only [join, hu, if_false] at h2
      omega

/-- **C95 violated: `clean_shm` while others run.** The name is taken from the segment the others use; a controller started so never meets them. -/
theorem C95_violated_clean (e : Env) (s : Seg) (c : Conf) (hs : CanServe e) (hc : e.conf = .ok c) (hclean : c.clean = true) (hu : s.users ≠ 0) : ¬ Proper e (some s) := by
  obtain ⟨ha, c', hc', hf, hka⟩ := hs
  have : c' = c := by rw [hc] at hc'; injection hc' with h; exact h.symm
  subst this
  obtain ⟨new, hn, hm⟩ := main_serves e (some s) c' ha hc hf hka
  have hb : (if c'.clean then none else some s) = (none : Option Seg) := by simp [hclean]
  rw [hb] at hm
  intro hp
  have h1 := hp.2.1 ha ⟨c', hc⟩
  rw [hm] at h1
  simp only [inUse, hu, if_false, join, leave, if_true] at h1
  split at h1
  · exact h1
  · simp only [same] at h1
    exact hu h1.1.symm

/-! ## Non-vacuity -/

/-- A configuration with two accelerators and two folders with kernels. -/
def conf0 : Conf := { folders := [some ["mul", "add"], some ["noop"]], accels := [{}, {}] }

example : CanServe { conf := .ok conf0 } := ⟨rfl, conf0, rfl, by decide, by decide⟩
/-- The usual run: aborted, three procedures left. -/
example : main { conf := .ok conf0 } none = (some { users := 0, procs := ["noop", "add", "mul"], accels := 0 }, .aborted) := by decide
/-- A second controller beside an application that holds the procedures already. -/
example : Proper { conf := .ok conf0 } (some { users := 2, procs := ["mul", "add", "noop"], accels := 1 }) :=
  C95_no_kernels_partial _ _ conf0 ⟨rfl, conf0, rfl, by decide, by decide⟩ rfl rfl (fun k hk => ⟨_, rfl, by
    have : kernels conf0 = ["mul", "add", "noop"] := rfl
    rw [this] at hk; exact hk⟩)
/-- Folder missing. -/
example : main { conf := .ok { folders := [some ["mul"], none] } } none = (some { users := 1, procs := ["mul"], accels := 0 }, .status (-1)) := by decide
example : ¬ Proper { conf := .ok { conf0 with clean := true } } (some { users := 1 }) :=
  C95_violated_clean _ _ { conf0 with clean := true } ⟨rfl, _, rfl, by decide, by decide⟩ rfl rfl (by decide)

end Arax.Run
