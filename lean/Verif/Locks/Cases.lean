import Verif.Locks.Props
/-!
# C79: what the rules do not cover, and examples
-/
namespace Arax.Locks

/-! ## Ways through a program, by choices -/

/-- Repeats a choice function. -/
def times (f : List Nat → Option (List Op × List Nat)) : Nat → List Nat → Option (List Op × List Nat)
  | 0, w => some ([], w)
  | n + 1, w =>
    match f w with
    | none => none
    | some (p, w) =>
      match times f n w with
      | none => none
      | some (q, w) => some (p ++ q, w)

/-- The way through a program that makes the choices `w`: 0 is the left side, the number of an object, or how often a loop runs. -/
def pick : Cmd → List Nat → Option (List Op × List Nat)
  | .skip, w => some ([], w)
  | .op o, w => some ([o], w)
  | .seq a b, w =>
    match pick a w with
    | none => none
    | some (p, w) =>
      match pick b w with
      | none => none
      | some (q, w) => some (p ++ q, w)
  | .alt _ _, [] => none
  | .alt a b, i :: w => if i = 0 then pick a w else pick b w
  | .any _, [] => none
  | .any f, i :: w => pick (f i) w
  | .rep _, [] => none
  | .rep a, n :: w => times (pick a) n w

theorem times_path {a : Cmd} (ha : ∀ w p w', pick a w = some (p, w') → Path a p) : ∀ n w p w', times (pick a) n w = some (p, w') → Path (.rep a) p := by
  intro n
  induction n with
  | zero => intro w p w' h; simp only [times, Option.some.injEq, Prod.mk.injEq] at h; rw [← h.1]; exact .rep0
  | succ n ih =>
    intro w p w' h
    simp only [times] at h
    split at h
    · cases h
    · rename_i q w1 h1
      split at h
      · cases h
      · rename_i q2 w2 h2
        cases h
        exact .rep (ha _ _ _ h1) (ih _ _ _ h2)

theorem pick_path (c : Cmd) : ∀ w p w', pick c w = some (p, w') → Path c p := by
  induction c with
  | skip => intro w p w' h; cases h; exact .skip
  | op o => intro w p w' h; cases h; exact .op o
  | seq a b iha ihb =>
    intro w p w' h
    simp only [pick] at h
    split at h
    · cases h
    · rename_i q w1 h1
      split at h
      · cases h
      · rename_i q2 w2 h2
        cases h
        exact .seq (iha _ _ _ h1) (ihb _ _ _ h2)
  | alt a b iha ihb =>
    intro w p w' h
    cases w with
    | nil => cases h
    | cons i w =>
      simp only [pick] at h
      split at h
      · exact .left (iha _ _ _ h)
      · exact .right (ihb _ _ _ h)
  | any f ih =>
    intro w p w' h
    cases w with
    | nil => cases h
    | cons i w => exact .any i (ih i _ _ _ h)
  | rep a ih =>
    intro w p w' h
    cases w with
    | nil => cases h
    | cons n w => exact times_path ih n w p w' h

/-- The way, or nothing. -/
def way (c : Cmd) (w : List Nat) : List Op := match pick c w with | some (p, _) => p | none => []

theorem way_path (c : Cmd) (w : List Nat) (h : (pick c w).isSome = true) : Path c (way c w) := by
  unfold way
  cases hp : pick c w with
  | none => rw [hp] at h; cases h
  | some x => exact pick_path c w x.1 x.2 hp

theorem one_call {c : Cfg} {f : Api} {w : List Nat} (h : (pick (f.cmd c) w).isSome = true) : Calls c [f] (way (f.cmd c) w) := by
  have := Calls.cons (way_path _ w h) (.nil (c := c))
  rwa [List.append_nil] at this

/-- Two threads, each with one call. -/
def two (p q : List Op) : St := ⟨fun t => if t = 0 then p else if t = 1 then q else [], fun _ => false, fun _ => none⟩

theorem two_reached {e : Bool} {f g : Api} {v w : List Nat} (hv : (pick (f.cmd ⟨e, 0⟩) v).isSome = true) (hw : (pick (g.cmd ⟨e, 0⟩) w).isSome = true) (acts : List Act) :
    Reached e (acts.foldl St.act (two (way (f.cmd ⟨e, 0⟩) v) (way (g.cmd ⟨e, 0⟩) w))) := by
  refine ⟨2, fun _ => 0, fun t => if t = 0 then [f] else if t = 1 then [g] else [], _, acts, ?_, ?_, rfl⟩
  · intro t
    by_cases h0 : t = 0
    · subst h0; exact one_call hv
    · by_cases h1 : t = 1
      · subst h1; exact one_call hw
      · simp only [two, h0, h1, if_false]; exact .nil
  · intro t ht
    have h0 : t ≠ 0 := by omega
    have h1 : t ≠ 1 := by omega
    simp [two, h0, h1]

/-! ## A task for a full queue -/

/-- The way of `arax_task_issue` without arguments, on virtual accelerator 0. -/
def issueWay : List Nat := [0, 0, 0, 0, 0, 0]

/-- Thread 0 issues a task on virtual accelerator 0, whose queue is full; thread 1 detaches virtual accelerator 0 from accelerator 0. -/
def roomSt : St :=
  (List.replicate 11 (Act.go 0)).foldl St.act (two (way (Api.issue.cmd ⟨false, 0⟩) issueWay) (way ((Api.delVaccel 0 0).cmd ⟨false, 0⟩) []))

/-- The same state, with a lock whose owner is `o`: what is needed of a state in the theorems below. -/
def Waits (s : St) (l : Lk) (t u : Nat) : Bool := (s.todo t).head? = some (.lock l) && s.own l = some u && !s.dead t

theorem Waits.blocks {s : St} {l : Lk} {t u : Nat} (h : Waits s l t u = true) : Blocks s t u := by
  simp only [Waits, Bool.and_eq_true, decide_eq_true_eq, Bool.not_eq_true'] at h
  obtain ⟨⟨h1, h2⟩, h3⟩ := h
  cases ht : s.todo t with
  | nil => rw [ht] at h1; cases h1
  | cons o r => rw [ht] at h1; cases h1; exact ⟨h3, l, r, ht, h2⟩

theorem head_cons {p : List Op} {o : Op} (h : p.head? = some o) : ∃ r, p = o :: r := by
  cases p with
  | nil => cases h
  | cons a r => cases h; exact ⟨r, rfl⟩

/-- C79 fails: a thread that issues a task keeps the lock of the virtual accelerator while it waits for room in its queue. All other threads that need this lock (to issue, attach, detach or release) wait until a worker takes a task from the
queue, whatever else happens. -/
theorem C79_room_violated : ∃ s, Reached false s ∧ (∀ t, s.dead t = false) ∧ ∃ t u, WaitsRoom s u ∧ Blocks s t u ∧
    ∀ acts : List Act, .ev u ∉ acts → (acts.foldl St.act s).todo t = s.todo t := by
  have hr : Reached false roomSt := two_reached (f := .issue) (g := .delVaccel 0 0) (by decide) (by decide) _
  have hb : Blocks roomSt 1 0 := Waits.blocks (l := .vac 0) (by decide)
  have hw : WaitsRoom roomSt 0 := by
    obtain ⟨r, h⟩ := head_cons (p := roomSt.todo 0) (o := .room 0) (by decide)
    refine ⟨0, r, h, ?_⟩
    obtain ⟨H, hi⟩ := reached_inv hr
    have hg := hi.good 0
    rw [h] at hg
    intro l
    rw [hi.own, hg.1]; simp
  refine ⟨roomSt, hr, fun t => ?_, 1, 0, hw, hb, fun acts ha => stuck hr hb (Or.inr ?_) acts (Or.inr ha)⟩
  · rfl
  · obtain ⟨v, r, h, _⟩ := hw; exact ⟨r, Or.inr (Or.inr ⟨v, h⟩)⟩

/-! ## A process that dies -/

/-- Thread 0 allocates and dies with the lock of the allocator; thread 1 allocates. -/
def deathSt : St :=
  [Act.go 0, .go 0, .die 0].foldl St.act (two (way ((Api.allocate 0).cmd ⟨false, 0⟩) [0]) (way ((Api.allocate 0).cmd ⟨false, 0⟩) [0]))

/-- C79 fails: when a process dies with a lock, whoever needs the lock waits for ever, whatever happens. -/
theorem C79_death_violated : ∃ s, Reached false s ∧ ∃ t u, s.dead u = true ∧ s.dead t = false ∧ Blocks s t u ∧
    ∀ acts : List Act, (acts.foldl St.act s).todo t = s.todo t := by
  have hr : Reached false deathSt := two_reached (f := .allocate 0) (g := .allocate 0) (by decide) (by decide) _
  have hb : Blocks deathSt 1 0 := Waits.blocks (l := .heap 0) (by decide)
  exact ⟨deathSt, hr, 1, 0, by decide, by decide, hb, fun acts => stuck hr hb (Or.inl (by decide)) acts (Or.inl (by decide))⟩

/-! ## A controller that starts -/

/-- The way of the start of an accelerator that waits once for space. -/
def startWay : List Nat := [1, 1, 0, 0, 0, 0, 0, 1]

/-- Thread 0 starts an accelerator and finds no space in the segment; thread 1 ends another one. Throttles are enforced. -/
def spaceSt : St :=
  (List.replicate 8 (Act.go 0)).foldl St.act (two (way (Api.workerStart.cmd ⟨true, 0⟩) startWay) (way ((Api.workerEnd 0).cmd ⟨true, 0⟩) [0]))

/-- C79 fails: with throttles enforced, a worker that starts sleeps with the lock `print` until there is space in the segment; no other worker starts or ends before. -/
theorem C79_space_violated : ∃ s, Reached true s ∧ (∀ t, s.dead t = false) ∧ ∃ t u, WaitsSpace s u ∧ Blocks s t u ∧
    ∀ acts : List Act, .ev u ∉ acts → (acts.foldl St.act s).todo t = s.todo t := by
  have hr : Reached true spaceSt := two_reached (f := .workerStart) (g := .workerEnd 0) (by decide) (by decide) _
  have hb : Blocks spaceSt 1 0 := Waits.blocks (l := .print) (by decide)
  have hw : WaitsSpace spaceSt 0 := by
    obtain ⟨r, h⟩ := head_cons (p := spaceSt.todo 0) (o := .sleep) (by decide)
    refine ⟨r, h, ?_⟩
    obtain ⟨H, hi⟩ := reached_inv hr
    have hg := hi.good 0
    rw [h] at hg
    intro l
    rw [hi.own]
    rcases hg.1 with h1 | ⟨_, h1⟩
    · have : Lk.print ∈ H 0 := (hi.own _ _).1 (by decide)
      rw [h1] at this; cases this
    · rw [h1]; simp
  refine ⟨spaceSt, hr, fun t => rfl, 1, 0, hw, hb, fun acts ha => stuck hr hb (Or.inr ?_) acts (Or.inr ha)⟩
  obtain ⟨r, h, _⟩ := hw
  exact ⟨r, Or.inl h⟩

/-! ## Calls outside the rules -/

/-- One thread alone. -/
def alone (p : List Op) : St := ⟨fun t => if t = 0 then p else [], fun _ => false, fun _ => none⟩

theorem alone_stuck {s : St} (h1 : ∀ t, t ≠ 0 → s.todo t = []) {l : Lk} {r : List Op} (h2 : s.todo 0 = .lock l :: r) (h3 : s.own l = some 0) (acts : List Act) :
    (acts.foldl St.act s).todo 0 = s.todo 0 := by
  have key : ∀ a, s.act a = s ∨ ∃ d, s.act a = { s with dead := d } := by
    intro a
    cases a with
    | go t =>
      left
      by_cases ht : t = 0
      · subst ht; simp [St.act, St.go, h2, h3]
      · simp [St.act, St.go, h1 t ht]
    | ev t =>
      left
      by_cases ht : t = 0
      · subst ht; simp [St.act, h2]
      · simp [St.act, h1 t ht]
    | die t => exact Or.inr ⟨_, rfl⟩
  induction acts generalizing s with
  | nil => rfl
  | cons a q ih =>
    simp only [List.foldl_cons]
    rcases key a with h | ⟨d, h⟩ <;> rw [h]
    · exact ih h1 h2 h3 key
    · refine ih (s := { s with dead := d }) h1 h2 h3 ?_
      intro a
      cases a with
      | go t =>
        left
        by_cases ht : t = 0
        · subst ht; simp [St.act, St.go, h2, h3]
        · simp [St.act, St.go, h1 t ht]
      | ev t =>
        left
        by_cases ht : t = 0
        · subst ht; simp [St.act, h2]
        · simp [St.act, h1 t ht]
      | die t => exact Or.inr ⟨_, rfl⟩

/-- The way of `arax_accel_list` for virtual accelerators with an array of an earlier list of accelerators, one of which it drops the last reference of. -/
def relistWay : List Nat := [1, 1, 0, 1, 0, 0, 0, 0, 0, 0]

/-- C79 fails outside the rules: `arax_accel_list` of virtual accelerators, given the array of an earlier list of accelerators, one of which was deleted meanwhile, takes the lock of the list of virtual accelerators twice. The thread
never returns, alone in the system, and whatever happens. -/
theorem C79_relist_violated : ∃ (p : List Op) (k : Nat), Path (accelList ⟨false, 0⟩ .virt .phys) p ∧
    ∀ acts : List Act, (acts.foldl St.act ((List.replicate k (Act.go 0)).foldl St.act (alone p))).todo 0 ≠ [] := by
  refine ⟨way (accelList ⟨false, 0⟩ .virt .phys) relistWay, 6, way_path _ _ (by decide), fun acts => ?_⟩
  obtain ⟨r, h⟩ := head_cons (p := ((List.replicate 6 (Act.go 0)).foldl St.act (alone (way (accelList ⟨false, 0⟩ .virt .phys) relistWay))).todo 0) (o := .lock (.repo .virt)) (by decide)
  rw [alone_stuck (l := .repo .virt) (r := r) ?_ h (by decide), h]
  · simp
  · intro t ht
    have : ∀ (acts : List Act) (s : St), s.todo t = [] → (acts.foldl St.act s).todo t = [] := by
      intro acts
      induction acts with
      | nil => intro s h; exact h
      | cons a l ih => intro s h; exact ih _ (act_done s a t h)
    exact this _ _ (by simp [alone, ht])

/-- C79 fails outside the rules: `arax_accel_list` of accelerators, given the array of an earlier list of virtual accelerators, changes the list of virtual accelerators without its lock. -/
theorem C79_relist_use_violated : ∃ p q r, Path (accelList ⟨false, 0⟩ .phys .virt) p ∧ p = q ++ .use (.repo .virt) :: r ∧ .repo .virt ∉ held [] q := by
  refine ⟨way (accelList ⟨false, 0⟩ .phys .virt) [1, 1, 0, 1, 1, 0, 0, 0], [.lock (.repo .phys), .use (.repo .phys)],
    (way (accelList ⟨false, 0⟩ .phys .virt) [1, 1, 0, 1, 1, 0, 0, 0]).drop 3, way_path _ _ (by decide), by decide, by decide⟩

/-- C79 fails outside the rules: a function given to `arch_alloc_inspect` that allocates from the same allocator never returns. -/
theorem C79_inspect_violated (i : Nat) : ∃ p q r, Path (minspect i (mmalloc ⟨false, 0⟩ i)) p ∧ p = q ++ .lock (.heap i) :: r ∧ .heap i ∈ held [] q := by
  refine ⟨way (minspect i (mmalloc ⟨false, 0⟩ i)) [1, 0], [.lock (.heap i), .use (.heap i)], [.use (.heap i), .unlock (.heap i), .unlock (.heap i)],
    way_path _ _ rfl, rfl, ?_⟩
  simp [held]

/-! ## Examples -/

/-- Thread 0 issues a task; thread 1 attaches virtual accelerator 0 to accelerator 0. -/
def workSt : St :=
  ((List.replicate 11 (Act.go 0) ++ [Act.ev 0, .go 0, .go 1, .go 1, .go 1] : List Act)).foldl St.act
    (two (way (Api.issue.cmd ⟨false, 0⟩) [0, 0, 0, 0, 0, 1, 0]) (way ((Api.addVaccel 0 0).cmd ⟨false, 0⟩) [1, 1]))

/-- A call that takes several locks at the same time, with which `C79_ordered` and `C79_waits` say something: `arax_accel_list` for a list of accelerators, with an array of an earlier one. -/
example : Path ((Api.accelList true).cmd ⟨false, 0⟩) (way ((Api.accelList true).cmd ⟨false, 0⟩) relistWay) ∧
    way ((Api.accelList true).cmd ⟨false, 0⟩) relistWay =
      [.lock (.repo .phys), .use (.repo .phys), .use (.repo .phys), .lock (.acc 0), .use (.acc 0), .unlock (.acc 0), .lock (.repo .virt), .use (.repo .virt), .unlock (.repo .virt),
       .lock (.heap 0), .use (.heap 0), .unlock (.heap 0), .lock (.heap 0), .use (.heap 0), .unlock (.heap 0), .unlock (.repo .phys)] :=
  ⟨way_path _ _ (by decide), by decide⟩

/-- A reached state in which thread 0 has the locks of virtual accelerator 0 and accelerator 0, uses the latter, and thread 1 waits for the former. -/
example : Reached false workSt ∧ (workSt.todo 0).head? = some (.use (.acc 0)) ∧ workSt.own (.vac 0) = some 0 ∧ Waits workSt (.vac 0) 1 0 = true ∧ (workSt.go 0).isSome = true :=
  ⟨two_reached (f := .issue) (g := .addVaccel 0 0) (by decide) (by decide) _, by decide, by decide, by decide, by decide⟩

/-- A reached state in which no thread can go on, one is done and one sleeps without locks. -/
example : ∃ s, Reached false s ∧ (s.go 0).isNone = true ∧ (s.go 1).isNone = true ∧ s.todo 0 = [] ∧ (s.todo 1).head? = some .sleep ∧ s.own (.acc 0) = none :=
  ⟨_, two_reached (f := .addAccelTask 0) (g := .waitForTask 0) (v := []) (w := [1]) (by decide) (by decide) [.go 1, .go 1, .go 1, .go 0, .go 0, .go 0],
    by decide, by decide, by decide, by decide, by decide⟩

end Arax.Locks
