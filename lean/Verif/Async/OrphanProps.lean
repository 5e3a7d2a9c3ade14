import Verif.Async.Orphan
/-!
# C64: hand-over of orphan virtual accelerators

`exec b init pre` is the state after an arbitrary finite history `pre` of calls, steps of any thread and spurious wake-ups. For the wake-up theorem
the threads then run their current calls with a schedule `f : Nat → Nat` (the thread that takes the next step) that is fair to all of them.
-/
namespace Arax.Orphan

def run (b : Backend) (s : St) (f : Nat → Nat) : Nat → St
  | 0 => s
  | t + 1 => goStep b (run b s f t) (f t)

def Fair (n : Nat) (f : Nat → Nat) : Prop := (∀ t, f t < n) ∧ ∀ i, i < n → ∀ t, ∃ t', t ≤ t' ∧ f t' = i

/-- Only threads below `n` exist. -/
def Act.below (n : Nat) : Act → Prop
  | .go i | .call i _ | .spurious i => i < n

/-- Thread `i` is inside `arax_pipe_get_orphan_vaccel`. -/
def St.getting (s : St) (i : Nat) : Prop :=
  s.pc i = .gLock ∨ s.pc i = .gTest ∨ s.pc i = .gWait ∨ s.pc i = .asleep ∨ s.pc i = .gRelock ∨ s.pc i = .gPop ∨ ∃ r, s.pc i = .gUnlock r

/-- The virtual accelerators returned so far, in order. -/
def St.handed (s : St) : List Nat := s.rets.filterMap (·.2)

/-- How many calls have returned NULL so far. -/
def St.nulls (s : St) : Nat := (s.rets.filter (·.2 = none)).length

/-! ### Sums over the threads -/

def total (w : Pc → Nat) (p : Nat → Pc) : Nat → Nat
  | 0 => 0
  | n + 1 => total w p n + w (p n)

theorem total_congr (w : Pc → Nat) (p q : Nat → Pc) : ∀ n, (∀ i, i < n → w (p i) = w (q i)) → total w p n = total w q n
  | 0, _ => rfl
  | n + 1, h => by
    simp only [total]
    rw [total_congr w p q n (fun i hi => h i (by omega)), h n (by omega)]

theorem total_mono (w : Pc → Nat) (p q : Nat → Pc) : ∀ n, (∀ i, i < n → w (p i) ≤ w (q i)) → total w p n ≤ total w q n
  | 0, _ => by simp [total]
  | n + 1, h => by
    have := total_mono w p q n (fun i hi => h i (by omega))
    have := h n (by omega)
    simp only [total]; omega

theorem total_set (w : Pc → Nat) (p : Nat → Pc) (i : Nat) (x : Pc) : ∀ n, i < n →
    total w (fun j => if j = i then x else p j) n + w (p i) = total w p n + w x
  | 0, h => by omega
  | n + 1, h => by
    simp only [total]
    by_cases e : n = i
    · subst e
      have := total_congr w (fun j => if j = n then x else p j) p n (fun i hi => by
        show w (if i = n then x else p i) = w (p i)
        rw [if_neg (by omega)])
      rw [this, if_pos rfl]; omega
    · have := total_set w p i x n (by omega)
      rw [if_neg e]; omega

theorem total_pos (w : Pc → Nat) (p : Nat → Pc) : ∀ n, 1 ≤ total w p n → ∃ i, i < n ∧ 1 ≤ w (p i)
  | 0, h => by simp [total] at h
  | n + 1, h => by
    simp only [total] at h
    by_cases e : 1 ≤ w (p n)
    · exact ⟨n, by omega, e⟩
    · obtain ⟨i, hi, h'⟩ := total_pos w p n (by omega); exact ⟨i, by omega, h'⟩

/-! ### Lock -/

def Pc.holds : Pc → Bool
  | .gTest | .gWait | .gPop | .gUnlock _ | .aAdd _ | .aNotify | .rDel _ | .sNotify | .unlock => true
  | _ => false

structure Inv (n : Nat) (s : St) : Prop where
  held  : s.locked = true → ∃ i, i < n ∧ (s.pc i).holds = true
  hold  : ∀ i, (s.pc i).holds = true → s.locked = true
  mutex : ∀ i j, (s.pc i).holds = true → (s.pc j).holds = true → i = j
  wait0 : ∀ i, s.pc i = .gWait → s.orphans.length = 0
  out   : ∀ i, n ≤ i → s.pc i = .idle

theorem inv_init (n : Nat) : Inv n init := ⟨by simp [init], by simp [init, Pc.holds], by simp [init, Pc.holds], by simp [init], by simp [init]⟩

theorem start_holds (c : Call) : c.start.holds = false := by cases c <;> rfl
theorem start_ne (c : Call) : c.start ≠ .gWait := by cases c <;> simp [Call.start]

theorem inv_step (b : Backend) (n : Nat) (s : St) (a : Act) (ha : a.below n) (h : Inv n s) : Inv n (step b s a) := by
  obtain ⟨h1, h2, h3, h4, h7⟩ := h
  cases a with
  | go i =>
    have hi : i < n := ha
    simp only [step, goStep, St.notify]
    split
    all_goals (try split)
    all_goals (try split)
    all_goals (try exact ⟨h1, h2, h3, h4, h7⟩)
    all_goals constructor
    all_goals first
        | (intro _; refine ⟨i, hi, ?_⟩; simp [St.goto, Pc.holds]; done)
        | (intro hl; simp [St.goto] at hl; done)
        | (intro hl; simp only [St.goto] at hl; obtain ⟨j, hj, hh⟩ := h1 hl; refine ⟨j, hj, ?_⟩; grind [St.goto, Pc.holds])
        | grind [St.goto, Pc.holds]
  | call i c =>
    have hi : i < n := ha
    have hs := start_holds c
    have hw := start_ne c
    simp only [step]
    split
    · constructor
      all_goals first
        | (intro hl; simp only [St.goto] at hl; obtain ⟨j, hj, hh⟩ := h1 hl; refine ⟨j, hj, ?_⟩; grind [St.goto, Pc.holds])
        | grind [St.goto, Pc.holds]
    · exact ⟨h1, h2, h3, h4, h7⟩
  | spurious i =>
    have hi : i < n := ha
    simp only [step]
    split
    · constructor
      all_goals first
        | (intro hl; simp only [St.goto] at hl; obtain ⟨j, hj, hh⟩ := h1 hl; refine ⟨j, hj, ?_⟩; grind [St.goto, Pc.holds])
        | grind [St.goto, Pc.holds]
    · exact ⟨h1, h2, h3, h4, h7⟩

theorem inv_exec (b : Backend) (n : Nat) : ∀ (pre : List Act) (s : St), (∀ a ∈ pre, a.below n) → Inv n s → Inv n (exec b s pre)
  | [], _, _, h => h
  | a :: pre, s, hb, h =>
    inv_exec b n pre (step b s a) (fun x hx => hb x (List.mem_cons_of_mem _ hx)) (inv_step b n s a (hb a List.mem_cons_self) h)

/-! ### Every orphan is handed out at most once -/

def wHeld (v : Nat) (p : Pc) : Nat := if p = .gUnlock (some v) then 1 else 0

def Cons (n : Nat) (s : St) : Prop :=
  ∀ v, s.added.count v = s.orphans.count v + s.removed.count v + s.handed.count v + total (wHeld v) s.pc n

theorem held_notify (b : Backend) (n v : Nat) (s : St) (i : Nat) (hi : i < n) (hp : wHeld v (s.pc i) = 0) :
    total (wHeld v) (s.notify b i).pc n = total (wHeld v) s.pc n := by
  apply total_congr
  intro j _
  cases b with
  | mutex =>
    show wHeld v (if j = i then .unlock else if s.pc j = .asleep then .gRelock else s.pc j) = _
    by_cases h1 : j = i
    · subst h1; rw [if_pos rfl, hp]; simp [wHeld]
    · rw [if_neg h1]
      by_cases h2 : s.pc j = .asleep
      · rw [if_pos h2, h2]; simp [wHeld]
      · rw [if_neg h2]
  | spin =>
    show wHeld v (if j = i then .unlock else s.pc j) = _
    by_cases h1 : j = i
    · subst h1; rw [if_pos rfl, hp]; simp [wHeld]
    · rw [if_neg h1]

theorem cons_step (b : Backend) (n : Nat) (s : St) (a : Act) (ha : a.below n) (h : Cons n s) : Cons n (step b s a) := by
  have plain : ∀ (s' : St) i p, i < n → s'.pc = (s.goto i p).pc → (∀ v, p ≠ .gUnlock (some v)) → (∀ v, s.pc i ≠ .gUnlock (some v)) →
      s'.added = s.added → s'.orphans = s.orphans → s'.removed = s.removed → s'.rets = s.rets → Cons n s' := by
    intro s' i p hi e hp hq e1 e2 e3 e4 v
    have := total_set (wHeld v) s.pc i p n hi
    have h0 : wHeld v p = 0 := by simp [wHeld, hp]
    have h1 : wHeld v (s.pc i) = 0 := by simp [wHeld, hq]
    have := h v
    unfold St.handed
    rw [e, e1, e2, e3, e4]
    unfold St.handed at this
    show _ = _ + total (wHeld v) (fun j => if j = i then p else s.pc j) n
    omega
  cases a with
  | go i =>
    have hi : i < n := ha
    simp only [step, goStep]
    cases hp : s.pc i with
    | idle => exact h
    | gLock =>
      simp only; split
      · exact h
      · exact plain _ i .gTest hi rfl (by simp) (by simp [hp]) rfl rfl rfl rfl
    | gTest =>
      simp only; split
      · exact plain _ i .gWait hi rfl (by simp) (by simp [hp]) rfl rfl rfl rfl
      · exact plain _ i .gPop hi rfl (by simp) (by simp [hp]) rfl rfl rfl rfl
    | gWait => exact plain _ i .asleep hi rfl (by simp) (by simp [hp]) rfl rfl rfl rfl
    | asleep =>
      simp only
      cases b with
      | mutex => exact h
      | spin =>
        simp only; split
        · exact plain _ i .gRelock hi rfl (by simp) (by simp [hp]) rfl rfl rfl rfl
        · exact h
    | gRelock =>
      simp only; split
      · exact h
      · exact plain _ i .gPop hi rfl (by simp) (by simp [hp]) rfl rfl rfl rfl
    | gPop =>
      intro v
      have e := total_set (wHeld v) s.pc i (.gUnlock s.orphans.head?) n hi
      have h1 : wHeld v (s.pc i) = 0 := by simp [wHeld, hp]
      have hc := h v
      unfold St.handed at *
      show s.added.count v = s.orphans.tail.count v + s.removed.count v + (s.rets.filterMap (·.2)).count v + total (wHeld v) (fun j => if j = i then .gUnlock s.orphans.head? else s.pc j) n
      have hcount : s.orphans.tail.count v + wHeld v (.gUnlock s.orphans.head?) = s.orphans.count v := by
        cases s.orphans with
        | nil => simp [wHeld]
        | cons x r =>
          simp only [List.tail_cons, List.head?_cons, wHeld, List.count_cons, Pc.gUnlock.injEq, Option.some.injEq, beq_iff_eq]
      omega
    | gUnlock r =>
      intro v
      have e := total_set (wHeld v) s.pc i .idle n hi
      have h0 : wHeld v .idle = 0 := by simp [wHeld]
      have hc := h v
      unfold St.handed at *
      show s.added.count v = s.orphans.count v + s.removed.count v + ((s.rets ++ [(i, r)]).filterMap (·.2)).count v +
        total (wHeld v) (fun j => if j = i then .idle else s.pc j) n
      have hcount : ((s.rets ++ [(i, r)]).filterMap (·.2)).count v = (s.rets.filterMap (·.2)).count v + wHeld v (s.pc i) := by
        rw [List.filterMap_append, List.count_append, hp]
        cases r with
        | none => simp [wHeld]
        | some x => simp [wHeld, List.count_cons]
      omega
    | aLock v =>
      simp only; split
      · exact h
      · exact plain _ i (.aAdd v) hi rfl (by simp) (by simp [hp]) rfl rfl rfl rfl
    | aAdd x =>
      intro v
      have e := total_set (wHeld v) s.pc i .aNotify n hi
      have h0 : wHeld v .aNotify = 0 := by simp [wHeld]
      have h1 : wHeld v (s.pc i) = 0 := by simp [wHeld, hp]
      have hc := h v
      unfold St.handed at *
      show (x :: s.added).count v = (x :: s.orphans).count v + s.removed.count v + (s.rets.filterMap (·.2)).count v + total (wHeld v) (fun j => if j = i then .aNotify else s.pc j) n
      simp only [List.count_cons, St.goto] at *
      omega
    | aNotify =>
      intro v
      have := held_notify b n v s i hi (by simp [wHeld, hp])
      have hc := h v
      simp only; rw [this]
      cases b <;> exact hc
    | rLock v =>
      simp only; split
      · exact h
      · exact plain _ i (.rDel v) hi rfl (by simp) (by simp [hp]) rfl rfl rfl rfl
    | rDel x =>
      simp only; split
      · rename_i hx
        intro v
        have e := total_set (wHeld v) s.pc i .unlock n hi
        have h0 : wHeld v .unlock = 0 := by simp [wHeld]
        have h1 : wHeld v (s.pc i) = 0 := by simp [wHeld, hp]
        have hc := h v
        unfold St.handed at *
        show s.added.count v = (s.orphans.erase x).count v + (x :: s.removed).count v + (s.rets.filterMap (·.2)).count v + total (wHeld v) (fun j => if j = i then .unlock else s.pc j) n
        simp only [List.count_cons, St.goto, List.count_erase, beq_iff_eq] at *
        have : x = v → 1 ≤ s.orphans.count v := by rintro rfl; exact List.count_pos_iff.mpr hx
        split <;> rename_i hxv
        · have := this (by simp_all); omega
        · omega
      · exact plain _ i .unlock hi rfl (by simp) (by simp [hp]) rfl rfl rfl rfl
    | sLock =>
      simp only; split
      · exact h
      · exact plain _ i .sNotify hi rfl (by simp) (by simp [hp]) rfl rfl rfl rfl
    | sNotify =>
      intro v
      have := held_notify b n v { s with stops := s.stops + 1 } i hi (by simp [wHeld, hp])
      have hc := h v
      simp only; rw [this]
      cases b <;> exact hc
    | unlock => exact plain _ i .idle hi rfl (by simp) (by simp [hp]) rfl rfl rfl rfl
  | call i c =>
    simp only [step]; split
    · rename_i hp
      exact plain _ i c.start ha rfl (by cases c <;> simp [Call.start]) (by simp [hp]) rfl rfl rfl rfl
    · exact h
  | spurious i =>
    simp only [step]; split
    · rename_i hp
      exact plain _ i .gRelock ha rfl (by simp) (by simp [hp.2]) rfl rfl rfl rfl
    · exact h

theorem cons_exec (b : Backend) (n : Nat) : ∀ (pre : List Act) (s : St), (∀ a ∈ pre, a.below n) → Cons n s → Cons n (exec b s pre)
  | [], _, _, h => h
  | a :: pre, s, hb, h =>
    cons_exec b n pre (step b s a) (fun x hx => hb x (List.mem_cons_of_mem _ hx)) (cons_step b n s a (hb a List.mem_cons_self) h)

/-! ### A wake-up is in store for every sleeper that has an orphan to take -/

/-- mutex back-end -/
def Stored (s : St) : Prop := ∀ i, s.pc i = .asleep → s.orphans.length ≠ 0 → ∃ j, s.pc j = .aNotify

theorem stored_step (n : Nat) (s : St) (a : Act) (hi : Inv n s) (h : Stored s) : Stored (step .mutex s a) := by
  obtain ⟨h1, h2, h3, h4, h7⟩ := hi
  have frame : ∀ s' : St, ∀ i p, s'.pc = (s.goto i p).pc → s.pc i ≠ .aNotify → p ≠ .asleep → (s'.orphans.length ≠ 0 → s.orphans.length ≠ 0) → Stored s' := by
    intro s' i p e hp hpa htk x hx hne
    have hx' : s.pc x = .asleep := by rw [e] at hx; simp only [St.goto] at hx; split at hx <;> simp_all
    obtain ⟨j, hj⟩ := h x hx' (htk hne)
    refine ⟨j, ?_⟩
    have : j ≠ i := by rintro rfl; exact hp hj
    rw [e]; simp [St.goto, this, hj]
  have woken : ∀ (s' : St) i, s'.pc = (s.notify .mutex i).pc → Stored s' := by
    intro s' i e x hx hne
    rw [e] at hx
    simp only [St.notify] at hx
    split at hx
    · simp at hx
    · split at hx
      · simp at hx
      · rename_i h1 h2; exact absurd hx h2
  cases a with
  | go i =>
    simp only [step, goStep]
    cases hp : s.pc i with
    | idle => exact h
    | gLock =>
      simp only; split
      · exact h
      · exact frame _ i .gTest rfl (by simp [hp]) (by simp) id
    | gTest =>
      simp only; split
      · exact frame _ i .gWait rfl (by simp [hp]) (by simp) id
      · exact frame _ i .gPop rfl (by simp [hp]) (by simp) id
    | gWait => intro x hx hne; exact absurd (h4 i hp) hne
    | asleep => exact h
    | gRelock =>
      simp only; split
      · exact h
      · exact frame _ i .gPop rfl (by simp [hp]) (by simp) id
    | gPop => exact frame _ i (.gUnlock s.orphans.head?) rfl (by simp [hp]) (by simp) (by intro h h'; apply h; show s.orphans.tail.length = 0; simp [h'])
    | gUnlock r => exact frame _ i .idle rfl (by simp [hp]) (by simp) id
    | aLock v =>
      simp only; split
      · exact h
      · exact frame _ i (.aAdd v) rfl (by simp [hp]) (by simp) id
    | aAdd v => intro x hx hne; exact ⟨i, by simp [St.goto]⟩
    | aNotify => exact woken _ i rfl
    | rLock v =>
      simp only; split
      · exact h
      · exact frame _ i (.rDel v) rfl (by simp [hp]) (by simp) id
    | rDel v =>
      simp only; split
      · refine frame _ i .unlock rfl (by simp [hp]) (by simp) ?_
        intro h' h''
        apply h'
        show (s.orphans.erase v).length = 0
        have : s.orphans = [] := by simpa using h''
        simp [this]
      · exact frame _ i .unlock rfl (by simp [hp]) (by simp) id
    | sLock =>
      simp only; split
      · exact h
      · exact frame _ i .sNotify rfl (by simp [hp]) (by simp) id
    | sNotify => exact woken _ i rfl
    | unlock => exact frame _ i .idle rfl (by simp [hp]) (by simp) id
  | call i c =>
    simp only [step]; split
    · rename_i hp
      exact frame _ i c.start rfl (by simp [hp]) (by cases c <;> simp [Call.start]) id
    · exact h
  | spurious i =>
    simp only [step]; split
    · rename_i hp
      exact frame _ i .gRelock rfl (by simp [hp.2]) (by simp) id
    · exact h

/-- 1 for threads that will look at the list and for pending notifications. -/
def wAwake : Pc → Nat
  | .gLock | .gTest | .gRelock | .gPop | .aNotify => 1
  | _ => 0

/-- spin back-end -/
def Counted (n : Nat) (s : St) : Prop := s.orphans.length ≤ s.tokens + total wAwake s.pc n

theorem counted_step (n : Nat) (s : St) (a : Act) (ha : a.below n) (hi : Inv n s) (h : Counted n s) : Counted n (step .spin s a) := by
  obtain ⟨h1, h2, h3, h4, h7⟩ := hi
  unfold Counted at h
  have plain : ∀ (s' : St) i p, i < n → s'.pc = (s.goto i p).pc → s'.orphans.length + s.tokens + wAwake (s.pc i) ≤ s.orphans.length + s'.tokens + wAwake p → Counted n s' := by
    intro s' i p hi e hle
    have := total_set wAwake s.pc i p n hi
    unfold Counted; rw [e]; simp only [St.goto]; omega
  have zero : ∀ (s' : St), s'.orphans.length = 0 → Counted n s' := by intro s' h; unfold Counted; omega
  cases a with
  | go i =>
    have hin : i < n := ha
    simp only [step, goStep]
    cases hp : s.pc i with
    | idle => exact h
    | gLock =>
      simp only; split
      · exact h
      · exact plain _ i .gTest hin rfl (by simp [hp, wAwake, St.goto])
    | gTest =>
      simp only; split
      · rename_i h0; exact zero _ h0
      · exact plain _ i .gPop hin rfl (by simp [hp, wAwake, St.goto])
    | gWait => exact zero _ (h4 i hp)
    | asleep =>
      simp only; split
      · exact plain _ i .gRelock hin rfl (by simp [hp, wAwake, St.goto]; omega)
      · exact h
    | gRelock =>
      simp only; split
      · exact h
      · exact plain _ i .gPop hin rfl (by simp [hp, wAwake, St.goto])
    | gPop =>
      by_cases h0 : s.orphans.length = 0
      · exact zero _ (by show s.orphans.tail.length = 0; simp [h0])
      · exact plain _ i (.gUnlock s.orphans.head?) hin rfl (by simp [hp, wAwake, St.goto]; omega)
    | gUnlock r => exact plain _ i .idle hin rfl (by simp [hp, wAwake, St.goto])
    | aLock v =>
      simp only; split
      · exact h
      · exact plain _ i (.aAdd v) hin rfl (by simp [hp, wAwake, St.goto])
    | aAdd v => exact plain _ i .aNotify hin rfl (by simp [hp, wAwake, St.goto]; omega)
    | aNotify => exact plain _ i .unlock hin rfl (by simp [hp, wAwake, St.goto, St.notify]; omega)
    | rLock v =>
      simp only; split
      · exact h
      · exact plain _ i (.rDel v) hin rfl (by simp [hp, wAwake, St.goto])
    | rDel v =>
      simp only; split
      · exact plain _ i .unlock hin rfl (by have := List.length_erase_le (a := v) (l := s.orphans); simp [hp, wAwake, St.goto]; omega)
      · exact plain _ i .unlock hin rfl (by simp [hp, wAwake, St.goto])
    | sLock =>
      simp only; split
      · exact h
      · exact plain _ i .sNotify hin rfl (by simp [hp, wAwake, St.goto])
    | sNotify => exact plain _ i .unlock hin rfl (by simp [hp, wAwake, St.goto, St.notify])
    | unlock => exact plain _ i .idle hin rfl (by simp [hp, wAwake, St.goto])
  | call i c =>
    simp only [step]; split
    · rename_i hp
      exact plain _ i c.start ha rfl (by cases c <;> simp [hp, wAwake, St.goto, Call.start])
    · exact h
  | spurious i => simp only [step, reduceCtorEq, false_and, if_false]; exact h

/-! ### Progress -/

def wLeft : Pc → Nat
  | .idle => 0
  | .gUnlock _ => 1
  | .gPop => 2
  | .gRelock => 3
  | .asleep => 4
  | .gWait => 5
  | .gTest => 6
  | .gLock => 7
  | .unlock => 1
  | .aNotify => 2
  | .aAdd _ => 3
  | .aLock _ => 4
  | .rDel _ => 2
  | .rLock _ => 3
  | .sNotify => 2
  | .sLock => 3

def phi (n : Nat) (s : St) : Nat := total wLeft s.pc n

theorem phi_notify (b : Backend) (n : Nat) (s s' : St) (i : Nat) (hi : i < n) (hp : wLeft (s.pc i) = 2) (e : s'.pc = (s.notify b i).pc) : phi n s' < phi n s := by
  have e1 := total_set wLeft s.pc i .unlock n hi
  have : total wLeft (s.notify b i).pc n ≤ total wLeft (fun j => if j = i then .unlock else s.pc j) n := by
    apply total_mono
    intro j _
    cases b with
    | mutex =>
      show wLeft (if j = i then .unlock else if s.pc j = .asleep then .gRelock else s.pc j) ≤ wLeft (if j = i then .unlock else s.pc j)
      by_cases h1 : j = i
      · simp [h1]
      · by_cases h2 : s.pc j = .asleep
        · simp [h1, h2, wLeft]
        · simp [h1, h2]
    | spin => exact Nat.le_refl _
  unfold phi; rw [e]
  rw [hp] at e1
  have hu : wLeft .unlock = 1 := rfl
  omega

theorem phi_step (b : Backend) (n : Nat) (s : St) (i : Nat) (hi : i < n) : goStep b s i = s ∨ phi n (goStep b s i) < phi n s := by
  have key : ∀ s' : St, ∀ p, s'.pc = (s.goto i p).pc → wLeft p < wLeft (s.pc i) → phi n s' < phi n s := by
    intro s' p e hlt
    have := total_set wLeft s.pc i p n hi
    unfold phi; rw [e]; simp only [St.goto]; omega
  unfold goStep
  cases hp : s.pc i with
  | idle => exact Or.inl rfl
  | gLock =>
    simp only; split
    · exact Or.inl rfl
    · exact Or.inr (key _ .gTest rfl (by simp [hp, wLeft]))
  | gTest =>
    simp only; split
    · exact Or.inr (key _ .gWait rfl (by simp [hp, wLeft]))
    · exact Or.inr (key _ .gPop rfl (by simp [hp, wLeft]))
  | gWait => exact Or.inr (key _ .asleep rfl (by simp [hp, wLeft]))
  | asleep =>
    simp only
    cases b with
    | mutex => exact Or.inl rfl
    | spin =>
      simp only; split
      · exact Or.inr (key _ .gRelock rfl (by simp [hp, wLeft]))
      · exact Or.inl rfl
  | gRelock =>
    simp only; split
    · exact Or.inl rfl
    · exact Or.inr (key _ .gPop rfl (by simp [hp, wLeft]))
  | gPop => exact Or.inr (key _ (.gUnlock s.orphans.head?) rfl (by simp [hp, wLeft]))
  | gUnlock r => exact Or.inr (key _ .idle rfl (by simp [hp, wLeft]))
  | aLock v =>
    simp only; split
    · exact Or.inl rfl
    · exact Or.inr (key _ (.aAdd v) rfl (by simp [hp, wLeft]))
  | aAdd v => exact Or.inr (key _ .aNotify rfl (by simp [hp, wLeft]))
  | aNotify => exact Or.inr (phi_notify b n s _ i hi (by simp [hp, wLeft]) rfl)
  | rLock v =>
    simp only; split
    · exact Or.inl rfl
    · exact Or.inr (key _ (.rDel v) rfl (by simp [hp, wLeft]))
  | rDel v =>
    simp only; split
    · exact Or.inr (key _ .unlock rfl (by simp [hp, wLeft]))
    · exact Or.inr (key _ .unlock rfl (by simp [hp, wLeft]))
  | sLock =>
    simp only; split
    · exact Or.inl rfl
    · exact Or.inr (key _ .sNotify rfl (by simp [hp, wLeft]))
  | sNotify => exact Or.inr (phi_notify b n s _ i hi (by simp [hp, wLeft]) (by cases b <;> rfl))
  | unlock => exact Or.inr (key _ .idle rfl (by simp [hp, wLeft]))

def Quiet (b : Backend) (n : Nat) (s : St) : Prop :=
  ∀ i, i < n → s.pc i = .idle ∨ (s.pc i = .asleep ∧ (b = .spin → s.tokens = 0))

theorem quiet_or_moves (b : Backend) (n : Nat) (s : St) (hinv : Inv n s) : Quiet b n s ∨ ∃ i, i < n ∧ goStep b s i ≠ s := by
  by_cases hq : ∃ i, i < n ∧ goStep b s i ≠ s
  · exact Or.inr hq
  · refine Or.inl ?_
    have stuck : ∀ i, i < n → goStep b s i = s := fun i hi => Classical.byContradiction (fun h => hq ⟨i, hi, h⟩)
    have moved : ∀ (s' : St) i p, s' = s → s'.pc i = p → p ≠ s.pc i → False := by
      intro s' i p h e hp
      rw [h] at e
      exact hp e.symm
    have me : ∀ (s : St) i p, (s.goto i p).pc i = p := by intro s i p; simp [St.goto]
    have men : ∀ (s : St) i, (s.notify b i).pc i = .unlock := by intro s i; cases b <;> simp [St.goto, St.notify]
    have hl : s.locked = false := by
      apply Decidable.byContradiction; intro hl
      obtain ⟨i, hi, hh⟩ := hinv.held (by simpa using hl)
      have hs := stuck i hi
      unfold goStep at hs
      cases hp : s.pc i with
      | idle => simp [hp, Pc.holds] at hh
      | gLock => simp [hp, Pc.holds] at hh
      | asleep => simp [hp, Pc.holds] at hh
      | gRelock => simp [hp, Pc.holds] at hh
      | aLock k => simp [hp, Pc.holds] at hh
      | rLock k => simp [hp, Pc.holds] at hh
      | sLock => simp [hp, Pc.holds] at hh
      | gTest =>
        rw [hp] at hs; simp only at hs; split at hs
        · exact moved _ i _ hs (me _ i _) (by simp [hp])
        · exact moved _ i _ hs (me _ i _) (by simp [hp])
      | gWait => rw [hp] at hs; exact moved _ i _ hs (me _ i _) (by simp [hp])
      | gPop => rw [hp] at hs; exact moved _ i _ hs (me _ i _) (by simp [hp])
      | gUnlock r => rw [hp] at hs; exact moved _ i _ hs (me _ i _) (by simp [hp])
      | aAdd k => rw [hp] at hs; exact moved _ i _ hs (me _ i _) (by simp [hp])
      | aNotify => rw [hp] at hs; exact moved _ i _ hs (men _ i) (by simp [hp])
      | rDel k =>
        rw [hp] at hs; simp only at hs; split at hs
        · exact moved _ i _ hs (me _ i _) (by simp [hp])
        · exact moved _ i _ hs (me _ i _) (by simp [hp])
      | sNotify => rw [hp] at hs; exact moved _ i _ hs (men _ i) (by simp [hp])
      | unlock => rw [hp] at hs; exact moved _ i _ hs (me _ i _) (by simp [hp])
    intro i hi
    have hs := stuck i hi
    have hh : (s.pc i).holds = false := by
      apply Decidable.byContradiction; intro h
      rw [hinv.hold i (by simpa using h)] at hl; simp at hl
    unfold goStep at hs
    cases hp : s.pc i with
    | idle => exact Or.inl rfl
    | gLock => rw [hp] at hs; simp only [hl, Bool.false_eq_true, if_false] at hs; exact (moved _ i _ hs (me _ i _) (by simp [hp])).elim
    | gRelock => rw [hp] at hs; simp only [hl, Bool.false_eq_true, if_false] at hs; exact (moved _ i _ hs (me _ i _) (by simp [hp])).elim
    | aLock k => rw [hp] at hs; simp only [hl, Bool.false_eq_true, if_false] at hs; exact (moved _ i _ hs (me _ i _) (by simp [hp])).elim
    | rLock k => rw [hp] at hs; simp only [hl, Bool.false_eq_true, if_false] at hs; exact (moved _ i _ hs (me _ i _) (by simp [hp])).elim
    | sLock => rw [hp] at hs; simp only [hl, Bool.false_eq_true, if_false] at hs; exact (moved _ i _ hs (me _ i _) (by simp [hp])).elim
    | asleep =>
      refine Or.inr ⟨rfl, ?_⟩
      rintro rfl
      rw [hp] at hs; simp only at hs; split at hs
      · exact (moved _ i _ hs (me _ i _) (by simp [hp])).elim
      · omega
    | _ => simp [hp, Pc.holds] at hh

theorem run_inv (b : Backend) (P : St → Prop) (n : Nat) (hP : ∀ s i, i < n → P s → P (goStep b s i)) (s : St) (h : P s) (f : Nat → Nat) (hf : ∀ t, f t < n) :
    ∀ t, P (run b s f t)
  | 0 => h
  | t + 1 => hP _ _ (hf t) (run_inv b P n hP s h f hf t)

theorem run_shift (b : Backend) (s : St) (f : Nat → Nat) (t : Nat) : ∀ u, run b (run b s f t) (fun x => f (t + x)) u = run b s f (t + u)
  | 0 => rfl
  | u + 1 => by
    show goStep b (run b (run b s f t) (fun x => f (t + x)) u) (f (t + u)) = _
    rw [run_shift b s f t u]; rfl

theorem fair_shift {n : Nat} {f : Nat → Nat} (hf : Fair n f) (t : Nat) : Fair n (fun x => f (t + x)) :=
  ⟨fun x => hf.1 _, fun i hi u => by
    obtain ⟨t', h1, h2⟩ := hf.2 i hi (t + u)
    exact ⟨t' - t, by omega, by show f (t + (t' - t)) = i; rw [show t + (t' - t) = t' by omega]; exact h2⟩⟩

theorem drops (b : Backend) (n : Nat) (s : St) (f : Nat → Nat) (hf : Fair n f) (i : Nat) (hi : i < n) (hm : goStep b s i ≠ s) :
    ∃ t, phi n (run b s f t) < phi n s := by
  obtain ⟨t, -, ht⟩ := hf.2 i hi 0
  by_cases hex : ∃ u, u ≤ t ∧ phi n (run b s f u) < phi n s
  · obtain ⟨u, -, h⟩ := hex; exact ⟨u, h⟩
  · have same : ∀ u, u ≤ t → run b s f u = s := by
      intro u
      induction u with
      | zero => intro _; rfl
      | succ u ih =>
        intro hu
        have e := ih (by omega)
        rcases phi_step b n s (f u) (hf.1 u) with h | h
        · show goStep b (run b s f u) (f u) = s
          rw [e, h]
        · refine absurd ⟨u + 1, hu, ?_⟩ hex
          show phi n (goStep b (run b s f u) (f u)) < _
          rw [e]; exact h
    refine ⟨t + 1, ?_⟩
    show phi n (goStep b (run b s f t) (f t)) < _
    rw [same t (by omega), ht]
    rcases phi_step b n s i hi with h | h
    · exact absurd h hm
    · exact h

theorem comes_to_rest (b : Backend) (n : Nat) : ∀ (m : Nat) (s : St) (f : Nat → Nat), phi n s ≤ m → Inv n s → Fair n f →
    ∃ t, Quiet b n (run b s f t) := by
  intro m
  induction m with
  | zero =>
    intro s f hm hinv hf
    rcases quiet_or_moves b n s hinv with h | ⟨i, hi, h⟩
    · exact ⟨0, h⟩
    · obtain ⟨t, ht⟩ := drops b n s f hf i hi h; omega
  | succ m ih =>
    intro s f hm hinv hf
    rcases quiet_or_moves b n s hinv with h | ⟨i, hi, h⟩
    · exact ⟨0, h⟩
    · obtain ⟨t, ht⟩ := drops b n s f hf i hi h
      have hi' := run_inv b (Inv n) n (fun s i hi h => inv_step b n s (.go i) hi h) s hinv f hf.1 t
      obtain ⟨u, hu⟩ := ih (run b s f t) (fun x => f (t + x)) (by omega) hi' (fair_shift hf t)
      exact ⟨t + u, by rw [← run_shift]; exact hu⟩

theorem quiet_stays (b : Backend) (n : Nat) (s : St) (hq : Quiet b n s) (f : Nat → Nat) (hf : ∀ t, f t < n) : ∀ t, run b s f t = s
  | 0 => rfl
  | t + 1 => by
    show goStep b (run b s f t) (f t) = s
    rw [quiet_stays b n s hq f hf t]
    unfold goStep
    rcases hq (f t) (hf t) with h | ⟨h, ht⟩
    · rw [h]
    · rw [h]
      cases b with
      | mutex => rfl
      | spin => simp [ht rfl]

structure Known (b : Backend) (n : Nat) (s : St) : Prop where
  inv  : Inv n s
  wake : match b with | .mutex => Stored s | .spin => Counted n s

theorem known_step (b : Backend) (n : Nat) (s : St) (a : Act) (ha : a.below n) (h : Known b n s) : Known b n (step b s a) := by
  refine ⟨inv_step b n s a ha h.inv, ?_⟩
  have := h.wake
  cases b with
  | mutex => exact stored_step n s a h.inv this
  | spin => exact counted_step n s a ha h.inv this

theorem known_exec (b : Backend) (n : Nat) : ∀ (pre : List Act) (s : St), (∀ a ∈ pre, a.below n) → Known b n s → Known b n (exec b s pre)
  | [], _, _, h => h
  | a :: pre, s, hb, h =>
    known_exec b n pre (step b s a) (fun x hx => hb x (List.mem_cons_of_mem _ hx)) (known_step b n s a (hb a List.mem_cons_self) h)

theorem known_init (b : Backend) (n : Nat) : Known b n init := by
  refine ⟨inv_init n, ?_⟩
  cases b with
  | mutex => intro i h; simp [init] at h
  | spin => show (0 : Nat) ≤ _; omega

/-- **C64** Wake-up: after any history `pre` of the threads `0 … n-1`, under every fair schedule of what is then left of the calls, from some moment on
every call has returned except calls of `arax_pipe_get_orphan_vaccel` that sleep while the orphan list is empty: no orphan stays on the list while somebody
waits for one. Both back-ends, any number of threads. -/
theorem C64_woken (b : Backend) (n : Nat) (pre : List Act) (hb : ∀ a ∈ pre, a.below n) (f : Nat → Nat) (hf : Fair n f) :
    ∃ t0, ∀ t, t0 ≤ t → let s := run b (exec b init pre) f t
      (∀ i, s.pc i = .idle ∨ s.getting i) ∧ ((∀ i, s.pc i = .idle) ∨ s.orphans = []) := by
  have hk0 := known_exec b n pre init hb (known_init b n)
  obtain ⟨t0, hq⟩ := comes_to_rest b n _ (exec b init pre) f (Nat.le_refl _) hk0.inv hf
  have hk := run_inv b (Known b n) n (fun s i hi h => known_step b n s (.go i) hi h) _ hk0 f hf.1 t0
  refine ⟨t0, fun t ht => ?_⟩
  have e : run b (exec b init pre) f t = run b (exec b init pre) f t0 := by
    have := run_shift b (exec b init pre) f t0 (t - t0)
    rw [show t0 + (t - t0) = t by omega] at this
    rw [← this]
    exact quiet_stays b n _ hq _ (fun x => hf.1 _) _
  simp only [e]
  generalize run b (exec b init pre) f t0 = s at *
  have pcs : ∀ i, s.pc i = .idle ∨ s.pc i = .asleep := by
    intro i
    by_cases hi : i < n
    · rcases hq i hi with h | h
      · exact Or.inl h
      · exact Or.inr h.1
    · exact Or.inl (hk.inv.out i (by omega))
  refine ⟨fun i => ?_, ?_⟩
  · rcases pcs i with h | h
    · exact Or.inl h
    · exact Or.inr (by simp [St.getting, h])
  · by_cases hs : ∃ i, s.pc i = .asleep
    · obtain ⟨i, hi⟩ := hs
      right
      apply Classical.byContradiction; intro hne
      have hlen : s.orphans.length ≠ 0 := by simpa using hne
      have hin : i < n := by
        apply Decidable.byContradiction; intro hn
        have := hk.inv.out i (by omega); rw [hi] at this; simp at this
      have hwk := hk.wake
      cases b with
      | mutex =>
        obtain ⟨j, hj⟩ := hwk i hi hlen
        rcases pcs j with h' | h' <;> rw [hj] at h' <;> simp at h'
      | spin =>
        have htok : s.tokens = 0 := by
          rcases hq i hin with h' | h'
          · rw [hi] at h'; simp at h'
          · exact h'.2 rfl
        have hwk : s.orphans.length ≤ s.tokens + total wAwake s.pc n := hwk
        obtain ⟨j, hj, hw⟩ := total_pos wAwake s.pc n (by omega)
        rcases pcs j with h' | h' <;> simp [h', wAwake] at hw
    · refine Or.inl fun i => ?_
      rcases pcs i with h' | h'
      · exact h'
      · exact absurd ⟨i, h'⟩ hs

/-- **C64** Each once: at every moment of every history, for every virtual accelerator, the number of times it was handed out by a returned call, plus the times it
was removed, plus the times it is still on the list, is at most the number of times it was put on the list; with equality when no call is in progress. -/
theorem C64_each_once (b : Backend) (n : Nat) (pre : List Act) (hb : ∀ a ∈ pre, a.below n) (v : Nat) :
    let s := exec b init pre
    s.handed.count v + s.removed.count v + s.orphans.count v ≤ s.added.count v ∧
    ((∀ i, s.pc i = .idle) → s.handed.count v + s.removed.count v + s.orphans.count v = s.added.count v) := by
  have hz : ∀ n v, total (wHeld v) (fun _ => .idle) n = 0 := by
    intro n v; induction n with
    | zero => rfl
    | succ n ih => simp only [total, ih]; simp [wHeld]
  have h := cons_exec b n pre init hb (by intro v; have := hz n v; simp only [init, St.handed] at *; simp [this]) v
  refine ⟨by omega, fun hid => ?_⟩
  have : total (wHeld v) (exec b init pre).pc n = 0 := by
    rw [← hz n v]; apply total_congr; intro i _; rw [hid i]
  omega

/-! ### NULL -/

/-- In this history only `g` gets orphans, nobody removes any, and there are no spurious wake-ups. -/
def OnlyAdds (g : Nat) (pre : List Act) : Prop :=
  (∀ i, .call i .get ∈ pre → i = g) ∧ (∀ i v, .call i (.remove v) ∉ pre) ∧ (∀ i, .spurious i ∉ pre)

structure NInv (g : Nat) (s : St) : Prop where
  only : ∀ i, s.getting i → i = g
  noRm : ∀ i v, s.pc i ≠ .rLock v ∧ s.pc i ≠ .rDel v
  le   : s.nulls ≤ s.stops
  pop  : (s.pc g = .gRelock ∨ s.pc g = .gPop) → s.orphans.length ≠ 0 ∨ s.nulls + 1 ≤ s.stops
  unl  : s.pc g = .gUnlock none → s.nulls + 1 ≤ s.stops
  ntf  : (∃ j, s.pc j = .aNotify) → s.pc g = .asleep → s.orphans.length ≠ 0

theorem ninv_step (n g : Nat) (s : St) (a : Act) (hi : Inv n s) (h : NInv g s)
    (ha : (∀ i, a = .call i .get → i = g) ∧ (∀ i v, a ≠ .call i (.remove v)) ∧ ∀ i, a ≠ .spurious i) : NInv g (step .mutex s a) := by
  obtain ⟨h1, h2, h3, h4, h7⟩ := hi
  obtain ⟨a1, a2, a3, a4, a5, a6⟩ := h
  have a1' := a1
  unfold St.getting at a1
  cases a with
  | go i =>
    simp only [step, goStep]
    cases hp : s.pc i with
    | idle => exact ⟨a1', a2, a3, a4, a5, a6⟩
    | gPop =>
      have hg : i = g := a1 i (by simp [hp])
      subst hg
      have hh := h3 i
      simp only
      refine ⟨?_, ?_, ?_, ?_, ?_, ?_⟩
      · unfold St.getting; grind [St.goto]
      · grind [St.goto]
      · exact a3
      · simp [St.goto]
      · simp only [St.goto, if_true, Pc.gUnlock.injEq]
        intro hnone
        have : s.orphans = [] := by simpa using hnone
        rcases a4 (Or.inr hp) with h' | h'
        · simp [this] at h'
        · exact h'
      · simp [St.goto]
    | gUnlock r =>
      have hg : i = g := a1 i (by simp [hp])
      subst hg
      have hn : ({ s with locked := false, rets := s.rets ++ [(i, r)] } : St).nulls = s.nulls + (if r = none then 1 else 0) := by
        unfold St.nulls; simp only [List.filter_append, List.length_append]
        cases r <;> simp
      have hn' : ∀ p, (({ s with locked := false, rets := s.rets ++ [(i, r)] } : St).goto i p).nulls = s.nulls + (if r = none then 1 else 0) := fun p => hn
      simp only
      refine ⟨?_, ?_, ?_, ?_, ?_, ?_⟩
      · unfold St.getting; grind [St.goto]
      · grind [St.goto]
      · rw [hn']; show _ ≤ s.stops
        split
        · rename_i e; subst e; exact a5 hp
        · omega
      · simp [St.goto]
      · simp [St.goto]
      · simp [St.goto]
    | aNotify =>
      have hn : (s.notify .mutex i).nulls = s.nulls := rfl
      simp only
      refine ⟨?_, ?_, ?_, ?_, ?_, ?_⟩
      · unfold St.getting; simp only [St.notify]; grind
      · simp only [St.notify]; grind
      · exact a3
      · rw [hn]; simp only [St.notify]; have := a6 ⟨i, hp⟩; grind
      · rw [hn]; simp only [St.notify]; grind
      · simp only [St.notify]; grind
    | sNotify =>
      have hn : ({ s with stops := s.stops + 1 }.notify .mutex i).nulls = s.nulls := rfl
      simp only
      refine ⟨?_, ?_, ?_, ?_, ?_, ?_⟩
      · unfold St.getting; simp only [St.notify]; grind
      · simp only [St.notify]; grind
      · rw [hn]; show _ ≤ s.stops + 1; omega
      · rw [hn]; simp only [St.notify]; intro _; right; omega
      · rw [hn]; simp only [St.notify]; intro _; omega
      · simp only [St.notify]; grind
    | rDel v => exact absurd hp (a2 i v).2
    | rLock v => exact absurd hp (a2 i v).1
    | _ =>
      have hn : ∀ p, (s.goto i p).nulls = s.nulls := fun p => rfl
      have hn2 : ∀ l p, (({ s with locked := l } : St).goto i p).nulls = s.nulls := fun l p => rfl
      simp only
      all_goals (try split)
      all_goals (try exact ⟨a1', a2, a3, a4, a5, a6⟩)
      all_goals refine ⟨?_, ?_, ?_, ?_, ?_, ?_⟩
      all_goals first
        | exact a3
        | (unfold St.getting; grind [St.goto])
        | (simp only [St.goto, St.nulls] at *; grind [Pc.holds])
  | call i c =>
    simp only [step]; split
    · have hn : (s.goto i c.start).nulls = s.nulls := rfl
      have hc : c = .get → i = g := fun e => ha.1 i (by rw [e])
      have hr : ∀ v, c ≠ .remove v := fun v e => ha.2.1 i v (by rw [e])
      refine ⟨?_, ?_, ?_, ?_, ?_, ?_⟩
      · unfold St.getting; cases c <;> grind [St.goto, Call.start]
      · cases c <;> grind [St.goto, Call.start]
      · exact a3
      · rw [hn]; cases c <;> grind [St.goto, Call.start]
      · rw [hn]; cases c <;> grind [St.goto, Call.start]
      · cases c <;> grind [St.goto, Call.start]
    · exact ⟨a1', a2, a3, a4, a5, a6⟩
  | spurious i => exact absurd rfl (ha.2.2 i)

/-- **C64 (partial)** NULL only for a stop: with the mutex back-end, one thread getting orphans (the balancer), no spurious wake-ups and nobody
removing orphans, `arax_pipe_get_orphan_vaccel` has at every moment returned NULL at most as often as `arax_pipe_orphan_stop` was called. Missing: removals,
spurious wake-ups and the spin back-end, where it is false (`C64_violated_mutex`, `C64_violated_spurious`, `C64_violated_spin`). -/
theorem C64_null_partial (n g : Nat) (pre : List Act) (hb : ∀ a ∈ pre, a.below n) (ho : OnlyAdds g pre) :
    (exec .mutex init pre).nulls ≤ (exec .mutex init pre).stops := by
  have key : ∀ (pre : List Act) (s : St), (∀ a ∈ pre, a.below n) → OnlyAdds g pre → Inv n s → NInv g s → NInv g (exec .mutex s pre) := by
    intro pre
    induction pre with
    | nil => intro s _ _ _ h; exact h
    | cons a pre ih =>
      intro s hb ho hi h
      refine ih (step .mutex s a) (fun x hx => hb x (List.mem_cons_of_mem _ hx))
        ⟨fun i hm => ho.1 i (List.mem_cons_of_mem _ hm), fun i v hm => ho.2.1 i v (List.mem_cons_of_mem _ hm), fun i hm => ho.2.2 i (List.mem_cons_of_mem _ hm)⟩
        (inv_step .mutex n s a (hb a List.mem_cons_self) hi) (ninv_step n g s a hi h ⟨?_, ?_, ?_⟩)
      · rintro i rfl; exact ho.1 i List.mem_cons_self
      · rintro i v rfl; exact ho.2.1 i v List.mem_cons_self
      · rintro i rfl; exact ho.2.2 i List.mem_cons_self
  exact (key pre init hb ho (inv_init n) ⟨by intro i h; simp [St.getting, init] at h, by simp [init], by simp [init, St.nulls], by simp [init], by simp [init], by simp [init]⟩).le

/-- **C64 is violated (spin back-end)**: two virtual accelerators are registered before the balancer looks; it gets both without sleeping, and its next two calls
return NULL at once although nobody called `arax_pipe_orphan_stop`. The balancer (VacBalancerThread.cpp:15-21) repeats a NULL call once and then passes NULL to
`assignVac`, which reads `vac->type`. -/
theorem C64_violated_spin :
    let get := Act.call 0 .get :: List.replicate 7 (.go 0)
    let s := exec .spin init ([.call 1 (.add 10)] ++ List.replicate 4 (.go 1) ++ [.call 1 (.add 11)] ++ List.replicate 4 (.go 1) ++ get ++ get ++ get ++ get)
    s.stops = 0 ∧ s.rets = [(0, some 11), (0, some 10), (0, none), (0, none)] := by
  refine ⟨by decide +kernel, by decide +kernel⟩

/-- **C64 is violated (mutex back-end)**: the balancer sleeps, a virtual accelerator is registered and released again before the balancer gets the lock back:
NULL is returned although nobody called `arax_pipe_orphan_stop`. Twice in a row, and the balancer passes NULL on. -/
theorem C64_violated_mutex :
    let once := [Act.call 0 .get, .go 0, .go 0, .go 0, .call 1 (.add 10)] ++ List.replicate 4 (.go 1) ++ [.call 1 (.remove 10)] ++ List.replicate 3 (.go 1) ++ List.replicate 3 (.go 0)
    let s := exec .mutex init (once ++ once)
    s.stops = 0 ∧ s.rets = [(0, none), (0, none)] := by
  refine ⟨by decide +kernel, by decide +kernel⟩

/-- A spurious wake-up has the same effect (`if` instead of `while`, arax_pipe.c:84). -/
theorem C64_violated_spurious :
    let s := exec .mutex init [.call 0 .get, .go 0, .go 0, .go 0, .spurious 0, .go 0, .go 0, .go 0]
    s.stops = 0 ∧ s.rets = [(0, none)] := by
  refine ⟨by decide +kernel, by decide +kernel⟩

/-- Non-vacuity: a sleeping balancer, a registration, a stop; one fair schedule. -/
example :
    let pre : List Act := [.call 0 .get, .go 0, .go 0, .go 0, .call 1 (.add 7)]
    (∀ a ∈ pre, a.below 2) ∧ OnlyAdds 0 pre ∧ Fair 2 (fun t => t % 2) ∧ (exec .mutex init pre).pc 0 = .asleep ∧
    (run .mutex (exec .mutex init pre) (fun t => t % 2) 20).rets = [(0, some 7)] ∧ (run .spin (exec .spin init pre) (fun t => t % 2) 20).rets = [(0, some 7)] ∧
    (exec .mutex init ([.call 0 .get, .go 0, .go 0, .go 0, .call 1 .stop] ++ List.replicate 3 (.go 1) ++ List.replicate 3 (.go 0))).nulls = 1 := by
  refine ⟨by simp [Act.below], by simp [OnlyAdds], ⟨fun t => Nat.mod_lt _ (by omega), fun i hi t => ?_⟩, by decide +kernel, by decide +kernel, by decide +kernel, by decide +kernel⟩
  exact ⟨2 * t + i, by omega, by show (2 * t + i) % 2 = i; omega⟩

end Arax.Orphan
