import Verif.Locks.Rules
import Mathlib.Logic.Relation
/-!
# C79: the locks of the library never lock each other out

Any number of threads, in any processes, that make any calls, in any order of steps; any of them may die at any step.
-/
namespace Arax.Locks

/-! ## The specification -/

/-- The locks a thread has after it did `p`, the last one taken first. -/
def held (H : List Lk) : List Op → List Lk
  | [] => H
  | .lock l :: r => held (l :: H) r
  | .unlock l :: r => held (H.erase l) r
  | _ :: r => held H r

/-- Thread `t` waits for a lock that thread `u` has. -/
def Blocks (s : St) (t u : Nat) : Prop := s.dead t = false ∧ ∃ l r, s.todo t = .lock l :: r ∧ s.own l = some u

/-- Thread `t` can do its next step now. -/
def CanGo (s : St) (t : Nat) : Prop := (s.go t).isSome = true

/-- Thread `t` has made all its calls. -/
def Done (s : St) (t : Nat) : Prop := s.todo t = []

/-- Thread `t` waits for an event and has no lock meanwhile. -/
def Idle (s : St) (t : Nat) : Prop := (∃ r, s.todo t = .await :: r ∨ s.todo t = .sleep :: r) ∧ ∀ l, s.own l ≠ some t

/-- Thread `t` waits for room in the queue of a virtual accelerator, and has the lock of that one only. -/
def WaitsRoom (s : St) (t : Nat) : Prop := ∃ v r, s.todo t = .room v :: r ∧ ∀ l, s.own l = some t ↔ l = .vac v

/-- Thread `t`, which starts an accelerator, sleeps until there is space in the segment, and has the lock `print` of the controller only. -/
def WaitsSpace (s : St) (t : Nat) : Prop := ∃ r, s.todo t = .sleep :: r ∧ ∀ l, s.own l = some t ↔ l = .print

/-! ## The invariant -/

/-- The ranks fall along the locks of a thread. -/
def Ranks (H : List Lk) : Prop := H.Pairwise fun x y => rank y < rank x

theorem Ranks.nodup {H : List Lk} (h : Ranks H) : H.Nodup := List.Pairwise.imp (fun hxy he => by subst he; exact absurd hxy (by omega)) h

/-- The invariant, with the locks of each thread. -/
structure Inv (e : Bool) (s : St) (H : Nat → List Lk) : Prop where
  good : ∀ t, Good e (H t) (s.todo t)
  ranks : ∀ t, Ranks (H t)
  own : ∀ l t, s.own l = some t ↔ l ∈ H t

theorem inv_next {e : Bool} {s : St} {H : Nat → List Lk} (h : Inv e s H) {t : Nat} {r : List Op} (hr : Good e (H t) r) : Inv e (s.next t r) H := by
  refine ⟨fun u => ?_, h.ranks, h.own⟩
  by_cases hu : u = t
  · subst hu; simpa [St.next] using hr
  · simpa [St.next, hu] using h.good u

theorem inv_take {e : Bool} {s : St} {H : Nat → List Lk} (h : Inv e s H) {t : Nat} {l : Lk} {r : List Op} (hl : s.own l = none) (hb : Below (rank l) (H t))
    (hr : Good e (l :: H t) r) : Inv e ((s.give l (some t)).next t r) (fun u => if u = t then l :: H t else H u) := by
  refine ⟨fun u => ?_, fun u => ?_, fun k u => ?_⟩
  · by_cases hu : u = t
    · subst hu; simpa [St.next] using hr
    · simpa [St.next, St.give, hu] using h.good u
  · by_cases hu : u = t
    · subst hu; simpa [Ranks] using ⟨hb, h.ranks u⟩
    · simpa [hu] using h.ranks u
  · have ho := h.own k u
    have hn : ∀ u, l ∉ H u := fun u hu => by have := (h.own l u).2 hu; rw [hl] at this; cases this
    by_cases hk : k = l
    · subst hk
      by_cases hu : u = t
      · subst hu; simp [St.next, St.give]
      · simp [St.next, St.give, hu, hn u]; exact fun h => hu h.symm
    · by_cases hu : u = t
      · subst hu; simp [St.next, St.give, hk, ho]
      · simp [St.next, St.give, hu, hk, ho]

theorem inv_drop {e : Bool} {s : St} {H : Nat → List Lk} (h : Inv e s H) {t : Nat} {l : Lk} {H' : List Lk} {r : List Op} (hH : H t = l :: H')
    (hr : Good e H' r) : Inv e ((s.give l none).next t r) (fun u => if u = t then H' else H u) := by
  have hR : Ranks (l :: H') := hH ▸ h.ranks t
  have hl : l ∉ H' := (List.nodup_cons.1 hR.nodup).1
  have hown : s.own l = some t := (h.own l t).2 (by rw [hH]; simp)
  refine ⟨fun u => ?_, fun u => ?_, fun k u => ?_⟩
  · by_cases hu : u = t
    · subst hu; simpa [St.next] using hr
    · simpa [St.next, St.give, hu] using h.good u
  · by_cases hu : u = t
    · subst hu; simpa [Ranks] using (List.pairwise_cons.1 hR).2
    · simpa [hu] using h.ranks u
  · have ho := h.own k u
    by_cases hk : k = l
    · subst hk
      by_cases hu : u = t
      · subst hu; simp [St.next, St.give, hl]
      · have : k ∉ H u := fun hm => by have := (h.own k u).2 hm; rw [hown] at this; exact hu (Option.some.inj this).symm
        simp [St.next, St.give, hu, this]
    · by_cases hu : u = t
      · subst hu; rw [hH] at ho; simpa [St.next, St.give, hk] using ho
      · simpa [St.next, St.give, hu, hk] using ho

theorem inv_go {e : Bool} {s s' : St} {H : Nat → List Lk} (h : Inv e s H) {t : Nat} (hg : s.go t = some s') : ∃ H', Inv e s' H' := by
  have hgood := h.good t
  unfold St.go at hg
  split at hg
  · cases hg
  · split at hg
    · rename_i l r heq
      rw [heq] at hgood
      split at hg
      · rename_i hl
        cases hg
        exact ⟨_, inv_take h hl hgood.1 hgood.2⟩
      · cases hg
    · rename_i l r heq
      rw [heq] at hgood
      obtain ⟨H', h1, h2⟩ := hgood
      cases hg
      exact ⟨_, inv_drop h h1 h2⟩
    · rename_i l r heq
      rw [heq] at hgood
      cases hg
      exact ⟨_, inv_next h hgood.2⟩
    · rename_i l r heq
      rw [heq] at hgood
      cases hg
      obtain ⟨h1 | ⟨he, hl, h1⟩, h2⟩ := hgood
      · refine ⟨_, inv_drop h h1 (r := .sleep :: .lock l :: r) ⟨Or.inl rfl, Below.nil _, ?_⟩⟩
        rw [← h1]; exact h2
      · refine ⟨_, inv_drop h h1 (r := .sleep :: .lock l :: r) ⟨Or.inr ⟨he, rfl⟩, ?_, ?_⟩⟩
        · subst hl; exact Below.cons (by decide) (Below.nil _)
        · rw [← h1]; exact h2
    · cases hg

theorem inv_act {e : Bool} {s : St} {H : Nat → List Lk} (h : Inv e s H) (a : Act) : ∃ H', Inv e (s.act a) H' := by
  cases a with
  | go t =>
    simp only [St.act]
    cases hg : s.go t with
    | none => exact ⟨H, h⟩
    | some s' => exact inv_go h hg
  | ev t =>
    simp only [St.act]
    have hgood := h.good t
    split
    · exact ⟨H, h⟩
    · split
      · rename_i r heq; rw [heq] at hgood; exact ⟨_, inv_next h hgood.2⟩
      · rename_i v r heq; rw [heq] at hgood; exact ⟨_, inv_next h hgood.2⟩
      · rename_i r heq; rw [heq] at hgood; exact ⟨_, inv_next h hgood.2⟩
      · exact ⟨H, h⟩
  | die t => exact ⟨H, h.good, h.ranks, h.own⟩

theorem inv_acts {e : Bool} (acts : List Act) : ∀ {s : St} {H : Nat → List Lk}, Inv e s H → ∃ H', Inv e (acts.foldl St.act s) H' := by
  induction acts with
  | nil => intro s H h; exact ⟨H, h⟩
  | cons a l ih => intro s H h; obtain ⟨H', h'⟩ := inv_act h a; exact ih h'

theorem reached_inv {e : Bool} {s : St} (h : Reached e s) : ∃ H, Inv e s H := by
  obtain ⟨n, pr, calls, p, acts, h1, _, rfl⟩ := h
  exact inv_acts acts (H := fun _ => []) ⟨fun t => calls_good (h1 t), fun t => List.Pairwise.nil, fun l t => by simp⟩

/-! ## The theorems -/

theorem good_held {e : Bool} : ∀ {q r : List Op} {H : List Lk}, Good e H (q ++ r) → Good e (held H q) r := by
  intro q
  induction q with
  | nil => intro r H h; exact h
  | cons o q ih =>
    intro r H h
    cases o with
    | lock l => exact ih h.2
    | unlock l => obtain ⟨H', rfl, h2⟩ := h; simp only [held, List.erase_cons_head]; exact ih h2
    | use l | wait l | sleep | room v | await => exact ih h.2

/-- C79, one thread: on every way through every call, a lock is taken only when all locks the thread has come before it in the order `rank`; in particular it is none of them; and at the end of the call the
thread has no lock. -/
theorem C79_ordered {c : Cfg} {f : Api} {p : List Op} (h : Path (f.cmd c) p) :
    held [] p = [] ∧ ∀ q l r, p = q ++ .lock l :: r → (∀ k ∈ held [] q, rank k < rank l) ∧ l ∉ held [] q := by
  have hg : Good c.enf [] p := by simpa using api_safe c f p h [] rfl
  constructor
  · have := good_held (q := p) (r := []) (by simpa using hg)
    exact this
  · intro q l r hp
    subst hp
    have := (good_held hg).1
    exact ⟨this, fun hm => Nat.lt_irrefl _ (this l hm)⟩

/-- C79, one thread: what a lock protects is used only with it; a thread waits for a notification with the lock of the condition only (or, while an accelerator starts, with `print`, too, if throttles are enforced), for room in a queue
with the lock of the virtual accelerator only, and for the end of a task without locks. -/
theorem C79_waits {c : Cfg} {f : Api} {p : List Op} (h : Path (f.cmd c) p) :
    (∀ q l r, p = q ++ .use l :: r → l ∈ held [] q) ∧
    (∀ q l r, p = q ++ .wait l :: r → held [] q = [l] ∨ c.enf = true ∧ l = .thr 0 ∧ held [] q = [l, .print]) ∧
    (∀ q v r, p = q ++ .room v :: r → held [] q = [.vac v]) ∧
    (∀ q r, p = q ++ .await :: r → held [] q = []) := by
  have hg : Good c.enf [] p := by simpa using api_safe c f p h [] rfl
  refine ⟨?_, ?_, ?_, ?_⟩ <;> intro q
  · intro l r hp; subst hp; exact (good_held hg).1
  · intro l r hp; subst hp; exact (good_held hg).1
  · intro v r hp; subst hp; exact (good_held hg).1
  · intro r hp; subst hp; exact (good_held hg).1

/-- C79, exclusion: two threads never use what a lock protects at the same time. -/
theorem C79_exclusive {e : Bool} {s : St} (hs : Reached e s) {t u : Nat} {l : Lk} {r q : List Op}
    (ht : s.todo t = .use l :: r) (hu : s.todo u = .use l :: q) : t = u ∧ s.own l = some t := by
  obtain ⟨H, h⟩ := reached_inv hs
  have h1 := h.good t; rw [ht] at h1
  have h2 := h.good u; rw [hu] at h2
  have o1 := (h.own l t).2 h1.1
  have o2 := (h.own l u).2 h2.1
  rw [o1] at o2
  exact ⟨Option.some.inj o2, o1⟩

theorem rank_le (l : Lk) : rank l ≤ 17 := by
  cases l with
  | repo t => cases t <;> decide
  | _ => simp [rank]

theorem inv_blocks {e : Bool} {s : St} {H : Nat → List Lk} (h : Inv e s H) {t u : Nat} (hb : Blocks s t u) {l : Lk} {r : List Op} (hu : s.todo u = .lock l :: r) :
    ∃ k q, s.todo t = .lock k :: q ∧ rank k < rank l := by
  obtain ⟨_, k, q, h1, h2⟩ := hb
  have := h.good u; rw [hu] at this
  exact ⟨k, q, h1, this.1 k ((h.own k u).1 h2)⟩

/-- C79: threads never wait for each other's locks in a circle. -/
theorem C79_no_circle {e : Bool} {s : St} (hs : Reached e s) (t : Nat) : ¬ Relation.TransGen (Blocks s) t t := by
  obtain ⟨H, h⟩ := reached_inv hs
  have key : ∀ {a b : Nat}, Relation.TransGen (Blocks s) a b → ∀ {l : Lk} {r : List Op}, s.todo b = .lock l :: r → ∃ k q, s.todo a = .lock k :: q ∧ rank k < rank l := by
    intro a b hab
    induction hab with
    | single h1 => intro l r hb; exact inv_blocks h h1 hb
    | tail _ h1 ih =>
      intro l r hb
      obtain ⟨k, q, hk, hr⟩ := inv_blocks h h1 hb
      obtain ⟨k', q', hk', hr'⟩ := ih hk
      exact ⟨k', q', hk', Nat.lt_trans hr' hr⟩
  intro hc
  have hc' := hc
  rw [Relation.TransGen.head'_iff] at hc'
  obtain ⟨u, ⟨_, l, r, hl, _⟩, _⟩ := hc'
  obtain ⟨k, q, hk, hr⟩ := key hc hl
  rw [hl] at hk
  cases hk
  exact Nat.lt_irrefl _ hr

/-- C79: whoever a thread waits for in the end can go on, or is dead, or waits for one of two events; if throttles are not enforced, for one. Else the thread itself is done or waits for an event without locks. What is missing: see
`C79_room_violated`, `C79_space_violated`, `C79_death_violated`. -/
theorem C79_no_deadlock_partial {e : Bool} {s : St} (hs : Reached e s) (t : Nat) :
    Done s t ∨ Idle s t ∨
    ∃ u, Relation.ReflTransGen (Blocks s) t u ∧ (CanGo s u ∨ s.dead u = true ∨ WaitsRoom s u ∨ e = true ∧ WaitsSpace s u) := by
  obtain ⟨H, h⟩ := reached_inv hs
  have hidle : ∀ u, H u = [] → ∀ l, s.own l ≠ some u := fun u hu l ho => by have := (h.own l u).1 ho; rw [hu] at this; cases this
  have hone : ∀ u k, H u = [k] → ∀ l, s.own l = some u ↔ l = k := fun u k hu l => by rw [h.own, hu]; simp
  -- a thread that has a lock
  have main : ∀ n u, H u ≠ [] → (∀ l r, s.todo u = .lock l :: r → 17 < n + rank l) →
      ∃ w, Relation.ReflTransGen (Blocks s) u w ∧ (CanGo s w ∨ s.dead w = true ∨ WaitsRoom s w ∨ e = true ∧ WaitsSpace s w) := by
    intro n
    induction n using Nat.strongRecOn with
    | _ n ih =>
      intro u hu hl
      by_cases hd : s.dead u = true
      · exact ⟨u, .refl, Or.inr (Or.inl hd)⟩
      have hg := h.good u
      cases htodo : s.todo u with
      | nil => rw [htodo] at hg; exact absurd hg hu
      | cons o r =>
        rw [htodo] at hg
        cases o with
        | lock l =>
          cases ho : s.own l with
          | none => exact ⟨u, .refl, Or.inl (by simp [CanGo, St.go, hd, htodo, ho])⟩
          | some w =>
            have hb : Blocks s u w := ⟨by simpa using hd, l, r, htodo, ho⟩
            have hw : l ∈ H w := (h.own l w).1 ho
            have hr := rank_le l
            have h2 := hl l r htodo
            obtain ⟨x, hx, hx'⟩ := ih (n - 1) (by omega) w (fun h0 => by rw [h0] at hw; cases hw) (fun k q hk => by
              have hgw := h.good w; rw [hk] at hgw
              have h1 := hgw.1 l hw
              omega)
            exact ⟨x, .head hb hx, hx'⟩
        | unlock k | use k | wait k => exact ⟨u, .refl, Or.inl (by simp [CanGo, St.go, hd, htodo])⟩
        | sleep =>
          rcases hg.1 with h1 | ⟨he, h1⟩
          · exact absurd h1 hu
          · exact ⟨u, .refl, Or.inr (Or.inr (Or.inr ⟨he, _, htodo, hone _ _ h1⟩))⟩
        | room v => exact ⟨u, .refl, Or.inr (Or.inr (Or.inl ⟨v, _, htodo, hone _ _ hg.1⟩))⟩
        | await => exact absurd hg.1 hu
  by_cases hH : H t = []
  · have hg := h.good t
    rw [hH] at hg
    by_cases hd : s.dead t = true
    · exact Or.inr (Or.inr ⟨t, .refl, Or.inr (Or.inl hd)⟩)
    cases htodo : s.todo t with
    | nil => exact Or.inl htodo
    | cons o r =>
      rw [htodo] at hg
      cases o with
      | lock l =>
        right; right
        cases ho : s.own l with
        | none => exact ⟨t, .refl, Or.inl (by simp [CanGo, St.go, hd, htodo, ho])⟩
        | some w =>
          have hw : l ∈ H w := (h.own l w).1 ho
          obtain ⟨x, hx, hx'⟩ := main 18 w (fun h0 => by rw [h0] at hw; cases hw) (fun k q hk => by omega)
          exact ⟨x, .head ⟨by simpa using hd, l, r, htodo, ho⟩ hx, hx'⟩
      | unlock k => obtain ⟨H', h1, _⟩ := hg; cases h1
      | use k => cases hg.1
      | wait k => exact Or.inr (Or.inr ⟨t, .refl, Or.inl (by simp [CanGo, St.go, hd, htodo])⟩)
      | sleep => exact Or.inr (Or.inl ⟨⟨r, Or.inr htodo⟩, hidle t hH⟩)
      | room v => cases hg.1
      | await => exact Or.inr (Or.inl ⟨⟨r, Or.inl htodo⟩, hidle t hH⟩)
  · exact Or.inr (Or.inr (main 18 t hH (fun k q hk => by omega)))

/-! ## Only finitely many steps without events -/

/-- The steps in `p`, at most. -/
def work : List Op → Nat
  | [] => 0
  | .wait _ :: r => 3 + work r
  | _ :: r => 1 + work r

/-- The steps of the first `n` threads, at most. -/
def total (s : St) : Nat → Nat
  | 0 => 0
  | n + 1 => total s n + work (s.todo n)

/-- `k` steps of threads, without events and deaths, lead from `s` to `s'`. -/
inductive Goes : St → Nat → St → Prop where
  | nil (s : St) : Goes s 0 s
  | cons {s s' s'' : St} {k : Nat} (t : Nat) : s.go t = some s' → Goes s' k s'' → Goes s (k + 1) s''

theorem go_todo {s s' : St} {t : Nat} (h : s.go t = some s') : ∃ r, (∀ u, s'.todo u = if u = t then r else s.todo u) ∧ work r < work (s.todo t) := by
  unfold St.go at h
  split at h
  · cases h
  · split at h
    · rename_i l r heq
      split at h
      · cases h; exact ⟨r, fun u => rfl, by rw [heq]; simp [work]⟩
      · cases h
    · rename_i l r heq; cases h; exact ⟨r, fun u => rfl, by rw [heq]; simp [work]⟩
    · rename_i l r heq; cases h; exact ⟨r, fun u => rfl, by rw [heq]; simp [work]⟩
    · rename_i l r heq; cases h; exact ⟨_, fun u => rfl, by rw [heq]; simp only [work]; omega⟩
    · cases h

theorem total_go {s s' : St} {t : Nat} {r : List Op} (h : ∀ u, s'.todo u = if u = t then r else s.todo u) (hw : work r < work (s.todo t)) :
    ∀ n, total s' n + (if t < n then 1 else 0) ≤ total s n := by
  intro n
  induction n with
  | zero => simp [total]
  | succ n ih =>
    simp only [total, h n]
    by_cases hn : n = t
    · subst hn
      simp only [if_true, Nat.lt_irrefl, if_false, Nat.lt_succ_self] at ih ⊢
      omega
    · rw [if_neg hn]
      by_cases hlt : t < n
      · rw [if_pos hlt] at ih; rw [if_pos (by omega)]; omega
      · rw [if_neg hlt] at ih; rw [if_neg (by omega)]; omega

theorem reached_act {e : Bool} {s : St} (h : Reached e s) (a : Act) : Reached e (s.act a) := by
  obtain ⟨n, pr, calls, p, acts, h1, h2, rfl⟩ := h
  exact ⟨n, pr, calls, p, acts ++ [a], h1, h2, by rw [List.foldl_append]; rfl⟩

theorem reached_goes {e : Bool} {s s' : St} {k : Nat} (hg : Goes s k s') : Reached e s → Reached e s' := by
  induction hg with
  | nil => exact id
  | cons t h1 _ ih =>
    intro h
    have := reached_act h (.go t)
    simp only [St.act, h1, Option.getD_some] at this
    exact ih this

theorem act_done (s : St) (a : Act) (t : Nat) (h : s.todo t = []) : (s.act a).todo t = [] := by
  have nx : ∀ (x : St) (u : Nat) (r : List Op), x.todo t = [] → s.todo u ≠ [] → (x.next u r).todo t = [] := by
    intro x u r hx hu
    have : t ≠ u := fun he => hu (he ▸ h)
    simp [St.next, this, hx]
  cases a with
  | go u =>
    simp only [St.act]
    cases hg : s.go u with
    | none => exact h
    | some s' =>
      obtain ⟨r, h1, h2⟩ := go_todo hg
      have hu : s.todo u ≠ [] := fun he => by rw [he] at h2; simp [work] at h2
      have : t ≠ u := fun he => hu (he ▸ h)
      simp [h1, this, h]
  | ev u =>
    simp only [St.act]
    split
    · exact h
    · split
      · rename_i r heq; exact nx s u r h (by rw [heq]; simp)
      · rename_i v r heq; exact nx s u r h (by rw [heq]; simp)
      · rename_i r heq; exact nx s u r h (by rw [heq]; simp)
      · exact h
  | die u => exact h

theorem reached_finite {e : Bool} {s : St} (h : Reached e s) : ∃ n, ∀ t, n ≤ t → s.todo t = [] := by
  obtain ⟨n, pr, calls, p, acts, _, h2, rfl⟩ := h
  refine ⟨n, fun t ht => ?_⟩
  have : ∀ (acts : List Act) (s : St), s.todo t = [] → (acts.foldl St.act s).todo t = [] := by
    intro acts
    induction acts with
    | nil => intro s h; exact h
    | cons a l ih => intro s h; exact ih _ (act_done s a t h)
  exact this acts _ (h2 t ht)

/-- C79: without events the threads can do only so many steps, in whatever order they do them. -/
theorem C79_finite {e : Bool} {s : St} (hs : Reached e s) : ∃ m, ∀ k s', Goes s k s' → k ≤ m := by
  obtain ⟨n, hn⟩ := reached_finite hs
  refine ⟨total s n, ?_⟩
  intro k s' hg
  clear hs
  induction hg with
  | nil => exact Nat.zero_le _
  | @cons s s1 s2 k t h1 h2 ih =>
    obtain ⟨r, hr, hw⟩ := go_todo h1
    have ht : t < n := by
      rcases Nat.lt_or_ge t n with h | h
      · exact h
      · rw [hn t h] at hw; simp [work] at hw
    have := ih (fun u hu => by
      rw [hr]; by_cases he : u = t
      · omega
      · simp [he, hn u hu])
    have h3 := total_go hr hw n
    rw [if_pos ht] at h3
    omega

/-- C79: when no thread can go on, and none is dead, waits for room in a queue or (if throttles are enforced) starts an accelerator and waits for space, then no thread waits for a lock: each one has made all its calls or waits for an
event without locks. What is missing: see `C79_room_violated`, `C79_space_violated`, `C79_death_violated`. -/
theorem C79_quiet_partial {e : Bool} {s : St} (hs : Reached e s) (hq : ∀ t, ¬ CanGo s t) (hd : ∀ t, s.dead t = false) (hr : ∀ t, ¬ WaitsRoom s t)
    (hp : e = true → ∀ t, ¬ WaitsSpace s t) (t : Nat) : Done s t ∨ Idle s t := by
  rcases C79_no_deadlock_partial hs t with h | h | ⟨u, _, h | h | h | ⟨h1, h2⟩⟩
  · exact Or.inl h
  · exact Or.inr h
  · exact absurd h (hq u)
  · rw [hd u] at h; cases h
  · exact absurd h (hr u)
  · exact absurd h2 (hp h1 u)

/-! ## What is missing -/

/-- The thread waits for an event, or is dead. -/
def Stops (s : St) (u : Nat) : Prop := s.dead u = true ∨ ∃ r, s.todo u = .sleep :: r ∨ s.todo u = .await :: r ∨ ∃ v, s.todo u = .room v :: r

theorem stops_go {s : St} {u : Nat} (h : Stops s u) : s.go u = none := by
  rcases h with h | ⟨r, h | h | ⟨v, h⟩⟩ <;> simp [St.go, h]

theorem next_todo (s : St) (t w : Nat) (r : List Op) (h : w ≠ t) : (s.next t r).todo w = s.todo w := by simp [St.next, h]

theorem act_other (s : St) (a : Act) (u : Nat) (h : s.go u = none) (ha : a = .ev u → s.dead u = true) : (s.act a).todo u = s.todo u := by
  cases a with
  | go t =>
    simp only [St.act]
    cases hg : s.go t with
    | none => rfl
    | some s' =>
      obtain ⟨r, h1, _⟩ := go_todo hg
      have : u ≠ t := fun he => by subst he; rw [h] at hg; cases hg
      simp [h1, this]
  | ev t =>
    simp only [St.act]
    by_cases hu : u = t
    · subst hu; simp [ha rfl]
    · split
      · rfl
      · split <;> first | exact next_todo _ _ _ _ hu | rfl
  | die t => rfl

theorem go_own {e : Bool} {s s' : St} {H : Nat → List Lk} (h : Inv e s H) {t : Nat} (hg : s.go t = some s') {l : Lk} {u : Nat} (hl : s.own l = some u) (hu : u ≠ t) :
    s'.own l = some u := by
  have hgood := h.good t
  have hne : ∀ k, k ∈ H t → l ≠ k := fun k hk he => by subst he; have := (h.own l t).2 hk; rw [hl] at this; exact hu (Option.some.inj this)
  unfold St.go at hg
  split at hg
  · cases hg
  · split at hg
    · rename_i k r heq
      split at hg
      · rename_i hk
        cases hg
        have : l ≠ k := fun he => by subst he; rw [hl] at hk; cases hk
        simp [St.next, St.give, this, hl]
      · cases hg
    · rename_i k r heq
      rw [heq] at hgood
      obtain ⟨H', h1, _⟩ := hgood
      cases hg
      have := hne k (by rw [h1]; simp)
      simp [St.next, St.give, this, hl]
    · cases hg; exact hl
    · rename_i k r heq
      rw [heq] at hgood
      cases hg
      have := hne k (by rcases hgood.1 with h1 | ⟨_, _, h1⟩ <;> rw [h1] <;> simp)
      simp [St.next, St.give, this, hl]
    · cases hg

/-- A thread that waits for a lock of a thread that waits for an event, or is dead, does nothing until the event comes. -/
theorem stuck {e : Bool} {s : St} (hs : Reached e s) {t u : Nat} (hb : Blocks s t u) (hu : Stops s u) (acts : List Act) (ha : s.dead u = true ∨ .ev u ∉ acts) :
    (acts.foldl St.act s).todo t = s.todo t := by
  have : ∀ (acts : List Act) (s' : St), Reached e s' → Stops s' u → (s'.dead u = true ∨ .ev u ∉ acts) → (∃ l r, s'.todo t = .lock l :: r ∧ s'.own l = some u) → (acts.foldl St.act s').todo t = s'.todo t := by
    intro acts
    induction acts with
    | nil => intro s' _ _ _ _; rfl
    | cons a q ih =>
      intro s' h1 h2 h3 ⟨l, r, h4, h5⟩
      obtain ⟨H, hi⟩ := reached_inv h1
      have gt : s'.go t = none := by simp [St.go, h4, h5]
      have gu := stops_go h2
      have a3 : a = .ev u → s'.dead u = true := by
        intro he; rcases h3 with h3 | h3
        · exact h3
        · exact absurd (by rw [he]; simp) h3
      have tu : (s'.act a).todo u = s'.todo u := act_other s' a u gu a3
      have tt : (s'.act a).todo t = s'.todo t := by
        cases a with
        | ev w =>
          by_cases hw : w = t
          · subst hw; simp only [St.act, h4]; split <;> exact h4
          · exact act_other s' _ t gt (fun he => by cases he; exact absurd rfl hw)
        | go w => exact act_other s' _ t gt (fun he => by cases he)
        | die w => rfl
      have dd : s'.dead u = true → (s'.act a).dead u = true := by
        intro hd
        cases a with
        | go w =>
          simp only [St.act]
          cases hg : s'.go w with
          | none => exact hd
          | some x =>
            unfold St.go at hg
            split at hg
            · cases hg
            · split at hg
              · split at hg <;> cases hg; exact hd
              · cases hg; exact hd
              · cases hg; exact hd
              · cases hg; exact hd
              · cases hg
        | ev w => simp only [St.act]; split; exact hd; split <;> exact hd
        | die w => simp [St.act, hd]
      have oo : (s'.act a).own l = some u := by
        cases a with
        | go w =>
          simp only [St.act]
          cases hg : s'.go w with
          | none => exact h5
          | some x => exact go_own hi hg h5 (fun he => by subst he; rw [gu] at hg; cases hg)
        | ev w => simp only [St.act]; split; exact h5; split <;> exact h5
        | die w => exact h5
      have := ih (s'.act a) (reached_act h1 a) (by
          rcases h2 with h2 | ⟨r', h2⟩
          · exact Or.inl (dd h2)
          · exact Or.inr ⟨r', by rw [tu]; exact h2⟩)
        (by rcases h3 with h3 | h3
            · exact Or.inl (dd h3)
            · exact Or.inr (fun hm => h3 (List.mem_cons_of_mem _ hm)))
        ⟨l, r, by rw [tt]; exact h4, oo⟩
      simp only [List.foldl_cons]
      rw [this, tt]
  obtain ⟨_, l, r, h1, h2⟩ := hb
  exact this acts s hs hu ha ⟨l, r, h1, h2⟩

end Arax.Locks
