import Verif.Async.CondLock
import Verif.Live.Fair
/-!
# C66: locks of a condition exclude each other, and every call except `wait` returns
-/
namespace Arax.Cond
open Arax.Live (run Fair)

/-! ### Specification -/

/-- A program uses the condition as async_api.h:101-133 asks: `lock` only without the lock; `unlock`, `wait`, `notify` only with it; the lock is given back
at the end. The flag says whether the thread has the lock. -/
def WellFormed : Bool → List Call → Prop
  | false, [] => True
  | false, .lock :: r => WellFormed true r
  | true, .unlock :: r => WellFormed false r
  | true, .wait :: r => WellFormed true r
  | true, .notify :: r => WellFormed true r
  | _, _ => False

/-- `n` threads with well-formed programs. -/
def Programs (n : Nat) (prog : Nat → List Call) : Prop := (∀ i, WellFormed false (prog i)) ∧ ∀ i, n ≤ i → prog i = []

/-- Thread `i` has run its whole program. -/
def St.finished (s : St) (i : Nat) : Prop := s.pc i = .out ∧ s.todo i = []

/-- The schedules: thread `f t` takes the `t`-th step. -/
def goRun (b : Backend) (s : St) (f : Nat → Nat) : Nat → St := run (goStep b) s f

/-- A schedule of `n` threads in which every thread takes a step again and again. -/
def FairSched (n : Nat) (f : Nat → Nat) : Prop := Fair (· < n) id n f

/-! ### Invariant -/

def Pc.holds : Pc → Bool
  | .inside | .rel1 | .rel2 | .wt => true
  | _ => false

def St.free (b : Backend) (s : St) : Bool :=
  match b with
  | .mutex => !s.held
  | .spin => s.completed

def Fits (p : Pc) (r : List Call) : Prop :=
  match p with
  | .out | .rel1 | .rel2 => WellFormed false r
  | .acq | .inside | .wt | .asleep => WellFormed true r

structure Inv (b : Backend) (n : Nat) (s : St) : Prop where
  uniq  : ∀ i j, (s.pc i).holds = true → (s.pc j).holds = true → i = j
  free  : s.free b = true → ∀ i, (s.pc i).holds = false
  taken : s.free b = false → ∃ i, (s.pc i).holds = true
  fits  : ∀ i, Fits (s.pc i) (s.todo i)
  far   : ∀ i, n ≤ i → s.pc i = .out ∧ s.todo i = []
  spin  : b = .spin → s.tokens + s.wakes = s.notifs ∧ ∀ i, s.pc i ≠ .rel2

theorem inv_init (b : Backend) (n : Nat) (prog : Nat → List Call) (hp : Programs n prog) : Inv b n (init b prog) := by
  cases b <;> exact {
    uniq := fun i j h => by simp [init, St.trylock, St.munlock, St.cas01, Pc.holds] at h
    free := fun _ i => rfl
    taken := fun h => by simp [init, St.trylock, St.munlock, St.cas01, St.free] at h
    fits := fun i => hp.1 i
    far := fun i hi => ⟨rfl, hp.2 i hi⟩
    spin := fun h => by first | exact absurd h (by decide) | exact ⟨rfl, fun i => by simp [init, St.cas01]⟩ }

/-- A step in which only thread `i` changes its place. -/
theorem inv_move {b : Backend} {n : Nat} {s s' : St} (i : Nat) (h : Inv b n s) (hi : i < n)
    (hpc : ∀ j, j ≠ i → s'.pc j = s.pc j) (htd : ∀ j, j ≠ i → s'.todo j = s.todo j) (hf : Fits (s'.pc i) (s'.todo i))
    (hc : b = .spin → s'.tokens + s'.wakes = s'.notifs ∧ s'.pc i ≠ .rel2)
    (hl : ((s'.pc i).holds = (s.pc i).holds ∧ s'.free b = s.free b) ∨
          ((s.pc i).holds = true ∧ (s'.pc i).holds = false ∧ s'.free b = true) ∨
          (s.free b = true ∧ (s'.pc i).holds = true ∧ s'.free b = false)) : Inv b n s' := by
  have hh : ∀ j, j ≠ i → (s'.pc j).holds = (s.pc j).holds := fun j hj => by rw [hpc j hj]
  refine ⟨fun x y hx hy => ?_, fun hfr x => ?_, fun hfr => ?_, fun x => ?_, fun x hx => ?_, fun hb => ⟨(hc hb).1, fun x => ?_⟩⟩
  · rcases hl with ⟨e1, e2⟩ | ⟨e1, e2, e3⟩ | ⟨e1, e2, e3⟩
    · have all : ∀ z, (s'.pc z).holds = true → (s.pc z).holds = true := fun z hz => by
        by_cases e : z = i
        · subst e; rw [← e1]; exact hz
        · rw [← hh z e]; exact hz
      exact h.uniq x y (all x hx) (all y hy)
    · have nx : x ≠ i := fun e => by subst e; simp [e2] at hx
      have := h.uniq x i (by rw [← hh x nx]; exact hx) e1
      exact absurd this nx
    · have only : ∀ z, (s'.pc z).holds = true → z = i := fun z hz =>
        Classical.byContradiction fun e => by rw [hh z e, h.free e1 z] at hz; exact absurd hz (by decide)
      rw [only x hx, only y hy]
  · rcases hl with ⟨e1, e2⟩ | ⟨e1, e2, e3⟩ | ⟨e1, e2, e3⟩
    · by_cases e : x = i
      · subst e; rw [e1]; exact h.free (by rw [← e2]; exact hfr) x
      · rw [hh x e]; exact h.free (by rw [← e2]; exact hfr) x
    · by_cases e : x = i
      · subst e; exact e2
      · rw [hh x e]
        cases hx : (s.pc x).holds with
        | false => rfl
        | true => exact absurd (h.uniq x i hx e1) e
    · rw [e3] at hfr; exact absurd hfr (by decide)
  · rcases hl with ⟨e1, e2⟩ | ⟨e1, e2, e3⟩ | ⟨e1, e2, e3⟩
    · obtain ⟨x, hx⟩ := h.taken (by rw [← e2]; exact hfr)
      refine ⟨x, ?_⟩
      by_cases e : x = i
      · subst e; rw [e1]; exact hx
      · rw [hh x e]; exact hx
    · rw [e3] at hfr; exact absurd hfr (by decide)
    · exact ⟨i, e2⟩
  · by_cases e : x = i
    · subst e; exact hf
    · rw [hpc x e, htd x e]; exact h.fits x
  · have e : x ≠ i := by omega
    rw [hpc x e, htd x e]; exact h.far x hx
  · by_cases e : x = i
    · subst e; exact (hc hb).2
    · rw [hpc x e]; exact (h.spin hb).2 x

theorem goto_ne (s : St) (i : Nat) (p : Pc) (j : Nat) (h : j ≠ i) : (s.goto i p).pc j = s.pc j := by simp [St.goto, h]
theorem goto_eq (s : St) (i : Nat) (p : Pc) : (s.goto i p).pc i = p := by simp [St.goto]
theorem pop_ne (s : St) (i j : Nat) (h : j ≠ i) : (s.pop i).todo j = s.todo j := by simp [St.pop, h]
theorem pop_eq (s : St) (i : Nat) : (s.pop i).todo i = (s.todo i).tail := by simp [St.pop]

theorem inv_goStep (b : Backend) (n : Nat) (s : St) (i : Nat) (h : Inv b n s) : Inv b n (goStep b s i) := by
  by_cases hi : i < n
  case neg =>
    obtain ⟨h1, h2⟩ := h.far i (by omega)
    simp only [goStep, h1, h2]; exact h
  have hfit := h.fits i
  cases hp : s.pc i with
  | out =>
    simp only [goStep, hp]
    rw [hp] at hfit
    cases ht : s.todo i with
    | nil => exact h
    | cons c r =>
      rw [ht] at hfit
      cases c with
      | lock =>
        refine inv_move i h hi (fun j hj => goto_ne _ _ _ _ hj) (fun j hj => pop_ne _ _ _ hj) ?_ (fun hb => ⟨(h.spin hb).1, ?_⟩) (Or.inl ⟨?_, rfl⟩)
        · rw [goto_eq]; show Fits .acq ((s.pop i).todo i); rw [pop_eq, ht]; exact hfit
        · rw [goto_eq]; decide
        · rw [goto_eq, hp]; rfl
      | _ => exact h
  | inside =>
    simp only [goStep, hp]
    rw [hp] at hfit
    cases ht : s.todo i with
    | nil => exact h
    | cons c r =>
      rw [ht] at hfit
      cases c with
      | unlock =>
        refine inv_move i h hi (fun j hj => goto_ne _ _ _ _ hj) (fun j hj => pop_ne _ _ _ hj) ?_ (fun hb => ⟨(h.spin hb).1, ?_⟩) (Or.inl ⟨?_, rfl⟩)
        · rw [goto_eq]; show Fits .rel1 ((s.pop i).todo i); rw [pop_eq, ht]; exact hfit
        · rw [goto_eq]; decide
        · rw [goto_eq, hp]; rfl
      | wait =>
        refine inv_move i h hi (fun j hj => goto_ne _ _ _ _ hj) (fun j hj => pop_ne _ _ _ hj) ?_ (fun hb => ⟨(h.spin hb).1, ?_⟩) (Or.inl ⟨?_, rfl⟩)
        · rw [goto_eq]; show Fits .wt ((s.pop i).todo i); rw [pop_eq, ht]; exact hfit
        · rw [goto_eq]; decide
        · rw [goto_eq, hp]; rfl
      | notify =>
        have h1 : Inv b n (s.pop i) :=
          inv_move i h hi (fun j hj => rfl) (fun j hj => pop_ne _ _ _ hj)
            (by show Fits (s.pc i) ((s.pop i).todo i); rw [hp, pop_eq, ht]; exact hfit)
            (fun hb => ⟨(h.spin hb).1, by show s.pc i ≠ _; rw [hp]; decide⟩) (Or.inl ⟨rfl, rfl⟩)
        generalize s.pop i = u at h1
        cases b with
        | spin =>
          exact ⟨h1.uniq, h1.free, h1.taken, h1.fits, h1.far,
            fun hb => ⟨by have := (h1.spin hb).1; simp only [notify]; omega, (h1.spin hb).2⟩⟩
        | mutex =>
          have hh : ∀ j, ((notify .mutex u).pc j).holds = (u.pc j).holds := by
            intro j; simp only [notify]; split
            · rename_i e; rw [e]; rfl
            · rfl
          refine ⟨fun x y hx hy => h1.uniq x y (by rw [← hh]; exact hx) (by rw [← hh]; exact hy), fun hf x => by rw [hh]; exact h1.free hf x,
            fun hf => by obtain ⟨x, hx⟩ := h1.taken hf; exact ⟨x, by rw [hh]; exact hx⟩, fun x => ?_, fun x hx => ?_, fun hb => absurd hb (by decide)⟩
          · have := h1.fits x
            simp only [notify]; split
            · rename_i e; rw [e] at this; exact this
            · exact this
          · have := h1.far x hx
            simp only [notify, this.1, this.2]; simp
      | lock => exact h
  | acq =>
    rw [hp] at hfit
    cases b with
    | mutex =>
      simp only [goStep, hp]
      split
      · exact h
      · rename_i hn
        refine inv_move i h hi (fun j hj => goto_ne _ _ _ _ hj) (fun j hj => rfl) ?_ (fun hb => absurd hb (by decide)) (Or.inr (Or.inr ⟨?_, ?_, rfl⟩))
        · rw [goto_eq]; exact hfit
        · simpa [St.free] using hn
        · rw [goto_eq]; rfl
    | spin =>
      simp only [goStep, hp]
      split
      · rename_i hn
        refine inv_move i h hi (fun j hj => goto_ne _ _ _ _ hj) (fun j hj => rfl) ?_ (fun hb => ⟨(h.spin hb).1, ?_⟩) (Or.inr (Or.inr ⟨hn, ?_, rfl⟩))
        · rw [goto_eq]; exact hfit
        · rw [goto_eq]; decide
        · rw [goto_eq]; rfl
      · exact h
  | rel1 =>
    rw [hp] at hfit
    have hnf : s.free b = false := by
      cases hf : s.free b with
      | false => rfl
      | true => have := h.free hf i; rw [hp] at this; exact absurd this (by decide)
    cases b with
    | mutex =>
      simp only [goStep, hp]
      refine inv_move i h hi (fun j hj => goto_ne _ _ _ _ hj) (fun j hj => rfl) ?_ (fun hb => absurd hb (by decide)) (Or.inl ⟨?_, ?_⟩)
      · rw [goto_eq]; exact hfit
      · rw [goto_eq, hp]; rfl
      · rw [hnf]; rfl
    | spin =>
      simp only [goStep, hp]
      refine inv_move i h hi (fun j hj => goto_ne _ _ _ _ hj) (fun j hj => rfl) ?_ (fun hb => ⟨(h.spin hb).1, ?_⟩) (Or.inr (Or.inl ⟨?_, ?_, ?_⟩))
      · rw [goto_eq]; exact hfit
      · rw [goto_eq]; decide
      · rw [hp]; rfl
      · rw [goto_eq]; rfl
      · show (s.cas01).completed = true
        simp only [St.cas01]; split <;> simp_all
  | rel2 =>
    rw [hp] at hfit
    cases b with
    | mutex =>
      simp only [goStep, hp]
      refine inv_move i h hi (fun j hj => goto_ne _ _ _ _ hj) (fun j hj => rfl) ?_ (fun hb => absurd hb (by decide)) (Or.inr (Or.inl ⟨?_, ?_, rfl⟩))
      · rw [goto_eq]; exact hfit
      · rw [hp]; rfl
      · rw [goto_eq]; rfl
    | spin => exact absurd hp ((h.spin rfl).2 i)
  | wt =>
    rw [hp] at hfit
    cases b with
    | mutex =>
      simp only [goStep, hp]
      refine inv_move i h hi (fun j hj => goto_ne _ _ _ _ hj) (fun j hj => rfl) ?_ (fun hb => absurd hb (by decide)) (Or.inr (Or.inl ⟨?_, ?_, rfl⟩))
      · rw [goto_eq]; exact hfit
      · rw [hp]; rfl
      · rw [goto_eq]; rfl
    | spin =>
      simp only [goStep, hp]
      refine inv_move i h hi (fun j hj => goto_ne _ _ _ _ hj) (fun j hj => rfl) ?_ (fun hb => ⟨(h.spin hb).1, ?_⟩) (Or.inr (Or.inl ⟨?_, ?_, ?_⟩))
      · rw [goto_eq]; exact hfit
      · rw [goto_eq]; decide
      · rw [hp]; rfl
      · rw [goto_eq]; rfl
      · show (s.cas01).completed = true
        simp only [St.cas01]; split <;> simp_all
  | asleep =>
    rw [hp] at hfit
    cases b with
    | mutex => simp only [goStep, hp]; exact h
    | spin =>
      simp only [goStep, hp]
      split
      · refine inv_move i h hi (fun j hj => goto_ne _ _ _ _ hj) (fun j hj => rfl) ?_ (fun hb => ⟨?_, ?_⟩) (Or.inl ⟨?_, rfl⟩)
        · rw [goto_eq]; exact hfit
        · have := (h.spin hb).1
          show s.tokens - 1 + (s.wakes + 1) = s.notifs
          omega
        · rw [goto_eq]; decide
        · rw [goto_eq, hp]; rfl
      · exact h

theorem inv_step (b : Backend) (n : Nat) (s : St) (a : Act) (h : Inv b n s) : Inv b n (step b s a) := by
  cases a with
  | go i => exact inv_goStep b n s i h
  | spurious i =>
    simp only [step]
    split
    · rename_i e
      by_cases hi : i < n
      · refine inv_move i h hi (fun j hj => goto_ne _ _ _ _ hj) (fun j hj => rfl) ?_ (fun hb => ?_) (Or.inl ⟨?_, rfl⟩)
        · have := h.fits i; rw [e.2] at this; rw [goto_eq]; exact this
        · rw [e.1] at hb; exact absurd hb (by decide)
        · rw [goto_eq, e.2]; rfl
      · have := (h.far i (by omega)).1; rw [e.2] at this; exact absurd this (by decide)
    · exact h

theorem inv_exec (b : Backend) (n : Nat) : ∀ (sched : List Act) (s : St), Inv b n s → Inv b n (exec b s sched)
  | [], _, h => h
  | a :: r, s, h => inv_exec b n r (step b s a) (inv_step b n s a h)

/-! ### Progress -/

def wPc : Pc → Nat
  | .out | .inside => 0
  | .acq | .rel2 => 1
  | .rel1 | .asleep => 2
  | .wt => 3

def left (s : St) (i : Nat) : Nat := 4 * (s.todo i).length + wPc (s.pc i)

def phi (n : Nat) (s : St) : Nat := Live.sum (left s) n

theorem sum_le {f g : Nat → Nat} : ∀ {n}, (∀ i, i < n → f i ≤ g i) → Live.sum f n ≤ Live.sum g n
  | 0, _ => Nat.le_refl _
  | n + 1, h => by have := sum_le (n := n) (fun i hi => h i (by omega)); have := h n (by omega); simp only [Live.sum]; omega

theorem sum_lt {f g : Nat → Nat} {n i : Nat} (hi : i < n) (h : ∀ j, j < n → f j ≤ g j) (hl : f i < g i) : Live.sum f n < Live.sum g n := by
  have h1 := Live.sum_at (f := fun j => if j = i then g j else f j) (g := f) i hi (fun j hj => by simp [hj])
  have h2 : Live.sum (fun j => if j = i then g j else f j) n ≤ Live.sum g n := sum_le fun j hj => by
    by_cases e : j = i
    · simp [e]
    · simp [e, h j hj]
  simp at h1
  omega

theorem phi_move {n : Nat} {s s' : St} {i : Nat} (hi : i < n) (h : ∀ j, j ≠ i → left s' j = left s j) (hl : left s' i < left s i) : phi n s' < phi n s :=
  sum_lt hi (fun j _ => by
    by_cases e : j = i
    · subst e; omega
    · rw [h j e]; exact Nat.le_refl _) hl

theorem left_eq {s s' : St} {i : Nat} (h1 : s'.pc i = s.pc i) (h2 : s'.todo i = s.todo i) : left s' i = left s i := by simp [left, h1, h2]

theorem phi_goStep (b : Backend) (n : Nat) (s : St) (i : Nat) (hi : i < n) : goStep b s i = s ∨ phi n (goStep b s i) < phi n s := by
  have mv : ∀ (u : St) (p : Pc), (∀ j, u.pc j = s.pc j) → (∀ j, u.todo j = s.todo j) → wPc p < wPc (s.pc i) → phi n (u.goto i p) < phi n s := by
    intro u p h1 h2 h3
    refine phi_move hi (fun j hj => left_eq (by rw [goto_ne _ _ _ _ hj, h1]) (h2 j)) ?_
    show 4 * (u.todo i).length + wPc ((u.goto i p).pc i) < 4 * (s.todo i).length + wPc (s.pc i)
    rw [goto_eq, h2]; omega
  have call : ∀ (p : Pc) (c : Call) (r : List Call), s.todo i = c :: r → wPc p < 4 → phi n ((s.pop i).goto i p) < phi n s := by
    intro p c r ht h3
    refine phi_move hi (fun j hj => left_eq (goto_ne _ _ _ _ hj) (pop_ne _ _ _ hj)) ?_
    show 4 * ((s.pop i).todo i).length + wPc (((s.pop i).goto i p).pc i) < 4 * (s.todo i).length + wPc (s.pc i)
    rw [goto_eq, pop_eq, ht]; simp only [List.tail_cons, List.length_cons]; omega
  cases hp : s.pc i with
  | out =>
    simp only [goStep, hp]
    cases ht : s.todo i with
    | nil => exact Or.inl rfl
    | cons c r =>
      cases c with
      | lock => exact Or.inr (call _ _ _ ht (by decide))
      | _ => exact Or.inl rfl
  | inside =>
    simp only [goStep, hp]
    cases ht : s.todo i with
    | nil => exact Or.inl rfl
    | cons c r =>
      cases c with
      | unlock => exact Or.inr (call _ _ _ ht (by decide))
      | wait => exact Or.inr (call _ _ _ ht (by decide))
      | notify =>
        right
        have hle : ∀ j, left (notify b (s.pop i)) j ≤ left (s.pop i) j := by
          intro j
          cases b with
          | spin => exact Nat.le_refl _
          | mutex =>
            simp only [left, notify]
            by_cases e : (s.pop i).pc j = .asleep
            · rw [if_pos e, e]; simp [wPc]
            · rw [if_neg e]; exact Nat.le_refl _
        have hpop : ∀ j, left (s.pop i) j ≤ left s j := by
          intro j
          by_cases e : j = i
          · subst e; simp only [left]; rw [pop_eq, ht]; show 4 * r.length + wPc (s.pc j) ≤ _; simp only [List.length_cons]; omega
          · exact Nat.le_of_eq (left_eq rfl (pop_ne _ _ _ e))
        refine sum_lt hi (fun j _ => Nat.le_trans (hle j) (hpop j)) (Nat.lt_of_le_of_lt (hle i) ?_)
        simp only [left]; rw [pop_eq, ht]; show 4 * r.length + wPc (s.pc i) < _; simp only [List.length_cons]; omega
      | lock => exact Or.inl rfl
  | acq =>
    cases b <;> simp only [goStep, hp] <;> split <;>
      first | exact Or.inl rfl | exact Or.inr (mv _ _ (fun _ => rfl) (fun _ => rfl) (by rw [hp]; decide))
  | rel1 => cases b <;> simp only [goStep, hp] <;> exact Or.inr (mv _ _ (fun _ => rfl) (fun _ => rfl) (by rw [hp]; decide))
  | rel2 => cases b <;> simp only [goStep, hp] <;> exact Or.inr (mv _ _ (fun _ => rfl) (fun _ => rfl) (by rw [hp]; decide))
  | wt => cases b <;> simp only [goStep, hp] <;> exact Or.inr (mv _ _ (fun _ => rfl) (fun _ => rfl) (by rw [hp]; decide))
  | asleep =>
    cases b with
    | mutex => simp only [goStep, hp]; exact Or.inl True.intro
    | spin =>
      simp only [goStep, hp]; split
      · exact Or.inr (mv _ _ (fun _ => rfl) (fun _ => rfl) (by rw [hp]; decide))
      · exact Or.inl rfl

theorem progress (b : Backend) (n : Nat) : Live.Progress (goStep b) (· < n) id n (Inv b n) (phi n) where
  cls_lt := fun _ h => h
  keeps := fun s i _ h => inv_goStep b n s i h
  lower := fun s i hi _ => phi_goStep b n s i hi
  same := fun s l l' _ _ e _ h => by have : l = l' := e; rwa [← this]

/-- A thread that cannot move: it has finished, it sleeps without a token, or it waits for a lock that somebody has. -/
theorem stuck (b : Backend) (n : Nat) (s : St) (h : Inv b n s) (i : Nat) (hs : goStep b s i = s) :
    s.finished i ∨ (s.pc i = .asleep ∧ (b = .spin → s.tokens = 0)) ∨ (s.pc i = .acq ∧ s.free b = false) := by
  have hfit := h.fits i
  have moved : ∀ (u : St) (p : Pc), p ≠ s.pc i → u.goto i p = s → False := fun u p hne he => hne (by rw [← he, goto_eq])
  cases hp : s.pc i with
  | out =>
    left
    refine ⟨hp, ?_⟩
    rw [hp] at hfit
    cases ht : s.todo i with
    | nil => rfl
    | cons c r =>
      rw [ht] at hfit
      cases c with
      | lock => simp only [goStep, hp, ht] at hs; exact (moved _ _ (by rw [hp]; decide) hs).elim
      | _ => exact absurd hfit (by simp [Fits, WellFormed])
  | inside =>
    exfalso
    rw [hp] at hfit
    cases ht : s.todo i with
    | nil => rw [ht] at hfit; exact absurd hfit (by simp [Fits, WellFormed])
    | cons c r =>
      rw [ht] at hfit
      cases c with
      | lock => exact absurd hfit (by simp [Fits, WellFormed])
      | unlock => simp only [goStep, hp, ht] at hs; exact (moved _ _ (by rw [hp]; decide) hs).elim
      | wait => simp only [goStep, hp, ht] at hs; exact (moved _ _ (by rw [hp]; decide) hs).elim
      | notify =>
        simp only [goStep, hp, ht] at hs
        have : (notify b (s.pop i)).notifs = s.notifs := by rw [hs]
        cases b <;> simp [notify, St.pop] at this
  | acq =>
    right; right
    refine ⟨rfl, ?_⟩
    cases b with
    | mutex =>
      simp only [goStep, hp] at hs
      cases e : s.held with
      | true => simp [St.free, e]
      | false => simp only [e] at hs; exact (moved _ _ (by rw [hp]; decide) hs).elim
    | spin =>
      simp only [goStep, hp] at hs
      cases e : s.completed with
      | false => simp [St.free, e]
      | true => simp only [e] at hs; exact (moved _ _ (by rw [hp]; decide) hs).elim
  | rel1 => cases b <;> simp only [goStep, hp] at hs <;> exact (moved _ _ (by rw [hp]; decide) hs).elim
  | rel2 => cases b <;> simp only [goStep, hp] at hs <;> exact (moved _ _ (by rw [hp]; decide) hs).elim
  | wt => cases b <;> simp only [goStep, hp] at hs <;> exact (moved _ _ (by rw [hp]; decide) hs).elim
  | asleep =>
    right; left
    refine ⟨rfl, fun hb => ?_⟩
    subst hb
    simp only [goStep, hp] at hs
    split at hs
    · exact (moved _ _ (by rw [hp]; decide) hs).elim
    · omega

theorem rest (b : Backend) (n : Nat) (s : St) (h : Inv b n s) (hq : ∀ i, i < n → goStep b s i = s) (i : Nat) (hi : i < n) :
    s.finished i ∨ (s.pc i = .asleep ∧ (b = .spin → s.tokens = 0)) := by
  rcases stuck b n s h i (hq i hi) with h1 | h1 | ⟨-, hf⟩
  · exact Or.inl h1
  · exact Or.inr h1
  · obtain ⟨x, hx⟩ := h.taken hf
    have hxn : x < n := Classical.byContradiction fun hn => by rw [(h.far x (by omega)).1] at hx; exact absurd hx (by decide)
    rcases stuck b n s h x (hq x hxn) with h1 | h1 | h1
    · rw [h1.1] at hx; exact absurd hx (by decide)
    · rw [h1.1] at hx; exact absurd hx (by decide)
    · rw [h1.1] at hx; exact absurd hx (by decide)

/-! ### The theorems -/

/-- **C66, exclusion**: in every execution of any number of threads, at most one thread is between the return of `async_condition_lock` or
`async_condition_wait` and its next call of `async_condition_unlock` or `async_condition_wait`. -/
theorem C66_exclusion (b : Backend) (n : Nat) (prog : Nat → List Call) (hp : Programs n prog) (sched : List Act) (i j : Nat)
    (hi : (exec b (init b prog) sched).pc i = .inside) (hj : (exec b (init b prog) sched).pc j = .inside) : i = j :=
  (inv_exec b n sched _ (inv_init b n prog hp)).uniq i j (by rw [hi]; rfl) (by rw [hj]; rfl)

/-- **C66, every call returns, except a wait that is not notified**: after any history, under every fair schedule there comes a moment from which on
nothing changes and every thread has finished its program or sleeps in `async_condition_wait`; with the spin back-end, if some thread sleeps, every
notification has woken a thread. -/
theorem C66_returns (b : Backend) (n : Nat) (prog : Nat → List Call) (hp : Programs n prog) (sched : List Act) (f : Nat → Nat) (hf : FairSched n f) :
    ∃ t0, ∀ t, t0 ≤ t →
      (∀ i, i < n → (goRun b (exec b (init b prog) sched) f t).finished i ∨ (goRun b (exec b (init b prog) sched) f t).pc i = .asleep) ∧
      (b = .spin → (∃ i, (goRun b (exec b (init b prog) sched) f t).pc i = .asleep) →
        (goRun b (exec b (init b prog) sched) f t).wakes = (goRun b (exec b (init b prog) sched) f t).notifs) := by
  have hinv := inv_exec b n sched _ (inv_init b n prog hp)
  generalize exec b (init b prog) sched = s at hinv
  obtain ⟨t0, h1, h2⟩ := Live.comes_to_rest (progress b n) (phi n s) f s (Nat.le_refl _) hf hinv
  have hinv' := Live.run_inv (progress b n) hf.1 hinv t0
  refine ⟨t0, fun t ht => ?_⟩
  have e : goRun b s f t = run (goStep b) s f t0 := h2 t ht
  rw [e]
  generalize run (goStep b) s f t0 = u at h1 hinv'
  refine ⟨fun i hi => (rest b n u hinv' h1 i hi).imp id (·.1), fun hb ⟨i, hi⟩ => ?_⟩
  have hin : i < n := Classical.byContradiction fun hn => by rw [(hinv'.far i (by omega)).1] at hi; exact absurd hi (by decide)
  rcases rest b n u hinv' h1 i hin with h | h
  · rw [h.1] at hi; exact absurd hi (by decide)
  · have := (hinv'.spin hb).1
    have := h.2 hb
    omega

/-- A program that never waits: lock, some notifications, unlock, again and again. -/
def NoWait (prog : Nat → List Call) : Prop := ∀ i, Call.wait ∉ prog i

theorem noWait_step (b : Backend) (s : St) (a : Act) (h : ∀ i, Call.wait ∉ s.todo i ∧ s.pc i ≠ .wt ∧ s.pc i ≠ .asleep) :
    ∀ i, Call.wait ∉ (step b s a).todo i ∧ (step b s a).pc i ≠ .wt ∧ (step b s a).pc i ≠ .asleep := by
  have gt : ∀ (u : St) (j : Nat) (p : Pc), p ≠ .wt → p ≠ .asleep → (∀ i, Call.wait ∉ u.todo i ∧ u.pc i ≠ .wt ∧ u.pc i ≠ .asleep) →
      ∀ i, Call.wait ∉ (u.goto j p).todo i ∧ (u.goto j p).pc i ≠ .wt ∧ (u.goto j p).pc i ≠ .asleep := by
    intro u j p h1 h2 hu i
    refine ⟨(hu i).1, ?_⟩
    by_cases e : i = j
    · subst e; rw [goto_eq]; exact ⟨h1, h2⟩
    · rw [goto_ne _ _ _ _ e]; exact (hu i).2
  have pp : ∀ j, ∀ i, Call.wait ∉ (s.pop j).todo i ∧ (s.pop j).pc i ≠ .wt ∧ (s.pop j).pc i ≠ .asleep := by
    intro j i
    refine ⟨?_, (h i).2⟩
    by_cases e : i = j
    · subst e; rw [pop_eq]; exact fun hm => (h i).1 (List.mem_of_mem_tail hm)
    · rw [pop_ne _ _ _ e]; exact (h i).1
  cases a with
  | spurious j => simp only [step]; split <;> first | exact gt _ _ _ (by decide) (by decide) h | exact h
  | go j =>
    simp only [step]
    cases hp : s.pc j with
    | wt => exact absurd hp (h j).2.1
    | asleep => exact absurd hp (h j).2.2
    | out =>
      simp only [goStep, hp]
      cases ht : s.todo j with
      | nil => exact h
      | cons c r => cases c <;> first | exact h | exact gt _ _ _ (by decide) (by decide) (pp j)
    | inside =>
      simp only [goStep, hp]
      cases ht : s.todo j with
      | nil => exact h
      | cons c r =>
        cases c with
        | lock => exact h
        | unlock => exact gt _ _ _ (by decide) (by decide) (pp j)
        | wait => exact absurd (by rw [ht]; exact List.mem_cons_self) (h j).1
        | notify =>
          have := pp j
          generalize s.pop j = u at this
          cases b with
          | spin => exact this
          | mutex =>
            intro i
            refine ⟨(this i).1, ?_⟩
            simp only [notify]
            rw [if_neg (this i).2.2]; exact (this i).2
    | acq => cases b <;> simp only [goStep, hp] <;> split <;> first | exact h | exact gt _ _ _ (by decide) (by decide) h
    | rel1 => cases b <;> simp only [goStep, hp] <;> exact gt _ _ _ (by decide) (by decide) h
    | rel2 => cases b <;> simp only [goStep, hp] <;> exact gt _ _ _ (by decide) (by decide) h

/-- **C66, lock and unlock always return**: programs without `wait` all run to their end, under every fair schedule after any history. -/
theorem C66_locks_return (b : Backend) (n : Nat) (prog : Nat → List Call) (hp : Programs n prog) (hw : NoWait prog) (sched : List Act) (f : Nat → Nat)
    (hf : FairSched n f) : ∃ t0, ∀ t, t0 ≤ t → ∀ i, (goRun b (exec b (init b prog) sched) f t).finished i := by
  obtain ⟨t0, h⟩ := C66_returns b n prog hp sched f hf
  refine ⟨t0, fun t ht i => ?_⟩
  have key0 : ∀ i, Call.wait ∉ (init b prog).todo i ∧ (init b prog).pc i ≠ .wt ∧ (init b prog).pc i ≠ .asleep := by
    intro i; cases b <;> exact ⟨hw i, Pc.noConfusion, Pc.noConfusion⟩
  have key1 : ∀ (l : List Act) (s : St), (∀ i, Call.wait ∉ s.todo i ∧ s.pc i ≠ .wt ∧ s.pc i ≠ .asleep) →
      ∀ i, Call.wait ∉ (exec b s l).todo i ∧ (exec b s l).pc i ≠ .wt ∧ (exec b s l).pc i ≠ .asleep := by
    intro l
    induction l with
    | nil => intro s h; exact h
    | cons a r ih => intro s h; exact ih _ (noWait_step b s a h)
  have key2 : ∀ t, ∀ i, Call.wait ∉ (goRun b (exec b (init b prog) sched) f t).todo i ∧ (goRun b (exec b (init b prog) sched) f t).pc i ≠ .wt ∧
      (goRun b (exec b (init b prog) sched) f t).pc i ≠ .asleep := by
    intro t
    induction t with
    | zero => exact key1 sched _ key0
    | succ t ih => exact noWait_step b _ (.go (f t)) ih
  by_cases hi : i < n
  · rcases (h t ht).1 i hi with h' | h'
    · exact h'
    · exact absurd h' (key2 t i).2.2
  · have hinv := Live.run_inv (progress b n) hf.1 (inv_exec b n sched _ (inv_init b n prog hp)) t
    exact hinv.far i (by omega)

/-- **C66, a notification wakes**: with the mutex back-end every thread that sleeps when another one notifies leaves its sleep at once. -/
theorem C66_notify_wakes_all (s : St) (i j : Nat) (r : List Call) (hi : s.pc i = .inside) (ht : s.todo i = .notify :: r) :
    (step .mutex s (.go i)).pc j ≠ .asleep := by
  simp only [step, goStep, hi, ht, notify]
  split
  · decide
  · assumption

/-- Two threads, the test of /repo/tests/async.cpp:22-33 and 88-101: `0` waits and then notifies, `1` notifies and then waits. -/
def demo : Nat → List Call
  | 0 => [.lock, .wait, .unlock, .lock, .notify, .unlock]
  | 1 => [.lock, .notify, .unlock, .lock, .wait, .unlock]
  | _ => []

theorem demo_programs : Programs 2 demo := by
  refine ⟨fun i => ?_, fun i hi => ?_⟩
  · match i with
    | 0 => exact trivial
    | 1 => exact trivial
    | _ + 2 => exact trivial
  · match i, hi with
    | _ + 2, _ => rfl

/-- The hypotheses of `C66_exclusion` and `C66_returns` are met by that test; in this execution thread 0 is inside and thread 1 waits for the lock. -/
example : Programs 2 demo ∧ (exec .mutex (init .mutex demo) [.go 0, .go 1, .go 0, .go 1]).pc 0 = .inside ∧
    (exec .mutex (init .mutex demo) [.go 0, .go 1, .go 0, .go 1]).pc 1 = .acq := ⟨demo_programs, by decide, by decide⟩

/-- A fair schedule of two threads. -/
example : FairSched 2 (· % 2) :=
  ⟨fun t => by show t % 2 < 2; omega, fun c hc t => ⟨2 * t + c, by omega, by show (2 * t + c) % 2 = c; omega⟩⟩

/-- In the test both threads can run to their end, with either back-end … -/
example : let s := exec .spin (init .spin demo) ([.go 0, .go 0, .go 0, .go 0] ++ List.replicate 5 (.go 1) ++ List.replicate 4 (.go 0) ++
      List.replicate 4 (.go 1) ++ List.replicate 6 (.go 0) ++ List.replicate 6 (.go 1)); s.finished 0 ∧ s.finished 1 := by
  simp only [St.finished]; decide

/-- … and with the mutex back-end thread 1 can also notify before thread 0 waits, which leaves thread 0 asleep. -/
example : let s := exec .mutex (init .mutex demo) (List.replicate 7 (.go 1) ++ List.replicate 9 (.go 0) ++ List.replicate 9 (.go 1));
    s.pc 0 = .asleep ∧ s.pc 1 = .asleep := by decide

example : Programs 1 (fun i => if i = 0 then [.lock, .notify, .unlock] else []) ∧ NoWait (fun i => if i = 0 then [.lock, .notify, .unlock] else []) := by
  refine ⟨⟨fun i => ?_, fun i hi => by simp; omega⟩, fun i => ?_⟩
  · by_cases e : i = 0 <;> simp [e, WellFormed]
  · by_cases e : i = 0 <;> simp [e]

/-! ### ivshmem -/
namespace Iv

/-- A thread that calls `async_condition_lock` on a fresh condition, when the interrupt of the initialisation has already been read: it waits for ever,
although nobody holds the condition — as long as nobody rings the bell for another reason. -/
theorem C66_violated_ivshmem_hang (sched : List Act) (h : ∀ a ∈ sched, a ≠ .ring ∧ ∀ i, a = .lock i → i = 0) :
    (exec (init 0) sched).pc 0 ≠ .inside ∧ ∀ i, i ≠ 0 → (exec (init 0) sched).pc i = .out := by
  have key : ∀ (l : List Act) (s : St), (∀ a ∈ l, a ≠ .ring ∧ ∀ i, a = .lock i → i = 0) →
      (s.held = true ∧ s.bells = 0 ∧ (s.pc 0 = .out ∨ s.pc 0 = .try_ ∨ s.pc 0 = .add ∨ s.pc 0 = .setId ∨ s.pc 0 = .lck) ∧ ∀ i, i ≠ 0 → s.pc i = .out) →
      let s' := exec s l
      (s'.held = true ∧ s'.bells = 0 ∧ (s'.pc 0 = .out ∨ s'.pc 0 = .try_ ∨ s'.pc 0 = .add ∨ s'.pc 0 = .setId ∨ s'.pc 0 = .lck) ∧ ∀ i, i ≠ 0 → s'.pc i = .out) := by
    intro l
    induction l with
    | nil => intro s _ hs; exact hs
    | cons a r ih =>
      intro s hl hs
      refine ih (step s a) (fun x hx => hl x (List.mem_cons_of_mem _ hx)) ?_
      obtain ⟨h1, h2, h3, h4⟩ := hs
      obtain ⟨ha, hb⟩ := hl a List.mem_cons_self
      have gt : ∀ (u : St) (p : Pc), u.held = true → u.bells = 0 → (∀ i, i ≠ 0 → u.pc i = .out) →
          (p = .out ∨ p = .try_ ∨ p = .add ∨ p = .setId ∨ p = .lck) →
          ((u.goto 0 p).held = true ∧ (u.goto 0 p).bells = 0 ∧ ((u.goto 0 p).pc 0 = .out ∨ (u.goto 0 p).pc 0 = .try_ ∨ (u.goto 0 p).pc 0 = .add ∨
            (u.goto 0 p).pc 0 = .setId ∨ (u.goto 0 p).pc 0 = .lck) ∧ ∀ i, i ≠ 0 → (u.goto 0 p).pc i = .out) := by
        intro u p e1 e2 e3 e4
        refine ⟨e1, e2, ?_, fun i hi => ?_⟩
        · simp only [St.goto, if_true]; exact e4
        · show (if i = 0 then p else u.pc i) = _; rw [if_neg hi]; exact e3 i hi
      cases a with
      | ring => exact absurd rfl ha
      | irq => simp only [step, irqStep, h2]; exact ⟨h1, h2, h3, h4⟩
      | lock i =>
        have := hb i rfl; subst this
        simp only [step]; split
        · exact gt s _ h1 h2 h4 (by simp)
        · exact ⟨h1, h2, h3, h4⟩
      | unlock i =>
        simp only [step]
        rw [if_neg]
        · exact ⟨h1, h2, h3, h4⟩
        · by_cases e : i = 0
          · subst e; rcases h3 with h | h | h | h | h <;> rw [h] <;> decide
          · rw [h4 i e]; decide
      | go i =>
        by_cases e : i = 0
        · subst e
          rcases h3 with h | h | h | h | h
          · have e : step s (.go 0) = s := by simp only [step, goStep, h]
            rw [e]; exact ⟨h1, h2, Or.inl h, h4⟩
          · simp only [step, goStep, h, h1]; exact gt s _ h1 h2 h4 (by simp)
          · simp only [step, goStep, h]; exact gt _ _ h1 h2 h4 (by simp)
          · simp only [step, goStep, h]; exact gt s _ h1 h2 h4 (by simp)
          · simp only [step, goStep, h, h1]; exact ⟨h1, h2, by simp [h], h4⟩
        · simp only [step, goStep, h4 i e]; exact ⟨h1, h2, h3, h4⟩
  obtain ⟨-, -, h3, h4⟩ := key sched (init 0) h ⟨rfl, rfl, Or.inl rfl, fun _ _ => rfl⟩
  refine ⟨?_, h4⟩
  rcases h3 with h | h | h | h | h <;> rw [h] <;> decide

/-- The execution meant by the theorem: the call, all its steps, and the interrupt thread. -/
example : (exec (init 0) [.lock 0, .go 0, .irq, .go 0, .go 0, .irq, .go 0]).pc 0 = .lck := by decide

/-- Two threads inside at once: `completed` is never cleared, so any interrupt of the machine lets the next waiting thread in while the first one has not
unlocked. The list of outstanding completions is intact throughout. -/
theorem C66_violated_ivshmem_exclusion : ∃ sched : List Act,
    (∀ i, .unlock i ∉ sched) ∧ (exec (init 0) sched).pc 0 = .inside ∧ (exec (init 0) sched).pc 1 = .inside ∧ (exec (init 0) sched).corrupt = false :=
  ⟨[.lock 0, .go 0, .go 0, .go 0, .ring, .irq, .go 0, .lock 1, .go 1, .go 1, .go 1, .ring, .irq, .go 1],
    fun i h => by simp at h, by decide, by decide, by decide⟩

/-- What the two threads of `C66_violated_ivshmem_self` are in from then on. -/
def Stuck (s : St) : Prop := s.held = true ∧ s.linked = false ∧ (s.pc 0 = .setId ∨ s.pc 0 = .lck) ∧ (s.pc 1 = .setId ∨ s.pc 1 = .lck) ∧ ∀ i, i ≠ 0 → i ≠ 1 → s.pc i = .out

theorem stuck_step {s : St} (h : Stuck s) (a : Act) (ha : ∀ i, a ≠ .lock i) : Stuck (step s a) := by
  obtain ⟨h1, h2, h3, h4, h5⟩ := h
  cases a with
  | lock i => exact absurd rfl (ha i)
  | ring => exact ⟨h1, h2, h3, h4, h5⟩
  | irq =>
    simp only [step, irqStep]
    split
    · exact ⟨h1, h2, h3, h4, h5⟩
    · rw [h2]; exact ⟨h1, rfl, h3, h4, h5⟩
  | unlock i =>
    simp only [step]
    rw [if_neg]
    · exact ⟨h1, h2, h3, h4, h5⟩
    · by_cases e : i = 0
      · subst e; rcases h3 with h | h <;> rw [h] <;> decide
      · by_cases e1 : i = 1
        · subst e1; rcases h4 with h | h <;> rw [h] <;> decide
        · rw [h5 i e e1]; decide
  | go i =>
    by_cases e : i = 0
    · subst e
      rcases h3 with h | h
      · simp only [step, goStep, h]
        refine ⟨h1, h2, Or.inr (by simp [St.goto]), by simpa [St.goto] using h4, fun j a b => ?_⟩
        simp only [St.goto, if_neg a]; exact h5 j a b
      · simp only [step, goStep, h, h1, if_true]; exact ⟨h1, h2, Or.inr h, h4, h5⟩
    · by_cases e1 : i = 1
      · subst e1
        rcases h4 with h | h
        · simp only [step, goStep, h]
          refine ⟨h1, h2, by simpa [St.goto] using h3, Or.inr (by simp [St.goto]), fun j a b => ?_⟩
          simp only [St.goto, if_neg b]; exact h5 j a b
        · simp only [step, goStep, h, h1, if_true]; exact ⟨h1, h2, h3, Or.inr h, h5⟩
      · simp only [step, goStep, h5 i e e1]; exact ⟨h1, h2, h3, h4, h5⟩

/-- A thread locks itself out: thread 0 waits, an interrupt frees the mutex for it, and before it takes it thread 1 comes, whose `trylock` succeeds: the next thing thread 1 does is to wait for
the mutex it holds. From then on neither ever comes in, whatever interrupts arrive, until a third thread calls. -/
theorem C66_violated_ivshmem_self : ∃ sched : List Act, (∀ i, .unlock i ∉ sched) ∧ ∀ more : List Act, (∀ a ∈ more, ∀ i, a ≠ .lock i) →
    (exec (init 0) (sched ++ more)).pc 0 ≠ .inside ∧ (exec (init 0) (sched ++ more)).pc 1 ≠ .inside := by
  refine ⟨[.lock 0, .go 0, .go 0, .ring, .irq, .lock 1, .go 1], fun i h => by simp at h, fun more hm => ?_⟩
  have key : ∀ (l : List Act) (s : St), (∀ a ∈ l, ∀ i, a ≠ .lock i) → Stuck s → Stuck (exec s l) := by
    intro l
    induction l with
    | nil => intro s _ h; exact h
    | cons a r ih => intro s hl h; exact ih _ (fun x hx => hl x (List.mem_cons_of_mem _ hx)) (stuck_step h a (hl a List.mem_cons_self))
  have h0 : Stuck (exec (init 0) [.lock 0, .go 0, .go 0, .ring, .irq, .lock 1, .go 1]) := by
    refine ⟨by decide, by decide, Or.inl (by decide), Or.inl (by decide), fun i a b => ?_⟩
    simp [exec, step, goStep, irqStep, init, St.goto, a, b]
  have h := key more _ hm h0
  have e : exec (init 0) ([.lock 0, .go 0, .go 0, .ring, .irq, .lock 1, .go 1] ++ more) = exec (exec (init 0) [.lock 0, .go 0, .go 0, .ring, .irq, .lock 1, .go 1]) more := by
    simp only [exec, List.foldl_append]
  rw [e]
  obtain ⟨-, -, h3, h4, -⟩ := h
  constructor
  · rcases h3 with h | h <;> rw [h] <;> decide
  · rcases h4 with h | h <;> rw [h] <;> decide

end Iv
end Arax.Cond
