import Verif.Tools.Vdf
/-!
# C115: watching a segment does not stop its users

vdf writes the table of the objects of a type to its browser while it holds the lock of the list of that type; applications need that lock whenever they make or drop an object of the type (an accelerator, a
buffer, a task). Modelled: vdf writing one page, the connection (which holds at most `cap` characters that the browser has not read), a browser that reads when it likes, any number of applications that take and release the locks,
the death of vdf; every interleaving.

Simplified: the text of a table is fixed when the page starts; the parts of the page outside of the locks are the second component of a section.
-/
namespace Arax.Watch

/-- Texts. `std::string`. -/
abbrev Str := List Char

/-- What vdf does for a page (/repo/vdf/Views/Objects.cpp:32-86). -/
inductive Act where
  /-- `arax_object_list_lock` [32] -/
  | lock (t : Nat)
  /-- a character is written to the connection [33-83] -/
  | put (c : Char)
  /-- `arax_object_list_unlock` [84] -/
  | unlock (t : Nat)
deriving DecidableEq

/-- The page: for every type `t` its text under the lock and the text behind it. (/repo/vdf/Views/Objects.cpp:31-87; /repo/vdf/Views/Throttle.cpp:27-42 is of the same shape.) -/
def page : List (Nat × Str × Str) → List Act
  | [] => []
  | (t, a, b) :: r => .lock t :: (a.map .put ++ .unlock t :: (b.map .put ++ page r))

/-- Who has a lock. (Lock words: /repo/src/core/arax_object.h:32-33.) -/
inductive Who where
  | vdf
  | app (i : Nat)
deriving DecidableEq

/-- Where an application is (/repo/src/core/arax_object.c:115-117, 169, 192-200). -/
inductive App where
  | idle
  /-- spins for the lock of type `t` -/
  | wants (t : Nat)
  | holds (t : Nat)
deriving DecidableEq

/-- Everything. `pipe`: written, and not read by the browser. -/
structure St where
  rest : List Act
  own : Nat → Option Who
  pipe : Str
  seen : Str
  alive : Bool
  app : Nat → App

/-- Sets one place. (No code of its own.) -/
def upd {α : Type} (f : Nat → α) (i : Nat) (v : α) : Nat → α := fun j => if j = i then v else f j

/-- What can happen. (No code of its own.) -/
inductive Ev where
  | vdf
  /-- the browser reads a character -/
  | read
  /-- application `i` makes or drops an object of type `t` -/
  | call (i t : Nat)
  /-- a step of application `i` -/
  | app (i : Nat)
  /-- vdf is killed or crashes -/
  | die
deriving DecidableEq

/-- A step of vdf (/repo/vdf/Views/Objects.cpp:32-86). -/
def vdfStep (cap : Nat) (s : St) : St :=
  match s.rest with
  | [] => s
  | .lock t :: r => if s.own t = none then { s with own := upd s.own t (some .vdf), rest := r } else s
  | .put c :: r => if s.pipe.length < cap then { s with pipe := s.pipe ++ [c], rest := r } else s
  | .unlock t :: r => { s with own := upd s.own t none, rest := r }

/-- A step of application `i` (/repo/src/core/arax_object.c:115-117, 169, 192-200). -/
def appStep (s : St) (i : Nat) : St :=
  match s.app i with
  | .idle => s
  | .wants t => if s.own t = none then { s with own := upd s.own t (some (.app i)), app := upd s.app i (.holds t) } else s
  | .holds t => { s with own := upd s.own t none, app := upd s.app i .idle }

/-- One step. (No code of its own; see `vdfStep`, `appStep`.) -/
def step (cap : Nat) (s : St) : Ev → St
  | .vdf => if s.alive then vdfStep cap s else s
  | .read => match s.pipe with
    | [] => s
    | c :: r => { s with pipe := r, seen := s.seen ++ [c] }
  | .call i t => if s.app i = .idle then { s with app := upd s.app i (.wants t) } else s
  | .app i => appStep s i
  | .die => { s with alive := false }

/-- A request for a page arrives (/repo/vdf/WebUI.cpp:17). -/
def start (p : List (Nat × Str × Str)) : St := ⟨page p, fun _ => none, [], [], true, fun _ => .idle⟩

/-- A history. (No code of its own.) -/
def run (cap : Nat) (p : List (Nat × Str × Str)) (evs : List Ev) : St := evs.foldl (step cap) (start p)

/-! ### Specification -/

/-- All the text of a page. -/
def text (p : List (Nat × Str × Str)) : Str := p.flatMap fun x => x.2.1 ++ x.2.2

/-- The state after `k` steps of an endless history. -/
def after (cap : Nat) (s : St) (f : Nat → Ev) : Nat → St
  | 0 => s
  | k + 1 => step cap (after cap s f k) (f k)

/-! ### Proofs -/

theorem upd_same {α : Type} (f : Nat → α) (i : Nat) (v : α) : upd f i v i = v := by simp [upd]
theorem upd_ne {α : Type} (f : Nat → α) {i j : Nat} (v : α) (h : j ≠ i) : upd f i v j = f j := by simp [upd, h]

/-- The characters vdf has still to write. -/
def chars : List Act → Str
  | [] => []
  | .put c :: r => c :: chars r
  | _ :: r => chars r

theorem chars_puts (a : Str) (r : List Act) : chars (a.map .put ++ r) = a ++ chars r := by
  induction a with
  | nil => rfl
  | cons c cs ih => simp [chars, ih]

theorem chars_page (p : List (Nat × Str × Str)) : chars (page p) = text p := by
  induction p with
  | nil => rfl
  | cons x r ih =>
    obtain ⟨t, a, b⟩ := x
    simp only [page, chars, chars_puts, ih, text, List.flatMap_cons, List.append_assoc]

/-- What vdf does is a rest of a page: in a locked part, or outside. -/
inductive Form : List Act → Option Nat → Prop
  | out (b : Str) (p : List (Nat × Str × Str)) : Form (b.map .put ++ page p) none
  | inside (t : Nat) (a b : Str) (p : List (Nat × Str × Str)) : Form (a.map .put ++ .unlock t :: (b.map .put ++ page p)) (some t)

/-- What holds all the time. -/
structure Inv (p : List (Nat × Str × Str)) (s : St) : Prop where
  txt : s.seen ++ s.pipe ++ chars s.rest = text p
  form : ∃ o, Form s.rest o ∧ ∀ t, s.own t = some .vdf ↔ o = some t
  apps : ∀ i t, s.own t = some (.app i) ↔ s.app i = .holds t

theorem inv_start (p : List (Nat × Str × Str)) : Inv p (start p) :=
  ⟨by simp [start, chars_page], ⟨none, Form.out [] p, by simp [start]⟩, by simp [start]⟩

theorem inv_vdf {cap : Nat} {p : List (Nat × Str × Str)} {s : St} (h : Inv p s) : Inv p (vdfStep cap s) := by
  obtain ⟨o, hf, ho⟩ := h.form
  generalize hr : s.rest = r at hf
  cases hf with
  | out b q =>
    cases b with
    | nil =>
      cases q with
      | nil => have e : vdfStep cap s = s := by simp [vdfStep, hr, page]
               rw [e]; exact h
      | cons x q =>
        obtain ⟨t, a, b⟩ := x
        by_cases hown : s.own t = none
        · have e : vdfStep cap s = { s with own := upd s.own t (some .vdf), rest := a.map .put ++ .unlock t :: (b.map .put ++ page q) } := by
            simp [vdfStep, hr, page, hown]
          rw [e]
          refine ⟨?_, ⟨some t, Form.inside t a b q, fun u => ?_⟩, fun i u => ?_⟩
          · have := h.txt; rw [hr] at this; simpa [page, chars] using this
          · by_cases hu : u = t
            · subst hu; simp [upd]
            · dsimp only; rw [upd_ne _ _ hu, ho u]; simp; omega
          · by_cases hu : u = t
            · subst hu
              have := h.apps i u
              rw [hown] at this
              simp [upd]; intro hc; exact absurd (this.2 hc) (by simp)
            · dsimp only; rw [upd_ne _ _ hu]; exact h.apps i u
        · have e : vdfStep cap s = s := by simp [vdfStep, hr, page, hown]
          rw [e]; exact h
    | cons c cs =>
      by_cases hc : s.pipe.length < cap
      · have e : vdfStep cap s = { s with pipe := s.pipe ++ [c], rest := cs.map .put ++ page q } := by simp [vdfStep, hr, hc]
        rw [e]
        refine ⟨?_, ⟨none, Form.out cs q, ho⟩, h.apps⟩
        have := h.txt; rw [hr] at this; simpa [chars] using this
      · have e : vdfStep cap s = s := by simp [vdfStep, hr, hc]
        rw [e]; exact h
  | inside t a b q =>
    cases a with
    | nil =>
      have e : vdfStep cap s = { s with own := upd s.own t none, rest := b.map .put ++ page q } := by simp [vdfStep, hr]
      rw [e]
      refine ⟨?_, ⟨none, Form.out b q, fun u => ?_⟩, fun i u => ?_⟩
      · have := h.txt; rw [hr] at this; simpa [chars] using this
      · by_cases hu : u = t
        · subst hu; simp [upd]
        · dsimp only; rw [upd_ne _ _ hu, ho u]; simp; omega
      · by_cases hu : u = t
        · subst hu
          have := h.apps i u
          rw [(ho u).2 rfl] at this
          simp [upd]; intro hc; exact absurd (this.2 hc) (by simp)
        · dsimp only; rw [upd_ne _ _ hu]; exact h.apps i u
    | cons c cs =>
      by_cases hc : s.pipe.length < cap
      · have e : vdfStep cap s = { s with pipe := s.pipe ++ [c], rest := cs.map .put ++ .unlock t :: (b.map .put ++ page q) } := by simp [vdfStep, hr, hc]
        rw [e]
        refine ⟨?_, ⟨some t, Form.inside t cs b q, ho⟩, h.apps⟩
        have := h.txt; rw [hr] at this; simpa [chars] using this
      · have e : vdfStep cap s = s := by simp [vdfStep, hr, hc]
        rw [e]; exact h

theorem inv_step {cap : Nat} {p : List (Nat × Str × Str)} {s : St} (h : Inv p s) (e : Ev) : Inv p (step cap s e) := by
  cases e with
  | vdf =>
    simp only [step]
    split
    · exact inv_vdf h
    · exact h
  | read =>
    cases hp : s.pipe with
    | nil => have e : step cap s .read = s := by simp [step, hp]
             rw [e]; exact h
    | cons c r =>
      have e : step cap s .read = { s with pipe := r, seen := s.seen ++ [c] } := by simp [step, hp]
      rw [e]
      refine ⟨?_, h.form, h.apps⟩
      have := h.txt; rw [hp] at this; simpa using this
  | call i t =>
    by_cases hi : s.app i = .idle
    · have e : step cap s (.call i t) = { s with app := upd s.app i (.wants t) } := by simp [step, hi]
      rw [e]
      refine ⟨h.txt, h.form, fun j u => ?_⟩
      by_cases hj : j = i
      · subst hj
        rw [h.apps j u, hi]; simp [upd]
      · dsimp only; rw [upd_ne _ _ hj]; exact h.apps j u
    · have e : step cap s (.call i t) = s := by simp [step, hi]
      rw [e]; exact h
  | app i =>
    cases hi : s.app i with
    | idle => have e : step cap s (.app i) = s := by simp [step, appStep, hi]
              rw [e]; exact h
    | wants t =>
      by_cases ho : s.own t = none
      · have e : step cap s (.app i) = { s with own := upd s.own t (some (.app i)), app := upd s.app i (.holds t) } := by simp [step, appStep, hi, ho]
        rw [e]
        obtain ⟨o, hf, hw⟩ := h.form
        refine ⟨h.txt, ⟨o, hf, fun u => ?_⟩, fun j u => ?_⟩
        · by_cases hu : u = t
          · subst hu
            have := hw u; rw [ho] at this
            simp only [upd]; simp; intro hc; exact absurd (this.2 hc) (by simp)
          · dsimp only; rw [upd_ne _ _ hu]; exact hw u
        · have ha := h.apps j u
          by_cases hu : u = t
          · subst hu
            by_cases hj : j = i
            · subst hj; simp [upd]
            · rw [ho] at ha
              simp only [upd, hj, if_false, if_true]
              refine ⟨fun hc => ?_, fun hc => absurd (ha.2 hc) (by simp)⟩
              injection hc with hc; injection hc with hc; exact absurd hc.symm hj
          · by_cases hj : j = i
            · subst hj
              simp only [upd, hu, if_false, if_true]
              rw [ha, hi]; simp; omega
            · simp only [upd, hu, hj, if_false]; exact ha
      · have e : step cap s (.app i) = s := by simp [step, appStep, hi, ho]
        rw [e]; exact h
    | holds t =>
      have e : step cap s (.app i) = { s with own := upd s.own t none, app := upd s.app i .idle } := by simp [step, appStep, hi]
      rw [e]
      obtain ⟨o, hf, hw⟩ := h.form
      have hown := (h.apps i t).2 hi
      refine ⟨h.txt, ⟨o, hf, fun u => ?_⟩, fun j u => ?_⟩
      · by_cases hu : u = t
        · subst hu
          have := hw u; rw [hown] at this
          simp only [upd]; simp; intro hc; exact absurd (this.2 hc) (by simp)
        · dsimp only; rw [upd_ne _ _ hu]; exact hw u
      · have ha := h.apps j u
        by_cases hj : j = i
        · subst hj
          simp only [upd, if_true]
          by_cases hu : u = t
          · subst hu; simp
          · simp only [hu, if_false]; rw [ha, hi]; simp; omega
        · by_cases hu : u = t
          · subst hu
            rw [hown] at ha
            simp only [upd, hj, if_false, if_true]
            refine ⟨fun hc => by simp at hc, fun hc => ?_⟩
            have := ha.2 hc
            injection this with this; injection this with this; exact absurd this.symm hj
          · simp only [upd, hu, hj, if_false]; exact ha
  | die => exact ⟨h.txt, h.form, h.apps⟩

theorem inv_run (cap : Nat) (p : List (Nat × Str × Str)) (evs : List Ev) : Inv p (run cap p evs) := by
  unfold run
  have : ∀ (evs : List Ev) s, Inv p s → Inv p (evs.foldl (step cap) s) := by
    intro evs
    induction evs with
    | nil => intro s h; exact h
    | cons e es ih => intro s h; exact ih _ (inv_step h e)
  exact this evs _ (inv_start p)

theorem inv_after {cap : Nat} {p : List (Nat × Str × Str)} {s : St} (h : Inv p s) (f : Nat → Ev) : ∀ k, Inv p (after cap s f k)
  | 0 => h
  | k + 1 => inv_step (inv_after h f k) (f k)

/-! ### The property -/

/-- **C115 (what is seen).** Whatever the applications do meanwhile, the browser has at any time seen a beginning of the page, and once vdf is done and everything is read, the page. -/
theorem C115_seen (cap : Nat) (p : List (Nat × Str × Str)) (evs : List Ev) :
    (run cap p evs).seen <+: text p ∧ ((run cap p evs).rest = [] → (run cap p evs).pipe = [] → (run cap p evs).seen = text p) := by
  have h := (inv_run cap p evs).txt
  refine ⟨⟨(run cap p evs).pipe ++ chars (run cap p evs).rest, by rw [← h, List.append_assoc]⟩, fun h1 h2 => ?_⟩
  rw [h1, h2] at h
  simpa [chars] using h

/-- **C115 (a free lock is free).** An application that wants a lock nobody has gets it with its next step, whatever vdf does and whether or not it lives. -/
theorem C115_app (cap : Nat) (s : St) (i t : Nat) (hw : s.app i = .wants t) (ho : s.own t = none) : (step cap s (.app i)).app i = .holds t := by
  simp [step, appStep, hw, ho, upd]

/-- How much is left to do before vdf gives its lock back. -/
def left : List Act → Nat
  | .put _ :: r => 2 + left r
  | _ => 0

theorem left_puts (a : Str) (t : Nat) (r : List Act) : left (a.map .put ++ .unlock t :: r) = 2 * a.length := by
  induction a with
  | nil => rfl
  | cons c cs ih => simp only [List.map_cons, List.cons_append, left, ih, List.length_cons]; omega

/-- What remains to be done until vdf drops lock `t`, in characters to write and to read. -/
def size (s : St) : Nat := left s.rest + s.pipe.length

/-- As long as vdf has lock `t` and lives, no step adds work; if it is vdf's turn and there is room, or the browser's turn and there is something to read, there is less; or vdf drops the lock. -/
theorem size_step {cap : Nat} {p : List (Nat × Str × Str)} {s : St} (h : Inv p s) {t : Nat} (ho : s.own t = some .vdf) (hal : s.alive = true) (e : Ev) (he : e ≠ .die) :
    (step cap s e).own t ≠ some .vdf ∨
    ((step cap s e).own t = some .vdf ∧ (step cap s e).alive = true ∧ size (step cap s e) ≤ size s ∧
      (size (step cap s e) = size s → (step cap s e).pipe = s.pipe) ∧
      (e = .vdf → s.pipe.length < cap → size (step cap s e) < size s) ∧ (e = .read → s.pipe ≠ [] → size (step cap s e) < size s)) := by
  cases e with
  | die => exact absurd rfl he
  | vdf =>
    obtain ⟨o, hf, hw⟩ := h.form
    have hot : o = some t := (hw t).1 ho
    subst hot
    generalize hr : s.rest = r at hf
    cases hf with
    | inside _ a b q =>
      cases a with
      | nil =>
        left
        simp [step, hal, vdfStep, hr, upd]
      | cons c cs =>
        right
        by_cases hc : s.pipe.length < cap
        · have e : step cap s .vdf = { s with pipe := s.pipe ++ [c], rest := cs.map .put ++ .unlock t :: (b.map .put ++ page q) } := by simp [step, hal, vdfStep, hr, hc]
          rw [e]
          have : size { s with pipe := s.pipe ++ [c], rest := cs.map .put ++ .unlock t :: (b.map .put ++ page q) } < size s := by
            simp only [size, hr, left_puts, List.length_append, List.length_cons, List.length_nil]
            omega
          exact ⟨ho, hal, by omega, fun hx => by omega, fun _ _ => this, fun hx => by simp at hx⟩
        · have e : step cap s .vdf = s := by simp [step, hal, vdfStep, hr, hc]
          rw [e]
          exact ⟨ho, hal, Nat.le_refl _, fun _ => rfl, fun _ hx => absurd hx hc, fun hx => by simp at hx⟩
  | read =>
    right
    cases hp : s.pipe with
    | nil =>
      have e : step cap s .read = s := by simp [step, hp]
      rw [e]; exact ⟨ho, hal, Nat.le_refl _, fun _ => hp, fun hx => by simp at hx, fun _ hx => absurd rfl hx⟩
    | cons c r =>
      have e : step cap s .read = { s with pipe := r, seen := s.seen ++ [c] } := by simp [step, hp]
      rw [e]
      have : size { s with pipe := r, seen := s.seen ++ [c] } < size s := by simp [size, hp]
      exact ⟨ho, hal, by omega, fun hx => by omega, fun hx => by simp at hx, fun _ _ => this⟩
  | call i u =>
    right
    simp only [step]
    split <;> exact ⟨ho, hal, Nat.le_refl _, fun _ => rfl, fun hx => by simp at hx, fun hx => by simp at hx⟩
  | app i =>
    right
    simp only [step]
    cases hi : s.app i with
    | idle => simp only [appStep, hi]; exact ⟨ho, hal, Nat.le_refl _, (fun _ => trivial), fun hx => by simp at hx, fun hx => by simp at hx⟩
    | wants u =>
      by_cases hu : s.own u = none
      · have hne : t ≠ u := fun e => by rw [e, hu] at ho; simp at ho
        simp only [appStep, hi, hu, if_true]
        exact ⟨by rw [upd_ne _ _ hne]; exact ho, hal, Nat.le_refl _, (fun _ => trivial), fun hx => by simp at hx, fun hx => by simp at hx⟩
      · simp only [appStep, hi, if_neg hu]
        exact ⟨ho, hal, Nat.le_refl _, (fun _ => trivial), fun hx => by simp at hx, fun hx => by simp at hx⟩
    | holds u =>
      have hne : t ≠ u := fun e => by rw [e, (h.apps i u).2 hi] at ho; simp at ho
      simp only [appStep, hi]
      exact ⟨by rw [upd_ne _ _ hne]; exact ho, hal, Nat.le_refl _, (fun _ => trivial), fun hx => by simp at hx, fun hx => by simp at hx⟩

/-- **C115 (released).** If the connection holds at least one character, and from now on vdf does not die and both vdf and the browser have their turns again and again, then vdf gives back every lock it has, whatever the applications do, in every order.
Missing: browsers that stop reading and vdf's death (`C115_violated_stall`, `C115_violated_death`). -/
theorem C115_released_partial (cap : Nat) (hcap : 0 < cap) (p : List (Nat × Str × Str)) (evs : List Ev) (f : Nat → Ev) (t : Nat)
    (hal : (run cap p evs).alive = true) (hd : ∀ k, f k ≠ .die)
    (hv : ∀ k, ∃ k', k ≤ k' ∧ f k' = .vdf) (hb : ∀ k, ∃ k', k ≤ k' ∧ f k' = .read) :
    ∃ k, (after cap (run cap p evs) f k).own t ≠ some .vdf := by
  apply Classical.byContradiction
  intro hno
  have hall : ∀ k, (after cap (run cap p evs) f k).own t = some .vdf := fun k => Decidable.not_not.mp fun hc => hno ⟨k, hc⟩
  have hlive : ∀ k, (after cap (run cap p evs) f k).alive = true := by
    intro k
    induction k with
    | zero => exact hal
    | succ k ih =>
      rcases size_step (inv_after (inv_run cap p evs) f k) (hall k) ih (f k) (hd k) with h | h
      · exact absurd (hall (k + 1)) h
      · exact h.2.1
  have hstep : ∀ k, size (after cap (run cap p evs) f (k + 1)) ≤ size (after cap (run cap p evs) f k) ∧
      (size (after cap (run cap p evs) f (k + 1)) = size (after cap (run cap p evs) f k) → (after cap (run cap p evs) f (k + 1)).pipe = (after cap (run cap p evs) f k).pipe) ∧
      (f k = .vdf → (after cap (run cap p evs) f k).pipe.length < cap → size (after cap (run cap p evs) f (k + 1)) < size (after cap (run cap p evs) f k)) ∧
      (f k = .read → (after cap (run cap p evs) f k).pipe ≠ [] → size (after cap (run cap p evs) f (k + 1)) < size (after cap (run cap p evs) f k)) := by
    intro k
    rcases size_step (inv_after (inv_run cap p evs) f k) (hall k) (hlive k) (f k) (hd k) with h | h
    · exact absurd (hall (k + 1)) h
    · exact h.2.2
  generalize after cap (run cap p evs) f = A at hstep
  have hmono : ∀ k d, size (A (k + d)) ≤ size (A k) := by
    intro k d
    induction d with
    | zero => exact Nat.le_refl _
    | succ d ih => exact Nat.le_trans (hstep (k + d)).1 ih
  have hsame : ∀ k d, size (A (k + d)) = size (A k) → (A (k + d)).pipe = (A k).pipe := by
    intro k d
    induction d with
    | zero => intro _; rfl
    | succ d ih =>
      intro he
      have h1 := hmono k d
      have h2 := (hstep (k + d)).1
      have : size (A (k + d + 1)) = size (A (k + (d + 1))) := rfl
      have e1 : size (A (k + d)) = size (A k) := by omega
      have e2 := (hstep (k + d)).2.1 (by omega)
      exact e2.trans (ih e1)
  have hdec : ∀ k, ∃ k', size (A k') < size (A k) := by
    intro k
    by_cases hr : (A k).pipe.length < cap
    · obtain ⟨k', hk, hf⟩ := hv k
      obtain ⟨d, rfl⟩ : ∃ d, k' = k + d := ⟨k' - k, by omega⟩
      have hm := hmono k d
      by_cases he : size (A (k + d)) = size (A k)
      · have hp := hsame k d he
        have := (hstep (k + d)).2.2.1 hf (by rw [hp]; exact hr)
        exact ⟨k + d + 1, by omega⟩
      · exact ⟨k + d, by omega⟩
    · obtain ⟨k', hk, hf⟩ := hb k
      obtain ⟨d, rfl⟩ : ∃ d, k' = k + d := ⟨k' - k, by omega⟩
      have hm := hmono k d
      by_cases he : size (A (k + d)) = size (A k)
      · have hp := hsame k d he
        have := (hstep (k + d)).2.2.2 hf (by rw [hp]; intro hc; rw [hc] at hr; simp at hr; omega)
        exact ⟨k + d + 1, by omega⟩
      · exact ⟨k + d, by omega⟩
  have : ∀ m k, size (A k) ≤ m → False := by
    intro m
    induction m with
    | zero => intro k hk; obtain ⟨k', h⟩ := hdec k; omega
    | succ m ih => intro k hk; obtain ⟨k', h⟩ := hdec k; exact ih k' (by omega)
  exact this _ 0 (Nat.le_refl _)

/-- Non-vacuity: with room for two characters, vdf holds lock 3 and gives it back after the browser has read. -/
example : (run 2 [(3, ['a', 'b', 'c'], [])] [.vdf, .vdf, .vdf]).own 3 = some .vdf ∧
    (run 2 [(3, ['a', 'b', 'c'], [])] [.vdf, .vdf, .vdf, .vdf, .read, .vdf, .vdf]).own 3 = none ∧
    (run 2 [(3, ['a', 'b', 'c'], [])] [.vdf, .vdf, .vdf, .call 0 3, .app 0, .read, .vdf, .vdf, .app 0]).app 0 = .holds 3 := by decide

/-! ### Violations -/

/-- vdf has lock `t`, its connection is full and it has more to write; application 0 wants the lock. -/
def Jam (cap t : Nat) (s : St) : Prop := s.own t = some .vdf ∧ s.app 0 = .wants t ∧ (∀ i, s.app i ≠ .holds t) ∧ (s.alive = true → cap ≤ s.pipe.length ∧ ∃ c r, s.rest = .put c :: r)

theorem jam_step {cap t : Nat} {s : St} (h : Jam cap t s) (e : Ev) (he : e ≠ .read) : Jam cap t (step cap s e) := by
  obtain ⟨h1, h2, h3, h4⟩ := h
  cases e with
  | read => exact absurd rfl he
  | die => exact ⟨h1, h2, h3, fun hc => by simp [step] at hc⟩
  | vdf =>
    simp only [step]
    split
    · rename_i ha
      obtain ⟨hl, c, r, hr⟩ := h4 ha
      have : vdfStep cap s = s := by
        have : ¬ s.pipe.length < cap := by omega
        simp [vdfStep, hr, this]
      rw [this]; exact ⟨h1, h2, h3, h4⟩
    · exact ⟨h1, h2, h3, h4⟩
  | call i u =>
    simp only [step]
    split
    · rename_i hi
      have h0 : i ≠ 0 := fun e => by rw [e, h2] at hi; simp at hi
      refine ⟨h1, by dsimp only; rw [upd_ne _ _ (Ne.symm h0)]; exact h2, fun j => ?_, h4⟩
      by_cases hj : j = i
      · subst hj; simp [upd]
      · dsimp only; rw [upd_ne _ _ hj]; exact h3 j
    · exact ⟨h1, h2, h3, h4⟩
  | app i =>
    simp only [step]
    cases hi : s.app i with
    | idle => simp only [appStep, hi]; exact ⟨h1, h2, h3, h4⟩
    | wants u =>
      by_cases hu : s.own u = none
      · have hne : t ≠ u := fun e => by rw [e, hu] at h1; simp at h1
        have h0 : i ≠ 0 := fun e => by subst e; rw [h2] at hi; injection hi with hi; exact hne hi
        simp only [appStep, hi, hu, if_true]
        refine ⟨by dsimp only; rw [upd_ne _ _ hne]; exact h1, by dsimp only; rw [upd_ne _ _ (Ne.symm h0)]; exact h2, fun j => ?_, h4⟩
        by_cases hj : j = i
        · subst hj; simp [upd]; omega
        · dsimp only; rw [upd_ne _ _ hj]; exact h3 j
      · simp only [appStep, hi, if_neg hu]; exact ⟨h1, h2, h3, h4⟩
    | holds u =>
      have hne : t ≠ u := fun e => h3 i (by rw [hi, e])
      have h0 : i ≠ 0 := fun e => by subst e; rw [h2] at hi; simp at hi
      simp only [appStep, hi]
      refine ⟨by dsimp only; rw [upd_ne _ _ hne]; exact h1, by dsimp only; rw [upd_ne _ _ (Ne.symm h0)]; exact h2, fun j => ?_, h4⟩
      by_cases hj : j = i
      · subst hj; simp [upd]
      · dsimp only; rw [upd_ne _ _ hj]; exact h3 j

theorem jam_all {cap t : Nat} (evs : List Ev) : ∀ s, Jam cap t s → (∀ e ∈ evs, e ≠ .read) → Jam cap t (evs.foldl (step cap) s) := by
  induction evs with
  | nil => intro s h _; exact h
  | cons e es ih => intro s h he; exact ih _ (jam_step h e (he e List.mem_cons_self)) (fun x hx => he x (List.mem_cons_of_mem _ hx))

/-- vdf fills the connection. -/
theorem fill (cap : Nat) : ∀ (a : Str) (r : List Act) (s : St), s.rest = a.map .put ++ r → s.alive = true → s.pipe.length + a.length ≤ cap →
    (List.replicate a.length Ev.vdf).foldl (step cap) s = { s with rest := r, pipe := s.pipe ++ a } := by
  intro a
  induction a with
  | nil => intro r s hr _ _; simp at hr; subst hr; simp
  | cons c cs ih =>
    intro r s hr ha hl
    simp only [List.length_cons] at hl ⊢
    rw [List.replicate_succ, List.foldl_cons]
    have hc : s.pipe.length < cap := by omega
    have e : step cap s .vdf = { s with pipe := s.pipe ++ [c], rest := cs.map .put ++ r } := by simp [step, ha, vdfStep, hr, hc]
    rw [e, ih r { s with pipe := s.pipe ++ [c], rest := cs.map .put ++ r } rfl ha (by simp; omega)]
    simp

/-- **A browser that stops reading stops the applications.** If the table of a type is longer than what the connection holds, there is a history after which application 0 wants the lock of that type and, whatever happens from then on except that the browser reads, never gets it. -/
theorem stall (cap t : Nat) (a b : Str) (p : List (Nat × Str × Str)) (ha : cap < a.length) :
    ∃ evs, ∀ more : List Ev, (∀ e ∈ more, e ≠ .read) → (run cap ((t, a, b) :: p) (evs ++ more)).app 0 = .wants t := by
  refine ⟨[.call 0 t, .vdf] ++ List.replicate cap .vdf, fun more hm => ?_⟩
  have hj : Jam cap t (run cap ((t, a, b) :: p) ([.call 0 t, .vdf] ++ List.replicate cap .vdf)) := by
    unfold run
    rw [List.foldl_append]
    obtain ⟨x, c, y, hxy, hx⟩ : ∃ x c y, a = x ++ c :: y ∧ x.length = cap := by
      refine ⟨a.take cap, a[cap], a.drop (cap + 1), ?_, by simp; omega⟩
      rw [← List.drop_eq_getElem_cons, List.take_append_drop]
    have e0 : [Ev.call 0 t, .vdf].foldl (step cap) (start ((t, a, b) :: p)) =
        ⟨a.map .put ++ .unlock t :: (b.map .put ++ page p), upd (fun _ => none) t (some .vdf), [], [], true, upd (fun _ => .idle) 0 (.wants t)⟩ := by
      simp [step, start, vdfStep, page]
    have := fill cap x (.put c :: (y.map .put ++ .unlock t :: (b.map .put ++ page p))) _ (by rw [e0, hxy]; simp : ([Ev.call 0 t, .vdf].foldl (step cap) (start ((t, a, b) :: p))).rest = _) (by rw [e0]) (by rw [e0]; simp; omega)
    rw [hx] at this
    rw [this, e0]
    refine ⟨by simp [upd], by simp [upd], fun i => ?_, fun _ => ⟨by simp [hx], c, _, rfl⟩⟩
    by_cases hi : i = 0
    · subst hi; simp [upd]
    · simp [upd, hi]
  have := jam_all more _ hj hm
  unfold run at this ⊢
  rw [List.foldl_append]
  exact this.2.1

/-- A row has at least one character. -/
theorem row_pos (o : Vdf.Obj) : 1 ≤ (Vdf.row o).length := by simp [Vdf.row]

theorem rows_long (os : List Vdf.Obj) : os.length ≤ (os.flatMap Vdf.row).length := by
  induction os with
  | nil => simp
  | cons o os ih =>
    have := row_pos o
    simp only [List.length_cons, List.flatMap_cons, List.length_append]
    omega

theorem table_long (type count : Str) (os : List Vdf.Obj) : os.length ≤ (Vdf.table type count os).length := by
  have := rows_long os
  unfold Vdf.table
  by_cases h : os = []
  · subst h; simp
  · simp only [if_neg h, List.length_append]; omega

/-- **C115 is violated (stalled browser).** With whatever connection: as soon as there are more objects of some type than characters the connection holds, a browser that stops reading keeps an application from making or dropping an object of that type, for ever. -/
theorem C115_violated_stall (cap t : Nat) (type count : Str) (os : List Vdf.Obj) (h : cap < os.length) (b : Str) (p : List (Nat × Str × Str)) :
    ∃ evs, ∀ more : List Ev, (∀ e ∈ more, e ≠ .read) → (run cap ((t, Vdf.table type count os, b) :: p) (evs ++ more)).app 0 = .wants t :=
  stall cap t _ b p (by have := table_long type count os; omega)

/-- vdf is dead and has lock `t`; application 0 wants it. -/
def Dead (t : Nat) (s : St) : Prop := s.own t = some .vdf ∧ s.app 0 = .wants t ∧ (∀ i, s.app i ≠ .holds t) ∧ s.alive = false

theorem dead_step {cap t : Nat} {s : St} (h : Dead t s) (e : Ev) : Dead t (step cap s e) := by
  obtain ⟨h1, h2, h3, h4⟩ := h
  by_cases he : e = .read
  · subst he
    simp only [step]
    split <;> exact ⟨h1, h2, h3, h4⟩
  · have hj : Jam cap t s := ⟨h1, h2, h3, fun hc => by rw [h4] at hc; simp at hc⟩
    obtain ⟨a, b, c, -⟩ := jam_step hj e he
    refine ⟨a, b, c, ?_⟩
    cases e with
    | read => exact absurd rfl he
    | die => rfl
    | vdf => simp [step, h4]
    | call i u => simp only [step]; split <;> exact h4
    | app i =>
      simp only [step, appStep]
      split
      · exact h4
      · split <;> exact h4
      · exact h4

/-- **C115 is violated (death).** Whenever vdf dies in the middle of a table, the application that wants the lock never gets it, whatever happens later. -/
theorem C115_violated_death (cap t : Nat) (a b : Str) (p : List (Nat × Str × Str)) (more : List Ev) :
    (run cap ((t, a, b) :: p) ([.vdf, .die, .call 0 t] ++ more)).app 0 = .wants t := by
  have h0 : Dead t (run cap ((t, a, b) :: p) [.vdf, .die, .call 0 t]) := by
    have e : run cap ((t, a, b) :: p) [.vdf, .die, .call 0 t] =
        ⟨a.map .put ++ .unlock t :: (b.map .put ++ page p), upd (fun _ => none) t (some .vdf), [], [], false, upd (fun _ => .idle) 0 (.wants t)⟩ := by
      simp [run, step, start, vdfStep, page]
    rw [e]
    refine ⟨by simp [upd], by simp [upd], fun i => ?_, rfl⟩
    by_cases hi : i = 0
    · subst hi; simp [upd]
    · simp [upd, hi]
  have : ∀ (l : List Ev) s, Dead t s → Dead t (l.foldl (step cap) s) := by
    intro l
    induction l with
    | nil => intro s h; exact h
    | cons e es ih => intro s h; exact ih _ (dead_step h e)
  have := this more _ h0
  unfold run at this ⊢
  rw [List.foldl_append]
  exact this.2.1

end Arax.Watch
