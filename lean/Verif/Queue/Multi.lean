import Verif.Queue.LinProps
/-!
# C84 with any number of queues

A program around a family of queues (one per virtual accelerator): on the one side every queue is that of `/repo/src/utils/queue.c` at the level of
single memory accesses, on the other side every queue is an atomic bounded FIFO list.
-/
namespace Arax.Queue.Multi
open Conc Lin

/-- A program around queues `0, 1, …`; `γ` is all of its state. (No code of its own.) -/
structure Client (γ : Type) where
  /-- the call that thread `i` is about to make, if it is about to make one: the queue and the call -/
  want : γ → Nat → Option (Nat × Cmd)
  /-- the effect of making the call on the program -/
  call : γ → Nat → Cmd → γ
  /-- the effect of the returned pointer (0 is NULL) on the program -/
  ret : γ → Nat → Nat → γ
  /-- everything else that the threads do -/
  own : γ → γ → Prop

/-- Replace the value at `i`. (No code of its own.) -/
def set {α : Type} (f : Nat → α) (i : Nat) (v : α) : Nat → α := fun j => if j = i then v else f j

theorem set_same {α : Type} (f : Nat → α) (i : Nat) (v : α) : set f i v i = v := by simp [set]
theorem set_ne {α : Type} (f : Nat → α) {i j : Nat} (v : α) (h : j ≠ i) : set f i v j = f j := by simp [set, h]
theorem set_self {α : Type} (f : Nat → α) (i : Nat) : set f i (f i) = f := by
  funext j; by_cases h : j = i
  · subst h; exact set_same ..
  · exact set_ne _ _ h
theorem set_set {α : Type} (f : Nat → α) (i : Nat) (v w : α) : set (set f i v) i w = set f i w := by
  funext j; by_cases h : j = i
  · subst h; rw [set_same, set_same]
  · rw [set_ne _ _ h, set_ne _ _ h, set_ne _ _ h]

/-! ## Specification: atomic queues -/

/-- The program with atomic queues: contents and threads per queue. -/
structure ASt (γ : Type) where
  g : γ
  q : Nat → List Nat
  th : Nat → Nat → ATh

/-- Steps with atomic queues of capacity `cap`: a push appends or, if the queue is full, returns NULL; a pop takes the oldest or, if the queue is
empty, returns NULL.  (`n` in `called` counts earlier pops and plays no role here.) -/
inductive AStep {γ : Type} (C : Client γ) (cap : Nat) : ASt γ → ASt γ → Prop where
  | own {a g'} : C.own a.g g' → AStep C cap a { a with g := g' }
  | call {a : ASt γ} {i v c n} : a.th v i = .out → C.want a.g i = some (v, c) →
      AStep C cap a { a with g := C.call a.g i c, th := set a.th v (set (a.th v) i (.called c n)) }
  | push {a : ASt γ} {i v x n} : a.th v i = .called (.push x) n → (a.q v).length < cap →
      AStep C cap a { a with q := set a.q v (a.q v ++ [x]), th := set a.th v (set (a.th v) i (.done x)) }
  | full {a : ASt γ} {i v x n} : a.th v i = .called (.push x) n → (a.q v).length = cap →
      AStep C cap a { a with th := set a.th v (set (a.th v) i (.done 0)) }
  | pop {a : ASt γ} {i v n x q} : a.th v i = .called .pop n → a.q v = x :: q →
      AStep C cap a { a with q := set a.q v q, th := set a.th v (set (a.th v) i (.done x)) }
  | empty {a : ASt γ} {i v n} : a.th v i = .called .pop n → a.q v = [] → AStep C cap a { a with th := set a.th v (set (a.th v) i (.done 0)) }
  | ret {a : ASt γ} {i v r} : a.th v i = .done r → AStep C cap a { a with g := C.ret a.g i r, th := set a.th v (set (a.th v) i .out) }

/-- The program starts in `g0` with empty queues. -/
def ainit {γ : Type} (g0 : γ) : ASt γ := { g := g0, q := fun _ => [], th := fun _ _ => .out }

/-- What the program can reach with atomic queues. -/
inductive AReach {γ : Type} (C : Client γ) (cap : Nat) (g0 : γ) : ASt γ → Prop where
  | init : AReach C cap g0 (ainit g0)
  | step {a b} : AReach C cap g0 a → AStep C cap a b → AReach C cap g0 b

/-! ## The queues of queue.c -/

/-- The program, the queues, and for each queue and thread the variable `data` of `utils_queue_push` (queue.c:89, 109, 123). -/
structure CSt (γ : Type) where
  g : γ
  s : Nat → St
  data : Nat → Nat → Nat

/-- The part that concerns queue `v`. (Model bookkeeping.) -/
def CSt.proj {γ : Type} (c : CSt γ) (v : Nat) : Lin.CSt γ := { g := c.g, s := c.s v, data := c.data v }

/-- Steps: the program's own, calls (with the first instruction of the queue), single instructions of the queues (queue.c:63-124). -/
inductive CStep {γ : Type} (C : Client γ) (cap : Nat) : CSt γ → CSt γ → Prop where
  | own {c g'} : C.own c.g g' → CStep C cap c { c with g := g' }
  | call {c : CSt γ} {i v x} : (c.s v).pc i = .idle → C.want c.g i = some (v, x) →
      CStep C cap c { g := C.call c.g i x, s := set c.s v (Conc.step cap (c.s v) i x), data := set c.data v (fun j => if j = i then arg x else c.data v j) }
  | instr {c : CSt γ} {i v} : (c.s v).pc i ≠ .idle → (Conc.step cap (c.s v) i .pop).pc i ≠ .idle →
      CStep C cap c { c with s := set c.s v (Conc.step cap (c.s v) i .pop),
                             data := set c.data v (fun j => if j = i then dataNext cap (c.proj v) i else c.data v j) }
  | last {c : CSt γ} {i v} : (c.s v).pc i ≠ .idle → (Conc.step cap (c.s v) i .pop).pc i = .idle →
      CStep C cap c { c with g := C.ret c.g i (result (c.proj v) i), s := set c.s v (Conc.step cap (c.s v) i .pop) }

/-- After `utils_queue_init` of every queue (queue.c:39-49). -/
def cinit {γ : Type} (g0 : γ) : CSt γ := { g := g0, s := fun _ => Conc.init, data := fun _ _ => 0 }

/-- What the program can reach. (No code of its own.) -/
inductive CReach {γ : Type} (C : Client γ) (cap : Nat) (g0 : γ) : CSt γ → Prop where
  | init : CReach C cap g0 (cinit g0)
  | step {a b} : CReach C cap g0 a → CStep C cap a b → CReach C cap g0 b

/-! ## Proof -/

/-- The program as one around queue `v` only. -/
def only {γ : Type} (C : Client γ) (v : Nat) : Lin.Client γ where
  want g i := match C.want g i with
    | some (w, c) => if w = v then some c else none
    | none => none
  call := C.call
  ret := C.ret
  own := C.own

/-- Put the state of queue `v` back. -/
def put {γ : Type} (a : ASt γ) (v : Nat) (b : Lin.ASt γ) : ASt γ := { g := b.g, q := set a.q v b.q, th := set a.th v b.th }

theorem goto_th {γ : Type} (b : Lin.ASt γ) (i : Nat) (p : ATh) : (b.goto i p).th = set b.th i p := rfl

theorem put_step {γ : Type} {C : Client γ} {cap v : Nat} {a : ASt γ} {b b' : Lin.ASt γ} (h : Lin.AStep (only C v) cap false b b') :
    AStep C cap (put a v b) (put a v b') := by
  have e1 : ∀ x : Nat → ATh, (set a.th v x) v = x := fun x => set_same ..
  cases h with
  | own ho => exact .own (a := put a v b) ho
  | @call i c h1 h2 =>
    have hw : C.want b.g i = some (v, c) := by
      have h2' : (match C.want b.g i with | some (w, c) => if w = v then some c else none | none => none) = some c := h2
      split at h2'
      · next w c' hw =>
        split at h2'
        · next e => cases h2'; rw [← e]; exact hw
        · cases h2'
      · cases h2'
    have := AStep.call (C := C) (cap := cap) (a := put a v b) (i := i) (v := v) (n := b.pops) (by show (set a.th v b.th) v i = _; rw [e1]; exact h1) hw
    simp only [put, set_same, set_set] at this
    exact this
  | @push i x n h1 h2 =>
    have := AStep.push (C := C) (cap := cap) (a := put a v b) (i := i) (v := v) (x := x) (n := n) (by show (set a.th v b.th) v i = _; rw [e1]; exact h1)
      (by have : (put a v b).q v = b.q := set_same ..; rw [this]; exact h2)
    simp only [put, set_same, set_set] at this
    exact this
  | @full i x n h1 h2 =>
    have := AStep.full (C := C) (cap := cap) (a := put a v b) (i := i) (v := v) (x := x) (n := n) (by show (set a.th v b.th) v i = _; rw [e1]; exact h1)
      (by have : (put a v b).q v = b.q := set_same ..; rw [this]; exact h2)
    simp only [put, set_same, set_set] at this
    exact this
  | @pop i n x q h1 h2 =>
    have := AStep.pop (C := C) (cap := cap) (a := put a v b) (i := i) (v := v) (x := x) (n := n) (q := q) (by show (set a.th v b.th) v i = _; rw [e1]; exact h1)
      (by have : (put a v b).q v = b.q := set_same ..; rw [this]; exact h2)
    simp only [put, set_same, set_set] at this
    exact this
  | @empty i n h1 h2 =>
    have := AStep.empty (C := C) (cap := cap) (a := put a v b) (i := i) (v := v) (n := n) (by show (set a.th v b.th) v i = _; rw [e1]; exact h1)
      (by have : (put a v b).q v = b.q := set_same ..; rw [this]; exact h2)
    simp only [put, set_same, set_set] at this
    exact this
  | spurious h _ _ => cases h
  | @ret i r h1 =>
    have := AStep.ret (C := C) (cap := cap) (a := put a v b) (i := i) (v := v) (r := r) (by show (set a.th v b.th) v i = _; rw [e1]; exact h1)
    simp only [put, set_same, set_set] at this
    exact this

/-- The part of the atomic state that concerns queue `v`, after `n` pops. -/
def ASt.proj {γ : Type} (a : ASt γ) (v n : Nat) : Lin.ASt γ := { g := a.g, q := a.q v, pops := n, th := a.th v }

theorem put_proj {γ : Type} (a : ASt γ) (v n : Nat) : put a v (a.proj v n) = a := by
  unfold put ASt.proj
  simp only [set_self]

/-- All queues at the same point of the program. -/
def MSim {γ : Type} (cap : Nat) (c : CSt γ) (a : ASt γ) : Prop := ∀ v, Sim cap (c.proj v) (a.proj v (c.s v).popped.length)

/-- Every queue has one thread that pops. -/
def Poppers {γ : Type} (C : Client γ) (w : Nat → Nat) : Prop := ∀ g i v, C.want g i = some (v, .pop) → i = w v

/-- The invariant on the real queues alone: only `w v` is in a pop of queue `v`, and nothing has been popped since. -/
def Alone (w : Nat → Nat) (s : Nat → St) : Prop := ∀ v, NoneMeanwhile (s v) ∧ ∀ i, inPop ((s v).pc i) = true → i = w v

theorem inPop_step (cap : Nat) (s : St) (i : Nat) (x : Cmd) (w : Nat) (hw : s.pc i = .idle → x = .pop → i = w)
    (h : ∀ i, inPop (s.pc i) = true → i = w) : ∀ j, inPop ((Conc.step cap s i x).pc j) = true → j = w := by
  intro j hj
  by_cases hji : j = i
  · subst hji
    rw [Conc.step.eq_def] at hj
    cases hp : s.pc j with
    | idle =>
      rw [hp] at hj
      cases x with
      | pop => exact hw hp rfl
      | push v => simp [St.goto, inPop] at hj
    | popB t gt => exact h j (by rw [hp]; rfl)
    | popE t gt => exact h j (by rw [hp]; rfl)
    | popC t gt v => exact h j (by rw [hp]; rfl)
    | pushSpin v => rw [hp] at hj; dsimp only at hj; split at hj <;> simp [St.goto, inPop, hp] at hj
    | pushCas v => rw [hp] at hj; dsimp only at hj; split at hj <;> simp [St.goto, inPop] at hj
    | pushRB v => rw [hp] at hj; simp [St.goto, inPop] at hj
    | pushRT v b => rw [hp] at hj; dsimp only at hj; split at hj <;> simp [St.goto, inPop] at hj
    | pushW v b => rw [hp] at hj; simp [St.goto, inPop] at hj
    | pushB v b => rw [hp] at hj; simp [St.goto, inPop] at hj
    | pushU => rw [hp] at hj; simp [St.goto, inPop] at hj
  · have e : (Conc.step cap s i x).pc j = s.pc j := by
      rw [Conc.step.eq_def]
      cases hp : s.pc i <;> dsimp only <;> (try (cases x)) <;> (try split) <;> simp [St.goto, hji]
    rw [e] at hj; exact h j hj

theorem alone_set {w : Nat → Nat} {s : Nat → St} (h : Alone w s) (cap v i : Nat) (x : Cmd) (hw : (s v).pc i = .idle → x = .pop → i = w v) :
    Alone w (set s v (Conc.step cap (s v) i x)) := by
  intro u
  by_cases hu : u = v
  · subst hu
    rw [set_same]
    exact ⟨none_step cap (s u) i x (h u).1 (fun a b ha hb => by rw [(h u).2 a ha, (h u).2 b hb]), inPop_step cap (s u) i x (w u) hw (h u).2⟩
  · rw [set_ne _ _ hu]; exact h u

theorem msim_put {γ : Type} {cap : Nat} {c c' : CSt γ} {a : ASt γ} (hs : MSim cap c a) (v : Nat) (b : Lin.ASt γ) (hb : Sim cap (c'.proj v) b)
    (h1 : ∀ u, u ≠ v → c'.s u = c.s u) (h2 : ∀ u, u ≠ v → c'.data u = c.data u) : MSim cap c' (put a v b) := by
  intro u
  by_cases hu : u = v
  · subst hu
    have e : (put a u b).proj u (c'.s u).popped.length = b := by
      unfold put ASt.proj
      simp only [set_same]
      have := hb.pops
      simp only [CSt.proj] at this
      rw [← this]
    rw [e]; exact hb
  · have := hs u
    refine ⟨?_, ?_, ?_, ?_, ?_⟩
    · show Inv cap (c'.s u); rw [h1 u hu]; exact this.inv
    · exact hb.g
    · rfl
    · show (c'.s u).pushed = (c'.s u).popped ++ set a.q v b.q u
      rw [h1 u hu, set_ne _ _ hu]; exact this.q
    · intro i
      show ThOk ((c'.s u).pc i) (c'.data u i) (set a.th v b.th u i)
      rw [h1 u hu, h2 u hu, set_ne _ _ hu]; exact this.th i

theorem msim_step {γ : Type} (C : Client γ) (w : Nat → Nat) (k : Nat) (hk : k ≤ 15) (P : ASt γ → Prop)
    (hw : ∀ a, P a → ∀ i v, C.want a.g i = some (v, .pop) → i = w v) (hP : ∀ a b, P a → AStep C (2 ^ k) a b → P b) {c c' : CSt γ} {a : ASt γ} (hal : Alone w c.s) (hs : MSim (2 ^ k) c a) (ha : P a)
    (h : CStep C (2 ^ k) c c') : Alone w c'.s ∧ ∃ a', P a' ∧ MSim (2 ^ k) c' a' := by
  have lift : ∀ v (d : Lin.CSt γ), Lin.CStep (only C v) (2 ^ k) false (c.proj v) d → ∃ b, P (put a v b) ∧ Sim (2 ^ k) d b := by
    intro v d hd
    exact sim_step (only C v) k hk false (fun b => P (put a v b)) (fun b b' hb hst => hP _ _ hb (put_step hst)) (c.proj v) d
      (a.proj v (c.s v).popped.length) false (.inr (hal v).1) (.inr (hal v).1) (hs v) (by rw [put_proj]; exact ha) hd
  cases h with
  | @own g' ho => exact ⟨hal, _, hP _ _ ha (.own (a := a) (g' := g') (by rw [show a.g = c.g from (hs 0).g]; exact ho)), fun v => ⟨(hs v).inv, rfl, rfl, (hs v).q, (hs v).th⟩⟩
  | @call i v x hi hx =>
    have hx' : (only C v).want c.g i = some x := by
      show (match C.want c.g i with | some (w, c) => if w = v then some c else none | none => none) = some x
      rw [hx]; exact if_pos rfl
    obtain ⟨b, hb, hbs⟩ := lift v _ (Lin.CStep.call (C := only C v) (c := c.proj v) (i := i) (x := x) hi hx')
    refine ⟨alone_set hal _ v i x (fun _ e => hw a ha i v (by rw [show a.g = c.g from (hs 0).g, ← e]; exact hx)), _, hb, msim_put hs v b ?_ (fun u hu => set_ne _ _ hu) (fun u hu => set_ne _ _ hu)⟩
    unfold CSt.proj; simp only [set_same]; exact hbs
  | @instr i v hi hn =>
    obtain ⟨b, hb, hbs⟩ := lift v _ (Lin.CStep.instr (C := only C v) (c := c.proj v) (i := i) hi (fun h => by cases h) hn)
    refine ⟨alone_set hal _ v i .pop (fun e _ => absurd e hi), _, hb, msim_put hs v b ?_ (fun u hu => set_ne _ _ hu) (fun u hu => set_ne _ _ hu)⟩
    unfold CSt.proj at hbs ⊢; simp only [set_same]; exact hbs
  | @last i v hi hn =>
    obtain ⟨b, hb, hbs⟩ := lift v _ (Lin.CStep.last (C := only C v) (c := c.proj v) (i := i) hi (fun h => by cases h) hn)
    refine ⟨alone_set hal _ v i .pop (fun e _ => absurd e hi), _, hb, msim_put hs v b ?_ (fun u hu => set_ne _ _ hu) (fun _ _ => rfl)⟩
    unfold CSt.proj at hbs ⊢; simp only [set_same]; exact hbs

theorem msim_init {γ : Type} (cap : Nat) (g0 : γ) : MSim cap (cinit g0) (ainit g0) := fun _ => sim_init cap g0

theorem alone_init {γ : Type} (w : Nat → Nat) (g0 : γ) : Alone w (cinit g0).s :=
  fun _ => ⟨fun _ _ => ⟨fun _ e => (by cases e), fun _ e => (by cases e), fun _ _ e => by cases e⟩, fun _ h => by cases h⟩

/-- **C84** (any number of queues).  A program around any number of queues of capacity `2^k`, each popped by one thread, can reach with the queues of
queue.c, at the level of single memory accesses, only what it can reach with atomic queues of the same contents. -/
theorem C84_many_queues {γ : Type} (C : Client γ) (w : Nat → Nat) (hw : Poppers C w) (k : Nat) (hk : k ≤ 15) (g0 : γ) (c : CSt γ)
    (h : CReach C (2 ^ k) g0 c) :
    ∃ a : ASt γ, AReach C (2 ^ k) g0 a ∧ a.g = c.g ∧ ∀ v, (c.s v).pushed = (c.s v).popped ++ a.q v ∧ (a.q v).length ≤ 2 ^ k := by
  have key : Alone w c.s ∧ ∃ a, AReach C (2 ^ k) g0 a ∧ MSim (2 ^ k) c a := by
    induction h with
    | init => exact ⟨alone_init w g0, _, .init, msim_init _ g0⟩
    | step _ hst ih =>
      obtain ⟨hal, a, ha, hs⟩ := ih
      exact msim_step C w k hk (AReach C (2 ^ k) g0) (fun _ _ => hw _) (fun _ _ => .step) hal hs ha hst
  obtain ⟨_, a, ha, hs⟩ := key
  refine ⟨a, ha, (hs 0).g, fun v => ⟨(hs v).q, ?_⟩⟩
  have h1 := qlen (hs v)
  have h2 := (hs v).inv.room
  simp only [CSt.proj, ASt.proj] at h1 h2
  omega

end Arax.Queue.Multi
