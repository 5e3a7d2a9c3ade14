import Verif.Proc.Functor
/-!
# C92: objects that are found while they are being made

`arax_object_register` puts the new object into the list of the repository before its fields are set to zero, and the constructors set fields after it returned.  Other threads may find the object in between.  Shared words are read and written one at a time, interleaved in any way; `proc->canrun |= …` is a load and a store.
-/
namespace Arax.Publish

/-- An object in shared memory: its words (fields behind the header), and the stores its creator still has to do. (/repo/src/core/arax_object.c:103-118, /repo/src/core/arax_proc.h:15-21.) -/
structure Obj where
  words : Nat → Nat
  todo : List (Nat × Nat)

/-- Where a thread is: outside, or between load and store of `word |= b`. (/repo/src/core/arax_proc.c: `proc->canrun |= …`, arax_data.c: `data->flags |= …`.) -/
inductive Pc where
  | idle
  | oring (p w b tmp : Nat)
  deriving DecidableEq

/-- Objects in the list of the repository, and threads. (/repo/src/core/arax_object.c:103-118.) -/
structure St where
  objs : Nat → Option Obj
  pc : Nat → Pc

/-- What can happen.
`create`: /repo/src/core/arax_object.c:103-118, up to the insertion into the list: `garbage` is what the block contained before, `todo` are the stores of the `memset` (120-123) and of the constructor (/repo/src/core/arax_accel.c:15-21, /repo/src/core/arax_data.c:43-47, /repo/src/core/arax_task.c:24-31, /repo/src/core/arax_vaccel.c:12-22; none for procedures).  The header (name, type, reference count) is complete before the insertion and not represented.
`init`: the creator's next store.
`store`: an assignment to a word by a thread that found the object (/repo/src/core/arax_proc.c:26).
`load`, `finish`: `word |= b` (/repo/src/core/arax_proc.c:28). -/
inductive Ev where
  | create (p : Nat) (garbage : Nat → Nat) (todo : List (Nat × Nat))
  | init (p : Nat)
  | store (i p w v : Nat)
  | load (i p w b : Nat)
  | finish (i p w b : Nat)

/-- Store to a word. (No code of its own.) -/
def put (m : Nat → Nat) (w v : Nat) : Nat → Nat := fun x => if x = w then v else m x

/-- Replaces an object. (No code of its own.) -/
def setObj (s : St) (p : Nat) (o : Obj) : St := { s with objs := fun q => if q = p then some o else s.objs q }

/-- Moves a thread. (No code of its own.) -/
def setPc (s : St) (i : Nat) (c : Pc) : St := { s with pc := fun j => if j = i then c else s.pc j }

/-- One event; `none`: it cannot happen now. Lines at `Ev`: /repo/src/core/arax_object.c:98-126, /repo/src/core/arax_proc.c:22-31. -/
def step (s : St) : Ev → Option St
  | .create p g todo => match s.objs p with
    | some _ => none
    | none => some (setObj s p { words := g, todo := todo })
  | .init p => match s.objs p with
    | some ⟨m, (w, v) :: r⟩ => some (setObj s p { words := put m w v, todo := r })
    | _ => none
  | .store i p w v => if s.pc i = .idle then match s.objs p with
      | some o => some (setObj s p { o with words := put o.words w v })
      | none => none
    else none
  | .load i p w b => if s.pc i = .idle then match s.objs p with
      | some o => some (setPc s i (.oring p w b (o.words w)))
      | none => none
    else none
  | .finish i p w b => match s.pc i, s.objs p with
    | .oring p' w' b' tmp, some o => if p' = p ∧ w' = w ∧ b' = b then some (setPc (setObj s p { o with words := put o.words w (tmp ||| b) }) i .idle) else none
    | _, _ => none

/-- No object, no thread busy (`arax_object_repo_init`, /repo/src/core/arax_object.c:60-69). -/
def start : St := { objs := fun _ => none, pc := fun _ => .idle }

/-! ## Specification: histories (newest event first) -/

/-- `Run late calm es s`: the events `es` (newest first) lead to `s`.  `late`: no thread touches an object before its creator is done.  `calm`: `|=` on a word does not overlap another store to, or `|=` on it. -/
inductive Run (late calm : Bool) : List Ev → St → Prop where
  | nil : Run late calm [] start
  | cons {es : List Ev} {s s' : St} {e : Ev} : Run late calm es s → step s e = some s' →
      (late = true → ∀ i p w v, e = .store i p w v ∨ e = .load i p w v → ∀ o, s.objs p = some o → o.todo = []) →
      (calm = true → ∀ i p w v, e = .store i p w v ∨ e = .load i p w v → ∀ j b t, s.pc j ≠ .oring p w b t) →
      Run late calm (e :: es) s'

/-- Contents after stores. -/
def afterStores (m : Nat → Nat) : List (Nat × Nat) → Nat → Nat
  | [] => m
  | (w, v) :: r => afterStores (put m w v) r

/-- What a word of an object should contain: what its creator puts there, then what was stored, and or-ed, since. -/
def expected (p w : Nat) : List Ev → Nat
  | [] => 0
  | .create q g todo :: es => if q = p then afterStores g todo w else expected p w es
  | .store _ q u v :: es => if q = p ∧ u = w then v else expected p w es
  | .finish _ q u b :: es => if q = p ∧ u = w then expected p w es ||| b else expected p w es
  | _ :: es => expected p w es

/-- Words are written by assignment only, or by `|=` only (in the library: `canrun` by `|=`, the functors by assignment). -/
def Typed (isOr : Nat → Bool) (es : List Ev) : Prop :=
  ∀ e ∈ es, (∀ i p w v, e = .store i p w v → isOr w = false) ∧ (∀ i p w b, e = .load i p w b → isOr w = true)

/-! ## Proofs -/

theorem afterStores_put (m : Nat → Nat) (w v : Nat) (r : List (Nat × Nat)) : afterStores m ((w, v) :: r) = afterStores (put m w v) r := rfl

/-- The invariant: words once the creator is done are as expected (bits of `|=` words that are there are expected; all of them if calm). -/
structure Inv (late calm : Bool) (isOr : Nat → Bool) (es : List Ev) (s : St) : Prop where
  eq : late = true → ∀ p o, s.objs p = some o → ∀ w, (isOr w = false ∨ calm = true) → afterStores o.words o.todo w = expected p w es
  sub : late = true → ∀ p o, s.objs p = some o → ∀ w t, (afterStores o.words o.todo w).testBit t = true → (expected p w es).testBit t = true
  pend : late = true → ∀ i p w b t, s.pc i = .oring p w b t → isOr w = true ∧ (∀ o, s.objs p = some o → o.todo = []) ∧ s.objs p ≠ none ∧
    (∀ k, t.testBit k = true → (expected p w es).testBit k = true) ∧ (calm = true → t = expected p w es)
  alone : calm = true → ∀ i j p w b t b' t', s.pc i = .oring p w b t → s.pc j = .oring p w b' t' → i = j

theorem inv_start (late calm : Bool) (isOr : Nat → Bool) : Inv late calm isOr [] start :=
  ⟨fun _ _ _ h => (by cases h), fun _ _ _ h => (by cases h), fun _ _ _ _ _ _ h => (by cases h), fun _ _ _ _ _ _ _ _ _ h => (by cases h)⟩

theorem testBit_or (a b k : Nat) : (a ||| b).testBit k = (a.testBit k || b.testBit k) := Nat.testBit_or a b k

theorem inv_step {late calm : Bool} {isOr : Nat → Bool} {es : List Ev} {s s' : St} {e : Ev} (h : Inv late calm isOr es s) (hs : step s e = some s')
    (hl : late = true → ∀ i p w v, e = .store i p w v ∨ e = .load i p w v → ∀ o, s.objs p = some o → o.todo = [])
    (hc : calm = true → ∀ i p w v, e = .store i p w v ∨ e = .load i p w v → ∀ j b t, s.pc j ≠ .oring p w b t)
    (ht1 : ∀ i p w v, e = .store i p w v → isOr w = false) (ht2 : ∀ i p w b, e = .load i p w b → isOr w = true) : Inv late calm isOr (e :: es) s' := by
  cases e with
  | create p g todo =>
    simp only [step] at hs
    split at hs
    · cases hs
    · rename_i hn
      cases hs
      have ex : ∀ q w, expected q w (.create p g todo :: es) = if p = q then afterStores g todo w else expected q w es := fun _ _ => rfl
      refine ⟨?_, ?_, ?_, h.alone⟩
      · intro l q o ho w hw
        rw [ex]
        simp only [setObj] at ho
        split at ho
        · rename_i e; cases ho; rw [if_pos e.symm]
        · rename_i e; rw [if_neg (fun h => e h.symm)]; exact h.eq l q o ho w hw
      · intro l q o ho w k hk
        rw [ex]
        simp only [setObj] at ho
        split at ho
        · rename_i e; cases ho; rw [if_pos e.symm]; exact hk
        · rename_i e; rw [if_neg (fun h => e h.symm)]; exact h.sub l q o ho w k hk
      · intro l i q w b t hp
        obtain ⟨a1, a2, a3, a4, a5⟩ := h.pend l i q w b t hp
        have hqp : q ≠ p := fun e => a3 (by rw [e]; exact hn)
        refine ⟨a1, ?_, ?_, ?_, ?_⟩
        · intro o ho; simp only [setObj, if_neg hqp] at ho; exact a2 o ho
        · simp only [setObj, if_neg hqp]; exact a3
        · rw [ex, if_neg (Ne.symm hqp)]; exact a4
        · rw [ex, if_neg (Ne.symm hqp)]; exact a5
  | init p =>
    simp only [step] at hs
    split at hs
    · rename_i m w0 v0 r ho0
      cases hs
      have ex : ∀ q w, expected q w (.init p :: es) = expected q w es := fun _ _ => rfl
      refine ⟨?_, ?_, ?_, h.alone⟩
      · intro l q o ho w hw
        rw [ex]
        simp only [setObj] at ho
        split at ho
        · rename_i e; cases ho; rw [e, ← h.eq l p _ ho0 w hw]; rfl
        · exact h.eq l q o ho w hw
      · intro l q o ho w k hk
        rw [ex]
        simp only [setObj] at ho
        split at ho
        · rename_i e; cases ho; rw [e]; exact h.sub l p _ ho0 w k hk
        · exact h.sub l q o ho w k hk
      · intro l i q w b t hp
        obtain ⟨a1, a2, a3, a4, a5⟩ := h.pend l i q w b t hp
        have hqp : q ≠ p := fun e => by have := a2 _ (by rw [e]; exact ho0); cases this
        refine ⟨a1, ?_, ?_, a4, a5⟩
        · intro o ho; simp only [setObj, if_neg hqp] at ho; exact a2 o ho
        · simp only [setObj, if_neg hqp]; exact a3
    · cases hs
  | store i p u v =>
    simp only [step] at hs
    split at hs
    · split at hs
      · rename_i o0 ho0
        cases hs
        have hu := ht1 i p u v rfl
        have ex : ∀ q w, expected q w (.store i p u v :: es) = if p = q ∧ u = w then v else expected q w es := fun _ _ => rfl
        refine ⟨?_, ?_, ?_, h.alone⟩
        · intro l q o ho w hw
          rw [ex]
          simp only [setObj] at ho
          split at ho
          · rename_i e
            cases ho
            have htd := hl l i p u v (.inl rfl) o0 ho0
            have heq := h.eq l p o0 ho0 w hw
            rw [htd] at heq ⊢
            show put o0.words u v w = _
            unfold put
            by_cases hwu : w = u
            · rw [if_pos hwu, if_pos ⟨e.symm, hwu.symm⟩]
            · rw [if_neg hwu, if_neg (fun h => hwu h.2.symm), e]; exact heq
          · rename_i e; rw [if_neg (fun h => e h.1.symm)]; exact h.eq l q o ho w hw
        · intro l q o ho w k hk
          rw [ex]
          simp only [setObj] at ho
          split at ho
          · rename_i e
            cases ho
            have htd := hl l i p u v (.inl rfl) o0 ho0
            have hsub := h.sub l p o0 ho0 w k
            rw [htd] at hsub hk
            have hk : (put o0.words u v w).testBit k = true := hk
            unfold put at hk
            by_cases hwu : w = u
            · rw [if_pos hwu] at hk; rw [if_pos ⟨e.symm, hwu.symm⟩]; exact hk
            · rw [if_neg hwu] at hk; rw [if_neg (fun h => hwu h.2.symm), e]; exact hsub hk
          · rename_i e; rw [if_neg (fun h => e h.1.symm)]; exact h.sub l q o ho w k hk
        · intro l j q w b t hp
          obtain ⟨a1, a2, a3, a4, a5⟩ := h.pend l j q w b t hp
          have hwu : ¬ (p = q ∧ u = w) := fun e => by rw [e.2, a1] at hu; cases hu
          refine ⟨a1, ?_, ?_, ?_, ?_⟩
          · intro o ho
            simp only [setObj] at ho
            split at ho
            · rename_i e; cases ho; exact hl l i p u v (.inl rfl) o0 ho0
            · exact a2 o ho
          · simp only [setObj]; split
            · simp
            · exact a3
          · rw [ex, if_neg hwu]; exact a4
          · rw [ex, if_neg hwu]; exact a5
      · cases hs
    · cases hs
  | load i p u b0 =>
    simp only [step] at hs
    split at hs
    · rename_i hidle
      split at hs
      · rename_i o0 ho0
        cases hs
        have ex : ∀ q w, expected q w (.load i p u b0 :: es) = expected q w es := fun _ _ => rfl
        refine ⟨?_, ?_, ?_, ?_⟩
        · intro l q o ho w hw; rw [ex]; exact h.eq l q o ho w hw
        · intro l q o ho w k hk; rw [ex]; exact h.sub l q o ho w k hk
        · intro l j q w b t hp
          rw [ex]
          simp only [setPc] at hp
          split at hp
          · cases hp
            have htd := hl l i p u b0 (.inr rfl)
            have htd0 := htd o0 ho0
            refine ⟨ht2 i p u b0 rfl, htd, ?_, ?_, ?_⟩
            · show s.objs p ≠ none
              rw [ho0]; simp
            · intro k hk
              have := h.sub l p o0 ho0 u k
              rw [htd0] at this
              exact this hk
            · intro hcalm
              have := h.eq l p o0 ho0 u (.inr hcalm)
              rw [htd0] at this
              exact this
          · exact h.pend l j q w b t hp
        · intro hcalm j j' q w b t b' t' hp hp'
          simp only [setPc] at hp hp'
          split at hp <;> split at hp'
          · rename_i e e'; rw [e, e']
          · cases hp; exact absurd hp' (hc hcalm i p u b0 (.inr rfl) _ _ _)
          · cases hp'; exact absurd hp (hc hcalm i p u b0 (.inr rfl) _ _ _)
          · exact h.alone hcalm j j' q w b t b' t' hp hp'
      · cases hs
    · cases hs
  | finish i p u b0 =>
    simp only [step] at hs
    split at hs
    · rename_i p' w' b' tmp o0 hpc ho0
      split at hs
      · rename_i heq
        obtain ⟨e1, e2, e3⟩ := heq
        subst e1; subst e2; subst e3
        cases hs
        have ex : ∀ q w, expected q w (.finish i p' w' b' :: es) = if p' = q ∧ w' = w then expected q w es ||| b' else expected q w es := fun _ _ => rfl
        refine ⟨?_, ?_, ?_, ?_⟩
        · intro l q o ho w hw
          rw [ex]
          obtain ⟨a1, a2, a3, a4, a5⟩ := h.pend l i p' w' b' tmp hpc
          simp only [setPc, setObj] at ho
          split at ho
          · rename_i e
            cases ho
            have htd := a2 o0 ho0
            have heq := h.eq l p' o0 ho0 w hw
            rw [htd] at heq ⊢
            show put o0.words w' (tmp ||| b') w = _
            unfold put
            by_cases hwu : w = w'
            · rw [if_pos hwu, if_pos ⟨e.symm, hwu.symm⟩]
              rcases hw with hw | hw
              · rw [hwu, a1] at hw; cases hw
              · rw [a5 hw, e, hwu]
            · rw [if_neg hwu, if_neg (fun h => hwu h.2.symm), e]; exact heq
          · rename_i e; rw [if_neg (fun h => e h.1.symm)]; exact h.eq l q o ho w hw
        · intro l q o ho w k hk
          rw [ex]
          obtain ⟨a1, a2, a3, a4, a5⟩ := h.pend l i p' w' b' tmp hpc
          simp only [setPc, setObj] at ho
          split at ho
          · rename_i e
            cases ho
            have htd := a2 o0 ho0
            have hsub := h.sub l p' o0 ho0 w k
            rw [htd] at hsub hk
            have hk : (put o0.words w' (tmp ||| b') w).testBit k = true := hk
            unfold put at hk
            by_cases hwu : w = w'
            · rw [if_pos hwu, testBit_or] at hk
              rw [if_pos ⟨e.symm, hwu.symm⟩, testBit_or, e, hwu]
              rcases Bool.or_eq_true _ _ |>.mp hk with hk | hk
              · rw [a4 k hk]; rfl
              · rw [hk]; simp
            · rw [if_neg hwu] at hk; rw [if_neg (fun h => hwu h.2.symm), e]; exact hsub hk
          · rename_i e; rw [if_neg (fun h => e h.1.symm)]; exact h.sub l q o ho w k hk
        · intro l j q w b t hp
          simp only [setPc] at hp
          split at hp
          · cases hp
          · rename_i hji
            have hp : s.pc j = .oring q w b t := hp
            obtain ⟨a1, a2, a3, a4, a5⟩ := h.pend l j q w b t hp
            obtain ⟨-, c2, -, -, -⟩ := h.pend l i p' w' b' tmp hpc
            refine ⟨a1, ?_, ?_, ?_, ?_⟩
            · intro o ho
              simp only [setPc, setObj] at ho
              split at ho
              · cases ho; exact c2 o0 ho0
              · exact a2 o ho
            · simp only [setPc, setObj]; split
              · simp
              · exact a3
            · intro k hk
              rw [ex]
              split
              · rw [testBit_or, a4 k hk]; rfl
              · exact a4 k hk
            · intro hcalm
              rw [ex, if_neg]
              · exact a5 hcalm
              · intro e
                apply hji
                exact h.alone hcalm j i p' w' b t b' tmp (by rw [hp, e.1, e.2]) hpc
        · intro hcalm j j' q w b t b2 t' hp hp'
          simp only [setPc] at hp hp'
          split at hp
          · cases hp
          · split at hp'
            · cases hp'
            · exact h.alone hcalm j j' q w b t b2 t' hp hp'
      · cases hs
    · cases hs

theorem inv_run {late calm : Bool} {isOr : Nat → Bool} {es : List Ev} {s : St} (h : Run late calm es s) (ht : Typed isOr es) : Inv late calm isOr es s := by
  induction h with
  | nil => exact inv_start ..
  | @cons es s s' e hr hs hl hc ih =>
    exact inv_step (ih (fun x hx => ht x (List.mem_cons_of_mem _ hx))) hs hl hc (ht e List.mem_cons_self).1 (ht e List.mem_cons_self).2

/-- **C92** (partial) If nobody touches an object before its creator is done, then from then on every word of it that is only assigned to is what was put there last, in every interleaving; of words changed by `|=` no bit is set that nobody set; and if `|=`s on a word do not overlap, they are exactly as expected.  This holds for every kind of object.  Missing: objects that are found earlier (`C92_violated_lost`, `C92_violated_garbage`), and overlapping `|=` (`C92_violated_canrun`). -/
theorem C92_words_partial {calm : Bool} {isOr : Nat → Bool} {es : List Ev} {s : St} (h : Run true calm es s) (ht : Typed isOr es) {p : Nat} {o : Obj} (ho : s.objs p = some o) (hd : o.todo = []) :
    (∀ w, isOr w = false ∨ calm = true → o.words w = expected p w es) ∧ (∀ w t, (o.words w).testBit t = true → (expected p w es).testBit t = true) := by
  have hi := inv_run h ht
  have h1 := hi.eq rfl p o ho
  have h2 := hi.sub rfl p o ho
  rw [hd] at h1 h2
  exact ⟨h1, h2⟩

/-! ## Procedures -/

/-- Word 0 is `canrun`, word `1 + t` is `functors[t]` (/repo/src/core/arax_proc.h:15-21, nine types). -/
def isCanrun (w : Nat) : Bool := w == 0

/-- The stores of the creator of a procedure: all zero (/repo/src/core/arax_object.c:120-121). -/
def procTodo : List (Nat × Nat) := (List.range 10).map (fun w => (w, 0))

/-- `arax_proc_set_functor(p, t, f)` of thread `i`, newest event first (/repo/src/core/arax_proc.c:22-31). -/
def setFunctor (i p t f : Nat) : List Ev := [.finish i p 0 (2 ^ t), .load i p 0 (2 ^ t), .store i p (1 + t) f]

/-- The call `arax_proc_set_functor(p, t, f)` of thread `i` has returned: its three accesses are in the history, in order. (No code of its own.) -/
def Returned (i p t f : Nat) (es : List Ev) : Prop := (setFunctor i p t f).Sublist es

/-- A history of procedures: threads create procedures and set functors, nothing else. (No code of its own.) -/
def ProcHistory (es : List Ev) : Prop :=
  ∀ e ∈ es, match e with
    | .create _ _ todo => todo = procTodo
    | .init _ => True
    | .store _ _ w _ => 1 ≤ w ∧ w < 10
    | .load _ _ w b => w = 0 ∧ ∃ t, t < 9 ∧ b = 2 ^ t
    | .finish _ _ w b => w = 0 ∧ ∃ t, t < 9 ∧ b = 2 ^ t

/-- `arax_proc_can_run_at` and `arax_proc_get_functor` (/repo/src/core/arax_proc.c:16-20, 33-39). -/
def canRunAt (s : St) (p t : Nat) : Option Bool := (s.objs p).map (fun o => (o.words 0).testBit t)
/-- Specification of what `arax_proc_get_functor` reads (/repo/src/core/arax_proc.c). -/
def getFunctor (s : St) (p t : Nat) : Option Nat := (s.objs p).map (fun o => o.words (1 + t))

/-- The functor assigned last for a type (0 if none); newest event first. (No code of its own.) -/
def lastFunctor (p t : Nat) : List Ev → Nat
  | [] => 0
  | .store _ q u v :: es => if q = p ∧ u = 1 + t then v else lastFunctor p t es
  | _ :: es => lastFunctor p t es

/-- The creator of `p` is done. (No code of its own.) -/
def Made (s : St) (p : Nat) : Prop := ∃ o, s.objs p = some o ∧ o.todo = []

theorem typed_of_proc {es : List Ev} (h : ProcHistory es) : Typed isCanrun es := by
  intro e he
  have := h e he
  constructor
  · intro i p w v e'; subst e'; simp only at this; simp [isCanrun]; omega
  · intro i p w b e'; subst e'; simp only at this; simp [isCanrun, this.1]

theorem afterStores_zero (m : Nat → Nat) (l : List Nat) (w : Nat) : afterStores m (l.map (fun x => (x, 0))) w = if w ∈ l then 0 else m w := by
  induction l generalizing m with
  | nil => simp [afterStores]
  | cons a l ih =>
    rw [List.map_cons, afterStores_put, ih]
    unfold put
    by_cases h : w ∈ l
    · simp [h]
    · by_cases h2 : w = a <;> simp [h, h2]

/-- Only objects that were created are there, once. -/
theorem created {late calm : Bool} {es : List Ev} {s : St} (h : Run late calm es s) : ∀ p, (s.objs p = none → (∀ g t, .create p g t ∉ es) ∧ (∀ i w v, .store i p w v ∉ es) ∧ ∀ i w b, .finish i p w b ∉ es) := by
  induction h with
  | nil => intro p _; simp
  | @cons es s s' e hr hs hl hc ih =>
    intro p hp
    cases e with
    | create q g todo =>
      simp only [step] at hs
      split at hs
      · cases hs
      · cases hs
        simp only [setObj] at hp
        split at hp
        · cases hp
        · rename_i hne
          obtain ⟨a, b, c⟩ := ih p hp
          refine ⟨fun g' t' hm => ?_, fun i w v hm => ?_, fun i w b' hm => ?_⟩
          · rcases List.mem_cons.mp hm with e | hm
            · cases e; exact hne rfl
            · exact a _ _ hm
          · rcases List.mem_cons.mp hm with e | hm
            · cases e
            · exact b _ _ _ hm
          · rcases List.mem_cons.mp hm with e | hm
            · cases e
            · exact c _ _ _ hm
    | init q =>
      simp only [step] at hs
      split at hs
      · rename_i hq
        cases hs
        simp only [setObj] at hp
        split at hp
        · cases hp
        · obtain ⟨a, b, c⟩ := ih p hp
          exact ⟨fun _ _ hm => (by rcases List.mem_cons.mp hm with e | hm; cases e; exact a _ _ hm), fun _ _ _ hm => (by rcases List.mem_cons.mp hm with e | hm; cases e; exact b _ _ _ hm), fun _ _ _ hm => (by rcases List.mem_cons.mp hm with e | hm; cases e; exact c _ _ _ hm)⟩
      · cases hs
    | store i q u v =>
      simp only [step] at hs
      split at hs
      · split at hs
        · rename_i o0 hq
          cases hs
          simp only [setObj] at hp
          split at hp
          · cases hp
          · rename_i hne
            obtain ⟨a, b, c⟩ := ih p hp
            exact ⟨fun _ _ hm => (by rcases List.mem_cons.mp hm with e | hm; cases e; exact a _ _ hm), fun _ _ _ hm => (by
              rcases List.mem_cons.mp hm with e | hm
              · cases e; exact hne rfl
              · exact b _ _ _ hm), fun _ _ _ hm => (by rcases List.mem_cons.mp hm with e | hm; cases e; exact c _ _ _ hm)⟩
        · cases hs
      · cases hs
    | load i q u b0 =>
      simp only [step] at hs
      split at hs
      · split at hs
        · cases hs
          obtain ⟨a, b, c⟩ := ih p hp
          exact ⟨fun _ _ hm => (by rcases List.mem_cons.mp hm with e | hm; cases e; exact a _ _ hm), fun _ _ _ hm => (by rcases List.mem_cons.mp hm with e | hm; cases e; exact b _ _ _ hm), fun _ _ _ hm => (by rcases List.mem_cons.mp hm with e | hm; cases e; exact c _ _ _ hm)⟩
        · cases hs
      · cases hs
    | finish i q u b0 =>
      simp only [step] at hs
      split at hs
      · split at hs
        · cases hs
          simp only [setPc, setObj] at hp
          split at hp
          · cases hp
          · rename_i hne
            obtain ⟨a, b, c⟩ := ih p hp
            exact ⟨fun _ _ hm => (by rcases List.mem_cons.mp hm with e | hm; cases e; exact a _ _ hm), fun _ _ _ hm => (by rcases List.mem_cons.mp hm with e | hm; cases e; exact b _ _ _ hm), fun _ _ _ hm => (by
              rcases List.mem_cons.mp hm with e | hm
              · cases e; exact hne rfl
              · exact c _ _ _ hm)⟩
        · cases hs
      · cases hs

theorem lastFunctor_none {p t : Nat} {es : List Ev} (h : ∀ i w v, .store i p w v ∉ es) : lastFunctor p t es = 0 := by
  induction es with
  | nil => rfl
  | cons e es ih =>
    have ih := ih (fun i w v hm => h i w v (List.mem_cons_of_mem _ hm))
    cases e with
    | store i q u v =>
      rw [lastFunctor, if_neg]
      · exact ih
      · rintro ⟨e, -⟩; exact h i u v (by rw [← e]; exact List.mem_cons_self)
    | _ => exact ih

theorem expected_functor {late calm : Bool} {es : List Ev} {s : St} (h : Run late calm es s) (hp : ProcHistory es) {p : Nat} (hc : s.objs p ≠ none) {t : Nat} (ht : t < 9) :
    expected p (1 + t) es = lastFunctor p t es := by
  induction h with
  | nil => exact absurd rfl hc
  | @cons es s s' e hr hs hl hcl ih =>
    have hp' : ProcHistory es := fun x hx => hp x (List.mem_cons_of_mem _ hx)
    have hmem := hp e List.mem_cons_self
    cases e with
    | create q g todo =>
      simp only [step] at hs
      split at hs
      · cases hs
      · rename_i hn
        cases hs
        show (if q = p then _ else _) = lastFunctor p t es
        split
        · rename_i e
          rw [show todo = procTodo from hmem, procTodo, afterStores_zero, if_pos (List.mem_range.mpr (by omega)), lastFunctor_none]
          rw [e] at hn
          exact (created hr p hn).2.1
        · rename_i e
          refine ih hp' ?_
          simpa [setObj, Ne.symm e] using hc
    | init q =>
      show expected p (1 + t) es = lastFunctor p t es
      simp only [step] at hs
      split at hs
      · rename_i hq
        cases hs
        refine ih hp' ?_
        by_cases e : p = q
        · rw [e, hq]; simp
        · simpa [setObj, e] using hc
      · cases hs
    | store i q u v =>
      show (if q = p ∧ u = 1 + t then v else _) = (if q = p ∧ u = 1 + t then v else _)
      split
      · rfl
      · simp only [step] at hs
        split at hs
        · split at hs
          · rename_i o0 hq
            cases hs
            refine ih hp' ?_
            by_cases e : p = q
            · rw [e, hq]; simp
            · simpa [setObj, e] using hc
          · cases hs
        · cases hs
    | load i q u b =>
      show expected p (1 + t) es = lastFunctor p t es
      simp only [step] at hs
      split at hs
      · split at hs
        · cases hs; exact ih hp' hc
        · cases hs
      · cases hs
    | finish i q u b =>
      show (if q = p ∧ u = 1 + t then _ else _) = lastFunctor p t es
      have hu : u = 0 := hmem.1
      rw [if_neg (by omega)]
      simp only [step] at hs
      split at hs
      · rename_i o0 _ hq
        split at hs
        · cases hs
          refine ih hp' ?_
          by_cases e : p = q
          · rw [e, hq]; simp
          · simpa [setPc, setObj, e] using hc
        · cases hs
      · cases hs

theorem expected_canrun {late calm : Bool} {es : List Ev} {s : St} (h : Run late calm es s) (hp : ProcHistory es) {p : Nat} (hc : s.objs p ≠ none) (t : Nat) :
    (expected p 0 es).testBit t = true ↔ ∃ i, .finish i p 0 (2 ^ t) ∈ es := by
  induction h with
  | nil => exact absurd rfl hc
  | @cons es s s' e hr hs hl hcl ih =>
    have hp' : ProcHistory es := fun x hx => hp x (List.mem_cons_of_mem _ hx)
    have hmem := hp e List.mem_cons_self
    have tail : ∀ (_ : s.objs p ≠ none) (_ : expected p 0 (e :: es) = expected p 0 es) (_ : ∀ i, e ≠ .finish i p 0 (2 ^ t)),
        ((expected p 0 (e :: es)).testBit t = true ↔ ∃ i, .finish i p 0 (2 ^ t) ∈ e :: es) := by
      intro h1 h2 h3
      rw [h2, ih hp' h1]
      constructor
      · rintro ⟨i, hi⟩; exact ⟨i, List.mem_cons_of_mem _ hi⟩
      · rintro ⟨i, hi⟩
        rcases List.mem_cons.mp hi with e' | hi
        · exact absurd e'.symm (h3 i)
        · exact ⟨i, hi⟩
    cases e with
    | create q g todo =>
      simp only [step] at hs
      split at hs
      · cases hs
      · rename_i hn
        cases hs
        by_cases e : q = p
        · have hex : expected p 0 (.create q g todo :: es) = 0 := by
            show (if q = p then _ else _) = 0
            rw [if_pos e, show todo = procTodo from hmem, procTodo, afterStores_zero]; rfl
          rw [hex]
          rw [e] at hn
          constructor
          · intro h; simp at h
          · rintro ⟨i, hi⟩
            rcases List.mem_cons.mp hi with e' | hi
            · cases e'
            · exact absurd hi ((created hr p hn).2.2 _ _ _)
        · refine tail ?_ (if_neg e) (fun i => by simp)
          simpa [setObj, Ne.symm e] using hc
    | init q =>
      simp only [step] at hs
      split at hs
      · rename_i hq
        cases hs
        refine tail ?_ rfl (fun i => by simp)
        by_cases e : p = q
        · rw [e, hq]; simp
        · simpa [setObj, e] using hc
      · cases hs
    | store i q u v =>
      have hu : 1 ≤ u := hmem.1
      simp only [step] at hs
      split at hs
      · split at hs
        · rename_i o0 hq
          cases hs
          refine tail ?_ (if_neg (by omega)) (fun i => by simp)
          by_cases e : p = q
          · rw [e, hq]; simp
          · simpa [setObj, e] using hc
        · cases hs
      · cases hs
    | load i q u b =>
      simp only [step] at hs
      split at hs
      · split at hs
        · cases hs
          exact tail hc rfl (fun i => by simp)
        · cases hs
      · cases hs
    | finish i q u b =>
      obtain ⟨hu, tb, -, hb⟩ := hmem
      simp only [step] at hs
      split at hs
      · rename_i o0 _ hq
        split at hs
        · cases hs
          have hne : s.objs p ≠ none := by
            by_cases e : p = q
            · rw [e, hq]; simp
            · simpa [setPc, setObj, e] using hc
          by_cases e : q = p
          · have hex : expected p 0 (.finish i q u b :: es) = expected p 0 es ||| 2 ^ tb := by
              show (if q = p ∧ u = 0 then _ else _) = _
              rw [if_pos ⟨e, hu⟩, hb]
            rw [hex, testBit_or, Bool.or_eq_true, ih hp' hne, Nat.testBit_two_pow]
            constructor
            · rintro (⟨j, hj⟩ | h)
              · exact ⟨j, List.mem_cons_of_mem _ hj⟩
              · have h : tb = t := by simpa using h
                exact ⟨i, by rw [e, hu, hb, h]; exact List.mem_cons_self⟩
            · rintro ⟨j, hj⟩
              rcases List.mem_cons.mp hj with e' | hj
              · right
                have e4 : 2 ^ t = b := by injection e'
                rw [hb] at e4
                have : t = tb := (Nat.pow_right_inj (by omega : 1 < 2)).mp e4
                simp [this]
              · exact .inl ⟨j, hj⟩
          · refine tail hne (if_neg (fun h => e h.1)) (fun j hj => ?_)
            injection hj with _ h2
            exact e h2
        · cases hs
      · cases hs

/-- **C92** (partial) Procedures: if nobody touches a procedure before its creator is done, `arax_proc_get_functor` returns the functor assigned last for the type (NULL if none), in every interleaving; `arax_proc_can_run_at` is never true for a type for which no `arax_proc_set_functor` has returned; and if the calls do not overlap in `canrun |= …`, it is true for all of these. -/
theorem C92_functors_partial {calm : Bool} {es : List Ev} {s : St} (h : Run true calm es s) (hp : ProcHistory es) {p : Nat} (hm : Made s p) {t : Nat} (ht : t < 9) :
    getFunctor s p t = some (lastFunctor p t es) ∧ (canRunAt s p t = some true → ∃ i, .finish i p 0 (2 ^ t) ∈ es) ∧
    (calm = true → ∀ i f, Returned i p t f es → canRunAt s p t = some true) := by
  obtain ⟨o, ho, hd⟩ := hm
  obtain ⟨h1, h2⟩ := C92_words_partial h (typed_of_proc hp) ho hd
  have hne : s.objs p ≠ none := by rw [ho]; simp
  have hcr : canRunAt s p t = some ((o.words 0).testBit t) := by unfold canRunAt; rw [ho]; rfl
  refine ⟨?_, ?_, ?_⟩
  · unfold getFunctor
    rw [ho, Option.map_some, h1 (1 + t) (.inl (by simp [isCanrun])), expected_functor h hp hne ht]
  · intro hc
    rw [hcr] at hc
    exact (expected_canrun h hp hne t).mp (h2 0 t (Option.some.inj hc))
  · intro hcalm i f hf
    rw [hcr, h1 0 (.inr hcalm), (expected_canrun h hp hne t).mpr ⟨i, hf.subset (by simp [setFunctor])⟩]

/-! ## Witnesses -/

/-- Runs events, oldest first. (No code of its own.) -/
def runAll (s : St) : List Ev → Option St
  | [] => some s
  | e :: es => (step s e).bind (fun s' => runAll s' es)

theorem run_of_runAll {es0 : List Ev} {s0 : St} (h0 : Run false false es0 s0) {es : List Ev} {s : St} (h : runAll s0 es = some s) : Run false false (es.reverse ++ es0) s := by
  induction es generalizing s0 es0 with
  | nil => cases h; exact h0
  | cons e es ih =>
    rw [runAll] at h
    cases hs : step s0 e with
    | none => rw [hs] at h; cases h
    | some s1 =>
      rw [hs] at h
      have := ih (Run.cons h0 hs (by simp) (by simp)) h
      simpa using this

/-- A procedure in a block that was zero before. (No code of its own.) -/
def mk (p : Nat) : Ev := .create p (fun _ => 0) procTodo

/-- **C92 is violated by the code**: a functor is lost.  The creator of a procedure puts it into the list; thread 2 finds it and sets its functor for type 3; the creator's `memset` follows (arax_object.c:116-123).  Thread 2's call has returned and nobody else set anything, yet the procedure has no functor and cannot run. -/
theorem C92_violated_lost : ∃ es s, Run false true es s ∧ ProcHistory es ∧ Made s 0 ∧ Returned 2 0 3 77 es ∧ lastFunctor 0 3 es = 77 ∧
    getFunctor s 0 3 = some 0 ∧ canRunAt s 0 3 = some false := by
  have go : ∀ {es s es0 s0}, Run false true es0 s0 → (∀ j p w b t, s0.pc j ≠ .oring p w b t) → (∀ e ∈ es, ∃ p, e = .init p) → runAll s0 es = some s → Run false true (es.reverse ++ es0) s := by
    intro es s
    induction es with
    | nil => intro es0 s0 h0 _ _ h; cases h; exact h0
    | cons e es ih =>
      intro es0 s0 h0 hpc he h
      rw [runAll] at h
      obtain ⟨p, ep⟩ := he e List.mem_cons_self
      cases hs : step s0 e with
      | none => rw [hs] at h; cases h
      | some s1 =>
        rw [hs] at h
        have h1 : Run false true (e :: es0) s1 := Run.cons h0 hs (by simp) (fun _ i q w v hh => by rw [ep] at hh; rcases hh with hh | hh <;> cases hh)
        have hpc1 : ∀ j p w b t, s1.pc j ≠ .oring p w b t := by
          rw [ep] at hs
          simp only [step] at hs
          split at hs
          · cases hs; exact hpc
          · cases hs
        have := ih h1 hpc1 (fun x hx => he x (List.mem_cons_of_mem _ hx)) h
        simpa using this
  have r0 : Run false true [] start := .nil
  have r1 := Run.cons (e := mk 0) r0 rfl (by simp) (fun _ i p w v h => by rcases h with h | h <;> cases h)
  have r2 := Run.cons (e := .store 2 0 4 77) r1 rfl (by simp) (fun _ i p w v _ j b t h => by cases h)
  have r3 := Run.cons (e := .load 2 0 0 8) r2 rfl (by simp) (fun _ i p w v _ j b t h => by cases h)
  have r4 := Run.cons (e := .finish 2 0 0 8) r3 rfl (by simp) (fun _ i p w v h => by rcases h with h | h <;> cases h)
  have r5 := go (es := List.replicate 10 (.init 0)) r4 (by
    intro j p w b t
    by_cases h : j = 2
    · subst h; exact fun h => by cases h
    · simp [setPc, h, setObj, start]) (fun e he => ⟨0, List.eq_of_mem_replicate he⟩) rfl
  refine ⟨_, _, r5, ?_, ⟨_, rfl, rfl⟩, ?_, rfl, rfl, rfl⟩
  rotate_left
  · exact List.Sublist.trans (.cons_cons _ (.cons_cons _ (.cons_cons _ (List.nil_sublist [mk 0])))) (List.sublist_append_right _ _)
  intro e he
  simp only [List.mem_append, List.mem_reverse, List.mem_replicate, List.mem_cons, List.not_mem_nil, or_false] at he
  rcases he with ⟨_, e⟩ | e | e | e | e <;> subst e
  · trivial
  · exact ⟨rfl, 3, by decide, rfl⟩
  · exact ⟨rfl, 3, by decide, rfl⟩
  · exact ⟨by decide, by decide⟩
  · exact rfl

theorem run_late {es0 : List Ev} {s0 : St} (h0 : Run true false es0 s0) {es : List Ev} {s : St} (h : runAll s0 es = some s)
    (hl : ∀ a e b s1, es = a ++ e :: b → runAll s0 a = some s1 → ∀ i p w v, e = .store i p w v ∨ e = .load i p w v → ∀ o, s1.objs p = some o → o.todo = []) :
    Run true false (es.reverse ++ es0) s := by
  induction es generalizing s0 es0 with
  | nil => cases h; exact h0
  | cons e es ih =>
    rw [runAll] at h
    cases hs : step s0 e with
    | none => rw [hs] at h; cases h
    | some s1 =>
      rw [hs] at h
      have h1 : Run true false (e :: es0) s1 := Run.cons h0 hs (fun _ => hl [] e es s0 rfl rfl) (by simp)
      have := ih h1 h (fun a e' b s2 he hr => hl (e :: a) e' b s2 (by rw [he]; rfl) (by rw [runAll, hs]; exact hr))
      simpa using this

/-- **C92 is violated by the code**: two threads set functors of a complete procedure for different types, one of the bits in `canrun` is lost (arax_proc.c:28): both calls have returned, the functor is there, but the procedure "cannot run" on that type. -/
theorem C92_violated_canrun : ∃ es s, Run true false es s ∧ ProcHistory es ∧ Made s 0 ∧ Returned 2 0 3 77 es ∧ getFunctor s 0 3 = some 77 ∧ canRunAt s 0 3 = some false := by
  have r0 : Run true false [] start := .nil
  have r1 := Run.cons (e := mk 0) r0 rfl (fun _ i p w v h => by rcases h with h | h <;> cases h) (by simp)
  have r2 := run_late (es := List.replicate 10 (.init 0)) r1 rfl (by
    intro a e b s1 he _ i p w v h
    have hm : e ∈ List.replicate 10 (Ev.init 0) := by rw [he]; simp
    rw [List.eq_of_mem_replicate hm] at h
    rcases h with h | h <;> cases h)
  have done : ∀ (m : Nat → Nat) (o : Obj), some ({ words := m, todo := [] } : Obj) = some o → o.todo = [] := by intro m o h; cases h; rfl
  have r3 := Run.cons (e := .store 2 0 4 77) r2 rfl (fun _ i p w v h o ho => by rcases h with h | h <;> cases h; exact done _ o ho) (by simp)
  have r4 := Run.cons (e := .store 3 0 5 78) r3 rfl (fun _ i p w v h o ho => by rcases h with h | h <;> cases h; exact done _ o ho) (by simp)
  have r5 := Run.cons (e := .load 2 0 0 8) r4 rfl (fun _ i p w v h o ho => by rcases h with h | h <;> cases h; exact done _ o ho) (by simp)
  have r6 := Run.cons (e := .load 3 0 0 16) r5 rfl (fun _ i p w v h o ho => by rcases h with h | h <;> cases h; exact done _ o ho) (by simp)
  have r7 := Run.cons (e := .finish 2 0 0 8) r6 rfl (fun _ i p w v h => by rcases h with h | h <;> cases h) (by simp)
  have r8 := Run.cons (e := .finish 3 0 0 16) r7 rfl (fun _ i p w v h => by rcases h with h | h <;> cases h) (by simp)
  refine ⟨_, _, r8, ?_, ⟨_, rfl, rfl⟩, ?_, rfl, rfl⟩
  rotate_left
  · exact .cons _ (.cons_cons _ (.cons _ (.cons_cons _ (.cons _ (.cons_cons _ (List.nil_sublist _))))))
  intro e he
  simp only [List.mem_append, List.mem_reverse, List.mem_replicate, List.mem_cons, List.not_mem_nil, or_false] at he
  rcases he with e | e | e | e | e | e | ⟨_, e⟩ | e <;> subst e
  · exact ⟨rfl, 4, by decide, rfl⟩
  · exact ⟨rfl, 3, by decide, rfl⟩
  · exact ⟨rfl, 4, by decide, rfl⟩
  · exact ⟨rfl, 3, by decide, rfl⟩
  · exact ⟨by decide, by decide⟩
  · exact ⟨by decide, by decide⟩
  · trivial
  · exact rfl

/-- **C92 is violated by the code**: until the creator is done, a word may contain anything that was in the block before: a procedure for which nobody ever set a functor claims to run on every type, with a functor that is a stale address; likewise the type by which `arax_accel_list` selects accelerators (impl.c:253, 266), size and address of data (arax_data.c:311-312), the procedure of a task. -/
theorem C92_violated_garbage (garbage : Nat → Nat) (todo : List (Nat × Nat)) (p : Nat) : ∃ s o, Run true true [.create p garbage todo] s ∧ s.objs p = some o ∧ ∀ w, o.words w = garbage w := by
  refine ⟨_, _, Run.cons .nil rfl (fun _ i q w v h => by rcases h with h | h <;> cases h) (fun _ i q w v h => by rcases h with h | h <;> cases h), if_pos rfl, fun w => rfl⟩

/-- Non-vacuity of the partial theorems: a procedure is completed, then gets a functor. -/
example : ∃ es s, Run true true es s ∧ Made s 0 ∧ getFunctor s 0 3 = some 77 ∧ canRunAt s 0 3 = some true := by
  have go : ∀ {es s es0 s0}, Run true true es0 s0 → (∀ e ∈ es, ∃ p, e = .init p) → runAll s0 es = some s → Run true true (es.reverse ++ es0) s := by
    intro es s
    induction es with
    | nil => intro es0 s0 h0 _ h; cases h; exact h0
    | cons e es ih =>
      intro es0 s0 h0 he h
      rw [runAll] at h
      obtain ⟨p, ep⟩ := he e List.mem_cons_self
      cases hs : step s0 e with
      | none => rw [hs] at h; cases h
      | some s1 =>
        rw [hs] at h
        have h1 : Run true true (e :: es0) s1 := Run.cons h0 hs (fun _ i q w v hh => by rw [ep] at hh; rcases hh with hh | hh <;> cases hh) (fun _ i q w v hh => by rw [ep] at hh; rcases hh with hh | hh <;> cases hh)
        have := ih h1 (fun x hx => he x (List.mem_cons_of_mem _ hx)) h
        simpa using this
  have r1 := Run.cons (late := true) (calm := true) (e := mk 0) .nil rfl (fun _ i p w v h => by rcases h with h | h <;> cases h) (fun _ i p w v h => by rcases h with h | h <;> cases h)
  have r2 := go (es := List.replicate 10 (.init 0)) r1 (fun e he => ⟨0, List.eq_of_mem_replicate he⟩) rfl
  have done : ∀ (m : Nat → Nat) (o : Obj), some ({ words := m, todo := [] } : Obj) = some o → o.todo = [] := by intro m o h; cases h; rfl
  have r3 := Run.cons (e := .store 2 0 4 77) r2 rfl (fun _ i p w v h o ho => by rcases h with h | h <;> cases h; exact done _ o ho) (fun _ i p w v _ j b t h => by cases h)
  have r4 := Run.cons (e := .load 2 0 0 8) r3 rfl (fun _ i p w v h o ho => by rcases h with h | h <;> cases h; exact done _ o ho) (fun _ i p w v _ j b t h => by cases h)
  have r5 := Run.cons (e := .finish 2 0 0 8) r4 rfl (fun _ i p w v h => by rcases h with h | h <;> cases h) (fun _ i p w v h => by rcases h with h | h <;> cases h)
  exact ⟨_, _, r5, ⟨_, rfl, rfl⟩, rfl, rfl⟩

end Arax.Publish
