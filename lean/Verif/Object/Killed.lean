import Verif.Object.Props
import Verif.Object.User
/-!
# C109: a killed application

Several processes share the segment; each makes API calls and holds the
references its calls returned to it.  At any moment between two calls a process
may be killed: from then on it makes no calls.  Nothing in the library or in the
controller looks for dead processes: there is no code to model for a death
(`grep -rn kill /repo/src /repo/controller/src` finds only the exit handlers).
The calls are those of `Verif.Object.Model` (citations there).

What happens to the locks and the allocator when a process is killed *inside* a
call is the subject of C78 and C79; a call that aborts is not continued here.
-/
namespace Arax.Object.Killed

open Arax.Object

/-- The segment, who holds which references, and who is dead. (Ghost: the code
keeps only the counts, /repo/src/core/arax_object.h:40-48.) -/
structure World where
  st : St
  held : Nat → Nat → Nat      -- process, object
  dead : Nat → Bool

/-- The caller gets the references the call creates for it and loses the ones it drops. (Ghost, as above.) -/
def World.after (w : World) (p : Nat) (s' : St) : World :=
  { w with st := s', held := fun q o => if q = p then w.held q o + s'.user o - w.st.user o else w.held q o }

/-- What can happen with `n` processes: a process that lives makes a correct
call, dropping only references of its own (/repo/src/core/arax_object.c:98-209 and the callers at `Op`), or is killed. -/
inductive Step (c : Conf) (n : Nat) : World → World → Prop
  | call {w : World} {p : Nat} {b : Bool} {op : Op} {s' : St} : p < n → w.dead p = false → Legal w.st op →
      (∀ o, op = .refDec o → 1 ≤ w.held p o) → step c w.st b op = .ok s' → Step c n w (w.after p s')
  | kill {w : World} {p : Nat} : Step c n w { w with dead := fun q => if q = p then true else w.dead q }

/-- What can have happened after `w`. -/
inductive Later (c : Conf) (n : Nat) (w : World) : World → Prop
  | refl : Later c n w w
  | step {v v' : World} : Later c n w v → Step c n v v' → Later c n w v'

/-- An empty segment (/repo/src/core/arax_object.c:60-69). -/
def start (c : Conf) : World := ⟨init c, fun _ _ => 0, fun _ => false⟩

/-- `o` is held by a process that is dead. -/
def Pinned (w : World) (n o : Nat) : Prop := ∃ p, p < n ∧ w.dead p = true ∧ 0 < w.held p o

/-- `o` refers to `o'`, directly or through other objects. -/
inductive Refers (s : St) (o : Nat) : Nat → Prop
  | refl : Refers s o o
  | step {a b : Nat} {x : Obj} : Refers s o a → s.obj a = some x → 0 < mentions x.kind b → Refers s o b

/-- The bytes of an object, 0 when it is gone. -/
def bytes (s : St) (o : Nat) : Nat := match s.obj o with | none => 0 | some x => x.size

/-! ## Objects keep their size, and addresses are not reused -/

/-- What is live at an old address was live there before, with the same size. -/
structure Sub (s s' : St) : Prop where
  next : s.next ≤ s'.next
  old : ∀ o y, o < s.next → s'.obj o = some y → ∃ x, s.obj o = some x ∧ x.size = y.size

theorem Sub.rfl' (s : St) : Sub s s := ⟨Nat.le_refl _, fun _ y _ h => ⟨y, h, rfl⟩⟩

theorem Sub.trans {a b d : St} (h1 : Sub a b) (h2 : Sub b d) : Sub a d :=
  ⟨Nat.le_trans h1.next h2.next, fun o y ho hy => by
    obtain ⟨x, hx, e1⟩ := h2.old o y (Nat.lt_of_lt_of_le ho h1.next) hy
    obtain ⟨z, hz, e2⟩ := h1.old o x ho hx
    exact ⟨z, hz, e2.trans e1⟩⟩

theorem sub_put {s : St} {o : Nat} {x y : Obj} (hx : s.obj o = some x) (hs : y.size = x.size) : Sub s (s.put o (some y)) :=
  ⟨Nat.le_refl _, fun i z _ hz => by
    by_cases e : i = o
    · subst e; simp only [St.put, if_true, Option.some.injEq] at hz; subst hz; exact ⟨x, hx, hs.symm⟩
    · simp only [St.put, e, if_false] at hz; exact ⟨z, hz, rfl⟩⟩

theorem sub_none (s : St) (o : Nat) : Sub s (s.put o none) :=
  ⟨Nat.le_refl _, fun i z _ hz => by
    by_cases e : i = o
    · subst e; simp [St.put] at hz
    · simp only [St.put, e, if_false] at hz; exact ⟨z, hz, rfl⟩⟩

theorem sub_refInc {s s' : St} {o : Nat} (e : refInc s o = .ok s') : Sub s s' := by
  unfold refInc at e
  split at e
  · cases e
  · next x hx => cases e; exact sub_put hx rfl

theorem sub_refDec : ∀ (d : Nat) (s s' : St) (o : Nat), refDec d s o = .ok s' → Sub s s'
  | 0, _, _, _, e => by simp [refDec] at e
  | d + 1, s, s', o, e => by
    have fold : ∀ (l : List Nat) (s s' : St), l.foldlM (refDec d) s = .ok s' → Sub s s' := by
      intro l
      induction l with
      | nil => intro s s' e; simp at e; subst e; exact Sub.rfl' _
      | cons a r ih =>
        intro s s' e
        rw [List.foldlM_cons] at e
        obtain ⟨t, h1, e⟩ := res_bind e
        exact (sub_refDec d s t a h1).trans (ih t s' e)
    unfold refDec at e
    split at e
    · cases e
    · next x hx =>
      split at e
      · cases e
      · split at e
        · dsimp only at e
          split at e
          · obtain ⟨t, h1, e⟩ := res_bind e
            cases e
            have h2 := fold _ _ _ h1
            have h0 : Sub s ((s.put o (some { x with refs := 0 })).setRepo x.kind.ty ((s.repo x.kind.ty).erase o)) :=
              ⟨Nat.le_refl _, (sub_put (y := { x with refs := 0 }) hx rfl).old⟩
            have h3 := (h0.trans h2).trans (sub_none t o)
            exact ⟨h3.next, h3.old⟩
          · cases e
        · cases e; exact sub_put hx rfl

theorem sub_link {s1 s' : St} {d v : Nat}
    (e : (match s1.obj d with | none => Res.ub | some x => .ok (s1.put d (some { x with kind := .data (some v) }))) = .ok s') : Sub s1 s' := by
  split at e
  · cases e
  · next x hx => cases e; exact sub_put hx rfl

theorem sub_migrate {s s' : St} {d v : Nat} (e : migrate s d v = .ok s') : Sub s s' := by
  unfold migrate at e
  split at e
  · cases e
  · next x hx =>
    split at e
    · split at e
      · cases e; exact Sub.rfl' _
      · split at e
        · obtain ⟨s1, e1, e⟩ := res_bind e
          exact (sub_refInc e1).trans (sub_link e)
        · split at e
          · split at e
            · split at e
              · obtain ⟨s1, e1, e⟩ := res_bind e
                obtain ⟨s2, e2, e⟩ := res_bind e
                exact ((sub_put (y := { x with kind := .data none }) hx rfl).trans (sub_refDec _ _ _ _ e1)).trans ((sub_refInc e2).trans (sub_link e))
              · cases e
            · cases e
          · cases e
    · cases e

theorem sub_addIo {s s' : St} {t v d : Nat} (e : addIo t v s d = .ok s') : Sub s s' := by
  unfold addIo at e
  obtain ⟨s1, e1, e⟩ := res_bind e
  split at e
  · next io a p refs size hx =>
    exact ((sub_refInc e1).trans (sub_put (y := { kind := .task (io ++ [d]) a p, refs := refs, size := size }) hx rfl)).trans (sub_migrate e)
  · cases e

theorem sub_fold {t v : Nat} : ∀ (l : List Nat) (s s' : St), l.foldlM (addIo t v) s = .ok s' → Sub s s' := by
  intro l
  induction l with
  | nil => intro s s' e; simp at e; subst e; exact Sub.rfl' _
  | cons a r ih =>
    intro s s' e
    rw [List.foldlM_cons] at e
    obtain ⟨s1, e1, e⟩ := res_bind e
    exact (sub_addIo e1).trans (ih s1 s' e)

theorem sub_register (s : St) (b : Bool) (k : Kind) (size : Nat) : Sub s (register s b k size).1 := by
  cases b with
  | false => exact ⟨Nat.le_refl _, fun _ y _ h => ⟨y, h, rfl⟩⟩
  | true =>
    refine ⟨Nat.le_succ _, fun o y ho h => ?_⟩
    have : (if o = s.next then some { kind := k, refs := 1, size := size } else s.obj o) = some y := h
    rw [if_neg (by omega)] at this
    exact ⟨y, this, rfl⟩

theorem sub_issue {c : Conf} {s : St} {b : Bool} {v p : Nat} {ins outs : List Nat} {h : Nat} {r : St × Nat} (e : issue c s b v p ins outs h = .ok r) : Sub s r.1 := by
  unfold issue at e
  obtain ⟨ok, -, e⟩ := res_bind e
  split at e
  · have h1 := sub_register s b (.task [] none p) (c.szTask + 8 * (ins ++ outs).length + h)
    split at e
    · cases e
    · next sr t hr =>
      rw [hr] at h1
      obtain ⟨s1, e1, e⟩ := res_bind e
      obtain ⟨s2, e2, e⟩ := res_bind e
      split at e
      · next io a p refs size hx =>
        cases e
        exact ((h1.trans (sub_fold _ _ _ e1)).trans (sub_refInc e2)).trans (sub_put hx rfl)
      · cases e
  · cases e

theorem sub_step {c : Conf} {s s' : St} {b : Bool} {op : Op} (e : step c s b op = .ok s') : Sub s s' := by
  cases op with
  | newPhys =>
    simp only [step] at e
    cases b with
    | false => simp at e; subst e; exact sub_register s false _ _
    | true =>
      simp at e
      subst e
      have h := (sub_register s true (.phys none) c.szPhys).trans (sub_register (register s true (.phys none) c.szPhys).1 true (.vaccel (some s.next)) c.szVaccel)
      refine ⟨h.next, fun o y ho hy => h.old o y ho ?_⟩
      have : (if o = s.next then some { kind := .phys (some (s.next + 1)), refs := 1, size := c.szPhys } else
        (register (register s true (.phys none) c.szPhys).1 true (.vaccel (some s.next)) c.szVaccel).1.obj o) = some y := hy
      rw [if_neg (by omega)] at this
      exact this
  | newVaccel a =>
    cases a with
    | none => simp only [step, Res.ok.injEq] at e; subst e; exact sub_register _ _ _ _
    | some a =>
      simp only [step] at e
      split at e
      · cases e; exact sub_register _ _ _ _
      · cases e
  | newProc name => simp only [step, Res.ok.injEq] at e; subst e; exact sub_register _ _ _ _
  | newData size align =>
    simp only [step] at e
    split at e
    · cases e
    · cases e; exact sub_register _ _ _ _
  | issue v p ins outs hs =>
    simp only [step] at e
    cases h1 : issue c s b v p ins outs hs with
    | ok r => rw [h1] at e; simp only [Res.map, Res.ok.injEq] at e; subst e; exact sub_issue h1
    | abort => rw [h1] at e; cases e
    | ub => rw [h1] at e; cases e
  | refInc o =>
    simp only [step] at e
    cases h1 : refInc s o with
    | ok r => rw [h1] at e; simp only [Res.map, Res.ok.injEq] at e; subst e; have := sub_refInc h1; exact ⟨this.next, this.old⟩
    | abort => rw [h1] at e; cases e
    | ub => rw [h1] at e; cases e
  | refDec o =>
    have := sub_refDec 3 (s.setUser o (s.user o - 1)) s' o e
    exact ⟨this.next, this.old⟩
  | setAssign d v =>
    simp only [step, setAssign] at e
    split at e
    · split at e
      · cases e; exact Sub.rfl' _
      · split at e
        · obtain ⟨s1, e1, e⟩ := res_bind e
          split at e
          · next k refs size hx => cases e; exact (sub_refInc e1).trans (sub_put hx rfl)
          · cases e
        · cases e
    · cases e
  | setAccel d v =>
    simp only [step, setAccel] at e
    split at e
    · next acc refs size hx =>
      split at e
      · cases e; exact Sub.rfl' _
      · exact (sub_put (y := { kind := .data (some v), refs := refs, size := size }) hx rfl).trans (sub_refInc e)
    · cases e
  | assign v a =>
    simp only [step, assign] at e
    split at e
    · next p refs size y hx hy =>
      split at e
      · cases e; exact Sub.rfl' _
      · split at e
        · cases e; exact sub_put hx rfl
        · cases e
    · cases e
  | unassign v =>
    simp only [step, unassign] at e
    split at e
    · next a refs size hx =>
      split at e
      · cases e; exact sub_put hx rfl
      · cases e
    · cases e

/-! ## Who holds what -/

/-- The references of the processes are the references of the clients. -/
structure WInv (c : Conf) (n : Nat) (w : World) : Prop where
  reach : Reach c w.st
  sum : ∀ o, sumTo (fun p => w.held p o) n = w.st.user o

theorem user_grows {c : Conf} {s s' : St} {b : Bool} {op : Op} (h : Reach c s) (e : step c s b op = .ok s') (i : Nat)
    (hne : op ≠ .refDec i) : s.user i ≤ s'.user i := by
  have hz : s.next ≤ i → s.user i = 0 := by
    intro hi
    cases hu : s.user i with
    | zero => rfl
    | succ k =>
      obtain ⟨x, hx⟩ := Option.isSome_iff_exists.mp ((inv_reach h).g.usr i (by omega))
      have := (inv_reach h).g.bound i x hx; omega
  by_cases hi : i < s.next
  · by_cases hr : op = .refInc i
    · subst hr
      simp only [step] at e
      cases h1 : refInc s i with
      | ok r =>
        rw [h1] at e; simp only [Res.map, Res.ok.injEq] at e; subst e
        have := user_refInc h1
        show s.user i ≤ (if i = i then r.user i + 1 else r.user i)
        rw [if_pos rfl, this.1]; omega
      | abort => rw [h1] at e; cases e
      | ub => rw [h1] at e; cases e
    · rw [(user_step e).1 i hi hr hne]; exact Nat.le_refl _
  · rw [hz (by omega)]; omega

theorem user_drops {c : Conf} {s s' : St} {b : Bool} {o : Nat} (e : step c s b (.refDec o) = .ok s') :
    s'.user o = s.user o - 1 := by
  have := user_refDec 3 (s.setUser o (s.user o - 1)) s' o e
  rw [this.1]; simp [St.setUser]

theorem held_le {n : Nat} {w : World} (hs : ∀ o, sumTo (fun p => w.held p o) n = w.st.user o) {p : Nat} (hp : p < n) (o : Nat) :
    w.held p o ≤ w.st.user o := by
  rw [← hs o]; exact sumTo_ge (fun p => w.held p o) p n hp

theorem winv_step {c : Conf} {n : Nat} {w w' : World} (h : WInv c n w) (hs : Step c n w w') : WInv c n w' := by
  cases hs with
  | kill => exact ⟨h.reach, h.sum⟩
  | @call p b op s' hp hd hl ho e =>
    refine ⟨Reach.step h.reach hl e, fun o => ?_⟩
    have hbound : w.st.user o ≤ w.held p o + s'.user o := by
      by_cases hr : op = .refDec o
      · subst hr; have := user_drops e; have := ho o rfl; omega
      · have := user_grows h.reach e o hr; omega
    have hu := sumTo_update (fun q => w.held q o) (fun q => (w.after p s').held q o) p
      (by intro j hj; simp [World.after, hj]) n hp
    have hpp : (w.after p s').held p o = w.held p o + s'.user o - w.st.user o := by simp [World.after]
    have h0 := h.sum o
    have hle := held_le h.sum hp o
    show sumTo (fun q => (w.after p s').held q o) n = s'.user o
    simp only [hpp] at hu
    omega

theorem winv_later {c : Conf} {n : Nat} {w w' : World} (h : WInv c n w) (hl : Later c n w w') : WInv c n w' := by
  induction hl with
  | refl => exact h
  | step _ hs ih => exact winv_step ih hs

theorem winv_start (c : Conf) (n : Nat) : WInv c n (start c) :=
  ⟨Reach.init, fun _ => sumTo_zero _ _ (fun _ _ => rfl)⟩

theorem later_trans {c : Conf} {n : Nat} {a b d : World} (h1 : Later c n a b) (h2 : Later c n b d) : Later c n a d := by
  induction h2 with
  | refl => exact h1
  | step _ hs ih => exact .step ih hs

theorem dead_stays {c : Conf} {n : Nat} {w w' : World} (hl : Later c n w w') {p : Nat} (hd : w.dead p = true) :
    w'.dead p = true ∧ w'.held p = w.held p := by
  induction hl with
  | refl => exact ⟨hd, rfl⟩
  | @step v v' _ hs ih =>
    cases hs with
    | @kill q => refine ⟨?_, ih.2⟩; dsimp only; split <;> simp [ih.1]
    | @call q b op s' hq hdq _ _ _ =>
      have hne : p ≠ q := by intro e; subst e; rw [ih.1] at hdq; cases hdq
      refine ⟨ih.1, ?_⟩
      funext o
      show (if p = q then _ else v.held p o) = _
      rw [if_neg hne, ih.2]

theorem sub_later {c : Conf} {n : Nat} {w w' : World} (hl : Later c n w w') : Sub w.st w'.st := by
  induction hl with
  | refl => exact Sub.rfl' _
  | step _ hs ih =>
    cases hs with
    | kill => exact ih
    | call _ _ _ _ e => exact ih.trans (sub_step e)

theorem held_live {c : Conf} {n : Nat} {w : World} (h : WInv c n w) {p o : Nat} (hp : p < n) (hh : 0 < w.held p o) :
    (w.st.obj o).isSome := by
  have := held_le h.sum hp o
  exact (inv_reach h.reach).g.usr o (by omega)

/-! ## Properties -/

/-- **C109** (nobody else is hurt). Whoever is killed whenever between two calls: every object a process holds is
there, and no correct call of a process that lives touches freed memory. -/
theorem C109_others_safe_partial {c : Conf} {n : Nat} {w : World} (h : Later c n (start c) w) :
    (∀ p o, p < n → 0 < w.held p o → (w.st.obj o).isSome) ∧
    (∀ b op, Legal w.st op → step c w.st b op ≠ .ub) := by
  have hi := winv_later (winv_start c n) h
  exact ⟨fun p o hp hh => held_live hi hp hh, fun b op hl => C25_no_use_after_free hi.reach b op hl⟩

theorem refers_live {c : Conf} {s : St} (h : Reach c s) {o o' : Nat} (hr : Refers s o o') (ho : (s.obj o).isSome) : (s.obj o').isSome := by
  have hi := inv_reach h
  induction hr with
  | refl => exact ho
  | step _ hx hm _ =>
    rw [mentions_eq] at hm
    exact wt_children (hi.g.kids _ _ hx (hi.ok.live _ _ hx)) _ (List.count_pos_iff.mp hm)

/-- **C109** (exactly what is lost). When every process that lives has given everything back, the objects that are left are exactly those
that a dead process held, and what they refer to. -/
theorem C109_lost_exactly {c : Conf} {n : Nat} {w : World} (h : Later c n (start c) w)
    (hg : ∀ p o, p < n → w.dead p = false → w.held p o = 0) (o : Nat) :
    (w.st.obj o).isSome ↔ ∃ r, Pinned w n r ∧ Refers w.st r o := by
  have hw := winv_later (winv_start c n) h
  have hi := inv_reach hw.reach
  have pinned : ∀ o, 0 < w.st.user o → Pinned w n o := by
    intro o ho
    rw [← hw.sum o] at ho
    obtain ⟨p, hp, hf⟩ := sumTo_pos (fun p => w.held p o) n (by omega)
    refine ⟨p, hp, ?_, by omega⟩
    cases hd : w.dead p with
    | true => rfl
    | false => exact absurd (hg p o hp hd) hf
  constructor
  · have key : ∀ (k : Nat) (o : Nat) (x : Obj), w.st.obj o = some x → 3 ≤ x.kind.ty.rank + k → ∃ r, Pinned w n r ∧ Refers w.st r o := by
      intro k
      induction k with
      | zero =>
        intro o x hx hr
        by_cases hu : 0 < w.st.user o
        · exact ⟨o, pinned o hu, .refl⟩
        · exfalso
          have hc := (C25_live_iff_referenced hw.reach o).1 x hx
          rw [holders_eq hi] at hc
          obtain ⟨j, -, hj⟩ := sumTo_pos (fun j => hold (w.st.obj j) o) w.st.next (by omega)
          cases hy : w.st.obj j with
          | none => simp [hy, hold] at hj
          | some y =>
            have hl := hi.ok.live j y hy
            simp only [hy, hold, hl, if_false] at hj
            obtain ⟨z, hz, h1, -⟩ := child_rank (hi.g.kids j y hy hl) o (List.count_pos_iff.mp (by omega))
            rw [hx] at hz; cases hz
            have : y.kind.ty.rank ≤ 3 := by cases y.kind.ty <;> simp [Ty.rank]
            omega
      | succ k ih =>
        intro o x hx hr
        by_cases hu : 0 < w.st.user o
        · exact ⟨o, pinned o hu, .refl⟩
        · have hc := (C25_live_iff_referenced hw.reach o).1 x hx
          rw [holders_eq hi] at hc
          obtain ⟨j, -, hj⟩ := sumTo_pos (fun j => hold (w.st.obj j) o) w.st.next (by omega)
          cases hy : w.st.obj j with
          | none => simp [hy, hold] at hj
          | some y =>
            have hl := hi.ok.live j y hy
            simp only [hy, hold, hl, if_false] at hj
            obtain ⟨z, hz, h1, -⟩ := child_rank (hi.g.kids j y hy hl) o (List.count_pos_iff.mp (by omega))
            rw [hx] at hz; cases hz
            obtain ⟨r, hp, hr⟩ := ih j y hy (by omega)
            exact ⟨r, hp, .step hr hy (by rw [mentions_eq]; omega)⟩
    intro hs
    obtain ⟨x, hx⟩ := Option.isSome_iff_exists.mp hs
    exact key 3 o x hx (by omega)
  · rintro ⟨r, ⟨p, hp, hd, hh⟩, hr⟩
    exact refers_live hw.reach hr (held_live hw hp hh)

theorem sum_list_le (f : Nat → Nat) : ∀ (n : Nat) (l : List Nat), l.Nodup → (∀ i, i ∈ l → i < n) → (l.map f).sum ≤ sumTo f n
  | 0, l, _, h => by
    cases l with
    | nil => simp
    | cons a r => have := h a (by simp); omega
  | n + 1, l, nd, h => by
    simp only [sumTo]
    by_cases hm : n ∈ l
    · have h1 := sum_list_le f n (l.erase n) (nd.erase n) (by
        intro i hi; rw [nd.mem_erase_iff] at hi; have := h i hi.2; omega)
      have h2 : (l.map f).sum = f n + ((l.erase n).map f).sum := by
        have := ((List.perm_cons_erase hm).map f).sum_nat
        simpa using this
      omega
    · have := sum_list_le f n l nd (by
        intro i hi; have := h i hi; have : i ≠ n := by intro e; subst e; exact hm hi
        omega)
      omega

/-- **C109 violated.** What a process held when it was killed stays for ever: whatever the others do, in every later state every object it
held, and any set of such objects, is still there and still paid for. -/
theorem C109_violated_never_comes_back {c : Conf} {n : Nat} {w w' : World} (h : Later c n (start c) w) (hl : Later c n w w')
    (os : List Nat) (hnd : os.Nodup) (hp : ∀ o, o ∈ os → Pinned w n o) :
    (∀ o, o ∈ os → (w'.st.obj o).isSome ∧ bytes w'.st o = bytes w.st o) ∧
    w'.st.avail + (os.map (bytes w.st)).sum ≤ c.total := by
  have hw := winv_later (winv_start c n) h
  have hw' := winv_later hw hl
  have h1 : ∀ o, o ∈ os → (w'.st.obj o).isSome ∧ bytes w'.st o = bytes w.st o := by
    intro o ho
    obtain ⟨p, hpn, hd, hh⟩ := hp o ho
    obtain ⟨hd', hh'⟩ := dead_stays hl hd
    have hs := held_live hw' hpn (by rw [hh']; exact hh)
    have hs0 := held_live hw hpn hh
    refine ⟨hs, ?_⟩
    obtain ⟨y, hy⟩ := Option.isSome_iff_exists.mp hs
    obtain ⟨x0, hx0⟩ := Option.isSome_iff_exists.mp hs0
    obtain ⟨x, hx, hsz⟩ := (sub_later hl).old o y ((inv_reach hw.reach).g.bound o x0 hx0) hy
    simp only [bytes, hy, hx, hsz]
  refine ⟨h1, ?_⟩
  have ha := C26_accounting_partial hw'.reach
  have hle : (os.map (bytes w'.st)).sum ≤ liveSize w'.st := by
    refine sum_list_le (bytes w'.st) w'.st.next os hnd ?_
    intro i hi
    obtain ⟨y, hy⟩ := Option.isSome_iff_exists.mp (h1 i hi).1
    exact (inv_reach hw'.reach).g.bound i y hy
  have heq : os.map (bytes w'.st) = os.map (bytes w.st) := List.map_congr_left (fun o ho => (h1 o ho).2)
  rw [heq] at hle
  omega

/-- A case for all of the above: process 0 makes a queue and a buffer, process 1 a procedure; process 0 issues a task with
the buffer, gives the queue and the buffer back and is killed before it gives back the task; process 1 gives its procedure back.
Then process 1 holds nothing, and three objects are left: the task, its buffer and its queue. -/
theorem C109_case : ∃ w, Later conf0 2 (start conf0) w ∧ w.dead 0 = true ∧ w.dead 1 = false ∧
    (∀ o, w.held 1 o = 0) ∧ Pinned w 2 3 ∧ ¬ Pinned w 2 1 ∧ (w.st.obj 1).isSome ∧ (w.st.obj 2).isSome = false ∧
    w.st.avail + 368 = conf0.total := by
  have r0 := Later.step (c := conf0) (n := 2) (w := start conf0) .refl
    (.call (p := 0) (b := true) (op := .newVaccel none) (by omega) rfl trivial (by intro o h; cases h) rfl)
  have r1 := Later.step r0 (.call (p := 0) (b := true) (op := .newData 10 8) (by omega) rfl trivial (by intro o h; cases h) rfl)
  have r2 := Later.step r1 (.call (p := 1) (b := true) (op := .newProc ['f']) (by omega) rfl trivial (by intro o h; cases h) rfl)
  have r3 := Later.step r2 (.call (p := 0) (b := true) (op := .issue 0 2 [1] [] 4) (by omega) rfl
    ⟨⟨_, rfl, rfl⟩, ⟨_, rfl, rfl⟩, by intro d hd; simp at hd; subst hd; rfl⟩ (by intro o h; cases h) rfl)
  have r4 := Later.step r3 (.call (p := 0) (b := true) (op := .refDec 0) (by omega) rfl
    ⟨by decide, by intro x f hx hk; cases hx; cases hk⟩ (by intro o h; cases h; decide) rfl)
  have r5 := Later.step r4 (.call (p := 0) (b := true) (op := .refDec 1) (by omega) rfl
    ⟨by decide, by intro x f hx hk; cases hx; cases hk⟩ (by intro o h; cases h; decide) rfl)
  have r6 := Later.step r5 (.kill (p := 0))
  have r7 := Later.step r6 (.call (p := 1) (b := true) (op := .refDec 2) (by omega) rfl
    ⟨by decide, by intro x f hx hk; cases hx; cases hk⟩ (by intro o h; cases h; decide) rfl)
  refine ⟨_, r7, rfl, rfl, ?_, ⟨0, by omega, rfl, by decide⟩, ?_, rfl, rfl, by decide⟩
  · intro o
    match o with
    | 0 => rfl
    | 1 => rfl
    | 2 => rfl
    | 3 => rfl
    | o + 4 =>
      have hw := winv_later (winv_start conf0 2) r7
      refine Nat.eq_zero_of_not_pos (fun hh => ?_)
      obtain ⟨x, hx⟩ := Option.isSome_iff_exists.mp (held_live hw (p := 1) (by omega) hh)
      have : o + 4 < 4 := (inv_reach hw.reach).g.bound _ x hx
      omega
  · rintro ⟨p, hp, hd, hh⟩
    match p, hp with
    | 0, _ => exact absurd hh (by decide)
    | 1, _ => cases hd

end Arax.Object.Killed
