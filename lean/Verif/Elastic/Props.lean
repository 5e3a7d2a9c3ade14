import Verif.Elastic.Model
/-!
# C69: the Elastic scheduler
-/
set_option linter.unusedSimpArgs false
namespace Arax.Elastic

/-! ## Specification -/

/-- A task found an argument as it should be: nobody has written it yet, or it is on the device of the worker that runs the task and holds what was written last. -/
def Seen.Good (e : Seen) : Prop := e.want = none ∨ (e.on = some e.worker ∧ e.want = some e.got)

/-- Every data object that has device memory has it on the device its virtual accelerator is assigned to. -/
def Settled (cf : Conf) (s : St) : Prop := ∀ d q, s.loc d = some q → s.vphys (cf.vac d) = some q

/-- The history is quiet: a virtual accelerator is assigned only when the data of the ones moved earlier has followed, and a worker picks a task only
with an up to date list of its virtual accelerators. -/
def Quiet (cf : Conf) : St → List Event → Prop
  | _, [] => True
  | s, e :: h => (match e with
      | .assign _ => Settled cf s
      | .pick p _ => s.snap p = s.list p
      | _ => True) ∧ Quiet cf (step cf s e) h

/-- No two accelerators share a `free_vaq` (each `arax_accel_init` creates its own, arax_accel.c:22). -/
def FreeVaqs (cf : Conf) : Prop := ∀ p q, cf.freev p = cf.freev q → p = q

theorem upd_same {α : Type} (f : Nat → α) (i : Nat) (a : α) : upd f i a i = a := by simp [upd]

theorem upd_other {α : Type} (f : Nat → α) {i j : Nat} (a : α) (h : j ≠ i) : upd f i a j = f j := by simp [upd, h]

/-! ## Lists and `phys` -/

/-- Every virtual accelerator in the list of `p` has `phys = p`. -/
def Listed (s : St) : Prop := ∀ p v, v ∈ s.list p → s.vphys v = some p

theorem listed_init (cf : Conf) (hf : FreeVaqs cf) (n : Nat) : Listed (init cf n) := by
  intro p v h
  simp only [init] at h ⊢
  split at h
  · rename_i hp
    simp only [List.mem_singleton] at h
    subst h
    rcases e : (List.range n).find? (fun q => cf.freev q == cf.freev p) with _ | q
    · exfalso
      have := List.find?_eq_none.1 e p (List.mem_range.2 hp)
      simp at this
    · have := List.find?_some e
      simp only [beq_iff_eq] at this
      rw [hf _ _ this]
  · cases h

theorem listed_add {s : St} (hl : Listed s) (p v : Nat) : Listed (addVac s p v) := by
  unfold addVac
  split
  · exact hl
  · split
    · rename_i hn
      intro q w h
      show upd s.vphys v (some p) w = some q
      replace h : w ∈ upd s.list p (v :: s.list p) q := h
      by_cases hv : w = v
      · subst hv
        rw [upd_same]
        by_cases hq : q = p
        · rw [hq]
        · rw [upd_other _ _ hq] at h
          have := hl q w h
          rw [hn] at this; cases this
      · rw [upd_other _ _ hv]
        by_cases hq : q = p
        · subst hq
          rw [upd_same] at h
          rcases List.mem_cons.1 h with a | a
          · exact absurd a hv
          · exact hl q w a
        · rw [upd_other _ _ hq] at h; exact hl q w h
    · exact hl

theorem listed_del {s : St} (hl : Listed s) (p v : Nat) : Listed (delVac s p v) := by
  unfold delVac
  split
  · rename_i hp
    intro q w h
    show upd s.vphys v none w = some q
    replace h : w ∈ upd s.list p ((s.list p).filter (· ≠ v)) q := h
    by_cases hv : w = v
    · subst hv
      exfalso
      by_cases hq : q = p
      · subst hq; rw [upd_same] at h; simp at h
      · rw [upd_other _ _ hq] at h
        have := hl q w h
        rw [hp] at this; cases this; exact hq rfl
    · rw [upd_other _ _ hv]
      by_cases hq : q = p
      · subst hq
        rw [upd_same] at h
        exact hl q w (List.mem_filter.1 h).1
      · rw [upd_other _ _ hq] at h; exact hl q w h
  · exact hl

/-- What `moveOne` leaves alone, and where the moved virtual accelerator went. -/
structure Moved (s s' : St) : Prop where
  queue : s'.queue = s.queue
  loc : s'.loc = s.loc
  dphys : s'.dphys = s.dphys
  dev : s'.dev = s.dev
  want : s'.want = s.want
  seen : s'.seen = s.seen
  placed : s'.placed = s.placed
  it : s'.it = s.it
  calls : s'.calls = s.calls
  ub : s'.ub = s.ub
  snap : s'.snap = s.snap
  avail : s'.avail = s.avail

theorem Moved.trans {a b c : St} (h : Moved a b) (k : Moved b c) : Moved a c :=
  ⟨k.queue.trans h.queue, k.loc.trans h.loc, k.dphys.trans h.dphys, k.dev.trans h.dev, k.want.trans h.want, k.seen.trans h.seen, k.placed.trans h.placed,
    k.it.trans h.it, k.calls.trans h.calls, k.ub.trans h.ub, k.snap.trans h.snap, k.avail.trans h.avail⟩

theorem moved_refl (s : St) : Moved s s := ⟨rfl, rfl, rfl, rfl, rfl, rfl, rfl, rfl, rfl, rfl, rfl, rfl⟩

theorem moved_add (s : St) (p v : Nat) : Moved s (addVac s p v) := by
  unfold addVac
  split
  · exact moved_refl s
  · split <;> exact ⟨rfl, rfl, rfl, rfl, rfl, rfl, rfl, rfl, rfl, rfl, rfl, rfl⟩

theorem moved_del (s : St) (p v : Nat) : Moved s (delVac s p v) := by
  unfold delVac
  split <;> exact ⟨rfl, rfl, rfl, rfl, rfl, rfl, rfl, rfl, rfl, rfl, rfl, rfl⟩

theorem moved_moveOne (cf : Conf) (s : St) (cur nxt : Nat) : Moved s (moveOne cf s cur nxt) := by
  unfold moveOne
  split
  · exact moved_refl s
  · rename_i m _
    have h1 : Moved s { s with mig := some m } := ⟨rfl, rfl, rfl, rfl, rfl, rfl, rfl, rfl, rfl, rfl, rfl, rfl⟩
    exact (h1.trans (moved_del { s with mig := some m } cur m)).trans (moved_add _ _ _)

theorem add_vphys (s : St) (p v w : Nat) (h : w ≠ v) : (addVac s p v).vphys w = s.vphys w := by
  unfold addVac
  split
  · rfl
  · split
    · exact upd_other _ _ h
    · rfl

theorem del_vphys (s : St) (p v w : Nat) (h : w ≠ v) : (delVac s p v).vphys w = s.vphys w := by
  unfold delVac
  split
  · exact upd_other _ _ h
  · rfl

theorem add_mig (s : St) (p v : Nat) : (addVac s p v).mig = s.mig := by
  unfold addVac; split
  · rfl
  · split <;> rfl

theorem del_mig (s : St) (p v : Nat) : (delVac s p v).mig = s.mig := by unfold delVac; split <;> rfl

/-- Moving one virtual accelerator: only that one's `phys` changes, and it is the one marked for migration. -/
theorem moveOne_vphys (cf : Conf) (s : St) (cur nxt : Nat) (v : Nat) :
    (moveOne cf s cur nxt).vphys v = s.vphys v ∧ ((moveOne cf s cur nxt).mig = s.mig) ∨ (moveOne cf s cur nxt).mig = some v ∨
      ((moveOne cf s cur nxt).vphys v = s.vphys v) := by
  unfold moveOne
  split
  · exact Or.inl ⟨rfl, rfl⟩
  · rename_i m _
    by_cases h : v = m
    · subst h
      exact Or.inr (Or.inl (by rw [add_mig, del_mig]))
    · exact Or.inr (Or.inr (by rw [add_vphys _ _ _ _ h, del_vphys _ _ _ _ h]))

theorem listed_moveOne (cf : Conf) {s : St} (hl : Listed s) (cur nxt : Nat) : Listed (moveOne cf s cur nxt) := by
  unfold moveOne
  split
  · exact hl
  · rename_i m _
    exact listed_add (listed_del (s := { s with mig := some m }) hl cur m) nxt m

/-! ## Round robin -/

structure RR (a : Nat) (l : List Nat) (s : St) : Prop where
  pos : s.it = none ∧ s.placed = [] ∨ ∃ i, i < l.length ∧ s.it = some (a + i + 1) ∧ s.placed ≠ [] ∧ (i + 1) % l.length = s.placed.length % l.length
  at_ : ∀ i v p, s.placed[i]? = some (v, p) → p = l.getD (i % l.length) 0
  noub : s.ub = false

theorem run_frame (cf : Conf) (s : St) (p v : Nat) (t : Task) :
    (run cf s p v t).it = s.it ∧ (run cf s p v t).placed = s.placed ∧ (run cf s p v t).ub = s.ub ∧ (run cf s p v t).vphys = s.vphys ∧
      (run cf s p v t).list = s.list ∧ (run cf s p v t).mig = s.mig ∧ (run cf s p v t).queue = s.queue ∧ (run cf s p v t).snap = s.snap ∧
      (run cf s p v t).calls = s.calls := by
  let P : St → Prop := fun x => x.it = s.it ∧ x.placed = s.placed ∧ x.ub = s.ub ∧ x.vphys = s.vphys ∧ x.list = s.list ∧ x.mig = s.mig ∧ x.queue = s.queue ∧
    x.snap = s.snap ∧ x.calls = s.calls
  have h0 : P s := ⟨rfl, rfl, rfl, rfl, rfl, rfl, rfl, rfl, rfl⟩
  have ha : ∀ x d, P x → P (allocRemote cf x p d) := by
    intro x d h; unfold allocRemote
    split
    · exact h
    · split <;> exact h
  have hfr : ∀ x d, P x → P (freeRemote cf x d) := by
    intro x d h; unfold freeRemote
    split
    · exact h
    · split <;> exact h
  have hf : ∀ x d, P x → P (fromRemote1 cf p x d) := by
    intro x d h; unfold fromRemote1
    split
    · exact h
    · split
      · exact h
      · apply hfr
        split
        · exact h
        · exact h
  have ht : ∀ x d, P x → P (toRemote1 cf p x d) := by
    intro x d h; unfold toRemote1
    split
    · exact h
    · exact ha x d h
  have hw : ∀ y x d, P x → P (write1 y x d) := fun y x d h => h
  have fold : ∀ (f : St → Nat → St), (∀ x d, P x → P (f x d)) → ∀ (l : List Nat) x, P x → P (l.foldl f x) := by
    intro f hf l
    induction l with
    | nil => exact fun x h => h
    | cons d l ih => exact fun x h => ih _ (hf x d h)
  show P (run cf s p v t)
  unfold run
  apply fold _ (hw _)
  have h1 : P (if s.mig = some v then migrate cf s p (t.ins ++ t.outs) else s) := by
    split
    · unfold migrate
      split
      · exact fold _ ht _ _ (fold _ hf _ _ h0)
      · exact h0
    · exact h0
  exact fold _ ha _ _ h1

theorem position_in {a i n : Nat} (h : i < n) : position (some (a + i)) a n = some i := by
  unfold position
  have h1 : ¬(a + i = a + n) := by omega
  simp only [Option.getD_some, if_neg h1]
  have h2 : a ≤ a + i ∧ a + i < a + n := by omega
  rw [if_pos h2]; congr 1; omega

theorem position_first {a n : Nat} (h : 0 < n) : position none a n = some 0 := by
  unfold position
  have h1 : ¬(a = a + n) := by omega
  simp only [Option.getD_none, if_neg h1]
  have h2 : a ≤ a ∧ a < a + n := by omega
  rw [if_pos h2]; congr 1; omega

theorem position_end {a n : Nat} (h : 0 < n) : position (some (a + n)) a n = some 0 := by
  unfold position
  simp only [Option.getD_some, if_true]
  have h2 : a ≤ a ∧ a < a + n := by omega
  rw [if_pos h2]; congr 1; omega

theorem rr_assign {cf : Conf} {a ty : Nat} (ha : ∀ k, cf.addr k = a) (hne : cf.accs ty ≠ []) {s : St} (hi : RR a (cf.accs ty) s) {v : Nat} (hv : cf.vtype v = ty) :
    RR a (cf.accs ty) (assignVac cf s v) := by
  have hn : 0 < (cf.accs ty).length := List.length_pos_iff.2 hne
  obtain ⟨i, hp, hi1, hi2⟩ : ∃ i, position s.it (cf.addr s.calls) (cf.accs (cf.vtype v)).length = some i ∧ i < (cf.accs ty).length ∧
      i = s.placed.length % (cf.accs ty).length := by
    rw [ha, hv]
    rcases hi.pos with ⟨h1, h2⟩ | ⟨j, hj, h1, _, h3⟩
    · refine ⟨0, ?_, hn, by simp [h2]⟩
      rw [h1]; exact position_first hn
    · rw [h1]
      by_cases he : j + 1 = (cf.accs ty).length
      · refine ⟨0, ?_, hn, ?_⟩
        · rw [← he, Nat.add_assoc]; exact position_end (by omega)
        · rw [← h3, he, Nat.mod_self]
      · refine ⟨j + 1, ?_, by omega, ?_⟩
        · rw [Nat.add_assoc]; exact position_in (by omega)
        · rw [← h3, Nat.mod_eq_of_lt (by omega)]
  unfold assignVac
  simp only
  rw [hp]
  simp only
  have hm : ∀ x : St, Moved { s with calls := s.calls + 1 } x → RR a (cf.accs ty) x ∧ x.placed = s.placed := by
    intro x m
    refine ⟨⟨?_, ?_, ?_⟩, m.placed⟩
    · rw [m.it, m.placed]; exact hi.pos
    · rw [m.placed]; exact hi.at_
    · rw [m.ub]; exact hi.noub
  rw [hv, ha]
  generalize hx : (if s.snap ((cf.accs ty).getD i 0) ≠ [] then
      moveOne cf { s with calls := s.calls + 1 } ((cf.accs ty).getD i 0) ((cf.accs ty).getD (if i + 1 = (cf.accs ty).length then 0 else i + 1) 0)
      else { s with calls := s.calls + 1 }) = x
  have mx : Moved { s with calls := s.calls + 1 } x := by
    rw [← hx]
    split
    · exact moved_moveOne _ _ _ _
    · exact moved_refl _
  split
  · exact (hm x mx).1
  · have my := mx.trans (moved_add x ((cf.accs ty).getD i 0) v)
    obtain ⟨ry, py⟩ := hm _ my
    refine ⟨Or.inr ⟨i, hi1, rfl, by simp, ?_⟩, ?_, ry.noub⟩
    · show (i + 1) % _ = ((addVac x ((cf.accs ty).getD i 0) v).placed ++ [(v, (cf.accs ty).getD i 0)]).length % _
      rw [py, List.length_append, List.length_singleton, hi2, Nat.mod_add_mod]
    · intro k w p hk
      replace hk : ((addVac x ((cf.accs ty).getD i 0) v).placed ++ [(v, (cf.accs ty).getD i 0)])[k]? = some (w, p) := hk
      rw [py, List.getElem?_append] at hk
      split at hk
      · exact hi.at_ k w p hk
      · rename_i hlt
        rw [List.getElem?_singleton] at hk
        split at hk
        · cases hk
          rw [hi2]
          congr 2; omega
        · cases hk

theorem rr_step {cf : Conf} {a ty : Nat} (ha : ∀ k, cf.addr k = a) (hne : cf.accs ty ≠ []) {s : St} (hi : RR a (cf.accs ty) s) {e : Event}
    (he : ∀ v, e = .assign v → cf.vtype v = ty) : RR a (cf.accs ty) (step cf s e) := by
  have same : ∀ x : St, x.it = s.it → x.placed = s.placed → x.ub = s.ub → RR a (cf.accs ty) x := by
    intro x h1 h2 h3
    exact ⟨by rw [h1, h2]; exact hi.pos, by rw [h2]; exact hi.at_, by rw [h3]; exact hi.noub⟩
  unfold step
  split
  · exact hi
  · cases e with
    | assign v =>
      simp only
      split
      · exact rr_assign ha hne hi (he v rfl)
      · exact hi
    | submit v t => simp only; split <;> exact same _ rfl rfl rfl
    | refresh p => exact same _ rfl rfl rfl
    | pick p v =>
      simp only
      split
      · cases s.queue v with
        | nil => exact hi
        | cons t r =>
          obtain ⟨h1, h2, h3, _⟩ := run_frame cf { s with queue := upd s.queue v r } p v t
          exact same _ h1 h2 h3
      · exact hi
    | free d =>
      simp only
      split
      · split <;> exact same _ rfl rfl rfl
      · exact hi

theorem rr_exec {cf : Conf} {a ty : Nat} (ha : ∀ k, cf.addr k = a) (hne : cf.accs ty ≠ []) : ∀ {h : List Event} {s : St}, RR a (cf.accs ty) s →
    (∀ v, .assign v ∈ h → cf.vtype v = ty) → RR a (cf.accs ty) (exec cf s h)
  | [], _, hi, _ => hi
  | e :: h, s, hi, hv => rr_exec ha hne (h := h) (s := step cf s e) (rr_step ha hne hi (fun v h => hv v (by simp [h]))) (fun v h => hv v (List.mem_cons_of_mem _ h))

/-- **C69 (spreading).** If all virtual accelerators have one type, there is an accelerator of that type, and every call of `assignVac` gets its local vector at the
same address, the i-th virtual accelerator assigned goes to the i-th accelerator of the type (cyclically), in every history; and no iterator is ever dereferenced outside its vector. -/
theorem C69_round_robin_partial (cf : Conf) (nacc a ty : Nat) (ha : ∀ k, cf.addr k = a) (hne : cf.accs ty ≠ []) (h : List Event)
    (hv : ∀ v, .assign v ∈ h → cf.vtype v = ty) :
    (exec cf (init cf nacc) h).ub = false ∧
    ∀ i v p, (exec cf (init cf nacc) h).placed[i]? = some (v, p) → (cf.accs ty)[i % (cf.accs ty).length]? = some p := by
  have hr : RR a (cf.accs ty) (exec cf (init cf nacc) h) :=
    rr_exec ha hne (s := init cf nacc) ⟨Or.inl ⟨rfl, rfl⟩, fun i v p h => (by simp [init] at h), rfl⟩ hv
  refine ⟨hr.noub, fun i v p hp => ?_⟩
  have := hr.at_ i v p hp
  have hl : i % (cf.accs ty).length < (cf.accs ty).length := Nat.mod_lt _ (List.length_pos_iff.2 hne)
  rw [this, List.getD_eq_getElem?_getD, List.getElem?_eq_getElem hl]; rfl

theorem addVac_aborted {s : St} (h : s.aborted = true) (p v : Nat) : (addVac s p v).aborted = true := by
  unfold addVac; split
  · exact h
  · split
    · exact h
    · rfl

/-- What it means to be assigned: a call of `assignVac` for an orphan that neither aborts nor leaves its vector ends with the virtual accelerator on the accelerator recorded. -/
theorem C69_assigned (cf : Conf) (s : St) (v : Nat) (h0 : s.aborted = false) (h1 : s.ub = false) (h2 : (step cf s (.assign v)).aborted = false)
    (h3 : (step cf s (.assign v)).ub = false) (ho : s.vphys v = none) :
    ∃ p, (step cf s (.assign v)).placed = s.placed ++ [(v, p)] ∧
      (step cf s (.assign v)).vphys v = some p ∧ v ∈ (step cf s (.assign v)).list p := by
  unfold step at *
  rw [if_neg (by simp [h0, h1])] at *
  simp only [if_pos ho] at *
  unfold assignVac at *
  simp only at *
  split at h2
  · rename_i hp; rw [hp] at h3; cases h3
  · rename_i i hp
    rw [hp] at h3
    simp only at h2 h3 ⊢
    generalize hc : (cf.accs (cf.vtype v)).getD i 0 = cur at h2 h3 ⊢
    generalize hn : (cf.accs (cf.vtype v)).getD (if i + 1 = (cf.accs (cf.vtype v)).length then 0 else i + 1) 0 = nxt at h2 h3 ⊢
    generalize hx : (if s.snap cur ≠ [] then moveOne cf { s with calls := s.calls + 1 } cur nxt else { s with calls := s.calls + 1 }) = x at h2 h3 ⊢
    have mx : Moved { s with calls := s.calls + 1 } x := by
      rw [← hx]; split
      · exact moved_moveOne _ _ _ _
      · exact moved_refl _
    split at h2
    · rename_i hab; rw [hab] at h2; cases h2
    · rename_i hab
      rw [if_neg hab]
      refine ⟨cur, by simp only; rw [(moved_add x cur v).placed, mx.placed], ?_⟩
      have hxv : x.vphys v = none := by
        rw [← hx]
        by_cases hsn : s.snap cur ≠ []
        · rw [if_pos hsn]
          unfold moveOne
          split
          · exact ho
          · rename_i m hm
            have hmv : v ≠ m := by
              intro e
              subst e
              apply hab
              rw [← hx]
              rw [if_pos hsn]
              unfold moveOne
              rw [hm]
              simp only
              rw [addVac_aborted]
              unfold delVac
              rw [if_neg (by simp [ho])]
            rw [add_vphys _ _ _ _ hmv, del_vphys _ _ _ _ hmv]; exact ho
        · rw [if_neg hsn]; exact ho
      simp only
      unfold addVac
      rw [if_neg (by rw [hxv]; simp), if_pos hxv]
      exact ⟨upd_same _ _ _, by show v ∈ upd x.list cur (v :: x.list cur) cur; rw [upd_same]; simp⟩

/-! ## Placement of the data -/

/-- The part of the invariant about data objects; `vp` is `vphys`, `mg` is `vaq4migration`. -/
structure DInv (cf : Conf) (s : St) : Prop where
  same : ∀ d, s.loc d = s.dphys d
  follow : ∀ d q, s.loc d = some q → s.vphys (cf.vac d) = some q ∨ s.mig = some (cf.vac d)
  have_ : ∀ d x, s.want d = some x → s.loc d ≠ none ∧ s.dev d = x

structure PInv (cf : Conf) (s : St) : Prop extends DInv cf s where
  listed : Listed s
  mine : ∀ v t, t ∈ s.queue v → ∀ d ∈ t.ins ++ t.outs, cf.vac d = v
  good : ∀ e ∈ s.seen, e.Good

theorem pinv_init (cf : Conf) (hf : FreeVaqs cf) (n : Nat) : PInv cf (init cf n) where
  same := fun _ => rfl
  follow := fun d q h => (by simp [init] at h)
  have_ := fun d x h => (by simp [init] at h)
  listed := listed_init cf hf n
  mine := fun v t h => (by simp [init] at h)
  good := fun e h => (by simp [init] at h)

theorem pinv_assign {cf : Conf} {s : St} (hi : PInv cf s) (hq : Settled cf s) (v : Nat) (ho : s.vphys v = none) : PInv cf (assignVac cf s v) := by
  unfold assignVac
  simp only
  split
  · exact ⟨⟨hi.same, hi.follow, hi.have_⟩, hi.listed, hi.mine, hi.good⟩
  · rename_i i _
    generalize (cf.accs (cf.vtype v)).getD i 0 = cur
    generalize (cf.accs (cf.vtype v)).getD (if i + 1 = (cf.accs (cf.vtype v)).length then 0 else i + 1) 0 = nxt
    have key : ∀ x : St, Moved { s with calls := s.calls + 1 } x → Listed x → (∀ w, x.vphys w = s.vphys w ∨ x.mig = some w ∨ s.vphys w = none) → PInv cf x := by
      intro x m hl hw
      refine ⟨⟨?_, ?_, ?_⟩, hl, ?_, ?_⟩
      · intro d; rw [m.loc, m.dphys]; exact hi.same d
      · intro d q h
        rw [m.loc] at h
        have h1 := hq d q h
        rcases hw (cf.vac d) with a | a | a
        · exact Or.inl (a.trans h1)
        · exact Or.inr a
        · rw [h1] at a; cases a
      · intro d x h; rw [m.want] at h; rw [m.loc, m.dev]; exact hi.have_ d x h
      · intro w t h; rw [m.queue] at h; exact hi.mine w t h
      · rw [m.seen]; exact hi.good
    generalize hx : (if s.snap cur ≠ [] then moveOne cf { s with calls := s.calls + 1 } cur nxt else { s with calls := s.calls + 1 }) = x
    have mx : Moved { s with calls := s.calls + 1 } x := by
      rw [← hx]; split
      · exact moved_moveOne _ _ _ _
      · exact moved_refl _
    have lx : Listed x := by
      rw [← hx]; split
      · exact listed_moveOne cf (s := { s with calls := s.calls + 1 }) hi.listed _ _
      · exact hi.listed
    have wx : ∀ w, x.vphys w = s.vphys w ∨ x.mig = some w := by
      intro w
      rw [← hx]; split
      · rcases moveOne_vphys cf { s with calls := s.calls + 1 } cur nxt w with ⟨a, _⟩ | a | a
        · exact Or.inl a
        · exact Or.inr a
        · exact Or.inl a
      · exact Or.inl rfl
    split
    · exact key x mx lx (fun w => (wx w).elim Or.inl (fun h => Or.inr (Or.inl h)))
    · have my := mx.trans (moved_add x cur v)
      have := key _ my (listed_add lx cur v) (fun w => by
        by_cases e : w = v
        · exact Or.inr (Or.inr (e ▸ ho))
        · rw [add_vphys _ _ _ _ e, add_mig]
          exact (wx w).elim Or.inl (fun h => Or.inr (Or.inl h)))
      exact ⟨⟨this.same, this.follow, this.have_⟩, this.listed, this.mine, this.good⟩

/-- While a task of virtual accelerator `v`, which is on `p`, is prepared; `s0` is the state before, `args` its arguments. -/
structure Mid (cf : Conf) (p v : Nat) (args : List Nat) (s0 s : St) : Prop where
  same : ∀ d, s.loc d = s.dphys d
  follow : ∀ d q, s.loc d = some q → s.vphys (cf.vac d) = some q ∨ s.mig = some (cf.vac d)
  have_ : ∀ d x, s.want d = some x → (s.loc d ≠ none ∧ s.dev d = x) ∨ (d ∈ args ∧ s.loc d = none ∧ s.host d = x)
  vphys : s.vphys = s0.vphys
  mig : s.mig = s0.mig
  seen : s.seen = s0.seen
  queue : s.queue = s0.queue
  list : s.list = s0.list
  onp : s.vphys v = some p

variable {cf : Conf} {p v : Nat} {args : List Nat} {s0 s : St}

theorem mid_alloc (hr : Mid cf p v args s0 s) {d : Nat} (hd : cf.vac d = v) (hw : s.want d = none ∨ s.loc d ≠ none) : Mid cf p v args s0 (allocRemote cf s p d) := by
  unfold allocRemote
  by_cases hl : s.loc d = none
  · have hn : ¬ (s.loc d ≠ none) := by simpa using hl
    rw [if_neg hn, hd, hr.onp]
    simp only
    refine ⟨?_, ?_, ?_, hr.vphys, hr.mig, hr.seen, hr.queue, hr.list, hr.onp⟩
    · intro e
      show upd s.loc d (some p) e = upd s.dphys d (some p) e
      by_cases he : e = d
      · rw [he, upd_same, upd_same]
      · rw [upd_other _ _ he, upd_other _ _ he]; exact hr.same e
    · intro e q h
      replace h : upd s.loc d (some p) e = some q := h
      by_cases he : e = d
      · rw [he, upd_same] at h; cases h
        left; show s.vphys _ = _
        rw [he, hd]; exact hr.onp
      · rw [upd_other _ _ he] at h; exact hr.follow e q h
    · intro e x h
      replace h : s.want e = some x := h
      have he : e ≠ d := by
        intro he; subst he
        rcases hw with hw | hw
        · rw [hw] at h; cases h
        · exact hw hl
      show (upd s.loc d (some p) e ≠ none ∧ s.dev e = x) ∨ (e ∈ args ∧ upd s.loc d (some p) e = none ∧ s.host e = x)
      rw [upd_other _ _ he]
      exact hr.have_ e x h
  · have hn : s.loc d ≠ none := hl
    rw [if_pos hn]
    exact hr

theorem alloc_loc (hr : Mid cf p v args s0 s) {d : Nat} (hd : cf.vac d = v) : (s.loc d = none → (allocRemote cf s p d).loc d = some p) ∧
    (∀ e, e ≠ d ∨ s.loc e ≠ none → (allocRemote cf s p d).loc e = s.loc e) ∧ (allocRemote cf s p d).want = s.want ∧ (allocRemote cf s p d).dev = s.dev := by
  unfold allocRemote
  by_cases hl : s.loc d = none
  · have hn : ¬ (s.loc d ≠ none) := by simpa using hl
    rw [if_neg hn, hd, hr.onp]
    refine ⟨fun _ => upd_same _ _ _, fun e h => ?_, rfl, rfl⟩
    have he : e ≠ d := h.elim id (fun h he => h (he ▸ hl))
    exact upd_other _ _ he
  · have hn : s.loc d ≠ none := hl
    rw [if_pos hn]
    exact ⟨fun h => absurd h hn, fun _ _ => rfl, rfl, rfl⟩

theorem mid_from (hr : Mid cf p v args s0 s) {d : Nat} (ha : d ∈ args) (hd : cf.vac d = v) :
    Mid cf p v args s0 (fromRemote1 cf p s d) ∧ ((fromRemote1 cf p s d).loc d = none ∨ (fromRemote1 cf p s d).loc d = some p) ∧
      ∀ e, e ≠ d → (fromRemote1 cf p s d).loc e = s.loc e := by
  unfold fromRemote1
  have hs := hr.same d
  split
  · rename_i hp; exact ⟨hr, Or.inl (hs.trans hp), fun _ _ => rfl⟩
  · rename_i q hp
    split
    · rename_i hq; subst hq; exact ⟨hr, Or.inr (hs.trans hp), fun _ _ => rfl⟩
    · have hl : s.loc d ≠ none := by rw [hs, hp]; simp
      simp only [if_pos hl]
      unfold freeRemote
      rw [if_neg hl]
      simp only [hd, hr.onp]
      refine ⟨⟨?_, ?_, ?_, hr.vphys, hr.mig, hr.seen, hr.queue, hr.list, hr.onp⟩, Or.inl (upd_same _ _ _), fun e he => upd_other _ _ he⟩
      · intro e
        show upd s.loc d none e = upd s.dphys d none e
        by_cases he : e = d
        · rw [he, upd_same, upd_same]
        · rw [upd_other _ _ he, upd_other _ _ he]; exact hr.same e
      · intro e q h
        replace h : upd s.loc d none e = some q := h
        by_cases he : e = d
        · rw [he, upd_same] at h; cases h
        · rw [upd_other _ _ he] at h; exact hr.follow e q h
      · intro e x h
        replace h : s.want e = some x := h
        show (upd s.loc d none e ≠ none ∧ s.dev e = x) ∨ (e ∈ args ∧ upd s.loc d none e = none ∧ upd s.host d (s.dev d) e = x)
        by_cases he : e = d
        · subst he
          right
          rw [upd_same, upd_same]
          refine ⟨ha, rfl, ?_⟩
          rcases hr.have_ e x h with ⟨_, b⟩ | ⟨_, b, _⟩
          · exact b
          · exact absurd b hl
        · rw [upd_other _ _ he, upd_other _ _ he]; exact hr.have_ e x h

theorem mid_from_all {l : List Nat} (hs : ∀ d ∈ l, d ∈ args ∧ cf.vac d = v) : ∀ {s : St}, Mid cf p v args s0 s →
    Mid cf p v args s0 (l.foldl (fromRemote1 cf p) s) ∧
    (∀ d, d ∈ l ∨ s.loc d = none ∨ s.loc d = some p → (l.foldl (fromRemote1 cf p) s).loc d = none ∨ (l.foldl (fromRemote1 cf p) s).loc d = some p) := by
  induction l with
  | nil => exact fun hr => ⟨hr, fun d h => h.elim (fun h => by cases h) id⟩
  | cons d l ih =>
    intro s hr
    obtain ⟨h1, h2, h3⟩ := mid_from hr (hs d (by simp)).1 (hs d (by simp)).2
    obtain ⟨g1, g2⟩ := ih (fun e he => hs e (List.mem_cons_of_mem _ he)) h1
    refine ⟨g1, fun e he => g2 e ?_⟩
    by_cases hed : e = d
    · exact Or.inr (hed ▸ h2)
    · rw [h3 e hed]
      rcases he with he | he
      · exact Or.inl ((List.mem_cons.1 he).elim (fun h => absurd h hed) id)
      · exact Or.inr he

theorem mid_to (hr : Mid cf p v args s0 s) {d : Nat} (hd : cf.vac d = v) (hl : s.loc d = none ∨ s.loc d = some p) :
    Mid cf p v args s0 (toRemote1 cf p s d) ∧ (toRemote1 cf p s d).loc d = some p ∧ ∀ e, e ≠ d → (toRemote1 cf p s d).loc e = s.loc e := by
  unfold toRemote1
  split
  · rename_i hp
    exact ⟨hr, (hr.same d).trans hp, fun _ _ => rfl⟩
  · rename_i hp
    have hn : s.loc d = none := hl.elim id (fun h => absurd ((hr.same d).symm.trans h) hp)
    simp only
    unfold allocRemote
    have hn' : ¬ (s.loc d ≠ none) := by simpa using hn
    rw [if_neg hn', hd, hr.onp]
    simp only
    refine ⟨⟨?_, ?_, ?_, hr.vphys, hr.mig, hr.seen, hr.queue, hr.list, hr.onp⟩, upd_same _ _ _, fun e he => upd_other _ _ he⟩
    · intro e
      show upd s.loc d (some p) e = upd s.dphys d (some p) e
      by_cases he : e = d
      · rw [he, upd_same, upd_same]
      · rw [upd_other _ _ he, upd_other _ _ he]; exact hr.same e
    · intro e q h
      replace h : upd s.loc d (some p) e = some q := h
      by_cases he : e = d
      · rw [he, upd_same] at h; cases h
        left; show s.vphys _ = _
        rw [he, hd]; exact hr.onp
      · rw [upd_other _ _ he] at h; exact hr.follow e q h
    · intro e x h
      replace h : s.want e = some x := h
      show (upd s.loc d (some p) e ≠ none ∧ upd s.dev d (s.host d) e = x) ∨ (e ∈ args ∧ upd s.loc d (some p) e = none ∧ s.host e = x)
      by_cases he : e = d
      · subst he
        left
        rw [upd_same, upd_same]
        refine ⟨by simp, ?_⟩
        rcases hr.have_ e x h with ⟨b, _⟩ | ⟨_, _, b⟩
        · exact absurd hn b
        · exact b
      · rw [upd_other _ _ he, upd_other _ _ he]; exact hr.have_ e x h

theorem mid_to_all {l : List Nat} (hs : ∀ d ∈ l, cf.vac d = v) : ∀ {s : St}, Mid cf p v args s0 s → (∀ d ∈ l, s.loc d = none ∨ s.loc d = some p) →
    Mid cf p v args s0 (l.foldl (toRemote1 cf p) s) ∧
    (∀ d, d ∈ l ∨ s.loc d = some p → (l.foldl (toRemote1 cf p) s).loc d = some p) := by
  induction l with
  | nil => exact fun hr _ => ⟨hr, fun d h => h.elim (fun h => by cases h) id⟩
  | cons d l ih =>
    intro s hr hl
    obtain ⟨h1, h2, h3⟩ := mid_to hr (hs d (by simp)) (hl d (by simp))
    obtain ⟨g1, g2⟩ := ih (fun e he => hs e (List.mem_cons_of_mem _ he)) h1 (fun e he => by
      by_cases hed : e = d
      · exact Or.inr (hed ▸ h2)
      · rw [h3 e hed]; exact hl e (List.mem_cons_of_mem _ he))
    refine ⟨g1, fun e he => g2 e ?_⟩
    by_cases hed : e = d
    · exact Or.inr (hed ▸ h2)
    · rw [h3 e hed]
      rcases he with he | he
      · exact Or.inl ((List.mem_cons.1 he).elim (fun h => absurd h hed) id)
      · exact Or.inr he

theorem mid_alloc_all {l : List Nat} (hs : ∀ d ∈ l, cf.vac d = v) : ∀ {s : St}, Mid cf p v args s0 s → (∀ d x, s.want d = some x → s.loc d ≠ none) →
    (∀ d ∈ args, s.loc d = none ∨ s.loc d = some p) →
    Mid cf p v args s0 (l.foldl (fun s d => allocRemote cf s p d) s) ∧
    (∀ d x, (l.foldl (fun s d => allocRemote cf s p d) s).want d = some x → (l.foldl (fun s d => allocRemote cf s p d) s).loc d ≠ none) ∧
    (∀ d ∈ args, (l.foldl (fun s d => allocRemote cf s p d) s).loc d = none ∨ (l.foldl (fun s d => allocRemote cf s p d) s).loc d = some p) ∧
    (∀ d, d ∈ l ∨ s.loc d ≠ none → (l.foldl (fun s d => allocRemote cf s p d) s).loc d ≠ none) := by
  induction l with
  | nil => exact fun hr hw ha => ⟨hr, hw, ha, fun d h => h.elim (fun h => by cases h) id⟩
  | cons d l ih =>
    intro s hr hw ha
    obtain ⟨b1, b2, b3, b4⟩ := alloc_loc hr (hs d (by simp))
    have h1 := mid_alloc hr (hs d (by simp)) (by
      cases e : s.want d with
      | none => exact Or.inl rfl
      | some x => exact Or.inr (hw d x e))
    have keep : ∀ e, s.loc e ≠ none → (allocRemote cf s p d).loc e ≠ none := fun e he => by rw [b2 e (Or.inr he)]; exact he
    have hd' : (allocRemote cf s p d).loc d ≠ none := by
      by_cases hn : s.loc d = none
      · rw [b1 hn]; simp
      · exact keep d hn
    obtain ⟨g1, g2, g3, g4⟩ := ih (fun e he => hs e (List.mem_cons_of_mem _ he)) h1 (fun e x he => keep e (hw e x (b3 ▸ he))) (fun e he => by
      by_cases hed : e = d
      · subst hed
        by_cases hn : s.loc e = none
        · exact Or.inr (b1 hn)
        · rw [b2 e (Or.inr hn)]; exact ha e he
      · rw [b2 e (Or.inl hed)]; exact ha e he)
    refine ⟨g1, g2, g3, fun e he => g4 e ?_⟩
    by_cases hed : e = d
    · exact Or.inr (hed ▸ hd')
    · rcases he with he | he
      · exact Or.inl ((List.mem_cons.1 he).elim (fun h => absurd h hed) id)
      · exact Or.inr (keep e he)

theorem dinv_write {x : Nat} {l : List Nat} : ∀ {s : St}, DInv cf s → (∀ d ∈ l, s.loc d ≠ none) → DInv cf (l.foldl (write1 x) s) ∧
    (l.foldl (write1 x) s).seen = s.seen := by
  induction l with
  | nil => exact fun h _ => ⟨h, rfl⟩
  | cons d l ih =>
    intro s h hl
    refine ih (s := write1 x s d) ⟨h.same, h.follow, ?_⟩ (fun e he => hl e (List.mem_cons_of_mem _ he))
    intro e y he
    replace he : upd s.want d (some x) e = some y := he
    show s.loc e ≠ none ∧ upd s.dev d x e = y
    by_cases hed : e = d
    · subst hed
      rw [upd_same] at he ⊢
      cases he
      exact ⟨hl e (by simp), rfl⟩
    · rw [upd_other _ _ hed] at he ⊢; exact h.have_ e y he

theorem pinv_run (hm : cf.migration = true) (hi : PInv cf s) {t : Task} (hp : s.vphys v = some p) (ht : ∀ d ∈ t.ins ++ t.outs, cf.vac d = v) :
    PInv cf (run cf s p v t) := by
  have hf := run_frame cf s p v t
  obtain ⟨_, _, _, fv, fl, fm, fq, _, _⟩ := hf
  have mid0 : Mid cf p v (t.ins ++ t.outs) s s :=
    ⟨hi.same, hi.follow, fun d x h => Or.inl (hi.have_ d x h), rfl, rfl, rfl, rfl, rfl, hp⟩
  suffices h : DInv cf (run cf s p v t) ∧ ∀ e ∈ (run cf s p v t).seen, e.Good from
    ⟨h.1, by unfold Listed; rw [fl, fv]; exact hi.listed, by rw [fq]; exact hi.mine, h.2⟩
  unfold run
  simp only
  generalize hx : (if s.mig = some v then migrate cf s p (t.ins ++ t.outs) else s) = x
  -- after the migration: everything allocated is on p, with its contents
  have hx1 : Mid cf p v (t.ins ++ t.outs) s x ∧ (∀ d ∈ t.ins ++ t.outs, x.loc d = none ∨ x.loc d = some p) ∧ (∀ d y, x.want d = some y → x.loc d ≠ none) := by
    rw [← hx]
    split
    · unfold migrate
      rw [if_pos hm]
      obtain ⟨h1, h2⟩ := mid_from_all (l := t.ins ++ t.outs) (fun d hd => ⟨hd, ht d hd⟩) mid0
      obtain ⟨h3, h4⟩ := mid_to_all (l := t.ins ++ t.outs) (fun d hd => ht d hd) h1 (fun d hd => h2 d (Or.inl hd))
      refine ⟨h3, fun d hd => Or.inr (h4 d (Or.inl hd)), fun d y hy => ?_⟩
      rcases h3.have_ d y hy with ⟨a, _⟩ | ⟨a, _, _⟩
      · exact a
      · rw [h4 d (Or.inl a)]; simp
    · rename_i hmv
      refine ⟨mid0, fun d hd => ?_, fun d y hy => (hi.have_ d y hy).1⟩
      cases e : s.loc d with
      | none => exact Or.inl rfl
      | some q =>
        right
        rcases hi.follow d q e with a | a
        · rw [ht d hd, hp] at a; exact a.symm
        · rw [ht d hd] at a; exact absurd a hmv
  obtain ⟨m1, l1, w1⟩ := hx1
  obtain ⟨m2, w2, l2, o2⟩ := mid_alloc_all (l := t.outs) (fun d hd => ht d (List.mem_append.2 (Or.inr hd))) m1 w1 l1
  generalize t.outs.foldl (fun s d => allocRemote cf s p d) x = y at m2 w2 l2 o2
  have hav : ∀ d z, y.want d = some z → y.loc d ≠ none ∧ y.dev d = z := by
    intro d z h
    rcases m2.have_ d z h with a | ⟨_, b, _⟩
    · exact a
    · exact absurd b (w2 d z h)
  obtain ⟨r1, r2⟩ := dinv_write (cf := cf) (x := t.val) (l := t.outs) (s := { y with seen := y.seen ++ (t.ins ++ t.outs).map (look y p) })
    ⟨m2.same, m2.follow, hav⟩ (fun d hd => o2 d (Or.inl hd))
  refine ⟨r1, ?_⟩
  rw [r2]
  intro e he
  rcases List.mem_append.1 he with he | he
  · rw [m2.seen] at he; exact hi.good e he
  · obtain ⟨d, hd, rfl⟩ := List.mem_map.1 he
    unfold look Seen.Good
    cases h : y.want d with
    | none => exact Or.inl rfl
    | some z =>
      right
      obtain ⟨a, b⟩ := hav d z h
      exact ⟨(l2 d hd).elim (fun h => absurd h a) id, by rw [b]⟩

theorem pinv_step (hm : cf.migration = true) (hi : PInv cf s) {e : Event} (hq : match e with
      | .assign _ => Settled cf s
      | .pick p _ => s.snap p = s.list p
      | _ => True) : PInv cf (step cf s e) := by
  unfold step
  split
  · exact hi
  · cases e with
    | assign v =>
      simp only
      split
      · rename_i ho; exact pinv_assign hi hq v ho
      · exact hi
    | submit v t =>
      simp only
      split
      · rename_i ht
        refine ⟨⟨hi.same, hi.follow, hi.have_⟩, hi.listed, ?_, hi.good⟩
        intro w u hu
        replace hu : u ∈ upd s.queue v (s.queue v ++ [t]) w := hu
        by_cases hw : w = v
        · subst hw
          rw [upd_same] at hu
          rcases List.mem_append.1 hu with a | a
          · exact hi.mine w u a
          · simp only [List.mem_singleton] at a; subst a; exact ht
        · rw [upd_other _ _ hw] at hu; exact hi.mine w u hu
      · exact hi
    | refresh p => exact ⟨⟨hi.same, hi.follow, hi.have_⟩, hi.listed, hi.mine, hi.good⟩
    | pick p v =>
      simp only
      split
      · rename_i hv
        cases e : s.queue v with
        | nil => exact hi
        | cons t r =>
          simp only
          have hq' : s.snap p = s.list p := hq
          apply pinv_run hm
          · refine ⟨⟨hi.same, hi.follow, hi.have_⟩, hi.listed, ?_, hi.good⟩
            intro w u hu
            replace hu : u ∈ upd s.queue v r w := hu
            by_cases hw : w = v
            · subst hw
              rw [upd_same] at hu
              exact hi.mine w u (by rw [e]; exact List.mem_cons_of_mem _ hu)
            · rw [upd_other _ _ hw] at hu; exact hi.mine w u hu
          · exact hi.listed p v (hq' ▸ hv)
          · exact hi.mine v t (by rw [e]; simp)
      · exact hi
    | free d =>
      simp only
      split
      · have hs := hi.same d
        have hw : ∀ e x, upd s.want d none e = some x → e ≠ d ∧ s.want e = some x := by
          intro e x h
          by_cases he : e = d
          · rw [he, upd_same] at h; cases h
          · rw [upd_other _ _ he] at h; exact ⟨he, h⟩
        split
        · refine ⟨⟨hi.same, hi.follow, fun e x h => ?_⟩, hi.listed, hi.mine, hi.good⟩
          exact hi.have_ e x (hw e x h).2
        · rename_i h1 h2; rw [h1, h2] at hs; cases hs
        · refine ⟨⟨fun e => ?_, fun e q h => ?_, fun e x h => ?_⟩, hi.listed, hi.mine, hi.good⟩
          · show upd s.loc d none e = upd s.dphys d none e
            by_cases he : e = d
            · rw [he, upd_same, upd_same]
            · rw [upd_other _ _ he, upd_other _ _ he]; exact hi.same e
          · replace h : upd s.loc d none e = some q := h
            by_cases he : e = d
            · rw [he, upd_same] at h; cases h
            · rw [upd_other _ _ he] at h; exact hi.follow e q h
          · obtain ⟨he, h⟩ := hw e x h
            show upd s.loc d none e ≠ none ∧ _
            rw [upd_other _ _ he]; exact hi.have_ e x h
      · exact hi

theorem pinv_exec (hm : cf.migration = true) : ∀ {h : List Event} {s : St}, PInv cf s → Quiet cf s h → PInv cf (exec cf s h)
  | [], _, hi, _ => hi
  | e :: h, s, hi, hq => pinv_exec hm (h := h) (s := step cf s e) (pinv_step hm hi hq.1) hq.2

/-- **C69 (data follows).** Built with `MIGRATION`, in every quiet history every executed task finds each argument that was written before on the device it
runs on, with the contents written last. -/
theorem C69_placement_partial (cf : Conf) (hm : cf.migration = true) (hf : FreeVaqs cf) (nacc : Nat) (h : List Event) (hq : Quiet cf (init cf nacc) h) :
    ∀ e ∈ (exec cf (init cf nacc) h).seen, e.Good := (pinv_exec hm (pinv_init cf hf nacc) hq).good

/-! ## No assertion fires -/

/-- Whenever a virtual accelerator is assigned, every worker's list of virtual accelerators is up to date (or still empty). -/
def Prompt (cf : Conf) : St → List Event → Prop
  | _, [] => True
  | s, e :: h => (match e with
      | .assign _ => ∀ p, s.snap p = s.list p ∨ s.snap p = []
      | _ => True) ∧ Prompt cf (step cf s e) h

structure AInv (cf : Conf) (s : St) : Prop where
  listed : Listed s
  snapped : ∀ p v, v ∈ s.snap p → s.vphys v ≠ none
  both : ∀ d, s.loc d = none ↔ s.dphys d = none
  mine : ∀ v t, t ∈ s.queue v → ∀ d ∈ t.ins ++ t.outs, cf.vac d = v
  alive : s.aborted = false

theorem upd_both {f g : Nat → Option Nat} (h : ∀ d, f d = none ↔ g d = none) (d : Nat) {a b : Option Nat} (hab : a = none ↔ b = none) :
    ∀ e, upd f d a e = none ↔ upd g d b e = none := by
  intro e
  by_cases he : e = d
  · rw [he, upd_same, upd_same]; exact hab
  · rw [upd_other _ _ he, upd_other _ _ he]; exact h e

theorem run_alive (hv : s.vphys v ≠ none) (hb : ∀ d, s.loc d = none ↔ s.dphys d = none) (ha : s.aborted = false) {t : Task}
    (ht : ∀ d ∈ t.ins ++ t.outs, cf.vac d = v) : (∀ d, (run cf s p v t).loc d = none ↔ (run cf s p v t).dphys d = none) ∧ (run cf s p v t).aborted = false := by
  let P : St → Prop := fun x => (∀ d, x.loc d = none ↔ x.dphys d = none) ∧ x.aborted = false ∧ x.vphys v ≠ none
  have h0 : P s := ⟨hb, ha, hv⟩
  have h1 : ∀ x d, cf.vac d = v → P x → P (allocRemote cf x p d) := by
    intro x d hd h
    unfold allocRemote
    split
    · exact h
    · rw [hd]
      split
      · rename_i hn; exact absurd hn h.2.2
      · exact ⟨upd_both h.1 d (by simp), h.2⟩
  have h2 : ∀ x d, cf.vac d = v → P x → P (freeRemote cf x d) := by
    intro x d hd h
    unfold freeRemote
    split
    · exact h
    · rw [hd]
      split
      · rename_i hn; exact absurd hn h.2.2
      · exact ⟨upd_both h.1 d (by simp), h.2⟩
  have h3 : ∀ x d, cf.vac d = v → P x → P (fromRemote1 cf p x d) := by
    intro x d hd h
    unfold fromRemote1
    split
    · exact h
    · split
      · exact h
      · apply h2 _ _ hd
        split <;> exact h
  have h4 : ∀ x d, cf.vac d = v → P x → P (toRemote1 cf p x d) := by
    intro x d hd h
    unfold toRemote1
    split
    · exact h
    · exact h1 x d hd h
  have fold : ∀ (f : St → Nat → St), (∀ x d, cf.vac d = v → P x → P (f x d)) → ∀ (l : List Nat), (∀ d ∈ l, cf.vac d = v) → ∀ x, P x → P (l.foldl f x) := by
    intro f hf l
    induction l with
    | nil => exact fun _ x h => h
    | cons d l ih => exact fun hl x h => ih (fun e he => hl e (List.mem_cons_of_mem _ he)) _ (hf x d (hl d (by simp)) h)
  have ho : ∀ d ∈ t.outs, cf.vac d = v := fun d hd => ht d (List.mem_append.2 (Or.inr hd))
  have : P (run cf s p v t) := by
    unfold run
    apply fold (write1 t.val) (fun x d _ h => h) _ ho
    have h5 : P (if s.mig = some v then migrate cf s p (t.ins ++ t.outs) else s) := by
      split
      · unfold migrate
        split
        · exact fold _ h4 _ ht _ (fold _ h3 _ ht _ h0)
        · exact h0
      · exact h0
    exact fold _ h1 _ ho _ h5
  exact ⟨this.1, this.2.1⟩

theorem ainv_assign (hi : AInv cf s) (hq : ∀ p, s.snap p = s.list p ∨ s.snap p = []) (ho : s.vphys v = none) : AInv cf (assignVac cf s v) := by
  unfold assignVac
  simp only
  split
  · exact ⟨hi.listed, hi.snapped, hi.both, hi.mine, hi.alive⟩
  · rename_i i _
    generalize (cf.accs (cf.vtype v)).getD i 0 = cur
    generalize (cf.accs (cf.vtype v)).getD (if i + 1 = (cf.accs (cf.vtype v)).length then 0 else i + 1) 0 = nxt
    generalize hx : (if s.snap cur ≠ [] then moveOne cf { s with calls := s.calls + 1 } cur nxt else { s with calls := s.calls + 1 }) = x
    have mx : Moved { s with calls := s.calls + 1 } x := by
      rw [← hx]; split
      · exact moved_moveOne _ _ _ _
      · exact moved_refl _
    have lx : Listed x := by
      rw [← hx]; split
      · exact listed_moveOne cf (s := { s with calls := s.calls + 1 }) hi.listed _ _
      · exact hi.listed
    have ax : x.aborted = false ∧ (∀ w, s.vphys w ≠ none → x.vphys w ≠ none) ∧ x.vphys v = none := by
      rw [← hx]
      split
      · rename_i hs
        unfold moveOne
        split
        · exact ⟨hi.alive, fun w h => h, ho⟩
        · rename_i m hm
          have hsn : s.snap cur = s.list cur := (hq cur).elim id (fun h => absurd h hs)
          have hmc : s.vphys m = some cur := hi.listed cur m (hsn ▸ List.mem_of_find?_eq_some hm)
          have hvm : v ≠ m := fun e => by rw [← e, ho] at hmc; cases hmc
          have hdel : delVac { { s with calls := s.calls + 1 } with mig := some m } cur m =
              { { { s with calls := s.calls + 1 } with mig := some m } with
                list := upd s.list cur ((s.list cur).filter (· ≠ m)), vphys := upd s.vphys m none } := by
            unfold delVac; rw [if_pos hmc]
          rw [hdel]
          have hadd : ∀ y : St, y.vphys m = none → addVac y nxt m = { y with list := upd y.list nxt (m :: y.list nxt), vphys := upd y.vphys m (some nxt) } := by
            intro y hy; unfold addVac; rw [if_neg (by rw [hy]; simp), if_pos hy]
          rw [hadd _ (upd_same _ _ _)]
          refine ⟨hi.alive, fun w h => ?_, ?_⟩
          · show upd (upd s.vphys m none) m (some nxt) w ≠ none
            by_cases hw : w = m
            · rw [hw, upd_same]; simp
            · rw [upd_other _ _ hw, upd_other _ _ hw]; exact h
          · show upd (upd s.vphys m none) m (some nxt) v = none
            rw [upd_other _ _ hvm, upd_other _ _ hvm]; exact ho
      · exact ⟨hi.alive, fun w h => h, ho⟩
    obtain ⟨a1, a2, a3⟩ := ax
    rw [if_neg (by rw [a1]; simp)]
    have hadd : addVac x cur v = { x with list := upd x.list cur (v :: x.list cur), vphys := upd x.vphys v (some cur) } := by
      unfold addVac; rw [if_neg (by rw [a3]; simp), if_pos a3]
    have hl := listed_add lx cur v
    rw [hadd] at hl ⊢
    refine ⟨hl, ?_, ?_, ?_, a1⟩
    · intro q w h
      replace h : w ∈ x.snap q := h
      rw [mx.snap] at h
      have := a2 w (hi.snapped q w h)
      show upd x.vphys v (some cur) w ≠ none
      by_cases hw : w = v
      · rw [hw, upd_same]; simp
      · rw [upd_other _ _ hw]; exact this
    · intro d; show x.loc d = none ↔ x.dphys d = none
      rw [mx.loc, mx.dphys]; exact hi.both d
    · intro w t h
      replace h : t ∈ x.queue w := h
      rw [mx.queue] at h; exact hi.mine w t h

theorem ainv_step (hi : AInv cf s) {e : Event} (hq : match e with
      | .assign _ => ∀ p, s.snap p = s.list p ∨ s.snap p = []
      | _ => True) : AInv cf (step cf s e) := by
  unfold step
  split
  · exact hi
  · cases e with
    | assign v =>
      simp only
      split
      · rename_i ho; exact ainv_assign hi hq ho
      · exact hi
    | submit v t =>
      simp only
      split
      · rename_i ht
        refine ⟨hi.listed, hi.snapped, hi.both, ?_, hi.alive⟩
        intro w u hu
        replace hu : u ∈ upd s.queue v (s.queue v ++ [t]) w := hu
        by_cases hw : w = v
        · subst hw
          rw [upd_same] at hu
          rcases List.mem_append.1 hu with a | a
          · exact hi.mine w u a
          · simp only [List.mem_singleton] at a; subst a; exact ht
        · rw [upd_other _ _ hw] at hu; exact hi.mine w u hu
      · exact hi
    | refresh p =>
      refine ⟨hi.listed, fun q w h => ?_, hi.both, hi.mine, hi.alive⟩
      replace h : w ∈ upd s.snap p (s.list p) q := h
      show s.vphys w ≠ none
      by_cases hqp : q = p
      · rw [hqp, upd_same] at h; rw [hi.listed p w h]; simp
      · rw [upd_other _ _ hqp] at h; exact hi.snapped q w h
    | pick p v =>
      simp only
      split
      · rename_i hv
        cases e : s.queue v with
        | nil => exact hi
        | cons t r =>
          simp only
          have hs : AInv cf { s with queue := upd s.queue v r } := by
            refine ⟨hi.listed, hi.snapped, hi.both, ?_, hi.alive⟩
            intro w u hu
            replace hu : u ∈ upd s.queue v r w := hu
            by_cases hw : w = v
            · subst hw
              rw [upd_same] at hu
              exact hi.mine w u (by rw [e]; exact List.mem_cons_of_mem _ hu)
            · rw [upd_other _ _ hw] at hu; exact hi.mine w u hu
          obtain ⟨_, _, _, fv, fl, _, fq, fs, _⟩ := run_frame cf { s with queue := upd s.queue v r } p v t
          obtain ⟨r1, r2⟩ := run_alive (p := p) (t := t) (hs.snapped p v hv) hs.both hs.alive (hi.mine v t (by rw [e]; simp))
          exact ⟨by unfold Listed; rw [fl, fv]; exact hs.listed, by rw [fs, fv]; exact hs.snapped, r1, by rw [fq]; exact hs.mine, r2⟩
      · exact hi
    | free d =>
      simp only
      split
      · have hb := hi.both d
        split
        · exact ⟨hi.listed, hi.snapped, hi.both, hi.mine, hi.alive⟩
        · rename_i h1 h2; rw [h1, h2] at hb; simp at hb
        · exact ⟨hi.listed, hi.snapped, upd_both hi.both d (by simp), hi.mine, hi.alive⟩
      · exact hi

theorem ainv_exec : ∀ {h : List Event} {s : St}, AInv cf s → Prompt cf s h → AInv cf (exec cf s h)
  | [], _, hi, _ => hi
  | e :: h, s, hi, hq => ainv_exec (h := h) (s := step cf s e) (ainv_step hi hq.1) hq.2

/-- **C69 (no assertion fires)** as long as the workers' lists are up to date when the balancer assigns a virtual accelerator, whatever the build option. -/
theorem C69_no_abort_partial (cf : Conf) (hf : FreeVaqs cf) (nacc : Nat) (h : List Event) (hq : Prompt cf (init cf nacc) h) :
    (exec cf (init cf nacc) h).aborted = false :=
  (ainv_exec ⟨listed_init cf hf nacc, fun p v h => (by simp [init] at h), fun d => Iff.rfl, fun v t h => (by simp [init] at h), rfl⟩ hq).alive

/-! ## What goes wrong otherwise -/

/-- Two accelerators 0 and 1 of type 0, one (2) of type 1, `free_vaq`s 100, 101, 102; even virtual accelerators have type 0; data object d belongs to virtual accelerator `vac d`. -/
def conf (migration : Bool) (addr : Nat → Nat) (vac : Nat → Nat) (sz : Nat) : Conf :=
  { migration := migration, accs := fun t => if t = 0 then [0, 1] else if t = 1 then [2] else [0, 1, 2], vtype := fun v => if v < 20 then 0 else if v < 30 then 1 else 2
    addr := addr, freev := fun p => 100 + p, vac := vac, sz := fun _ => sz }

/-- **Violated: the static iterator.** It points into the vector of the first call; when a later call gets its vector at another address (so that the two do not overlap or
touch), an element outside of it is used. -/
theorem C69_violated_iterator (m : Bool) (a b : Nat) (hab : a + 1 < b ∨ b + 1 < a) :
    (exec (conf m (fun k => if k = 0 then a else b) id 8) (init (conf m (fun k => if k = 0 then a else b) id 8) 3) [.assign 0, .assign 1]).ub = true := by
  have h1 : ¬ (a = b + 1) := by omega
  have h2 : ¬ (b ≤ a + 1 ∧ a + 1 < b + 2) := by omega
  have h3 : ¬ (b ≤ a + 1 ∧ a ≤ b) := by omega
  have h4 : ¬ (b ≤ a + 1 ∧ a < b + 1) := by omega
  simp [exec, step, assignVac, position, init, conf, addVac, upd, show List.range 3 = [0, 1, 2] from rfl, h1, h2, h3, h4]

/-- **Violated: two types.** The iterator is shared by all types: even with the same address at every call, a virtual accelerator of another type sends it outside the vector. -/
theorem C69_violated_types : (exec (conf false (fun _ => 0) id 8) (init (conf false (fun _ => 0) id 8) 3) [.assign 30, .assign 31, .assign 20]).ub = true := by
  decide +kernel

/-- **Violated: no accelerator of the type.** -/
theorem C69_violated_none (cf : Conf) (nacc v : Nat) (hn : cf.accs (cf.vtype v) = []) (ho : (init cf nacc).vphys v = none) :
    (exec cf (init cf nacc) [.assign v]).ub = true := by
  have hp : position (init cf nacc).it (cf.addr (init cf nacc).calls) (cf.accs (cf.vtype v)).length = none := by
    rw [hn]; simp [position, init]
  have h1 : ¬ ((init cf nacc).aborted = true ∨ (init cf nacc).ub = true) := by simp [init]
  show (step cf (init cf nacc) (.assign v)).ub = true
  unfold step
  rw [if_neg h1]
  simp only [if_pos ho]
  unfold assignVac
  simp only
  rw [hp]

/-- Two virtual accelerators each on two devices; the third one makes 0 move from device 0 to device 1. -/
def moveHistory : List Event :=
  [.assign 0, .assign 1, .refresh 0, .submit 0 ⟨[], [0], 7⟩, .pick 0 0, .assign 2, .submit 0 ⟨[0], [], 0⟩, .refresh 1, .pick 1 0]

/-- **Violated: the default build** does not move the data: a virtual accelerator that is moved leaves its data behind, and its next task gets a pointer into the memory of the
other device. -/
theorem C69_violated_default (sz : Nat) :
    (exec (conf false (fun _ => 0) (fun d => d) sz) (init (conf false (fun _ => 0) (fun d => d) sz) 3) moveHistory).seen.getLast? = some ⟨1, 0, some 0, 7, some 7⟩ := by
  simp [exec, step, assignVac, position, init, conf, addVac, delVac, moveOne, upd, moveHistory, run, migrate, allocRemote, write1, look, show List.range 3 = [0, 1, 2] from rfl]

/-- With `MIGRATION` the same history is fine. -/
theorem C69_move_ok (sz : Nat) :
    (exec (conf true (fun _ => 0) (fun d => d) sz) (init (conf true (fun _ => 0) (fun d => d) sz) 3) moveHistory).seen.getLast? = some ⟨1, 0, some 1, 7, some 7⟩ := by
  simp [exec, step, assignVac, position, init, conf, addVac, delVac, moveOne, upd, moveHistory, run, migrate, allocRemote, write1, look, fromRemote1, toRemote1, freeRemote,
    show List.range 3 = [0, 1, 2] from rfl]

/-- A second virtual accelerator moves before the first one has run its next task. -/
def twiceHistory : List Event :=
  [.assign 0, .assign 1, .refresh 0, .refresh 1, .submit 0 ⟨[], [0], 7⟩, .pick 0 0, .assign 2, .assign 3, .submit 0 ⟨[0], [], 0⟩, .refresh 1, .pick 1 0]

/-- **Violated: only one virtual accelerator is remembered.** Even with `MIGRATION`, after a second move the first virtual accelerator's data stays behind. -/
theorem C69_violated_twice (sz : Nat) :
    (exec (conf true (fun _ => 0) (fun d => d) sz) (init (conf true (fun _ => 0) (fun d => d) sz) 3) twiceHistory).seen.getLast? = some ⟨1, 0, some 0, 7, some 7⟩ := by
  simp [exec, step, assignVac, position, init, conf, addVac, delVac, moveOne, upd, twiceHistory, run, migrate, allocRemote, write1, look, fromRemote1, toRemote1, freeRemote,
    show List.range 3 = [0, 1, 2] from rfl]

/-- **Violated: accounting.** Moving a data object of `sz` bytes gives the bytes back to the device it moves to: when everything has been freed, the old device is short of
`sz` bytes for ever, the new one has `sz` too many. -/
theorem C69_violated_accounting (sz : Nat) :
    let s := exec (conf true (fun _ => 0) (fun d => d) sz) (init (conf true (fun _ => 0) (fun d => d) sz) 3) (moveHistory ++ [.free 0])
    s.loc 0 = none ∧ s.aborted = false ∧ s.avail 0 = - (sz : Int) ∧ s.avail 1 = sz := by
  simp [exec, step, assignVac, position, init, conf, addVac, delVac, moveOne, upd, moveHistory, run, migrate, allocRemote, write1, look, fromRemote1, toRemote1, freeRemote,
    St.unusedIn, show List.range 3 = [0, 1, 2] from rfl]

/-- Worker 0's list is out of date when the fifth virtual accelerator is assigned. -/
def staleHistory : List Event := [.assign 0, .assign 1, .refresh 0, .refresh 1, .assign 2, .assign 3, .assign 4]

/-- **Violated: a slow worker.** The balancer reads the worker's own list; if the worker is busy with a long task the list still has a virtual accelerator that was moved away, and an assertion fires. -/
theorem C69_violated_stale (m : Bool) (sz : Nat) :
    (exec (conf m (fun _ => 0) (fun d => d) sz) (init (conf m (fun _ => 0) (fun d => d) sz) 3) staleHistory).aborted = true := by
  simp [exec, step, assignVac, position, init, conf, addVac, delVac, moveOne, upd, staleHistory, show List.range 3 = [0, 1, 2] from rfl]

/-! ## Concrete histories meet the hypotheses -/

def goodHistory : List Event :=
  moveHistory ++ [.refresh 0, .submit 1 ⟨[], [1], 5⟩, .pick 1 1, .submit 0 ⟨[0], [0], 9⟩, .refresh 1, .pick 1 0, .assign 3, .refresh 0, .refresh 1,
    .submit 0 ⟨[0], [0], 6⟩, .pick 0 0, .free 0]

theorem conf_freeVaqs (m : Bool) (addr vac : Nat → Nat) (sz : Nat) : FreeVaqs (conf m addr vac sz) := by
  intro p q h
  have : 100 + p = 100 + q := h
  omega

/-- `Settled` for data objects 0 and 1 only, and everything else has no device memory. -/
theorem settled_of {cf : Conf} {s : St} (n : Nat) (h : ∀ d, n ≤ d → s.loc d = none) (h' : ((List.range n).all fun d => s.loc d == none || s.loc d == s.vphys (cf.vac d)) = true) :
    Settled cf s := by
  intro d q hd
  by_cases hn : n ≤ d
  · rw [h d hn] at hd; cases hd
  · have := List.all_eq_true.1 h' d (List.mem_range.2 (by omega))
    simp only [Bool.or_eq_true, beq_iff_eq] at this
    rcases this with a | a
    · rw [a] at hd; cases hd
    · rw [← a]; exact hd

/-- The history `goodHistory` is quiet; in it virtual accelerator 0 moves to device 1 and later back, and its data follows both times. -/
example : Quiet (conf true (fun _ => 0) (fun d => d) 8) (init (conf true (fun _ => 0) (fun d => d) 8) 3) goodHistory ∧
    (exec (conf true (fun _ => 0) (fun d => d) 8) (init (conf true (fun _ => 0) (fun d => d) 8) 3) goodHistory).seen =
      [⟨0, 0, some 0, 0, none⟩, ⟨1, 0, some 1, 7, some 7⟩, ⟨1, 1, some 1, 0, none⟩, ⟨1, 0, some 1, 7, some 7⟩, ⟨1, 0, some 1, 7, some 7⟩,
        ⟨0, 0, some 0, 9, some 9⟩, ⟨0, 0, some 0, 9, some 9⟩] := by
  refine ⟨?_, by decide +kernel⟩
  refine ⟨settled_of 2 (fun d _ => rfl) (by decide +kernel), settled_of 2 (fun d _ => rfl) (by decide +kernel), trivial, trivial, by decide +kernel,
    settled_of 2 ?_ (by decide +kernel), trivial, trivial, by decide +kernel, trivial, trivial, by decide +kernel, trivial, trivial, by decide +kernel,
    settled_of 2 ?_ (by decide +kernel), trivial, trivial, trivial, by decide +kernel, trivial, trivial⟩
  · intro d hd
    have h0 : d ≠ 0 := by omega
    have h1 : d ≠ 1 := by omega
    simp [step, assignVac, position, init, conf, addVac, delVac, moveOne, upd, run, migrate, allocRemote, write1, look, fromRemote1, toRemote1, freeRemote,
      show List.range 3 = [0, 1, 2] from rfl, h0, h1]
  · intro d hd
    have h0 : d ≠ 0 := by omega
    have h1 : d ≠ 1 := by omega
    simp [step, assignVac, position, init, conf, addVac, delVac, moveOne, upd, run, migrate, allocRemote, write1, look, fromRemote1, toRemote1, freeRemote,
      show List.range 3 = [0, 1, 2] from rfl, h0, h1]

/-- Round robin over two accelerators, five virtual accelerators. -/
example : (∀ v, Event.assign v ∈ [Event.assign 0, .assign 1, .refresh 0, .assign 2, .refresh 1, .assign 3, .refresh 0, .assign 4] →
      (conf true (fun _ => 40) (fun d => d) 8).vtype v = 0) ∧
    (exec (conf true (fun _ => 40) (fun d => d) 8) (init (conf true (fun _ => 40) (fun d => d) 8) 3)
      [.assign 0, .assign 1, .refresh 0, .assign 2, .refresh 1, .assign 3, .refresh 0, .assign 4]).placed = [(0, 0), (1, 1), (2, 0), (3, 1), (4, 0)] := by
  refine ⟨fun v hv => ?_, by decide +kernel⟩
  simp at hv
  rcases hv with h | h | h | h | h <;> subst h <;> rfl

/-- A prompt history in which two virtual accelerators are moved. -/
example : Prompt (conf false (fun _ => 40) (fun d => d) 8) (init (conf false (fun _ => 40) (fun d => d) 8) 3)
      [.assign 0, .assign 1, .refresh 0, .refresh 1, .assign 2, .refresh 0, .refresh 1, .assign 3] ∧
    (exec (conf false (fun _ => 40) (fun d => d) 8) (init (conf false (fun _ => 40) (fun d => d) 8) 3)
      [.assign 0, .assign 1, .refresh 0, .refresh 1, .assign 2, .refresh 0, .refresh 1, .assign 3]).vphys 0 = some 0 := by
  refine ⟨⟨fun p => Or.inr rfl, fun p => Or.inr rfl, trivial, trivial, fun p => ?_, trivial, trivial, fun p => ?_, trivial⟩, by decide +kernel⟩
  all_goals
    by_cases h0 : p = 0
    · subst h0; left; decide +kernel
    · by_cases h1 : p = 1
      · subst h1; left; decide +kernel
      · right
        simp [step, assignVac, position, init, conf, addVac, delVac, moveOne, upd, show List.range 3 = [0, 1, 2] from rfl, h0, h1]

end Arax.Elastic
