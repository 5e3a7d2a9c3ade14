import Verif.IList.Spec
namespace Arax.IList

/-- `a → ns → b` is linked in both directions. -/
def Seg (h : Heap) : Nat → List Nat → Nat → Prop
  | a, [], b => h.next a = b ∧ h.prev b = a
  | a, n :: ns, b => h.next a = n ∧ h.prev n = a ∧ Seg h n ns b

theorem seg_append (h : Heap) (xs : List Nat) : ∀ (a n : Nat) (ys : List Nat) (b : Nat),
    Seg h a (xs ++ n :: ys) b ↔ Seg h a xs n ∧ Seg h n ys b := by
  induction xs with
  | nil => intro a n ys b; simp [Seg, and_assoc]
  | cons x xs ih => intro a n ys b; simp [Seg, ih, and_assoc]

theorem seg_congr (h h' : Heap) (xs : List Nat) : ∀ (a b : Nat),
    (∀ x ∈ a :: xs, h'.next x = h.next x) → (∀ x ∈ xs ++ [b], h'.prev x = h.prev x) →
    Seg h a xs b → Seg h' a xs b := by
  induction xs with
  | nil => intro a b h1 h2 hs; simp [Seg] at *; rw [h1, h2]; exact hs
  | cons x xs ih =>
    intro a b h1 h2 hs
    obtain ⟨e1, e2, e3⟩ := hs
    refine ⟨?_, ?_, ?_⟩
    · rw [h1 a (by simp)]; exact e1
    · rw [h2 x (by simp)]; exact e2
    · apply ih x b _ _ e3
      · intro y hy; exact h1 y (List.mem_cons_of_mem _ hy)
      · intro y hy; exact h2 y (by simp at hy ⊢; right; exact hy)

/-- last element of `a :: xs` -/
def lastOf : Nat → List Nat → Nat
  | a, [] => a
  | _, x :: xs => lastOf x xs

theorem lastOf_mem (xs : List Nat) : ∀ a, lastOf a xs ∈ a :: xs := by
  induction xs with
  | nil => intro a; simp [lastOf]
  | cons x xs ih => intro a; simp only [lastOf]; exact List.mem_cons_of_mem _ (ih x)

theorem seg_last (h : Heap) (xs : List Nat) : ∀ a b, Seg h a xs b → h.prev b = lastOf a xs ∧ h.next (lastOf a xs) = b := by
  induction xs with
  | nil => intro a b hs; exact ⟨hs.2, hs.1⟩
  | cons x xs ih => intro a b hs; exact ih x b hs.2.2

/-- first element of `ys ++ [b]` -/
def firstOf (ys : List Nat) (b : Nat) : Nat := ys.headD b

theorem seg_first (h : Heap) (ys : List Nat) (a b : Nat) (hs : Seg h a ys b) :
    h.next a = firstOf ys b ∧ h.prev (firstOf ys b) = a := by
  cases ys with
  | nil => exact hs
  | cons y ys => exact ⟨hs.1, hs.2.1⟩

/-- Redirecting the last link of a segment. -/
theorem seg_relast (h h' : Heap) (xs : List Nat) : ∀ (a n q : Nat), (a :: xs).Nodup → Seg h a xs n →
    (∀ x ∈ a :: xs, x ≠ lastOf a xs → h'.next x = h.next x) → (∀ x ∈ xs, h'.prev x = h.prev x) →
    h'.next (lastOf a xs) = q → h'.prev q = lastOf a xs → Seg h' a xs q := by
  induction xs with
  | nil => intro a n q _ _ _ _ h3 h4; exact ⟨h3, h4⟩
  | cons x xs ih =>
    intro a n q hnd hs h1 h2 h3 h4
    obtain ⟨e1, e2, e3⟩ := hs
    have hnd' := hnd
    rw [List.nodup_cons] at hnd
    simp only [lastOf] at h1 h3 h4
    refine ⟨?_, ?_, ?_⟩
    · rw [h1 a (by simp)]
      · exact e1
      · intro he; apply hnd.1; rw [he]; exact lastOf_mem xs x
    · rw [h2 x (by simp)]; exact e2
    · exact ih x n q hnd.2 e3 (fun y hy => h1 y (List.mem_cons_of_mem _ hy))
        (fun y hy => h2 y (List.mem_cons_of_mem _ hy)) h3 h4

/-- The list at `l` holds exactly the nodes `ns`. -/
structure Rep (h : Heap) (l : Nat) (ns : List Nat) : Prop where
  seg : Seg h l ns l
  nodup : (l :: ns).Nodup
  len : h.length l = ns.length

/-- Two heaps agree on an address. -/
def SameAt (h h' : Heap) (x : Nat) : Prop :=
  h'.next x = h.next x ∧ h'.prev x = h.prev x ∧ h'.owner x = h.owner x ∧ h'.length x = h.length x

theorem rep_frame (h h' : Heap) (l : Nat) (ns : List Nat) (hr : Rep h l ns) (hs : ∀ x ∈ l :: ns, SameAt h h' x) :
    Rep h' l ns := by
  refine ⟨seg_congr h h' ns l l ?_ ?_ hr.seg, hr.nodup, ?_⟩
  · intro x hx; exact (hs x hx).1
  · intro x hx; exact (hs x (by simp at hx ⊢; exact hx.symm)).2.1
  · rw [(hs l (by simp)).2.2.2]; exact hr.len

theorem firstOf_mem (ys : List Nat) (l : Nat) : firstOf ys l ∈ l :: ys := by
  cases ys <;> simp [firstOf]

/-- `add` touches only the list, its first node and the new node; no owner changes. -/
theorem add_same (h : Heap) (l n : Nat) (ns : List Nat) (hr : Rep h l ns) (x : Nat) (hx : x ∉ l :: ns) (hn : x ≠ n) :
    SameAt h (add h l n) x := by
  have h1 := (seg_first h ns l l hr.seg).1
  have hm := firstOf_mem ns l
  have hxl : x ≠ l := by intro e; apply hx; simp [e]
  have hxf : x ≠ h.next l := by intro e; apply hx; rw [e, h1]; exact hm
  simp [SameAt, add, nodeAdd, upd, hxl, hn, hxf]

theorem add_owner (h : Heap) (l n : Nat) : (add h l n).owner = h.owner := rfl
theorem del_owner (h : Heap) (l n : Nat) : (del h l n).owner = h.owner := rfl

theorem add_rep (h : Heap) (l n : Nat) (ns : List Nat) (hr : Rep h l ns) (hn : n ∉ l :: ns) :
    Rep (add h l n) l (n :: ns) := by
  have hnl : n ≠ l := by intro e; apply hn; simp [e]
  have hnn : n ∉ ns := by intro e; apply hn; simp [e]
  have hf := (seg_first h ns l l hr.seg).1
  refine ⟨?_, ?_, ?_⟩
  · cases ns with
    | nil =>
      have : h.next l = l := hf
      simp [Seg, add, nodeAdd, upd, this, hnl, Ne.symm hnl]
    | cons m rest =>
      have hml : h.next l = m := hf
      have hnd := hr.nodup
      simp only [List.nodup_cons, List.mem_cons, not_or] at hnd
      have hnm : n ≠ m := by intro e; apply hnn; simp [e]
      have hnr : n ∉ rest := by intro e; apply hnn; simp [e]
      refine ⟨?_, ?_, ?_, ?_, ?_⟩
      · simp [add, nodeAdd, upd]
      · simp [add, nodeAdd, upd]
      · simp [add, nodeAdd, upd, hml, hnl]
      · simp [add, nodeAdd, upd, hml, Ne.symm hnm]
      · apply seg_congr h _ rest m l _ _ hr.seg.2.2
        · intro x hx
          have hxl : x ≠ l := by
            intro e; rcases List.mem_cons.mp hx with e2 | e2
            · exact hnd.1.1 (by rw [← e, e2])
            · exact hnd.1.2 (e ▸ e2)
          have hxn : x ≠ n := by
            intro e; rcases List.mem_cons.mp hx with e2 | e2
            · exact hnm (by rw [← e, e2])
            · exact hnr (e ▸ e2)
          simp [add, nodeAdd, upd, hxl, hxn]
        · intro x hx
          have hxm : x ≠ m := by
            intro e
            simp only [List.mem_append, List.mem_singleton] at hx
            rcases hx with e2 | e2
            · exact hnd.2.1 (e ▸ e2)
            · exact hnd.1.1 (by rw [← e2, e])
          have hxn : x ≠ n := by
            intro e
            simp only [List.mem_append, List.mem_singleton] at hx
            rcases hx with e2 | e2
            · exact hnr (e ▸ e2)
            · exact hnl (by rw [← e, e2])
          simp [add, nodeAdd, upd, hml, hxm, hxn]
  · have := hr.nodup
    simp only [List.nodup_cons, List.mem_cons, not_or] at this ⊢
    exact ⟨⟨Ne.symm hnl, this.1⟩, hnn, this.2⟩
  · have := hr.len
    simp [add, nodeAdd, upd, this]

theorem del_fields (h : Heap) (l n p q : Nat) (hp : h.prev n = p) (hq : h.next n = q) (hpn : p ≠ n) (hqn : q ≠ n) :
    (∀ x, (del h l n).next x = if x = n then n else if x = p then q else h.next x) ∧
    (∀ x, (del h l n).prev x = if x = n then n else if x = q then p else h.prev x) ∧
    (∀ x, (del h l n).length x = if x = l then dec (h.length l) else h.length x) := by
  have hnq : n ≠ q := Ne.symm hqn
  refine ⟨?_, ?_, ?_⟩ <;> intro x <;> simp [del, upd, hp, hq, hnq]

theorem del_rep (h : Heap) (l n : Nat) (xs ys : List Nat) (hr : Rep h l (xs ++ n :: ys)) :
    Rep (del h l n) l (xs ++ ys) ∧ (del h l n).next n = n ∧ (del h l n).prev n = n ∧
    ∀ x, x ∉ l :: (xs ++ n :: ys) → SameAt h (del h l n) x := by
  obtain ⟨s1, s2⟩ := (seg_append h xs l n ys l).mp hr.seg
  obtain ⟨hp, hpn⟩ := seg_last h xs l n s1
  obtain ⟨hq, hqp⟩ := seg_first h ys n l s2
  have hnd := hr.nodup
  rw [List.nodup_cons, List.nodup_append] at hnd
  obtain ⟨hl, hxs, hny, hdis⟩ := hnd
  rw [List.nodup_cons] at hny
  have hnl : n ≠ l := by intro e; apply hl; simp [e]
  have hlx : l ∉ xs := by intro e; apply hl; simp [e]
  have hly : l ∉ ys := by intro e; apply hl; simp [e]
  have hnx : n ∉ xs := by intro e; exact hdis n e n (by simp) rfl
  have hxy : ∀ x ∈ xs, x ∉ ys := by intro x hx hy; exact hdis x hx x (by simp [hy]) rfl
  have hpm := lastOf_mem xs l
  have hqm := firstOf_mem ys l
  have hpne : lastOf l xs ≠ n := by
    intro e; rcases List.mem_cons.mp hpm with e2 | e2
    · exact hnl (by rw [← e, e2])
    · exact hnx (e ▸ e2)
  have hqne : firstOf ys l ≠ n := by
    intro e; rcases List.mem_cons.mp hqm with e2 | e2
    · exact hnl (by rw [← e, e2])
    · exact hny.1 (e ▸ e2)
  obtain ⟨fn, fp, fl⟩ := del_fields h l n _ _ hp hq hpne hqne
  refine ⟨⟨?_, ?_, ?_⟩, by rw [fn]; simp, by rw [fp]; simp, ?_⟩
  · -- the segment l → xs → q
    have hseg1 : Seg (del h l n) l xs (firstOf ys l) := by
      apply seg_relast h _ xs l n
      · rw [List.nodup_cons]; exact ⟨hlx, hxs⟩
      · exact s1
      · intro x hx hne
        have hxn : x ≠ n := by
          intro e; rcases List.mem_cons.mp hx with e2 | e2
          · exact hnl (by rw [← e, e2])
          · exact hnx (e ▸ e2)
        rw [fn, if_neg hxn, if_neg hne]
      · intro x hx
        have hxn : x ≠ n := fun e => hnx (e ▸ hx)
        have hxq : x ≠ firstOf ys l := by
          intro e; rcases List.mem_cons.mp hqm with e2 | e2
          · exact hlx (by rw [← e2, ← e]; exact hx)
          · exact hxy x hx (by rw [e]; exact e2)
        rw [fp, if_neg hxn, if_neg hxq]
      · rw [fn, if_neg hpne, if_pos rfl]
      · rw [fp, if_neg hqne, if_pos rfl]
    cases ys with
    | nil => simpa [firstOf] using hseg1
    | cons y ys' =>
      rw [seg_append]
      refine ⟨by simpa [firstOf] using hseg1, ?_⟩
      apply seg_congr h _ ys' y l _ _ s2.2.2
      · intro x hx
        have hxn : x ≠ n := by intro e; exact hny.1 (by rw [← e]; exact hx)
        have hxp : x ≠ lastOf l xs := by
          intro e; rcases List.mem_cons.mp hpm with e2 | e2
          · exact hly (by rw [← e2, ← e]; exact hx)
          · exact hxy _ e2 (by rw [← e]; exact hx)
        rw [fn, if_neg hxn, if_neg hxp]
      · intro x hx
        simp only [List.mem_append, List.mem_singleton] at hx
        have hxn : x ≠ n := by
          intro e; rcases hx with e2 | e2
          · exact hny.1 (by rw [← e]; exact List.mem_cons_of_mem _ e2)
          · exact hnl (by rw [← e, e2])
        have hxy' : x ≠ firstOf (y :: ys') l := by
          intro e
          have e : x = y := by simpa [firstOf] using e
          rcases hx with e2 | e2
          · have := hny.2; rw [List.nodup_cons] at this; exact this.1 (e ▸ e2)
          · exact hly (by rw [← e2, e]; simp)
        rw [fp, if_neg hxn, if_neg hxy']
  · rw [List.nodup_cons, List.nodup_append]
    refine ⟨?_, hxs, hny.2, ?_⟩
    · simp [hlx, hly]
    · intro a ha b hb e; exact hxy a ha (e ▸ hb)
  · rw [fl, if_pos rfl, hr.len]
    unfold dec
    rw [if_neg (by simp)]
    simp
  · intro x hx
    have hxn : x ≠ n := by intro e; apply hx; simp [e]
    have hxl : x ≠ l := by intro e; apply hx; simp [e]
    have hxp : x ≠ lastOf l xs := by
      intro e; apply hx; rw [e]
      rcases List.mem_cons.mp hpm with e2 | e2
      · simp [e2]
      · simp [e2]
    have hxq : x ≠ firstOf ys l := by
      intro e; apply hx; rw [e]
      rcases List.mem_cons.mp hqm with e2 | e2
      · simp [e2]
      · simp [e2]
    exact ⟨by rw [fn, if_neg hxn, if_neg hxp], by rw [fp, if_neg hxn, if_neg hxq], rfl, by rw [fl, if_neg hxl]⟩

theorem nodeInit_same (h : Heap) (n o x : Nat) (hx : x ≠ n) : SameAt h (nodeInit h n o) x := by
  simp [SameAt, nodeInit, upd, hx]

theorem listInit_same (h : Heap) (l x : Nat) (hx : x ≠ l) : SameAt h (listInit h l) x := by
  simp [SameAt, listInit, nodeInit, upd, hx]

theorem listInit_rep (h : Heap) (l : Nat) : Rep (listInit h l) l [] := by
  refine ⟨?_, by simp, ?_⟩ <;> simp [Seg, listInit, nodeInit, upd]

/-- Invariant relating heap and world. -/
structure Inv (h : Heap) (w : World) : Prop where
  rep : ∀ l ns, w.cont l = some ns → Rep h l ns
  sep : ∀ l l' ns ns', l ≠ l' → w.cont l = some ns → w.cont l' = some ns' → ∀ x ∈ l :: ns, x ∉ l' :: ns'
  loose : ∀ n, w.loose n → h.next n = n ∧ h.prev n = n ∧ n ≠ 0 ∧ ∀ l ns, w.cont l = some ns → n ∉ l :: ns
  nonnull : ∀ l ns, w.cont l = some ns → ∀ x ∈ l :: ns, x ≠ 0
  owner : ∀ x, (w.loose x ∨ ∃ l ns, w.cont l = some ns ∧ x ∈ l :: ns) → h.owner x = w.owner x

theorem setCont_eq (w : World) (l : Nat) (ns : List Nat) (x : Nat) :
    w.setCont l ns x = if x = l then some ns else w.cont x := rfl

theorem inv_del (h : Heap) (w : World) (l n : Nat) (xs ys : List Nat) (hi : Inv h w)
    (hc : w.cont l = some (xs ++ n :: ys)) :
    Inv (del h l n) { w with cont := w.setCont l (xs ++ ys), loose := fun x => x = n ∨ w.loose x } := by
  obtain ⟨h1, h2, h3, h4, h5⟩ := hi
  have hr := h1 l _ hc
  obtain ⟨r1, r2, r3, r4⟩ := del_rep h l n xs ys hr
  have hsub : ∀ x, x ∈ l :: (xs ++ ys) → x ∈ l :: (xs ++ n :: ys) := by
    intro x hx; simp only [List.mem_cons, List.mem_append] at hx ⊢
    rcases hx with e | e | e
    · exact Or.inl e
    · exact Or.inr (Or.inl e)
    · exact Or.inr (Or.inr (Or.inr e))
  have hnin : n ∉ l :: (xs ++ ys) := by
    have hnd := hr.nodup
    rw [List.nodup_cons, List.nodup_append] at hnd
    obtain ⟨hl, hxs, hny, hdis⟩ := hnd
    rw [List.nodup_cons] at hny
    simp only [List.mem_cons, List.mem_append, not_or]
    refine ⟨fun e => hl (by simp [e]), fun e => hdis n e n (by simp) rfl, hny.1⟩
  have hother : ∀ l', l' ≠ l → ∀ ns', w.cont l' = some ns' → ∀ x ∈ l' :: ns', x ∉ l :: (xs ++ n :: ys) :=
    fun l' hne ns' hc' x hx => h2 l' l ns' _ hne hc' hc x hx
  refine ⟨?_, ?_, ?_, ?_, ?_⟩
  · intro l' ns' hc'
    simp only [setCont_eq] at hc'
    split at hc'
    · rename_i e; subst e; simp only [Option.some.injEq] at hc'; subst hc'; exact r1
    · rename_i e
      exact rep_frame h _ l' ns' (h1 l' ns' hc') (fun x hx => r4 x (hother l' e ns' hc' x hx))
  · intro a b na nb hab ha hb x hx hx'
    simp only [setCont_eq] at ha hb
    split at ha
    · rename_i e
      simp only [Option.some.injEq] at ha; subst ha
      rw [if_neg (by rw [← e]; exact Ne.symm hab)] at hb
      subst e
      exact h2 b a nb _ (Ne.symm hab) hb hc x hx' (hsub x hx)
    · split at hb
      · rename_i e1 e
        simp only [Option.some.injEq] at hb; subst hb; subst e
        exact h2 a b na _ hab ha hc x hx (hsub x hx')
      · exact h2 a b na nb hab ha hb x hx hx'
  · intro x hx
    simp only at hx
    by_cases hxn : x = n
    · subst hxn
      refine ⟨r2, r3, h4 l _ hc x (by simp), ?_⟩
      intro l' ns' hc'
      simp only [setCont_eq] at hc'
      split at hc'
      · rename_i e; subst e; simp only [Option.some.injEq] at hc'; subst hc'; exact hnin
      · rename_i e; intro hmem; exact hother l' e ns' hc' x hmem (by simp)
    · have hx' : w.loose x := by rcases hx with e | e; exact absurd e hxn; exact e
      obtain ⟨a1, a2, a3, a4⟩ := h3 x hx'
      obtain ⟨b1, b2, -, -⟩ := r4 x (a4 l _ hc)
      refine ⟨by rw [b1, a1], by rw [b2, a2], a3, ?_⟩
      intro l' ns' hc'
      simp only [setCont_eq] at hc'
      split at hc'
      · rename_i e; subst e; simp only [Option.some.injEq] at hc'; subst hc'
        intro hm; exact a4 _ _ hc (hsub x hm)
      · exact a4 l' ns' hc'
  · intro l' ns' hc' x hx
    simp only [setCont_eq] at hc'
    split at hc'
    · rename_i e; subst e; simp only [Option.some.injEq] at hc'; subst hc'
      exact h4 _ _ hc x (hsub x hx)
    · exact h4 l' ns' hc' x hx
  · intro x hx
    rw [del_owner]
    apply h5
    rcases hx with (e | e) | ⟨l', ns', hc', hm⟩
    · right; exact ⟨l, _, hc, by simp [e]⟩
    · left; exact e
    · right
      simp only [setCont_eq] at hc'
      split at hc'
      · rename_i e; subst e; simp only [Option.some.injEq] at hc'; subst hc'
        exact ⟨_, _, hc, hsub x hm⟩
      · exact ⟨l', ns', hc', hm⟩

theorem inv_step (h : Heap) (w w' : World) (op : Op) (r : Nat) (hi : Inv h w) (hs : SpecStep w op r w') :
    Inv (step h op).1 w' ∧ (step h op).2 = r := by
  have hI := hi
  obtain ⟨h1, h2, h3, h4, h5⟩ := hi
  cases hs with
  | initList l hl hu =>
    refine ⟨⟨?_, ?_, ?_, ?_, ?_⟩, rfl⟩
    · intro l' ns' hc'
      simp only [setCont_eq] at hc'
      split at hc'
      · rename_i e; subst e; simp only [Option.some.injEq] at hc'; subst hc'; exact listInit_rep h _
      · rename_i e
        refine rep_frame h _ l' ns' (h1 l' ns' hc') (fun x hx => listInit_same h l x ?_)
        intro ex; subst ex
        rcases List.mem_cons.mp hx with e2 | e2
        · exact e e2.symm
        · exact hu.2.2 l' ns' hc' e2
    · intro a b na nb hab ha hb x hx hx'
      simp only [setCont_eq] at ha hb
      have key : ∀ c nc, w.cont c = some nc → l ∉ c :: nc := by
        intro c nc hcc hm
        rcases List.mem_cons.mp hm with e2 | e2
        · subst e2; rw [hu.1] at hcc; simp at hcc
        · exact hu.2.2 c nc hcc e2
      split at ha
      · rename_i e
        simp only [Option.some.injEq] at ha; subst ha
        rw [if_neg (by rw [← e]; exact Ne.symm hab)] at hb
        have : x = l := by simpa [e] using hx
        exact key b nb hb (this ▸ hx')
      · split at hb
        · rename_i e1 e
          simp only [Option.some.injEq] at hb; subst hb
          have : x = l := by simpa [e] using hx'
          exact key a na ha (this ▸ hx)
        · exact h2 a b na nb hab ha hb x hx hx'
    · intro x hx
      obtain ⟨a1, a2, a3, a4⟩ := h3 x hx
      have hxl : x ≠ l := by intro e; subst e; exact hu.2.1 hx
      obtain ⟨b1, b2, -, -⟩ := listInit_same h l x hxl
      refine ⟨by show (listInit h l).next x = x; rw [b1, a1], by show (listInit h l).prev x = x; rw [b2, a2], a3, ?_⟩
      intro l' ns' hc'
      simp only [setCont_eq] at hc'
      split at hc'
      · rename_i e; subst e; simp only [Option.some.injEq] at hc'; subst hc'; simpa using hxl
      · exact a4 l' ns' hc'
    · intro l' ns' hc' x hx
      simp only [setCont_eq] at hc'
      split at hc'
      · rename_i e; subst e; simp only [Option.some.injEq] at hc'; subst hc'
        have : x = l' := by simpa using hx
        rw [this]; exact hl
      · exact h4 l' ns' hc' x hx
    · intro x hx
      show (listInit h l).owner x = if x = l then l else w.owner x
      by_cases hxl : x = l
      · subst hxl; simp [listInit, nodeInit, upd]
      · rw [if_neg hxl, (listInit_same h l x hxl).2.2.1]
        apply h5
        rcases hx with e | ⟨l', ns', hc', hm⟩
        · exact Or.inl e
        · right
          simp only [setCont_eq] at hc'
          split at hc'
          · rename_i e; subst e; simp only [Option.some.injEq] at hc'; subst hc'
            exact absurd (by simpa using hm) hxl
          · exact ⟨l', ns', hc', hm⟩
  | initNode n o hn hu =>
    have key : ∀ c nc, w.cont c = some nc → n ∉ c :: nc := by
      intro c nc hcc hm
      rcases List.mem_cons.mp hm with e2 | e2
      · subst e2; rw [hu.1] at hcc; simp at hcc
      · exact hu.2.2 c nc hcc e2
    refine ⟨⟨?_, h2, ?_, h4, ?_⟩, rfl⟩
    · intro l' ns' hc'
      exact rep_frame h _ l' ns' (h1 l' ns' hc') (fun x hx => nodeInit_same h n o x
        (fun e => key l' ns' hc' (e ▸ hx)))
    · intro x hx
      show (nodeInit h n o).next x = x ∧ (nodeInit h n o).prev x = x ∧ _
      by_cases hxn : x = n
      · subst hxn; exact ⟨by simp [nodeInit, upd], by simp [nodeInit, upd], hn, key⟩
      · have hx' : w.loose x := by rcases hx with e | e; exact absurd e hxn; exact e
        obtain ⟨a1, a2, a3, a4⟩ := h3 x hx'
        obtain ⟨b1, b2, -, -⟩ := nodeInit_same h n o x hxn
        exact ⟨by rw [b1, a1], by rw [b2, a2], a3, a4⟩
    · intro x hx
      show (nodeInit h n o).owner x = if x = n then o else w.owner x
      by_cases hxn : x = n
      · subst hxn; simp [nodeInit, upd]
      · rw [if_neg hxn, (nodeInit_same h n o x hxn).2.2.1]
        apply h5
        rcases hx with (e | e) | e
        · exact absurd e hxn
        · exact Or.inl e
        · exact Or.inr e
  | add l n ns hc hloose =>
    obtain ⟨n1, n2, n3, n4⟩ := h3 n hloose
    have hr := h1 l ns hc
    have hnin := n4 l ns hc
    have hsame := add_same h l n ns hr
    refine ⟨⟨?_, ?_, ?_, ?_, ?_⟩, rfl⟩
    · intro l' ns' hc'
      simp only [setCont_eq] at hc'
      split at hc'
      · rename_i e; subst e; simp only [Option.some.injEq] at hc'; subst hc'; exact add_rep h _ n ns hr hnin
      · rename_i e
        exact rep_frame h _ l' ns' (h1 l' ns' hc') (fun x hx => hsame x
          (h2 l' l ns' ns e hc' hc x hx) (fun ex => n4 l' ns' hc' (ex ▸ hx)))
    · intro a b na nb hab ha hb x hx hx'
      simp only [setCont_eq] at ha hb
      split at ha
      · rename_i e
        simp only [Option.some.injEq] at ha; subst ha
        rw [if_neg (by rw [← e]; exact Ne.symm hab)] at hb
        subst e
        simp only [List.mem_cons] at hx
        rcases hx with e | e | e
        · exact h2 a b ns nb hab hc hb x (by simp [e]) hx'
        · exact n4 b nb hb (e ▸ hx')
        · exact h2 a b ns nb hab hc hb x (by simp [e]) hx'
      · split at hb
        · rename_i e1 e
          simp only [Option.some.injEq] at hb; subst hb; subst e
          simp only [List.mem_cons] at hx'
          rcases hx' with e | e | e
          · exact h2 a b na ns hab ha hc x hx (by simp [e])
          · exact n4 a na ha (e ▸ hx)
          · exact h2 a b na ns hab ha hc x hx (by simp [e])
        · exact h2 a b na nb hab ha hb x hx hx'
    · intro x hx
      obtain ⟨hxn, hx'⟩ := hx
      obtain ⟨a1, a2, a3, a4⟩ := h3 x hx'
      obtain ⟨b1, b2, -, -⟩ := hsame x (a4 l ns hc) hxn
      refine ⟨by show (add h l n).next x = x; rw [b1, a1], by show (add h l n).prev x = x; rw [b2, a2], a3, ?_⟩
      intro l' ns' hc'
      simp only [setCont_eq] at hc'
      split at hc'
      · rename_i e; subst e; simp only [Option.some.injEq] at hc'; subst hc'
        have := a4 _ ns hc
        simp only [List.mem_cons, not_or] at this ⊢
        exact ⟨this.1, hxn, this.2⟩
      · exact a4 l' ns' hc'
    · intro l' ns' hc' x hx
      simp only [setCont_eq] at hc'
      split at hc'
      · rename_i e; subst e; simp only [Option.some.injEq] at hc'; subst hc'
        simp only [List.mem_cons] at hx
        rcases hx with e | e | e
        · exact h4 _ ns hc x (by simp [e])
        · rw [e]; exact n3
        · exact h4 _ ns hc x (by simp [e])
      · exact h4 l' ns' hc' x hx
    · intro x hx
      show (add h l n).owner x = w.owner x
      rw [add_owner]
      apply h5
      rcases hx with ⟨_, e⟩ | ⟨l', ns', hc', hm⟩
      · exact Or.inl e
      · simp only [setCont_eq] at hc'
        split at hc'
        · rename_i e; subst e; simp only [Option.some.injEq] at hc'; subst hc'
          simp only [List.mem_cons] at hm
          rcases hm with e | e | e
          · exact Or.inr ⟨_, ns, hc, by simp [e]⟩
          · left; rw [e]; exact hloose
          · exact Or.inr ⟨_, ns, hc, by simp [e]⟩
        · exact Or.inr ⟨l', ns', hc', hm⟩
  | del l r xs ys hc => exact ⟨inv_del h w l r xs ys hI hc, rfl⟩
  | popHeadNil l hc =>
    have := (h1 l [] hc).len
    simp only [step, popHead]
    rw [if_pos (by simpa using this)]
    exact ⟨hI, rfl⟩
  | popHead l r ns hc =>
    have hr := h1 l _ hc
    have hn : h.next l = r := hr.seg.1
    simp only [step, popHead]
    rw [if_neg (by rw [hr.len]; simp), hn]
    exact ⟨inv_del h w l r [] ns hI hc, rfl⟩
  | popTailNil l hc =>
    have := (h1 l [] hc).len
    simp only [step, popTail]
    rw [if_pos (by simpa using this)]
    exact ⟨hI, rfl⟩
  | popTail l r ns hc =>
    have hr := h1 l _ hc
    have hn : h.prev l = r := by
      have := (seg_append h ns l r [] l).mp hr.seg
      exact this.2.2
    simp only [step, popTail]
    rw [if_neg (by rw [hr.len]; simp), hn]
    have := inv_del h w l r ns [] hI hc
    simp only [List.append_nil] at this
    exact ⟨this, rfl⟩

theorem inv_reach (h : Heap) (w : World) (hr : Reach h w) : Inv h w := by
  induction hr with
  | init h0 =>
    refine ⟨?_, ?_, ?_, ?_, ?_⟩ <;> simp [World.empty]
  | step _ hs ih => exact (inv_step _ _ _ _ _ ih hs).1

theorem walk_seg (h : Heap) (l : Nat) (ns : List Nat) : ∀ (a fuel : Nat), l ∉ ns → Seg h a ns l →
    ns.length < fuel → walk h.next l fuel (h.next a) = some ns := by
  induction ns with
  | nil =>
    intro a fuel _ hs hf
    cases fuel with
    | zero => omega
    | succ f => simp [walk, hs.1]
  | cons n ns ih =>
    intro a fuel hl hs hf
    cases fuel with
    | zero => omega
    | succ f =>
      simp only [List.mem_cons, not_or] at hl
      rw [hs.1]
      unfold walk
      rw [if_neg (Ne.symm hl.1), ih n f hl.2 hs.2.2 (by simpa using hf)]
      rfl

theorem walk_seg_rev (h : Heap) (l : Nat) (ns : List Nat) : ∀ (b fuel : Nat), l ∉ ns → Seg h l ns b →
    ns.length < fuel → walk h.prev l fuel (h.prev b) = some ns.reverse := by
  intro b fuel
  generalize hm : ns.length = m
  induction m generalizing ns b fuel with
  | zero =>
    intro hl hs hf
    have : ns = [] := List.length_eq_zero_iff.mp hm
    subst this
    cases fuel with
    | zero => omega
    | succ f => simp [walk, hs.2]
  | succ m ih =>
    intro hl hs hf
    cases fuel with
    | zero => omega
    | succ f =>
      have hne : ns ≠ [] := by intro e; subst e; simp at hm
      obtain ⟨ms, n, rfl⟩ : ∃ ms n, ns = ms ++ [n] := ⟨ns.dropLast, ns.getLast hne, (List.dropLast_concat_getLast hne).symm⟩
      obtain ⟨s1, s2⟩ := (seg_append h ms l n [] b).mp hs
      simp only [List.mem_append, List.mem_singleton, not_or] at hl
      rw [s2.2]
      unfold walk
      rw [if_neg (Ne.symm hl.2), ih ms n f (by simpa using hm) hl.1 s1 (by omega)]
      simp

end Arax.IList
