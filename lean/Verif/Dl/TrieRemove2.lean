import Verif.Dl.TrieRemove
/-!
# Unlinking a chunk from a tree: the place of the chunk
-/
namespace Arax.Dl

theorem moveChild_ok {c : Ctx} {l : Links} {x r : Nat} {s : Bool} (hk : l.child r s = 0) (hle : l.child x s ≠ 0 → c.least ≤ l.child x s) :
    ∃ l', l.moveChild c x r s = .ok l' ∧ l'.child = putC l.child r s (l.child x s) ∧ l'.parent = (if l.child x s ≠ 0 then put l.parent (l.child x s) r else l.parent) ∧ l'.fd = l.fd ∧ l'.bk = l.bk ∧
      Rest l l' := by
  unfold Links.moveChild
  by_cases h : l.child x s ≠ 0
  · simp only [if_pos h, if_pos (hle h)]
    exact ⟨_, rfl, rfl, rfl, rfl, rfl, ⟨rfl, rfl, rfl, rfl⟩⟩
  · simp only [if_neg h]
    refine ⟨_, rfl, ?_, rfl, rfl, rfl, ⟨rfl, rfl, rfl, rfl⟩⟩
    have h : l.child x s = 0 := by simpa using h
    funext y z
    unfold putC
    split
    · rename_i e; rw [e.1, e.2, hk, h]
    · rfl

theorem at_reparent {l l' : Links} {U : Trie} {x r a : Nat} (h : U.At l x a) (hn : U.all.Nodup) (hf : ∀ y ∈ U.all, l'.fd y = l.fd y) (hb : ∀ y ∈ U.all, l'.bk y = l.bk y)
    (hc : ∀ y ∈ U.all, l'.child y = l.child y) (hp : ∀ y ∈ U.all, y ≠ a → l'.parent y = l.parent y) (ha : a ≠ 0 → l'.parent a = r) : U.At l' r a := by
  cases U with
  | leaf => exact h
  | node p ring lo hi =>
    obtain ⟨e, a2, a3, a4, a5, a6, a7⟩ := h
    subst e
    obtain ⟨n1, n2, n3, n4, n5⟩ := nodup_parts hn
    have hm : ∀ y ∈ a :: ring, y ∈ (Trie.node a ring lo hi).all := fun y hy => by simp only [Trie.all, List.mem_append]; exact Or.inl hy
    have hlo : ∀ y ∈ lo.all, y ∈ (Trie.node a ring lo hi).all := fun y hy => by simp only [Trie.all, List.mem_append]; exact Or.inr (Or.inl hy)
    have hhi : ∀ y ∈ hi.all, y ∈ (Trie.node a ring lo hi).all := fun y hy => by simp only [Trie.all, List.mem_append]; exact Or.inr (Or.inr hy)
    have hca := hc a (hm a (by simp))
    refine ⟨rfl, a2, ha a2, ring_congr a4 (fun y hy => hf y (hm y hy)) (fun y hy => hb y (hm y hy)), ?_, ?_, ?_⟩
    · intro q hq
      rw [hp q (hm q (by simp [hq])) (ne_mem hq (List.nodup_cons.mp n1).1), hc q (hm q (by simp [hq]))]
      exact a5 q hq
    · rw [hca]
      exact at_congr a6 ⟨fun y hy => hf y (hlo y hy), fun y hy => hb y (hlo y hy), fun y hy => hc y (hlo y hy), fun y hy => hp y (hlo y hy) (ne_mem hy (n4 a (by simp)).1)⟩
    · rw [hca]
      exact at_congr a7 ⟨fun y hy => hf y (hhi y hy), fun y hy => hb y (hhi y hy), fun y hy => hc y (hhi y hy), fun y hy => hp y (hhi y hy) (ne_mem hy (n4 a (by simp)).2)⟩

/-- A tree that is not empty has its root in it. -/
theorem at_mem {l : Links} {U : Trie} {par a : Nat} (h : U.At l par a) (h0 : a ≠ 0) : a ∈ U.all := by
  cases U with
  | leaf => exact absurd h h0
  | node p ring lo hi => obtain ⟨e, -⟩ := h; simp [Trie.all, e]

theorem adopt_ok {c : Ctx} {l : Links} {T : Trie} {x r b h xp : Nat} {ring : List Nat} {lo hi : Trie} (g : Detached c l T x r b h ring lo hi) (hn : T.all.Nodup) (hle : ∀ q ∈ T.all, c.least ≤ q) :
    ∃ l', l.adopt c x xp r = .ok l' ∧ (Trie.node r ring lo hi).At l' xp r ∧ SameL l l' (fun y => y ∉ T.all) ∧ Rest l l' := by
  have hnd := g.perm.nodup_iff.mp hn
  have hmem : ∀ y, y ∈ T.all ↔ y = x ∨ y = r ∨ y ∈ ring ∨ y ∈ lo.all ∨ y ∈ hi.all := fun y => by
    rw [g.perm.mem_iff]; simp only [List.mem_cons, List.cons_append, List.mem_append]
  have hxall : x ∉ (Trie.node r ring lo hi).all := (List.nodup_cons.mp hnd).1
  have hnd' : (Trie.node r ring lo hi).all.Nodup := (List.nodup_cons.mp hnd).2
  obtain ⟨n1, n2, n3, n4, n5⟩ := nodup_parts hnd'
  have hx' : x ≠ r ∧ x ∉ ring ∧ x ∉ lo.all ∧ x ∉ hi.all := by simpa only [Trie.all, List.mem_append, List.mem_cons, not_or, and_assoc] using hxall
  have hrT : c.least ≤ r := hle r ((hmem r).mpr (Or.inr (Or.inl rfl)))
  have hloT : l.child x false ≠ 0 → l.child x false ∈ lo.all := at_mem g.lo
  have hhiT : l.child x true ≠ 0 → l.child x true ∈ hi.all := at_mem g.hi
  unfold Links.adopt
  rw [if_pos g.r0, if_pos hrT]
  obtain ⟨l1, m1, m2, m3, m4, m5, m6⟩ := moveChild_ok (c := c) (l := { l with parent := put l.parent r xp }) (x := x) (r := r) (s := false) (g.kids false)
    (fun h => hle _ ((hmem _).mpr (Or.inr (Or.inr (Or.inr (Or.inl (hloT h)))))))
  have m2 : l1.child = putC l.child r false (l.child x false) := m2
  have m3 : l1.parent = if l.child x false ≠ 0 then put (put l.parent r xp) (l.child x false) r else put l.parent r xp := m3
  have hcx : l1.child x true = l.child x true := by rw [m2, putC_ne _ _ _ hx'.1]
  obtain ⟨l2, k1, k2, k3, k4, k5, k6⟩ := moveChild_ok (c := c) (l := l1) (x := x) (r := r) (s := true) (by rw [m2, putC_side _ _ _ (by decide)]; exact g.kids true)
    (by rw [hcx]; exact fun h => hle _ ((hmem _).mpr (Or.inr (Or.inr (Or.inr (Or.inr (hhiT h)))))))
  rw [hcx] at k2 k3
  have hpar : ∀ y, y ≠ r → (l.child x false ≠ 0 → y ≠ l.child x false) → (l.child x true ≠ 0 → y ≠ l.child x true) → l2.parent y = l.parent y := by
    intro y h1 h2 h3
    rw [k3]
    split
    · rename_i e
      rw [put_ne _ _ (h3 e), m3]
      split
      · rename_i e; rw [put_ne _ _ (h2 e), put_ne _ _ h1]
      · rw [put_ne _ _ h1]
    · rw [m3]
      split
      · rename_i e; rw [put_ne _ _ (h2 e), put_ne _ _ h1]
      · rw [put_ne _ _ h1]
  have hchild : ∀ y, y ≠ r → l2.child y = l.child y := fun y hy => by rw [k2, putC_ne _ _ _ hy, m2, putC_ne _ _ _ hy]
  have hr1 : l2.child r false = l.child x false := by rw [k2, putC_side _ _ _ (by decide), m2, putC_eq]
  have hr2 : l2.child r true = l.child x true := by rw [k2, putC_eq]
  have hrlo : r ∉ lo.all := (n4 r (by simp)).1
  have hrhi : r ∉ hi.all := (n4 r (by simp)).2
  have hprlo : l.child x false ≠ 0 → l2.parent (l.child x false) = r := by
    intro h
    rw [k3]
    split
    · rename_i e
      rw [put_ne _ _ (ne_mem (hloT h) (fun hm => n5 _ hm (hhiT e))), m3, if_pos h, put_eq]
    · rw [m3, if_pos h, put_eq]
  have hprhi : l.child x true ≠ 0 → l2.parent (l.child x true) = r := by
    intro h; rw [k3, if_pos h, put_eq]
  have hprr : l2.parent r = xp := by
    rw [k3]
    have e1 : (if l.child x false ≠ 0 then put (put l.parent r xp) (l.child x false) r else put l.parent r xp) r = xp := by
      split
      · rename_i e; rw [put_ne _ _ (ne_mem (hloT e) hrlo).symm, put_eq]
      · rw [put_eq]
    split
    · rename_i e; rw [put_ne _ _ (ne_mem (hhiT e) hrhi).symm, m3]; exact e1
    · rw [m3]; exact e1
  have hfd : l2.fd = l.fd := k4.trans m4
  have hbk : l2.bk = l.bk := k5.trans m5
  rw [m1]
  refine ⟨l2, k1, ⟨rfl, g.r0, hprr, by rw [hfd, hbk]; exact g.ring, ?_, ?_, ?_⟩, ⟨fun y _ => by rw [hfd], fun y _ => by rw [hbk], fun y hy => ?_, fun y hy => ?_⟩,
    ⟨k6.index.trans m6.index, k6.smallmap.trans m6.smallmap, k6.treemap.trans m6.treemap, k6.root.trans m6.root⟩⟩
  · intro z hz
    have hzr : z ≠ r := ne_mem hz (List.nodup_cons.mp n1).1
    rw [hpar z hzr (fun e e' => (n4 z (by simp [hz])).1 (e' ▸ hloT e)) (fun e e' => (n4 z (by simp [hz])).2 (e' ▸ hhiT e)), hchild z hzr]
    exact g.mem z hz
  · rw [hr1]
    refine at_reparent g.lo n2 (fun y _ => by rw [hfd]) (fun y _ => by rw [hbk]) (fun y hy => hchild y (ne_mem hy hrlo)) (fun y hy hya => ?_) hprlo
    exact hpar y (ne_mem hy hrlo) (fun _ => hya) (fun e e' => n5 y hy (e' ▸ hhiT e))
  · rw [hr2]
    refine at_reparent g.hi n3 (fun y _ => by rw [hfd]) (fun y _ => by rw [hbk]) (fun y hy => hchild y (ne_mem hy hrhi)) (fun y hy hya => ?_) hprhi
    exact hpar y (ne_mem hy hrhi) (fun e e' => n5 _ (hloT e) (e' ▸ hy)) (fun _ => hya)
  · rw [hmem] at hy
    simp only [not_or] at hy
    exact hchild y hy.2.1
  · rw [hmem] at hy
    simp only [not_or] at hy
    exact hpar y hy.2.1 (fun e e' => hy.2.2.2.1 (e' ▸ hloT e)) (fun e e' => hy.2.2.2.2 (e' ▸ hhiT e))

/-- The tree without `x` is now at `a'`. (No code of its own.) -/
def Removed (c : Ctx) (x par b h : Nat) (T : Trie) (l' : Links) (a' : Nat) : Prop := ∃ T' : Trie, T'.At l' par a' ∧ T'.Fit c.sz b h ∧ T.all.Perm (x :: T'.all)

theorem removed_lift {c : Ctx} {l l' : Links} {x par b h t : Nat} {ring : List Nat} {lo hi : Trie} (s : Bool) {U : Trie} (hU : U = if s then hi else lo)
    (hat : (Trie.node t ring lo hi).At l par t) (hf : (Trie.node t ring lo hi).Fit c.sz b h) (hb : b ≠ 0) (hn : (Trie.node t ring lo hi).all.Nodup)
    (hs : SameL l l' (fun y => y ∉ U.all ∧ y ≠ t)) (h1 : l'.fd t = l.fd t) (h2 : l'.bk t = l.bk t) (h3 : l'.parent t = l.parent t) (h4 : l'.child t (!s) = l.child t (!s))
    (hr : Removed c x t (b - 1) (2 * h + s.toNat) U l' (l'.child t s)) : Removed c x par b h (.node t ring lo hi) l' t := by
  obtain ⟨U', u1, u2, u3⟩ := hr
  obtain ⟨-, a2, a3, a4, a5, a6, a7⟩ := hat
  obtain ⟨f1, f2, f3, f4, f5⟩ := hf
  obtain ⟨n1, n2, n3, n4, n5⟩ := nodup_parts hn
  have hUs : ∀ y, y ∈ U.all → y ∈ lo.all ∨ y ∈ hi.all := by intro y hy; subst hU; cases s <;> simp_all
  have hrU : ∀ y ∈ t :: ring, y ∉ U.all := fun y hy hm => (hUs y hm).elim (n4 y hy).1 (n4 y hy).2
  have hrt : ∀ y ∈ ring, y ≠ t := fun y hy => ne_mem hy (List.nodup_cons.mp n1).1
  have hring : Ring l'.fd l'.bk t ring := by
    refine ring_congr a4 (fun y hy => ?_) (fun y hy => ?_)
    · simp only [List.mem_cons] at hy
      rcases hy with e | hy
      · rw [e]; exact h1
      · exact hs.fd y ⟨hrU y (by simp [hy]), hrt y hy⟩
    · simp only [List.mem_cons] at hy
      rcases hy with e | hy
      · rw [e]; exact h2
      · exact hs.bk y ⟨hrU y (by simp [hy]), hrt y hy⟩
  have hmem : ∀ q ∈ ring, l'.parent q = 0 ∧ ∀ b, l'.child q b = 0 := by
    intro q hq
    rw [hs.parent q ⟨hrU q (by simp [hq]), hrt q hq⟩, hs.child q ⟨hrU q (by simp [hq]), hrt q hq⟩]
    exact a5 q hq
  have hpar : l'.parent t = par := h3.trans a3
  cases s with
  | true =>
    simp only [if_true] at hU
    subst hU
    have hlo : lo.At l' t (l'.child t false) := by
      have h4 : l'.child t false = l.child t false := h4
      rw [h4]
      exact at_congr a6 (hs.mono fun y hy => ⟨n5 y hy, ne_mem hy (n4 t (by simp)).1⟩)
    refine ⟨.node t ring lo U', ⟨rfl, a2, hpar, hring, hmem, hlo, u1⟩, ⟨f1, f2, fun e => absurd e hb, f4, u2⟩, ?_⟩
    rw [List.perm_iff_count] at u3 ⊢
    intro z
    have := u3 z
    simp only [Trie.all, List.count_cons, List.count_append] at this ⊢
    omega
  | false =>
    simp only [Bool.false_eq_true, if_false] at hU
    subst hU
    have hhi : hi.At l' t (l'.child t true) := by
      have h4 : l'.child t true = l.child t true := h4
      rw [h4]
      exact at_congr a7 (hs.mono fun y hy => ⟨fun hm => n5 y hm hy, ne_mem hy (n4 t (by simp)).2⟩)
    refine ⟨.node t ring U' hi, ⟨rfl, a2, hpar, hring, hmem, u1, hhi⟩, ⟨f1, f2, fun e => absurd e hb, u2, f5⟩, ?_⟩
    rw [List.perm_iff_count] at u3 ⊢
    intro z
    have := u3 z
    simp only [Trie.all, List.count_cons, List.count_append] at this ⊢
    omega

/-- Detachment survives changes elsewhere. -/
theorem detached_congr {c : Ctx} {l l' : Links} {T : Trie} {x r b h : Nat} {ring : List Nat} {lo hi : Trie} (g : Detached c l T x r b h ring lo hi) (hs : SameL l l' (· ∈ T.all)) :
    Detached c l' T x r b h ring lo hi := by
  have hmem : ∀ y, y ∈ T.all ↔ y = x ∨ y = r ∨ y ∈ ring ∨ y ∈ lo.all ∨ y ∈ hi.all := fun y => by
    rw [g.perm.mem_iff]; simp only [List.mem_cons, List.cons_append, List.mem_append]
  have hr : ∀ y ∈ r :: ring, y ∈ T.all := fun y hy => by
    rw [hmem]; simp only [List.mem_cons] at hy; rcases hy with e | hy
    · exact Or.inr (Or.inl e)
    · exact Or.inr (Or.inr (Or.inl hy))
  have hx : x ∈ T.all := (hmem x).mpr (Or.inl rfl)
  refine ⟨ring_congr g.ring (fun y hy => hs.fd y (hr y hy)) (fun y hy => hs.bk y (hr y hy)), fun z hz => ?_, fun b => ?_, ?_, ?_, g.perm, g.fit, g.r0⟩
  · rw [hs.parent z (hr z (by simp [hz])), hs.child z (hr z (by simp [hz]))]; exact g.mem z hz
  · rw [hs.child r (hr r (by simp))]; exact g.kids b
  · rw [hs.child x hx]; exact at_congr g.lo (hs.mono fun y hy => (hmem y).mpr (Or.inr (Or.inr (Or.inr (Or.inl hy)))))
  · rw [hs.child x hx]; exact at_congr g.hi (hs.mono fun y hy => (hmem y).mpr (Or.inr (Or.inr (Or.inr (Or.inr hy)))))

/-- After the replacement of `x` is found and some change outside the tree, adopting finishes the work. -/
theorem finish {c : Ctx} {l l1 l2 : Links} {T : Trie} {x r b h par : Nat} (hn : T.all.Nodup) (hle : ∀ q ∈ T.all, c.least ≤ q)
    (hor : (r = 0 ∧ T.all = [x]) ∨ ∃ ring' lo' hi', Detached c l1 T x r b h ring' lo' hi') (hs : SameL l1 l2 (· ∈ T.all)) (_ : SameL l l1 (fun y => y ∉ T.all)) :
    ∃ l', l2.adopt c x par r = .ok l' ∧ Removed c x par b h T l' r ∧ SameL l2 l' (fun y => y ∉ T.all) ∧ Rest l2 l' := by
  rcases hor with ⟨e1, e2⟩ | ⟨ring', lo', hi', g⟩
  · subst e1
    refine ⟨l2, by unfold Links.adopt; rw [if_neg (by simp)], ⟨.leaf, rfl, trivial, by rw [e2]; exact List.Perm.refl _⟩, ⟨fun _ _ => rfl, fun _ _ => rfl, fun _ _ => rfl, fun _ _ => rfl⟩, ⟨rfl, rfl, rfl, rfl⟩⟩
  · have g2 := detached_congr g hs
    obtain ⟨l', h1, h2, h3, h4⟩ := adopt_ok (xp := par) g2 hn hle
    exact ⟨l', h1, ⟨_, h2, g2.fit, g2.perm⟩, h3, h4⟩

/-- Unlinking a chunk that is not the root of its bin. -/
theorem unlink_inner {c : Ctx} {x : Nat} (hl0 : 0 < c.least) : ∀ (T : Trie) (b h par t : Nat) (l : Links), T.At l par t → T.Fit c.sz b h → b ≤ 64 → T.all.Nodup → (∀ q ∈ T.all, c.least ≤ q) →
    x ∈ T.all → x ≠ t → x ≠ l.root (l.index x) →
    ∃ l', l.unlinkLarge c x = .ok l' ∧ Removed c x par b h T l' t ∧ SameL l l' (fun y => y ∉ T.all) ∧ Rest l l'
  | .leaf, _, _, _, _, _, _, _, _, _, _, hx, _, _ => by simp [Trie.all] at hx
  | .node t ring lo hi, b, h, par, t0, l, hat, hf, hb, hn, hle, hx, hxt, hroot => by
    have e0 : t0 = t := hat.1
    subst e0
    have hat0 := hat
    have hf0 := hf
    obtain ⟨-, a2, a3, a4, a5, a6, a7⟩ := hat
    obtain ⟨f1, f2, f3, f4, f5⟩ := hf
    obtain ⟨n1, n2, n3, n4, n5⟩ := nodup_parts hn
    have htT : c.least ≤ t0 := hle t0 (by simp [Trie.all])
    have hx' : x ∈ ring ∨ x ∈ lo.all ∨ x ∈ hi.all := by
      simp only [Trie.all, List.mem_append, List.mem_cons] at hx
      rcases hx with (e | h) | h
      · exact absurd e hxt
      · exact Or.inl h
      · exact Or.inr h
    have hx0 : x ≠ 0 := Nat.ne_of_gt (Nat.lt_of_lt_of_le hl0 (hle x hx))
    rcases hx' with hx' | hx' | hx'
    · -- a chained chunk
      obtain ⟨xs, ys, rfl⟩ := List.append_of_mem hx'
      obtain ⟨r1, r2, r3, r4, r5⟩ := ring_at a4
      have hrem := ring_remove a4
      have hxn : x ∉ t0 :: xs ∧ x ∉ ys ++ [t0] := by
        have : (t0 :: (xs ++ x :: ys)).Nodup := n1
        simp only [List.nodup_cons, List.nodup_append, List.mem_append, List.mem_cons, not_or, List.not_mem_nil, or_false] at this ⊢
        exact ⟨⟨hxt, fun hm => this.2.2.2 x hm x (Or.inl rfl) rfl⟩, this.2.2.1.1, hxt⟩
      have hbk : l.bk x ≠ x := ne_mem r4 hxn.1
      have hfR : l.fd x ∈ t0 :: (xs ++ x :: ys) := by
        simp only [List.mem_append, List.mem_cons, List.not_mem_nil, or_false] at r3 ⊢
        rcases r3 with h | h
        · exact Or.inr (Or.inr (Or.inr h))
        · exact Or.inl h
      have hbR : l.bk x ∈ t0 :: (xs ++ x :: ys) := by
        simp only [List.mem_append, List.mem_cons] at r4 ⊢
        rcases r4 with h | h
        · exact Or.inl h
        · exact Or.inr (Or.inl h)
      have hring : ∀ y ∈ t0 :: (xs ++ x :: ys), y ∈ (Trie.node t0 (xs ++ x :: ys) lo hi).all := fun y hy => by simp only [Trie.all, List.mem_append (t := lo.all ++ hi.all)]; exact Or.inl hy
      have hsame : SameL l { l with bk := put l.bk (l.fd x) (l.bk x), fd := put l.fd (l.bk x) (l.fd x) } (fun y => y ≠ l.bk x ∧ y ≠ l.fd x) :=
        ⟨fun y hy => put_ne _ _ hy.1, fun y hy => put_ne _ _ hy.2, fun _ _ => rfl, fun _ _ => rfl⟩
      have hun : l.unlinkLarge c x = .ok { l with bk := put l.bk (l.fd x) (l.bk x), fd := put l.fd (l.bk x) (l.fd x) } := by
        unfold Links.unlinkLarge Links.replacement
        simp only [if_pos hbk, if_pos (And.intro (hle _ (hring _ hfR)) (And.intro r1 r2)), Out.bind_ok]
        rw [if_neg (by simp [(a5 x (by simp)).1])]
      refine ⟨_, hun, ⟨.node t0 (xs ++ ys) lo hi, ⟨rfl, a2, a3, hrem, fun q hq => a5 q ?_, ?_, ?_⟩, ⟨fun q hq => f1 q ?_, f2, f3, f4, f5⟩, ?_⟩,
        hsame.mono fun y hy => ⟨fun e => hy (e ▸ hring _ hbR), fun e => hy (e ▸ hring _ hfR)⟩, ⟨rfl, rfl, rfl, rfl⟩⟩
      · simp only [List.mem_append, List.mem_cons] at hq ⊢; exact hq.imp id Or.inr
      · exact at_congr a6 (hsame.mono fun y hy => ⟨ne_mem hy (n4 _ hbR).1, ne_mem hy (n4 _ hfR).1⟩)
      · exact at_congr a7 (hsame.mono fun y hy => ⟨ne_mem hy (n4 _ hbR).2, ne_mem hy (n4 _ hfR).2⟩)
      · simp only [List.mem_append, List.mem_cons] at hq ⊢; exact hq.imp id Or.inr
      · rw [List.perm_iff_count]; intro z
        simp only [Trie.all, List.count_cons, List.count_append, List.cons_append]; omega
    · -- in the left subtree
      have hb0 : b ≠ 0 := fun e => by rw [(f3 e).1] at hx'; simp [Trie.all] at hx'
      by_cases hxc : x = l.child t0 false
      · obtain ⟨ring', lo', hi', hlo⟩ : ∃ ring' lo' hi', lo = .node x ring' lo' hi' := by
          cases lo with
          | leaf => simp [Trie.all] at hx'
          | node p r1 l1 h1 => exact ⟨r1, l1, h1, by rw [hxc, a6.1]⟩
        subst hlo
        rw [← hxc] at a6
        have hlel : ∀ q ∈ (Trie.node x ring' lo' hi').all, c.least ≤ q := fun q hq => hle q (by rw [Trie.all]; exact List.mem_append.mpr (Or.inr (List.mem_append.mpr (Or.inl hq))))
        obtain ⟨l1, r, k1, k2, k3, k4, k5⟩ := replacement_ok a6 f4 (by omega) n2 hlel hl0
        have htn := (n4 t0 (by simp)).1
        have hct : l1.child t0 = l.child t0 := k2.child t0 htn
        have hpx : l.parent x = t0 := a6.2.2.1
        have hidx : l1.index x = l.index x := by rw [k3.index]
        have hrl : l1.relinkParent c x t0 r = .ok { l1 with child := putC l1.child t0 false r } := by
          unfold Links.relinkParent
          rw [if_neg (by rw [hidx, k3.root]; exact hroot), if_pos htT, if_pos (by rw [hct]; exact hxc.symm)]
        obtain ⟨l', j1, j2, j3, j4⟩ := finish (l2 := { l1 with child := putC l1.child t0 false r }) (par := t0) n2 hlel k5
          ⟨fun _ _ => rfl, fun _ _ => rfl, fun y hy => putC_ne _ _ _ (ne_mem hy htn), fun _ _ => rfl⟩ k2
        have hun : l.unlinkLarge c x = .ok l' := by
          unfold Links.unlinkLarge
          simp only [k1, Out.bind_ok]
          rw [if_pos (by rw [hpx]; exact a2), hpx, hrl, Out.bind_ok, j1]
        have hcf : ∀ y, y ∉ (Trie.node x ring' lo' hi').all → y ≠ t0 → l'.child y = l.child y := fun y hy hyt => by
          rw [j3.child y hy]; show putC l1.child t0 false r y = _; rw [putC_ne _ _ _ hyt, k2.child y hy]
        have hc1 : l'.child t0 = putC l1.child t0 false r t0 := j3.child t0 htn
        have hsub : ∀ y, y ∉ (Trie.node t0 ring (.node x ring' lo' hi') hi).all → y ∉ (Trie.node x ring' lo' hi').all ∧ y ≠ t0 := by
          intro y hy
          rw [Trie.all] at hy
          simp only [List.mem_append, List.mem_cons, not_or] at hy
          exact ⟨hy.2.1, hy.1.1⟩
        have hS : SameL l l' (fun y => y ∉ (Trie.node x ring' lo' hi').all ∧ y ≠ t0) :=
          ⟨fun y hy => (j3.fd y hy.1).trans (k2.fd y hy.1), fun y hy => (j3.bk y hy.1).trans (k2.bk y hy.1), fun y hy => hcf y hy.1 hy.2, fun y hy => (j3.parent y hy.1).trans (k2.parent y hy.1)⟩
        refine ⟨l', hun, removed_lift false (U := .node x ring' lo' hi') (by simp) hat0 hf0 hb0 hn hS ((j3.fd t0 htn).trans (k2.fd t0 htn)) ((j3.bk t0 htn).trans (k2.bk t0 htn))
          ((j3.parent t0 htn).trans (k2.parent t0 htn)) ?_ ?_, hS.mono hsub, ⟨j4.index.trans k3.index, j4.smallmap.trans k3.smallmap, j4.treemap.trans k3.treemap, j4.root.trans k3.root⟩⟩
        · rw [hc1]; show putC l1.child t0 false r t0 true = l.child t0 true
          rw [putC_side _ _ _ (by decide), hct]
        · rw [hc1, putC_eq]; exact j2
      · obtain ⟨l', h1, h2, h3, h4⟩ := unlink_inner hl0 lo (b - 1) (2 * h) t0 (l.child t0 false) l a6 f4 (by omega) n2 (fun q hq => hle q (by simp [Trie.all, hq])) hx' hxc hroot
        have htn := (n4 t0 (by simp)).1
        have hct := h3.child t0 htn
        exact ⟨l', h1, removed_lift false (U := lo) (by simp) hat0 hf0 hb0 hn (h3.mono fun y hy => hy.1) (h3.fd t0 htn) (h3.bk t0 htn) (h3.parent t0 htn) (by rw [hct]) (by rw [hct]; exact h2),
          h3.mono (fun y hy hm => hy (by simp [Trie.all, hm])), h4⟩
    · -- in the right subtree
      have hb0 : b ≠ 0 := fun e => by rw [(f3 e).2] at hx'; simp [Trie.all] at hx'
      by_cases hxc : x = l.child t0 true
      · obtain ⟨ring', lo', hi', hhi⟩ : ∃ ring' lo' hi', hi = .node x ring' lo' hi' := by
          cases hi with
          | leaf => simp [Trie.all] at hx'
          | node p r1 l1 h1 => exact ⟨r1, l1, h1, by rw [hxc, a7.1]⟩
        subst hhi
        rw [← hxc] at a7
        have hlel : ∀ q ∈ (Trie.node x ring' lo' hi').all, c.least ≤ q := fun q hq => hle q (by rw [Trie.all]; exact List.mem_append.mpr (Or.inr (List.mem_append.mpr (Or.inr hq))))
        obtain ⟨l1, r, k1, k2, k3, k4, k5⟩ := replacement_ok a7 f5 (by omega) n3 hlel hl0
        have htn := (n4 t0 (by simp)).2
        have hct : l1.child t0 = l.child t0 := k2.child t0 htn
        have hpx : l.parent x = t0 := a7.2.2.1
        have hidx : l1.index x = l.index x := by rw [k3.index]
        have hne : l.child t0 false ≠ x := by
          intro e
          have := at_mem a6 (by rw [e]; exact hx0)
          rw [e] at this
          exact n5 x this hx'
        have hrl : l1.relinkParent c x t0 r = .ok { l1 with child := putC l1.child t0 true r } := by
          unfold Links.relinkParent
          rw [if_neg (by rw [hidx, k3.root]; exact hroot), if_pos htT, if_neg (by rw [hct]; exact hne)]
        obtain ⟨l', j1, j2, j3, j4⟩ := finish (l2 := { l1 with child := putC l1.child t0 true r }) (par := t0) n3 hlel k5
          ⟨fun _ _ => rfl, fun _ _ => rfl, fun y hy => putC_ne _ _ _ (ne_mem hy htn), fun _ _ => rfl⟩ k2
        have hun : l.unlinkLarge c x = .ok l' := by
          unfold Links.unlinkLarge
          simp only [k1, Out.bind_ok]
          rw [if_pos (by rw [hpx]; exact a2), hpx, hrl, Out.bind_ok, j1]
        have hcf : ∀ y, y ∉ (Trie.node x ring' lo' hi').all → y ≠ t0 → l'.child y = l.child y := fun y hy hyt => by
          rw [j3.child y hy]; show putC l1.child t0 true r y = _; rw [putC_ne _ _ _ hyt, k2.child y hy]
        have hc1 : l'.child t0 = putC l1.child t0 true r t0 := j3.child t0 htn
        have hsub : ∀ y, y ∉ (Trie.node t0 ring lo (.node x ring' lo' hi')).all → y ∉ (Trie.node x ring' lo' hi').all ∧ y ≠ t0 := by
          intro y hy
          rw [Trie.all] at hy
          simp only [List.mem_append, List.mem_cons, not_or] at hy
          exact ⟨hy.2.2, hy.1.1⟩
        have hS : SameL l l' (fun y => y ∉ (Trie.node x ring' lo' hi').all ∧ y ≠ t0) :=
          ⟨fun y hy => (j3.fd y hy.1).trans (k2.fd y hy.1), fun y hy => (j3.bk y hy.1).trans (k2.bk y hy.1), fun y hy => hcf y hy.1 hy.2, fun y hy => (j3.parent y hy.1).trans (k2.parent y hy.1)⟩
        refine ⟨l', hun, removed_lift true (U := .node x ring' lo' hi') (by simp) hat0 hf0 hb0 hn hS ((j3.fd t0 htn).trans (k2.fd t0 htn)) ((j3.bk t0 htn).trans (k2.bk t0 htn))
          ((j3.parent t0 htn).trans (k2.parent t0 htn)) ?_ ?_, hS.mono hsub, ⟨j4.index.trans k3.index, j4.smallmap.trans k3.smallmap, j4.treemap.trans k3.treemap, j4.root.trans k3.root⟩⟩
        · rw [hc1]; show putC l1.child t0 true r t0 false = l.child t0 false
          rw [putC_side _ _ _ (by decide), hct]
        · rw [hc1, putC_eq]; exact j2
      · obtain ⟨l', h1, h2, h3, h4⟩ := unlink_inner hl0 hi (b - 1) (2 * h + 1) t0 (l.child t0 true) l a7 f5 (by omega) n3 (fun q hq => hle q (by simp [Trie.all, hq])) hx' hxc hroot
        have htn := (n4 t0 (by simp)).2
        have hct := h3.child t0 htn
        exact ⟨l', h1, removed_lift true (U := hi) (by simp) hat0 hf0 hb0 hn (h3.mono fun y hy => hy.1) (h3.fd t0 htn) (h3.bk t0 htn) (h3.parent t0 htn) (by rw [hct]) (by rw [hct]; exact h2),
          h3.mono (fun y hy hm => hy (by simp [Trie.all, hm])), h4⟩

end Arax.Dl
