import Verif.Dl.Bins2
/-!
# The bins implement a list of chunks: searching
-/
namespace Arax.Dl

/-- A best fit among the large chunks: `p` is one of the chunks that are large enough, leaves `r` bytes, and no chunk that is large enough is smaller. (No code of its own.) -/
def BestFit (bins : List (Nat × Nat)) (nb p r : Nat) : Prop := ∃ n, (p, n) ∈ bins ∧ nb ≤ n ∧ r = n - nb ∧ ∀ x ∈ bins, nb ≤ x.2 → n ≤ x.2

theorem pathLoop_any {c : Ctx} {l : Links} {nb : Nat} (h0 : 0 < nb) (hnb : nb < W) : ∀ (T U0 : Trie) (b h k bits par t rst v r : Nat), T.At l par t → T ≠ .leaf → T.Fit c.sz b h → b ≤ 64 → b + 1 ≤ k →
    r ≤ W - nb → (∀ q ∈ T.all, c.sz q < W) → (∃ par b h, U0.At l par rst ∧ U0.Fit c.sz b h ∧ b ≤ 64) →
    ∃ t' v' r', pathLoop c l nb k t rst v r bits = .ok (t', v', r') ∧ Chose c nb T.all v r v' r' ∧ ∃ (U : Trie) (par b h : Nat), U.At l par t' ∧ U.Fit c.sz b h ∧ b ≤ 64 ∧ ∀ q ∈ U.all, q ∈ T.all ∨ q ∈ U0.all
  | .leaf, _, _, _, _, _, _, _, _, _, _, _, h, _, _, _, _, _, _ => absurd rfl h
  | .node t ring lo hi, _, _, _, 0, _, _, _, _, _, _, _, _, _, _, hk, _, _, _ => absurd hk (by omega)
  | .node t ring lo hi, U0, b, h, k + 1, bits, par, t0, rst, v, r, hat, _, hf, hb, hk, hr, hsz, hU => by
    have hat0 := hat
    have hf0 := hf
    obtain ⟨e0, a2, a3, a4, a5, a6, a7⟩ := hat
    obtain ⟨f1, f2, f3, f4, f5⟩ := hf
    subst e0
    have hst := hsz t0 (by simp [Trie.all])
    have htr := sub64_lt h0 hst hnb hr
    have hlo : ∀ q ∈ lo.all, q ∈ (Trie.node t0 ring lo hi).all := fun q hq => by simp [Trie.all, hq]
    have hhi : ∀ q ∈ hi.all, q ∈ (Trie.node t0 ring lo hi).all := fun q hq => by simp [Trie.all, hq]
    have hstep : ∀ v' r', (v' = if sub64 (c.sz t0) nb < r then t0 else v) → (r' = if sub64 (c.sz t0) nb < r then sub64 (c.sz t0) nb else r) → Chose c nb (Trie.node t0 ring lo hi).all v r v' r' := by
      intro v' r' hv hr'
      by_cases hlt : sub64 (c.sz t0) nb < r
      · rw [if_pos hlt] at hv hr'
        obtain ⟨q1, q2⟩ := htr.mp hlt
        refine ⟨by omega, Or.inr ⟨by rw [hv]; simp [Trie.all], by rw [hv]; exact q1, ?_⟩⟩
        rw [hr', hv]; exact sub64_eq hst hnb q1
      · rw [if_neg hlt] at hv hr'
        exact ⟨by omega, Or.inl ⟨hv, hr'⟩⟩
    unfold pathLoop
    simp only
    by_cases hz : sub64 (c.sz t0) nb < r ∧ sub64 (c.sz t0) nb = 0
    · rw [if_pos hz]
      have hc := hstep t0 0 (by rw [if_pos hz.1]) (by rw [if_pos hz.1, hz.2])
      exact ⟨_, _, _, rfl, hc, .node t0 ring lo hi, par, b, h, hat0, hf0, hb, fun q hq => Or.inl hq⟩
    · rw [if_neg hz]
      have hc := hstep _ _ rfl rfl
      have hrst : ∃ U' : Trie, (∃ par b h, U'.At l par (if l.child t0 true ≠ 0 ∧ l.child t0 true ≠ l.child t0 (topBit bits) then l.child t0 true else rst) ∧ U'.Fit c.sz b h ∧ b ≤ 64) ∧
          ∀ q ∈ U'.all, q ∈ (Trie.node t0 ring lo hi).all ∨ q ∈ U0.all := by
        by_cases e : l.child t0 true ≠ 0 ∧ l.child t0 true ≠ l.child t0 (topBit bits)
        · rw [if_pos e]; exact ⟨hi, ⟨_, _, _, a7, f5, by omega⟩, fun q hq => Or.inl (hhi q hq)⟩
        · rw [if_neg e]; exact ⟨U0, hU, fun q hq => Or.inr hq⟩
      obtain ⟨U', hU', hs'⟩ := hrst
      by_cases hn : l.child t0 (topBit bits) = 0
      · rw [if_pos hn]
        obtain ⟨p1, b1, h1, g1, g2, g3⟩ := hU'
        exact ⟨_, _, _, rfl, hc, U', p1, b1, h1, g1, g2, g3, hs'⟩
      · rw [if_neg hn]
        have hr2 : (if sub64 (c.sz t0) nb < r then sub64 (c.sz t0) nb else r) ≤ W - nb := by split <;> omega
        have hdone : ∀ (V : Trie) (h1 : Nat), V.At l t0 (l.child t0 (topBit bits)) → V.Fit c.sz (b - 1) h1 → (b = 0 → V = .leaf) → (∀ q ∈ V.all, q ∈ (Trie.node t0 ring lo hi).all) →
            (∀ bits' rst' v' r', r' ≤ W - nb → (∃ par b h, U'.At l par rst' ∧ U'.Fit c.sz b h ∧ b ≤ 64) →
              b ≠ 0 → V ≠ .leaf → ∃ t' v'' r'', pathLoop c l nb k (l.child t0 (topBit bits)) rst' v' r' bits' = .ok (t', v'', r'') ∧ Chose c nb V.all v' r' v'' r'' ∧
              ∃ (U : Trie) (par b h : Nat), U.At l par t' ∧ U.Fit c.sz b h ∧ b ≤ 64 ∧ ∀ q ∈ U.all, q ∈ V.all ∨ q ∈ U'.all) →
            ∃ t' v'' r'', pathLoop c l nb k (l.child t0 (topBit bits)) (if l.child t0 true ≠ 0 ∧ l.child t0 true ≠ l.child t0 (topBit bits) then l.child t0 true else rst)
              (if sub64 (c.sz t0) nb < r then t0 else v) (if sub64 (c.sz t0) nb < r then sub64 (c.sz t0) nb else r) (shl1 bits) = .ok (t', v'', r'') ∧
              Chose c nb (Trie.node t0 ring lo hi).all v r v'' r'' ∧ ∃ (U : Trie) (par b h : Nat), U.At l par t' ∧ U.Fit c.sz b h ∧ b ≤ 64 ∧ ∀ q ∈ U.all, q ∈ (Trie.node t0 ring lo hi).all ∨ q ∈ U0.all := by
          intro V h1 v1 v2 v3 v4 v5
          have hV : V ≠ .leaf := fun e => hn ((at_zero v1).mpr e)
          obtain ⟨t', v'', r'', w1, w2, U, p1, b1, h1, w3, w4, w5, w6⟩ := v5 (shl1 bits) _ (if sub64 (c.sz t0) nb < r then t0 else v) _ hr2 hU' (fun e => hV (v3 e)) hV
          refine ⟨t', v'', r'', w1, hc.trans (w2.mono v4), U, p1, b1, h1, w3, w4, w5, fun q hq => ?_⟩
          rcases w6 q hq with e | e
          · exact Or.inl (v4 q e)
          · exact hs' q e
        cases hbit : topBit bits with
        | false =>
          rw [hbit] at hdone
          exact hdone lo _ a6 f4 (fun e => (f3 e).1) hlo fun bits' rst' v' r' q1 q2 q3 q4 =>
            pathLoop_any h0 hnb lo U' (b - 1) _ k bits' t0 _ rst' v' r' a6 q4 f4 (by omega) (by omega) q1 (fun q hq => hsz q (hlo q hq)) q2
        | true =>
          rw [hbit] at hdone
          exact hdone hi _ a7 f5 (fun e => (f3 e).2) hhi fun bits' rst' v' r' q1 q2 q3 q4 =>
            pathLoop_any h0 hnb hi U' (b - 1) _ k bits' t0 _ rst' v' r' a7 q4 f5 (by omega) (by omega) q1 (fun q hq => hsz q (hhi q hq)) q2

/-- The chunks of a tree. -/
theorem tree_mem {c : Ctx} {l : Links} {bins : List (Nat × Nat)} (h : BinsOK c l bins) {T : Trie} {i : Nat} (hp : T.all.Perm (trees bins i)) {q : Nat} (hq : q ∈ T.all) :
    (q, c.sz q) ∈ bins ∧ 256 ≤ c.sz q ∧ c.sz q < 2 ^ 40 ∧ treeIndex (c.sz q) = i ∧ q ≠ 0 := by
  obtain ⟨n, h1, h2, h3⟩ := mem_trees.mp (hp.mem_iff.mp hq)
  have hf := h.ok _ h1
  have e : c.sz q = n := hf.sz
  rw [e]
  have := hf.least
  have := h.least0
  simp only at *
  exact ⟨h1, h2, hf.max, h3, by omega⟩

theorem mem_tree {bins : List (Nat × Nat)} {T : Trie} {i : Nat} (hp : T.all.Perm (trees bins i)) {q n : Nat} (hq : (q, n) ∈ bins) (hn : 256 ≤ n) (hi : treeIndex n = i) : q ∈ T.all :=
  hp.mem_iff.mpr (mem_trees.mpr ⟨n, hq, hn, hi⟩)

/-- `tmalloc_large` finds a best fit if there is any fit at all. -/
theorem searchLarge_ok {c : Ctx} {l : Links} {bins : List (Nat × Nat)} (h : BinsOK c l bins) {nb : Nat} (h256 : 256 ≤ nb) (hnb : nb < W) :
    ∃ v r, l.searchLarge c nb = .ok (v, r) ∧ ((v = 0 ∧ r = W - nb ∧ ∀ x ∈ bins, x.2 < nb) ∨ (v ≠ 0 ∧ BestFit bins nb v r)) := by
  have h0 : 0 < nb := by omega
  have hW : W = 2 ^ 64 := rfl
  have hi := treeIndex_lt nb
  have hlv := treeLevel_le _ hi
  have hsz0 := sub64_zero h0 hnb
  obtain ⟨T, t1, t2, t3, t4, t5⟩ := h.tree (treeIndex nb) hi
  unfold Links.searchLarge
  simp only
  rw [hsz0]
  -- no chunk of the tree leaves as much as `W - nb`
  have hszT : ∀ {U : Trie} {i : Nat}, U.all.Perm (trees bins i) → ∀ q ∈ U.all, c.sz q < W := fun hp q hq => by have := (tree_mem h hp hq).2.2.1; omega
  by_cases hbig : nb < 2 ^ 40
  · -- some chunk may fit
    -- the second part
    have htail : ∀ (U : Trie) (par b hh t v r : Nat), U.At l par t → U.Fit c.sz b hh → b ≤ 64 → r ≤ W - nb → (∀ q ∈ U.all, c.sz q < W) →
        ∃ v' r', smallestLoop c l nb 70 t v r = .ok (v', r') ∧ Chose c nb U.all v r v' r' ∧ ((∀ q ∈ U.all, nb ≤ c.sz q) → ∀ q ∈ U.all, r' ≤ c.sz q - nb) :=
      fun U par b hh t v r u1 u2 u3 u4 u5 => smallestLoop_ok h0 hnb U b hh 70 par t v r u1 u2 (Or.inl (by omega)) u4 u5
    -- no fit in this bin
    have hlater : (∀ q ∈ T.all, c.sz q < nb) → ∃ v r,
        smallestLoop c l nb 70 (if leftBits (idx2bit (treeIndex nb)) &&& l.treemap ≠ 0 then l.root (bit2idx (leastBit (leftBits (idx2bit (treeIndex nb)) &&& l.treemap))) else 0) 0 (W - nb) = .ok (v, r) ∧
        ((v = 0 ∧ r = W - nb ∧ ∀ x ∈ bins, x.2 < nb) ∨ (v ≠ 0 ∧ BestFit bins nb v r)) := by
      intro hno
      have hget : ∀ j, (leftBits (idx2bit (treeIndex nb)) &&& l.treemap).getLsbD j = (decide (j < 32) && decide (treeIndex nb < j) && l.treemap.getLsbD j) := fun j => by
        rw [BitVec.getLsbD_and, leftBits_get hi]
      have hle : ∀ x ∈ bins, nb ≤ x.2 → treeIndex nb < treeIndex x.2 := by
        intro x hx hn
        have hf := h.ok x hx
        rcases Nat.lt_trichotomy (treeIndex nb) (treeIndex x.2) with g | g | g
        · exact g
        · exfalso
          have hm := mem_tree t3 (q := x.1) (n := x.2) hx (by omega) g.symm
          have := hno _ hm
          rw [hf.sz] at this; omega
        · exfalso
          have := treeIndex_mono (by omega) hf.max h256 hbig g
          omega
      by_cases hbz : leftBits (idx2bit (treeIndex nb)) &&& l.treemap ≠ 0
      · rw [if_pos hbz]
        obtain ⟨g1, g2, g3⟩ := bit2idx_least hbz
        generalize bit2idx (leastBit (leftBits (idx2bit (treeIndex nb)) &&& l.treemap)) = j at *
        rw [hget] at g2
        simp only [Bool.and_eq_true, decide_eq_true_eq] at g2
        obtain ⟨V, v1, v2, v3, v4, v5⟩ := h.tree j g1
        have hbigV : ∀ q ∈ V.all, nb < c.sz q := by
          intro q hq
          obtain ⟨m1, m2, m3, m4, -⟩ := tree_mem h v3 hq
          exact treeIndex_mono h256 hbig m2 m3 (by rw [m4]; exact g2.1.2)
        obtain ⟨v, r, w1, w2, w3⟩ := htail V _ _ _ _ 0 (W - nb) v1 v2 (treeLevel_le _ g1) (Nat.le_refl _) (hszT v3)
        refine ⟨v, r, w1, Or.inr ?_⟩
        have hVne := v4.mp g2.2
        have hmin := w3 fun q hq => Nat.le_of_lt (hbigV q hq)
        obtain ⟨q0, hq0⟩ : ∃ q, q ∈ V.all := by
          cases V with
          | leaf => exact absurd rfl hVne
          | node p _ _ _ => exact ⟨p, by simp [Trie.all]⟩
        have hq0s := hszT v3 q0 hq0
        have hq0b := hbigV q0 hq0
        have hq0r := hmin q0 hq0
        rcases w2.2 with ⟨-, e⟩ | ⟨e1, e2, e3⟩
        · omega
        · obtain ⟨m1, m2, m3, m4, m5⟩ := tree_mem h v3 e1
          refine ⟨m5, c.sz v, m1, e2, e3, fun x hx hn => ?_⟩
          have hf := h.ok x hx
          have hgt := hle x hx hn
          rcases Nat.lt_trichotomy (treeIndex x.2) j with g | g | g
          · -- an empty bin
            exfalso
            obtain ⟨V', u1, u2, u3, u4, u5⟩ := h.tree (treeIndex x.2) (treeIndex_lt _)
            have hm := mem_tree u3 (q := x.1) (n := x.2) hx (by omega) rfl
            have hb := u4.mpr (by rintro rfl; simp [Trie.all] at hm)
            have := g3 _ g
            rw [hget, hb] at this
            simp [hgt, treeIndex_lt] at this
          · have hm := mem_tree v3 (q := x.1) (n := x.2) hx (by omega) g
            have := hmin _ hm
            rw [hf.sz] at this
            omega
          · exact Nat.le_of_lt (treeIndex_mono m2 m3 (by omega) hf.max (by rw [m4]; exact g))
      · rw [if_neg hbz]
        refine ⟨0, W - nb, by simp [smallestLoop], Or.inl ⟨rfl, rfl, fun x hx => ?_⟩⟩
        rcases Nat.lt_or_ge x.2 nb with g | g
        · exact g
        · exfalso
          have hgt := hle x hx g
          obtain ⟨V', u1, u2, u3, u4, u5⟩ := h.tree (treeIndex x.2) (treeIndex_lt _)
          have hm := mem_tree u3 (q := x.1) (n := x.2) hx (by omega) rfl
          have hb := u4.mpr (by rintro rfl; simp [Trie.all] at hm)
          apply hbz
          intro e
          have := congrArg (fun y : BitVec 32 => y.getLsbD (treeIndex x.2)) e
          simp only [hget, hb] at this
          rw [show (0 : BitVec 32).getLsbD (treeIndex x.2) = false from BitVec.getLsbD_zero] at this
          simp [hgt, treeIndex_lt] at this
    by_cases hT : T = .leaf
    · have hz := (at_zero t1).mpr hT
      rw [if_neg (by simp [hz]), Out.bind_ok]
      simp only [and_self, if_true]
      exact hlater (by rw [hT]; intro q hq; simp [Trie.all] at hq)
    · have hz : l.root (treeIndex nb) ≠ 0 := fun e => hT ((at_zero t1).mp e)
      rw [if_pos hz]
      obtain ⟨t', v', r', w1, w2, w3⟩ := pathLoop_ok h0 hnb T .leaf _ _ 70 _ _ _ 0 0 (W - nb) t1 hT t2 (tree_high h256 hbig) (sizeBits_eq nb hi) hlv (by omega) (Nat.le_refl _) (hszT t3)
        ⟨⟨0, 0, 0, rfl, trivial, by omega⟩, fun u hu => by simp [Trie.all] at hu⟩ (fun u hu => by simp [Trie.all] at hu)
      rw [w1, Out.bind_ok]
      simp only
      -- a chunk of this bin beats the other bins
      have hbest : ∀ v, v ∈ T.all → nb ≤ c.sz v → (∀ q ∈ T.all, nb ≤ c.sz q → c.sz v ≤ c.sz q) → v ≠ 0 ∧ BestFit bins nb v (c.sz v - nb) := by
        intro v hv hn hmin
        obtain ⟨m1, m2, m3, m4, m5⟩ := tree_mem h t3 hv
        refine ⟨m5, c.sz v, m1, hn, rfl, fun x hx hxn => ?_⟩
        have hf := h.ok x hx
        rcases Nat.lt_trichotomy (treeIndex x.2) (treeIndex nb) with g | g | g
        · have := treeIndex_mono (by omega) hf.max h256 hbig g
          omega
        · have := hmin _ (mem_tree t3 (q := x.1) (n := x.2) hx (by omega) g) (by rw [hf.sz]; exact hxn)
          rwa [hf.sz] at this
        · exact Nat.le_of_lt (treeIndex_mono m2 m3 (by omega) hf.max (by rw [m4]; exact g))
      rcases w3 with ⟨g1, g2, g3, U, par, b, hh, u1, u2, u3, u4⟩ | ⟨U, ⟨⟨par, b, hh, u1, u2, u3⟩, ubig⟩, usub, umin⟩
      · rw [if_neg (fun e => g1 e.1)]
        obtain ⟨v, r, s1, s2, s3⟩ := htail U par b hh t' v' r' u1 u2 u3 (by omega) (fun q hq => hszT t3 q (u4 q hq))
        refine ⟨v, r, s1, Or.inr ?_⟩
        have hr0 : r = 0 := by have := s2.1; omega
        have hex : v ∈ T.all ∧ c.sz v = nb := by
          rcases s2.2 with ⟨e1, e2⟩ | ⟨e1, e2, e3⟩
          · subst e1
            rcases w2.2 with ⟨f1, f2⟩ | ⟨f1, f2, f3⟩
            · omega
            · exact ⟨f1, by omega⟩
          · exact ⟨u4 _ e1, by omega⟩
        have := hbest v hex.1 (by omega) (fun q _ hn => by omega)
        rw [hex.2] at this
        rw [hr0]
        simpa using this
      · have usub' : ∀ q ∈ U.all, q ∈ T.all := fun q hq => (usub q hq).elim id fun e => by simp [Trie.all] at e
        by_cases hnone : t' = 0 ∧ v' = 0
        · rw [if_pos hnone]
          have hUl := (at_zero u1).mp hnone.1
          have hv0 : r' = W - nb := by
            rcases w2.2 with ⟨f1, f2⟩ | ⟨f1, f2, f3⟩
            · exact f2
            · rw [hnone.2] at f1; exact absurd rfl (tree_mem h t3 f1).2.2.2.2
          rw [hnone.2, hv0]
          refine hlater fun q hq => ?_
          rcases Nat.lt_or_ge (c.sz q) nb with g | g
          · exact g
          · exfalso
            have := hszT t3 q hq
            rcases umin q (Or.inl hq) g with e | ⟨u, hu, -⟩
            · omega
            · rw [hUl] at hu; simp [Trie.all] at hu
        · rw [if_neg hnone]
          obtain ⟨v, r, s1, s2, s3⟩ := htail U par b hh t' v' r' u1 u2 u3 w2.1 (fun q hq => hszT t3 q (usub' q hq))
          refine ⟨v, r, s1, Or.inr ?_⟩
          have hmin := s3 ubig
          have hall : ∀ q ∈ T.all, nb ≤ c.sz q → r ≤ c.sz q - nb := by
            intro q hq hn
            rcases umin q (Or.inl hq) hn with e | ⟨u, hu, e⟩
            · have := s2.1; omega
            · have := hmin u hu; omega
          have hres : v ∈ T.all ∧ nb ≤ c.sz v ∧ r = c.sz v - nb := by
            rcases s2.2 with ⟨e1, e2⟩ | ⟨e1, e2, e3⟩
            · rcases w2.2 with ⟨f1, f2⟩ | f
              · -- nothing so far: the subtree is not empty
                exfalso
                have ht' : t' ≠ 0 := fun e => hnone ⟨e, f1⟩
                have hm := at_mem u1 ht'
                have := hmin _ hm
                have := hszT t3 _ (usub' _ hm)
                have := ubig _ hm
                omega
              · rw [e1, e2]; exact f
            · exact ⟨usub' _ e1, e2, e3⟩
          rw [hres.2.2]
          exact hbest v hres.1 hres.2.1 fun q hq hn => by have := hall q hq hn; omega
  · -- nothing can fit
    have hno : ∀ x ∈ bins, x.2 < nb := fun x hx => by have := (h.ok x hx).max; omega
    have hnoU : ∀ {U : Trie} {i : Nat}, U.all.Perm (trees bins i) → ∀ q ∈ U.all, c.sz q < nb := fun hp q hq => hno _ (tree_mem h hp hq).1
    have htail : ∀ (U : Trie) (par b hh t : Nat), U.At l par t → U.Fit c.sz b hh → b ≤ 64 → (∀ q ∈ U.all, c.sz q < nb) → smallestLoop c l nb 70 t 0 (W - nb) = .ok (0, W - nb) := by
      intro U par b hh t u1 u2 u3 u4
      obtain ⟨v', r', s1, s2, s3⟩ := smallestLoop_ok h0 hnb U b hh 70 par t 0 (W - nb) u1 u2 (Or.inl (by omega)) (Nat.le_refl _) (fun q hq => by have := u4 q hq; omega)
      rcases s2.2 with ⟨e1, e2⟩ | ⟨e1, e2, e3⟩
      · rw [s1, e1, e2]
      · have := u4 _ e1; omega
    have hfin : ∀ (U : Trie) (par b hh t : Nat), U.At l par t → U.Fit c.sz b hh → b ≤ 64 → (∀ q ∈ U.all, c.sz q < nb) →
        smallestLoop c l nb 70 (if t = 0 ∧ 0 = 0 then (if leftBits (idx2bit (treeIndex nb)) &&& l.treemap ≠ 0 then l.root (bit2idx (leastBit (leftBits (idx2bit (treeIndex nb)) &&& l.treemap))) else 0) else t) 0 (W - nb) =
          .ok (0, W - nb) := by
      intro U par b hh t u1 u2 u3 u4
      split
      · split
        · rename_i hbz
          obtain ⟨g1, -, -⟩ := bit2idx_least hbz
          obtain ⟨V, v1, v2, v3, -⟩ := h.tree _ g1
          exact htail V _ _ _ _ v1 v2 (treeLevel_le _ g1) (hnoU v3)
        · simp [smallestLoop]
      · exact htail U par b hh t u1 u2 u3 u4
    by_cases hT : T = .leaf
    · have hz := (at_zero t1).mpr hT
      rw [if_neg (by simp [hz]), Out.bind_ok]
      exact ⟨0, W - nb, hfin .leaf 0 0 0 0 rfl trivial (by omega) (by simp [Trie.all]), Or.inl ⟨rfl, rfl, hno⟩⟩
    · have hz : l.root (treeIndex nb) ≠ 0 := fun e => hT ((at_zero t1).mp e)
      rw [if_pos hz]
      obtain ⟨t', v', r', w1, w2, U, par, b, hh, u1, u2, u3, u4⟩ := pathLoop_any h0 hnb T .leaf _ _ 70 (sizeBits nb (treeIndex nb)) _ _ 0 0 (W - nb) t1 hT t2 hlv (by omega) (Nat.le_refl _) (hszT t3)
        ⟨0, 0, 0, rfl, trivial, by omega⟩
      have hv : v' = 0 ∧ r' = W - nb := by
        rcases w2.2 with e | ⟨e1, e2, -⟩
        · exact e
        · have := hnoU t3 _ e1; omega
      rw [w1, Out.bind_ok, hv.1, hv.2]
      refine ⟨0, W - nb, hfin U par b hh t' u1 u2 u3 (fun q hq => hnoU t3 q ?_), Or.inl ⟨rfl, rfl, hno⟩⟩
      exact (u4 q hq).elim id fun e => by simp [Trie.all] at e

/-- `tmalloc_small` finds a smallest chunk of the tree bins. -/
theorem searchSmall_ok {c : Ctx} {l : Links} {bins : List (Nat × Nat)} (h : BinsOK c l bins) {nb : Nat} (h0 : 0 < nb) (hnb : nb < 256) (ht : l.treemap ≠ 0) :
    ∃ v r, l.searchSmall c nb = .ok (v, r) ∧ BestFit (bins.filter fun x => decide (256 ≤ x.2)) nb v r := by
  have hW : W = 2 ^ 64 := rfl
  obtain ⟨g1, g2, g3⟩ := bit2idx_least ht
  unfold Links.searchSmall
  simp only
  generalize bit2idx (leastBit l.treemap) = j at *
  obtain ⟨T, t1, t2, t3, t4, t5⟩ := h.tree j g1
  have hT := t4.mp g2
  have ht0 : l.root j ≠ 0 := fun e => hT ((at_zero t1).mp e)
  have hm := at_mem t1 ht0
  obtain ⟨m1, m2, m3, m4, m5⟩ := tree_mem h t3 hm
  have hlv := treeLevel_le _ g1
  obtain ⟨v, r, s1, s2, s3⟩ := smallestLoop_ok (c := c) h0 (by omega : nb < W) T _ _ 71 _ _ 0 (W - nb) t1 t2 (Or.inl (by omega)) (Nat.le_refl _) (fun q hq => by have := (tree_mem h t3 hq).2.2.1; omega)
  have hstep : smallestLoop c l nb 71 (l.root j) 0 (W - nb) = smallestLoop c l nb 70 (l.leftmost (l.root j)) (l.root j) (sub64 (c.sz (l.root j)) nb) := by
    rw [smallestLoop]
    simp only [if_pos ht0]
    rw [if_pos]
    exact (sub64_lt h0 (by omega) (by omega) (Nat.le_refl _)).mpr ⟨by omega, by omega⟩
  rw [hstep] at s1
  have hmin := s3 fun q hq => by have := (tree_mem h t3 hq).2.1; omega
  refine ⟨v, r, s1, ?_⟩
  rcases s2.2 with ⟨-, e⟩ | ⟨e1, e2, e3⟩
  · have := hmin _ hm; omega
  · obtain ⟨k1, k2, k3, k4, k5⟩ := tree_mem h t3 e1
    refine ⟨c.sz v, List.mem_filter.mpr ⟨k1, by simpa using k2⟩, e2, e3, fun x hx _ => ?_⟩
    obtain ⟨hx, hx2⟩ := List.mem_filter.mp hx
    have hx2 : 256 ≤ x.2 := by simpa using hx2
    have hf := h.ok x hx
    rcases Nat.lt_trichotomy (treeIndex x.2) j with g | g | g
    · exfalso
      obtain ⟨V', u1, u2, u3, u4, u5⟩ := h.tree (treeIndex x.2) (treeIndex_lt _)
      have hm := mem_tree u3 (q := x.1) (n := x.2) hx hx2 rfl
      have hb := u4.mpr (by rintro rfl; simp [Trie.all] at hm)
      rw [g3 _ g] at hb; cases hb
    · have := hmin _ (mem_tree t3 (q := x.1) (n := x.2) hx hx2 g)
      rw [hf.sz] at this
      omega
    · exact Nat.le_of_lt (treeIndex_mono k2 k3 hx2 hf.max (by rw [k4]; exact g))

/-- The tree map is empty exactly if there is no large chunk. -/
theorem treemap_zero {c : Ctx} {l : Links} {bins : List (Nat × Nat)} (h : BinsOK c l bins) : l.treemap = 0 ↔ ∀ x ∈ bins, x.2 < 256 := by
  constructor
  · intro hz x hx
    rcases Nat.lt_or_ge x.2 256 with g | g
    · exact g
    · exfalso
      obtain ⟨V', u1, u2, u3, u4, u5⟩ := h.tree (treeIndex x.2) (treeIndex_lt _)
      have hm := mem_tree u3 (q := x.1) (n := x.2) hx g rfl
      have hb := u4.mpr (by rintro rfl; simp [Trie.all] at hm)
      rw [hz, show (0 : BitVec 32).getLsbD (treeIndex x.2) = false from BitVec.getLsbD_zero] at hb
      cases hb
  · intro hall
    by_cases hz : l.treemap = 0
    · exact hz
    · exfalso
      obtain ⟨i, hi, hb⟩ := exists_bit hz
      obtain ⟨T, t1, t2, t3, t4, t5⟩ := h.tree i hi
      have hT := t4.mp hb
      have hm := at_mem t1 (fun e => hT ((at_zero t1).mp e))
      obtain ⟨m1, m2, -⟩ := tree_mem h t3 hm
      have := hall _ m1
      simp only at this; omega
end Arax.Dl
