import Verif.Dl.TrieInsert
/-!
# Unlinking a chunk from a tree
-/
namespace Arax.Dl

/-- A tree without one of its leaves. `w` is the leaf with its ring; it is the child `s'` of `q'`. (No code of its own.) -/
structure LeafOut (c : Ctx) (l : Links) (U : Trie) (q : Nat) (s : Bool) (b h : Nat) (w q' : Nat) (s' : Bool) (ringw : List Nat) (U' : Trie) : Prop where
  at_ : U'.At { l with child := putC l.child q' s' 0 } q (putC l.child q' s' 0 q s)
  fit : U'.Fit c.sz b h
  perm : U.all.Perm (w :: ringw ++ U'.all)
  ring : Ring l.fd l.bk w ringw
  mem : ∀ z ∈ ringw, l.parent z = 0 ∧ (∀ b, l.child z b = 0) ∧ c.sz z = c.sz w
  kids : ∀ b, l.child w b = 0
  w0 : w ≠ 0
  place : (q' = q ∧ s' = s) ∨ q' ∈ U.all

theorem leafLoop_ok {c : Ctx} {l : Links} : ∀ (U : Trie) (b h k q r : Nat) (s : Bool), U.At l q r → U ≠ .leaf → r = l.child q s → U.Fit c.sz b h → b + 1 ≤ k → U.all.Nodup → q ∉ U.all →
    ∃ w q' s' ringw U', leafLoop l k r q s = .ok (w, q', s') ∧ LeafOut c l U q s b h w q' s' ringw U'
  | .leaf, _, _, _, _, _, _, _, h, _, _, _, _, _ => absurd rfl h
  | .node t ring lo hi, b, h, 0, q, r, s, _, _, _, _, hk, _, _ => absurd hk (by omega)
  | .node t ring lo hi, b, h, k + 1, q, r, s, hat, _, hr, hf, hk, hnd, hq => by
    obtain ⟨e0, a2, a3, a4, a5, a6, a7⟩ := hat
    obtain ⟨f1, f2, f3, f4, f5⟩ := hf
    obtain ⟨n1, n2, n3, n4, n5⟩ := nodup_parts hnd
    have hq' : q ∉ t :: ring ∧ q ∉ lo.all ∧ q ∉ hi.all := by
      simp only [Trie.all, List.mem_append, not_or] at hq; exact ⟨hq.1, hq.2.1, hq.2.2⟩
    have hqt : q ≠ t := fun e => hq'.1 (by simp [e])
    have hct : l.child q s = t := by rw [← hr, e0]
    have hring : ∀ q' s', q' = t ∨ q' ∈ lo.all ∨ q' ∈ hi.all → ∀ z ∈ ring, l.parent z = 0 ∧ ∀ b, putC l.child q' s' 0 z b = 0 := by
      intro q' s' h z hz
      refine ⟨(a5 z hz).1, fun b => ?_⟩
      rw [putC_ne _ _ _ (fun e => ?_)]
      · exact (a5 z hz).2 b
      · subst e
        rcases h with e | h | h
        · subst e; exact (List.nodup_cons.mp n1).1 hz
        · exact (n4 z (by simp [hz])).1 h
        · exact (n4 z (by simp [hz])).2 h
    have hframe : ∀ {V : Trie} {par a : Nat} (q' : Nat) (s' : Bool), V.At l par a → q' ∉ V.all → V.At { l with child := putC l.child q' s' 0 } par a := by
      intro V par a q' s' hV hqV
      exact at_congr hV ⟨fun _ _ => rfl, fun _ _ => rfl, fun x hx => putC_ne _ _ _ (ne_mem hx hqV), fun _ _ => rfl⟩
    have e0 : r = t := e0
    subst e0
    unfold leafLoop
    by_cases h1 : l.child r true ≠ 0
    · rw [if_pos h1]
      have hb : b ≠ 0 := fun e => h1 ((at_zero a7).mpr (f3 e).2)
      obtain ⟨w, q', s', ringw, U', hh, g⟩ := leafLoop_ok hi (b - 1) (2 * h + 1) k r (l.child r true) true a7 (fun e => h1 ((at_zero a7).mpr e)) rfl f5 (by omega) n3 (n4 r (by simp)).2
      have hqq : q' = r ∨ q' ∈ hi.all := g.place.imp (fun h => h.1) id
      refine ⟨w, q', s', ringw, .node r ring lo U', hh, ⟨?_, ⟨f1, f2, fun e => absurd e hb, f4, g.fit⟩, ?_, g.ring, g.mem, g.kids, g.w0, ?_⟩⟩
      · rw [putC_ne _ _ _ (fun e => ?_), hct]
        · refine ⟨rfl, a2, a3, a4, hring q' s' (hqq.imp id Or.inr), ?_, g.at_⟩
          show lo.At _ r (putC l.child q' s' 0 r false)
          have : putC l.child q' s' 0 r false = l.child r false := by
            rcases g.place with ⟨e1, e2⟩ | h
            · rw [e1, e2]; exact putC_side _ _ _ (by decide)
            · rw [putC_ne _ _ _ (ne_mem h (n4 r (by simp)).2).symm]
          rw [this]
          refine hframe q' s' a6 ?_
          rcases hqq with e | h
          · rw [e]; exact (n4 r (by simp)).1
          · exact fun hm => n5 q' hm h
        · rcases hqq with e' | h
          · exact hqt (e.trans e')
          · exact hq'.2.2 (e ▸ h)
      · have := g.perm
        rw [List.perm_iff_count] at this ⊢
        intro x
        have := this x
        simp only [Trie.all, List.count_cons, List.count_append, List.cons_append] at this ⊢
        omega
      · right
        simp only [Trie.all, List.mem_append, List.mem_cons]
        rcases hqq with e | h
        · exact Or.inl (Or.inl e)
        · exact Or.inr (Or.inr h)
    · rw [if_neg h1]
      have h1 : l.child r true = 0 := by simpa using h1
      have hhi : hi = .leaf := (at_zero a7).mp h1
      by_cases h2 : l.child r false ≠ 0
      · rw [if_pos h2]
        have hb : b ≠ 0 := fun e => h2 ((at_zero a6).mpr (f3 e).1)
        obtain ⟨w, q', s', ringw, U', hh, g⟩ := leafLoop_ok lo (b - 1) (2 * h) k r (l.child r false) false a6 (fun e => h2 ((at_zero a6).mpr e)) rfl f4 (by omega) n2 (n4 r (by simp)).1
        have hqq : q' = r ∨ q' ∈ lo.all := g.place.imp (fun h => h.1) id
        refine ⟨w, q', s', ringw, .node r ring U' hi, hh, ⟨?_, ⟨f1, f2, fun e => absurd e hb, g.fit, f5⟩, ?_, g.ring, g.mem, g.kids, g.w0, ?_⟩⟩
        · rw [putC_ne _ _ _ (fun e => ?_), hct]
          · refine ⟨rfl, a2, a3, a4, hring q' s' (hqq.imp id Or.inl), g.at_, ?_⟩
            show hi.At _ r (putC l.child q' s' 0 r true)
            have : putC l.child q' s' 0 r true = l.child r true := by
              rcases g.place with ⟨e1, e2⟩ | h
              · rw [e1, e2]; exact putC_side _ _ _ (by decide)
              · rw [putC_ne _ _ _ (ne_mem h (n4 r (by simp)).1).symm]
            rw [this]
            refine hframe q' s' a7 ?_
            rcases hqq with e | h
            · rw [e]; exact (n4 r (by simp)).2
            · exact fun hm => n5 q' h hm
          · rcases hqq with e' | h
            · exact hqt (e.trans e')
            · exact hq'.2.1 (e ▸ h)
        · have := g.perm
          rw [List.perm_iff_count] at this ⊢
          intro x
          have := this x
          simp only [Trie.all, List.count_cons, List.count_append, List.cons_append] at this ⊢
          omega
        · right
          simp only [Trie.all, List.mem_append, List.mem_cons]
          rcases hqq with e | h
          · exact Or.inl (Or.inl e)
          · exact Or.inr (Or.inl h)
      · rw [if_neg h2]
        have h2 : l.child r false = 0 := by simpa using h2
        have hlo : lo = .leaf := (at_zero a6).mp h2
        subst hlo hhi
        refine ⟨r, q, s, ring, .leaf, rfl, ⟨?_, trivial, by simp [Trie.all], a4, fun z hz => ⟨(a5 z hz).1, (a5 z hz).2, f1 z hz⟩, fun b => by cases b <;> assumption, a2, Or.inl ⟨rfl, rfl⟩⟩⟩
        exact putC_eq _ _ _ _

/-- The chunk `x` of a tree is to be replaced by `r` with its ring, above the subtrees `lo` and `hi`. (No code of its own.) -/
structure Detached (c : Ctx) (l : Links) (T : Trie) (x r b h : Nat) (rg : List Nat) (lo' hi' : Trie) : Prop where
  ring : Ring l.fd l.bk r rg
  mem : ∀ z ∈ rg, l.parent z = 0 ∧ ∀ b, l.child z b = 0
  kids : ∀ b, l.child r b = 0
  lo : lo'.At l x (l.child x false)
  hi : hi'.At l x (l.child x true)
  perm : T.all.Perm (x :: r :: rg ++ (lo'.all ++ hi'.all))
  fit : (Trie.node r rg lo' hi').Fit c.sz b h
  r0 : r ≠ 0

theorem ring_bk_self {fd bk : Nat → Nat} {a : Nat} {xs : List Nat} (h : Ring fd bk a xs) : bk a = a ↔ xs = [] := by
  rcases List.eq_nil_or_concat xs with e | ⟨ys, r, e⟩
  · subst e; simp [h.2.2]
  · rw [List.concat_eq_append] at e
    subst e
    have hh := h.2
    rw [path_append] at hh
    have hn := h.1
    constructor
    · intro e
      rw [hh.2.2] at e
      subst e
      simp at hn
    · intro e; simp at e

theorem replacement_ok {c : Ctx} {l : Links} {x par b h : Nat} {ring : List Nat} {lo hi : Trie} (hat : (Trie.node x ring lo hi).At l par x) (hf : (Trie.node x ring lo hi).Fit c.sz b h) (hb : b ≤ 64)
    (hn : (Trie.node x ring lo hi).all.Nodup) (hle : ∀ q ∈ (Trie.node x ring lo hi).all, c.least ≤ q) (hl0 : 0 < c.least) :
    ∃ l1 r, l.replacement c x = .ok (l1, r) ∧ SameL l l1 (fun y => y ∉ (Trie.node x ring lo hi).all) ∧ Rest l l1 ∧ l1.parent = l.parent ∧
      ((r = 0 ∧ (Trie.node x ring lo hi).all = [x]) ∨ ∃ ring' lo' hi', Detached c l1 (.node x ring lo hi) x r b h ring' lo' hi') := by
  have hat0 := hat
  obtain ⟨-, a2, a3, a4, a5, a6, a7⟩ := hat
  obtain ⟨f1, f2, f3, f4, f5⟩ := hf
  obtain ⟨n1, n2, n3, n4, n5⟩ := nodup_parts hn
  have hself := ring_bk_self a4
  unfold Links.replacement
  by_cases hbk : l.bk x ≠ x
  · rw [if_pos hbk]
    rcases List.eq_nil_or_concat ring with e | ⟨ys, r, e⟩
    · exact absurd (hself.mpr e) hbk
    rw [List.concat_eq_append] at e
    subst e
    have hrot := ring_rotate a4
    have hr : l.bk x = r := hrot.2.2.1
    have hat' := ring_at (xs := []) (ys := ys) (by simpa using hrot)
    have hrem := ring_remove (xs := []) (ys := ys) (by simpa using hrot)
    simp only [List.nil_append] at hat' hrem
    have hfm : l.fd x ∈ x :: (ys ++ [r]) := by
      have := hat'.2.2.1
      exact List.mem_cons_of_mem _ this
    have hfa : l.fd x ∈ (Trie.node x (ys ++ [r]) lo hi).all := by simp only [Trie.all, List.mem_append]; left; simpa using hfm
    simp only
    rw [hr, if_pos ⟨hle _ hfa, hat'.1, by have := hat'.2.1; rwa [hr] at this⟩]
    have hrm : r ∈ x :: (ys ++ [r]) := by simp
    have hsame : SameL l { l with bk := put l.bk (l.fd x) r, fd := put l.fd r (l.fd x) } (fun y => y ≠ r ∧ y ≠ l.fd x) :=
      ⟨fun y hy => put_ne _ _ hy.1, fun y hy => put_ne _ _ hy.2, fun _ _ => rfl, fun _ _ => rfl⟩
    have hra : r ∈ (Trie.node x (ys ++ [r]) lo hi).all := by simp [Trie.all]
    refine ⟨_, r, rfl, hsame.mono fun y hy => ⟨fun e => hy (e ▸ hra), fun e => hy (e ▸ hfa)⟩, ⟨rfl, rfl, rfl, rfl⟩, rfl, Or.inr ⟨ys, lo, hi, ?_, ?_, ?_, ?_, ?_, ?_, ?_, ?_⟩⟩
    · rw [hr] at hrem; exact hrem
    · intro z hz; exact a5 z (by simp [hz])
    · exact (a5 r (by simp)).2
    · exact at_congr a6 (hsame.mono fun y hy => ⟨ne_mem hy (n4 _ hrm).1, ne_mem hy (n4 _ hfm).1⟩)
    · exact at_congr a7 (hsame.mono fun y hy => ⟨ne_mem hy (n4 _ hrm).2, ne_mem hy (n4 _ hfm).2⟩)
    · rw [List.perm_iff_count]; intro z
      simp only [Trie.all, List.count_cons, List.count_append, List.cons_append, List.count_nil]; omega
    · have e := f1 r (by simp)
      exact ⟨fun z hz => by rw [f1 z (by simp [hz]), e], by rw [e]; exact f2, f3, f4, f5⟩
    · exact Nat.ne_of_gt (Nat.lt_of_lt_of_le hl0 (hle r hra))
  · rw [if_neg hbk]
    have hring : ring = [] := hself.mp (by simpa using hbk)
    subst hring
    simp only
    have hx : ∀ {q' : Nat} {s' s : Bool} {U : Trie}, (q' = x ∧ s' = s) ∨ q' ∈ U.all → (∀ z ∈ U.all, z ∈ lo.all ∨ z ∈ hi.all) → q' = x ∨ q' ∈ lo.all ∨ q' ∈ hi.all :=
      fun h hs => h.elim (fun h => Or.inl h.1) (fun h => Or.inr (hs _ h))
    have hall : ∀ {z : Nat}, z = x ∨ z ∈ lo.all ∨ z ∈ hi.all → z ∈ (Trie.node x [] lo hi).all := by
      intro z h; simpa only [Trie.all, List.mem_append, List.mem_singleton] using h
    by_cases h1 : l.child x true ≠ 0
    · rw [if_pos h1]
      have hb0 : b ≠ 0 := fun e => h1 ((at_zero a7).mpr (f3 e).2)
      obtain ⟨w, q', s', ringw, U', hh, g⟩ := leafLoop_ok (c := c) hi (b - 1) (2 * h + 1) 70 x (l.child x true) true a7 (fun e => h1 ((at_zero a7).mpr e)) rfl f5 (by omega) n3 (n4 x (by simp)).2
      have hq := hall (hx g.place (fun z hz => Or.inr hz))
      have hwm : w ∈ hi.all := g.perm.mem_iff.mpr (by simp)
      rw [hh]
      simp only [Out.bind_ok]
      rw [if_pos (by have := hle _ hq; omega)]
      have hsame : SameL l { l with child := putC l.child q' s' 0 } (fun y => y ≠ q') := ⟨fun _ _ => rfl, fun _ _ => rfl, fun y hy => putC_ne _ _ _ hy, fun _ _ => rfl⟩
      have hfit := fit_high f5 w hwm
      refine ⟨_, w, rfl, hsame.mono fun y hy e => hy (e ▸ hq), ⟨rfl, rfl, rfl, rfl⟩, rfl, Or.inr ⟨ringw, lo, U', g.ring, ?_, ?_, ?_, g.at_, ?_, ?_, g.w0⟩⟩
      · intro z hz
        refine ⟨(g.mem z hz).1, fun b => ?_⟩
        show putC l.child q' s' 0 z b = 0
        unfold putC; split
        · rfl
        · exact (g.mem z hz).2.1 b
      · intro b
        show putC l.child q' s' 0 w b = 0
        unfold putC; split
        · rfl
        · exact g.kids b
      · show lo.At _ x (putC l.child q' s' 0 x false)
        have : putC l.child q' s' 0 x false = l.child x false := by
          rcases g.place with ⟨e1, e2⟩ | h
          · rw [e1, e2]; exact putC_side _ _ _ (by decide)
          · rw [putC_ne _ _ _ (ne_mem h (n4 x (by simp)).2).symm]
        rw [this]
        refine at_congr a6 (hsame.mono fun y hy e => ?_)
        rcases g.place with ⟨e1, -⟩ | h
        · exact (n4 x (by simp)).1 (by rw [← e1, ← e]; exact hy)
        · exact n5 y hy (e ▸ h)
      · have := g.perm
        rw [List.perm_iff_count] at this ⊢; intro z
        have := this z
        simp only [Trie.all, List.count_cons, List.count_append, List.cons_append, List.count_nil] at this ⊢; omega
      · refine ⟨fun z hz => (g.mem z hz).2.2, ?_, fun e => absurd e hb0, f4, g.fit⟩
        have : c.sz w / 2 ^ b = c.sz w / 2 ^ (b - 1) / 2 := by
          obtain ⟨b', rfl⟩ : ∃ b', b = b' + 1 := ⟨b - 1, by omega⟩
          rw [Nat.pow_succ, Nat.div_div_eq_div_mul, Nat.add_sub_cancel]
        rw [this]; omega
    · rw [if_neg h1]
      have h1 : l.child x true = 0 := by simpa using h1
      have hhi : hi = .leaf := (at_zero a7).mp h1
      by_cases h2 : l.child x false ≠ 0
      · rw [if_pos h2]
        have hb0 : b ≠ 0 := fun e => h2 ((at_zero a6).mpr (f3 e).1)
        obtain ⟨w, q', s', ringw, U', hh, g⟩ := leafLoop_ok (c := c) lo (b - 1) (2 * h) 70 x (l.child x false) false a6 (fun e => h2 ((at_zero a6).mpr e)) rfl f4 (by omega) n2 (n4 x (by simp)).1
        have hq := hall (hx g.place (fun z hz => Or.inl hz))
        have hwm : w ∈ lo.all := g.perm.mem_iff.mpr (by simp)
        rw [hh]
        simp only [Out.bind_ok]
        rw [if_pos (by have := hle _ hq; omega)]
        have hsame : SameL l { l with child := putC l.child q' s' 0 } (fun y => y ≠ q') := ⟨fun _ _ => rfl, fun _ _ => rfl, fun y hy => putC_ne _ _ _ hy, fun _ _ => rfl⟩
        have hfit := fit_high f4 w hwm
        refine ⟨_, w, rfl, hsame.mono fun y hy e => hy (e ▸ hq), ⟨rfl, rfl, rfl, rfl⟩, rfl, Or.inr ⟨ringw, U', hi, g.ring, ?_, ?_, g.at_, ?_, ?_, ?_, g.w0⟩⟩
        · intro z hz
          refine ⟨(g.mem z hz).1, fun b => ?_⟩
          show putC l.child q' s' 0 z b = 0
          unfold putC; split
          · rfl
          · exact (g.mem z hz).2.1 b
        · intro b
          show putC l.child q' s' 0 w b = 0
          unfold putC; split
          · rfl
          · exact g.kids b
        · show hi.At _ x (putC l.child q' s' 0 x true)
          rw [hhi]
          show putC l.child q' s' 0 x true = 0
          unfold putC; split
          · rfl
          · exact h1
        · have := g.perm
          rw [List.perm_iff_count] at this ⊢; intro z
          have := this z
          simp only [Trie.all, List.count_cons, List.count_append, List.cons_append, List.count_nil] at this ⊢; omega
        · refine ⟨fun z hz => (g.mem z hz).2.2, ?_, fun e => absurd e hb0, g.fit, f5⟩
          have : c.sz w / 2 ^ b = c.sz w / 2 ^ (b - 1) / 2 := by
            obtain ⟨b', rfl⟩ : ∃ b', b = b' + 1 := ⟨b - 1, by omega⟩
            rw [Nat.pow_succ, Nat.div_div_eq_div_mul, Nat.add_sub_cancel]
          rw [this]; omega
      · rw [if_neg h2]
        have h2 : l.child x false = 0 := by simpa using h2
        have hlo : lo = .leaf := (at_zero a6).mp h2
        subst hlo hhi
        exact ⟨l, 0, rfl, ⟨fun _ _ => rfl, fun _ _ => rfl, fun _ _ => rfl, fun _ _ => rfl⟩, ⟨rfl, rfl, rfl, rfl⟩, rfl, Or.inl ⟨rfl, rfl⟩⟩

end Arax.Dl
