import Verif.Dl.Trie
/-!
# Inserting a chunk into a tree
-/
namespace Arax.Dl

/-- A member is not a non-member. -/
theorem ne_mem {x y : Nat} {l : List Nat} (hx : x ∈ l) (hy : y ∉ l) : x ≠ y := fun e => hy (e ▸ hx)

theorem putC_eq (f : Nat → Bool → Nat) (a : Nat) (b : Bool) (v : Nat) : putC f a b v a b = v := by simp [putC]
theorem putC_ne (f : Nat → Bool → Nat) {a x : Nat} (b : Bool) (v : Nat) (h : x ≠ a) : putC f a b v x = f x := by funext y; simp [putC, h]
theorem putC_side (f : Nat → Bool → Nat) (a : Nat) {b y : Bool} (v : Nat) (h : y ≠ b) : putC f a b v a y = f a y := by simp [putC, h]

theorem nodup_parts {p : Nat} {ring : List Nat} {lo hi : Trie} (h : (Trie.node p ring lo hi).all.Nodup) :
    (p :: ring).Nodup ∧ lo.all.Nodup ∧ hi.all.Nodup ∧ (∀ x ∈ p :: ring, x ∉ lo.all ∧ x ∉ hi.all) ∧ ∀ x ∈ lo.all, x ∉ hi.all := by
  simp only [Trie.all, List.nodup_append] at h
  obtain ⟨h1, ⟨h2, h3, h4⟩, h5⟩ := h
  refine ⟨h1, h2, h3, fun x hx => ⟨fun hm => ?_, fun hm => ?_⟩, fun x hx hm => h4 x hx x hm rfl⟩
  · exact h5 x hx x (List.mem_append.mpr (Or.inl hm)) rfl
  · exact h5 x hx x (List.mem_append.mpr (Or.inr hm)) rfl

/-- What insertion of `p` into the tree at `t` gives. (No code of its own.) -/
def Inserted (c : Ctx) (l : Links) (p par t b h : Nat) (T : Trie) (l' : Links) : Prop :=
  ∃ T' : Trie, T'.At l' par t ∧ T'.Fit c.sz b h ∧ T'.all.Perm (p :: T.all) ∧ SameL l l' (fun x => x ∉ p :: T.all) ∧ Rest l l'

/-- One step of induction: insertion into a subtree is insertion into the tree. -/
theorem inserted_lift {c : Ctx} {l l' : Links} {p par b h : Nat} {t : Nat} {ring : List Nat} {lo hi : Trie} (s : Bool) {U : Trie} (hU : U = if s then hi else lo)
    (hat : (Trie.node t ring lo hi).At l par t) (hf : (Trie.node t ring lo hi).Fit c.sz b h) (hb : b ≠ 0) (hn : (Trie.node t ring lo hi).all.Nodup) (hp : p ∉ (Trie.node t ring lo hi).all)
    (hl : Inserted c l p t (l.child t s) (b - 1) (2 * h + s.toNat) U l') : Inserted c l p par t b h (.node t ring lo hi) l' := by
  obtain ⟨U', u1, u2, u3, u4, u5⟩ := hl
  obtain ⟨-, a2, a3, a4, a5, a6, a7⟩ := hat
  obtain ⟨f1, f2, f3, f4, f5⟩ := hf
  obtain ⟨n1, n2, n3, n4, n5⟩ := nodup_parts hn
  have hp' : p ∉ t :: ring ∧ p ∉ lo.all ∧ p ∉ hi.all := by
    simp only [Trie.all, List.mem_append, not_or] at hp; exact ⟨hp.1, hp.2.1, hp.2.2⟩
  have hUs : ∀ x, x ∈ U.all → x ∈ lo.all ∨ x ∈ hi.all := by intro x hx; subst hU; cases s <;> simp_all
  have hsame : ∀ x ∈ t :: ring, x ∉ p :: U.all := by
    intro x hx hm
    simp only [List.mem_cons] at hm
    rcases hm with e | hm
    · subst e; exact hp'.1 hx
    · rcases hUs x hm with h | h
      · exact (n4 x hx).1 h
      · exact (n4 x hx).2 h
  have hct : l'.child t = l.child t := u4.child t (hsame t (by simp))
  have hring : Ring l'.fd l'.bk t ring := ring_congr a4 (fun y hy => u4.fd y (hsame y hy)) (fun y hy => u4.bk y (hsame y hy))
  have hmem : ∀ q ∈ ring, l'.parent q = 0 ∧ ∀ b, l'.child q b = 0 := by
    intro q hq
    rw [u4.parent q (hsame q (by simp [hq])), u4.child q (hsame q (by simp [hq]))]
    exact a5 q hq
  have hpar : l'.parent t = par := by rw [u4.parent t (hsame t (by simp))]; exact a3
  cases s with
  | true =>
    simp only [if_true] at hU
    subst hU
    have hlo : lo.At l' t (l'.child t false) := by
      rw [hct]
      refine at_congr a6 (u4.mono fun x hx hm => ?_)
      simp only [List.mem_cons] at hm
      rcases hm with e | hm
      · subst e; exact hp'.2.1 hx
      · exact n5 x hx hm
    refine ⟨.node t ring lo U', ⟨rfl, a2, hpar, hring, hmem, hlo, by rw [hct]; exact u1⟩, ⟨f1, f2, fun e => absurd e hb, f4, u2⟩, ?_, u4.mono fun x hx hm => hx ?_, u5⟩
    · rw [List.perm_iff_count] at u3 ⊢
      intro x
      have := u3 x
      simp only [Trie.all, List.count_cons, List.count_append] at this ⊢
      omega
    · simp only [List.mem_cons, Trie.all, List.mem_append] at hm ⊢
      rcases hm with e | hm
      · exact Or.inl e
      · exact Or.inr (Or.inr (Or.inr hm))
  | false =>
    simp only [Bool.false_eq_true, if_false] at hU
    subst hU
    have hhi : hi.At l' t (l'.child t true) := by
      rw [hct]
      refine at_congr a7 (u4.mono fun x hx hm => ?_)
      simp only [List.mem_cons] at hm
      rcases hm with e | hm
      · subst e; exact hp'.2.2 hx
      · exact n5 x hm hx
    refine ⟨.node t ring U' hi, ⟨rfl, a2, hpar, hring, hmem, by rw [hct]; exact u1, hhi⟩, ⟨f1, f2, fun e => absurd e hb, u2, f5⟩, ?_, u4.mono fun x hx hm => hx ?_, u5⟩
    · rw [List.perm_iff_count] at u3 ⊢
      intro x
      have := u3 x
      simp only [Trie.all, List.count_cons, List.count_append] at this ⊢
      omega
    · simp only [List.mem_cons, Trie.all, List.mem_append] at hm ⊢
      rcases hm with e | hm
      · exact Or.inl e
      · exact Or.inr (Or.inr (Or.inl hm))

theorem insertLoop_ok {c : Ctx} {p n : Nat} (hpn : c.sz p = n) (hp0 : p ≠ 0) : ∀ (T : Trie) (b h r k par t : Nat) (l : Links), T.At l par t → T ≠ .leaf → T.Fit c.sz b h → n / 2 ^ b = h →
    k = n * 2 ^ (64 - b) % 2 ^ 64 → b ≤ 64 → b + 1 ≤ r → T.all.Nodup → p ∉ T.all → (∀ s, l.child p s = 0) → (∀ q ∈ T.all, c.least ≤ q) →
    ∃ l', insertLoop c p n r l t k = .ok l' ∧ Inserted c l p par t b h T l'
  | .leaf, _, _, _, _, _, _, _, _, h, _, _, _, _, _, _, _, _, _ => absurd rfl h
  | .node t ring lo hi, b, h, 0, k, par, t0, l, _, _, _, _, _, _, hr, _, _, _, _ => absurd hr (by omega)
  | .node t ring lo hi, b, h, r + 1, k, par, t0, l, hat, _, hf, hn, hk, hb, hr, hnd, hp, hc, hle => by
    have e0 : t0 = t := hat.1
    subst e0
    have hpa := hat
    have hfa := hf
    obtain ⟨-, a2, a3, a4, a5, a6, a7⟩ := hat
    obtain ⟨f1, f2, f3, f4, f5⟩ := hf
    have hp' : p ∉ t0 :: ring ∧ p ∉ lo.all ∧ p ∉ hi.all := by
      simp only [Trie.all, List.mem_append, not_or] at hp; exact ⟨hp.1, hp.2.1, hp.2.2⟩
    have hpt : p ≠ t0 := fun e => hp'.1 (by simp [e])
    have hlt : c.least ≤ t0 := hle t0 (by simp [Trie.all])
    obtain ⟨n1, n2, n3, n4, n5⟩ := nodup_parts hnd
    unfold insertLoop
    by_cases hsz : c.sz t0 ≠ n
    · rw [if_pos hsz]
      -- below level 0 every size is that of the chunk
      have hb0 : b ≠ 0 := by
        intro e
        subst e
        simp only [Nat.pow_zero, Nat.div_one] at f2 hn
        omega
      obtain ⟨b', rfl⟩ : ∃ b', b = b' + 1 := ⟨b - 1, by omega⟩
      have htb := topBit_at (by omega) hk
      have hsh := shl1_at (by omega) hk
      have hdiv : n / 2 ^ b' = 2 * h + (topBit k).toNat := by
        have e : n / 2 ^ (b' + 1) = n / 2 ^ b' / 2 := by rw [Nat.pow_succ, Nat.div_div_eq_div_mul]
        rw [htb]
        rw [e] at hn
        have : n / 2 ^ b' % 2 = 0 ∨ n / 2 ^ b' % 2 = 1 := by omega
        rcases this with e | e <;> simp [e] <;> omega
      simp only
      generalize hs : topBit k = s at hdiv
      by_cases hch : l.child t0 s ≠ 0
      · rw [if_pos hch]
        cases s with
        | true =>
          obtain ⟨l', h1, h2⟩ := insertLoop_ok hpn hp0 hi b' (2 * h + 1) r (shl1 k) t0 (l.child t0 true) l a7 (fun e => hch ((at_zero a7).mpr e)) f5 hdiv hsh (by omega) (by omega) n3 hp'.2.2 hc
            (fun q hq => hle q (by simp [Trie.all, hq]))
          exact ⟨l', h1, inserted_lift true (U := hi) (by simp) hpa hfa (by omega) hnd hp h2⟩
        | false =>
          obtain ⟨l', h1, h2⟩ := insertLoop_ok hpn hp0 lo b' (2 * h) r (shl1 k) t0 (l.child t0 false) l a6 (fun e => hch ((at_zero a6).mpr e)) f4 hdiv hsh (by omega) (by omega) n2 hp'.2.1 hc
            (fun q hq => hle q (by simp [Trie.all, hq]))
          exact ⟨l', h1, inserted_lift false (U := lo) (by simp) hpa hfa (by omega) hnd hp h2⟩
      · rw [if_neg hch, if_pos (by omega)]
        have hch : l.child t0 s = 0 := by simpa using hch
        refine ⟨_, rfl, ?_⟩
        -- the new leaf
        have hsm : ∀ x, x ≠ p → x ≠ t0 → putC l.child t0 s p x = l.child x := fun x _ h2 => putC_ne _ _ _ h2
        have hring : Ring (put l.fd p p) (put l.bk p p) t0 ring :=
          ring_congr a4 (fun y hy => put_ne _ _ (fun e => hp'.1 (e ▸ hy))) (fun y hy => put_ne _ _ (fun e => hp'.1 (e ▸ hy)))
        have hmem : ∀ q ∈ ring, put l.parent p t0 q = 0 ∧ ∀ b, putC l.child t0 s p q b = 0 := by
          intro q hq
          rw [put_ne _ _ (fun e => hp'.1 (by simp [← e, hq])), putC_ne _ _ _ (fun e => (List.nodup_cons.mp n1).1 (by rw [← e]; exact hq))]
          exact a5 q hq
        have hpar : put l.parent p t0 t0 = par := by rw [put_ne _ _ (fun e => hpt e.symm)]; exact a3
        have hframe : ∀ {U : Trie} {a : Nat}, U.At l t0 a → p ∉ U.all → t0 ∉ U.all →
            U.At { l with child := putC l.child t0 s p, parent := put l.parent p t0, fd := put l.fd p p, bk := put l.bk p p } t0 a := by
          intro U a hU hpU htU
          refine at_congr hU ⟨fun x hx => ?_, fun x hx => ?_, fun x hx => ?_, fun x hx => ?_⟩
          · exact put_ne _ _ (fun e => hpU (e ▸ hx))
          · exact put_ne _ _ (fun e => hpU (e ▸ hx))
          · exact putC_ne _ _ _ (fun e => htU (e ▸ hx))
          · exact put_ne _ _ (fun e => hpU (e ▸ hx))
        have hnew : (Trie.node p [] .leaf .leaf).At { l with child := putC l.child t0 s p, parent := put l.parent p t0, fd := put l.fd p p, bk := put l.bk p p } t0 p := by
          refine ⟨rfl, hp0, put_eq _ _ _, ring_single _ _ _, by simp, ?_, ?_⟩
          · show putC l.child t0 s p p false = 0
            rw [putC_ne _ _ _ hpt]; exact hc false
          · show putC l.child t0 s p p true = 0
            rw [putC_ne _ _ _ hpt]; exact hc true
        have hnfit : (Trie.node p [] .leaf .leaf).Fit c.sz b' (2 * h + s.toNat) := ⟨by simp, by rw [hpn]; exact hdiv, fun _ => ⟨rfl, rfl⟩, trivial, trivial⟩
        cases s with
        | true =>
          have hleaf : hi = .leaf := (at_zero a7).mp hch
          subst hleaf
          refine ⟨.node t0 ring lo (.node p [] .leaf .leaf), ⟨rfl, a2, hpar, hring, hmem, ?_, ?_⟩, ⟨f1, f2, fun e => by omega, f4, hnfit⟩, ?_, ?_, ⟨rfl, rfl, rfl, rfl⟩⟩
          · show lo.At _ t0 (putC l.child t0 true p t0 false)
            rw [putC_side _ _ _ (by decide)]
            exact hframe a6 hp'.2.1 (n4 t0 (by simp)).1
          · show (Trie.node p [] .leaf .leaf).At _ t0 (putC l.child t0 true p t0 true)
            rw [putC_eq]; exact hnew
          · rw [List.perm_iff_count]; intro x
            simp only [Trie.all, List.count_cons, List.count_append, List.count_nil]; omega
          · refine ⟨fun x hx => ?_, fun x hx => ?_, fun x hx => ?_, fun x hx => ?_⟩ <;> simp only [List.mem_cons, Trie.all, List.mem_append, not_or] at hx
            · exact put_ne _ _ hx.1
            · exact put_ne _ _ hx.1
            · exact putC_ne _ _ _ hx.2.1.1
            · exact put_ne _ _ hx.1
        | false =>
          have hleaf : lo = .leaf := (at_zero a6).mp hch
          subst hleaf
          refine ⟨.node t0 ring (.node p [] .leaf .leaf) hi, ⟨rfl, a2, hpar, hring, hmem, ?_, ?_⟩, ⟨f1, f2, fun e => by omega, hnfit, f5⟩, ?_, ?_, ⟨rfl, rfl, rfl, rfl⟩⟩
          · show (Trie.node p [] .leaf .leaf).At _ t0 (putC l.child t0 false p t0 false)
            rw [putC_eq]; exact hnew
          · show hi.At _ t0 (putC l.child t0 false p t0 true)
            rw [putC_side _ _ _ (by decide)]
            exact hframe a7 hp'.2.2 (n4 t0 (by simp)).2
          · rw [List.perm_iff_count]; intro x
            simp only [Trie.all, List.count_cons, List.count_append, List.count_nil]; omega
          · refine ⟨fun x hx => ?_, fun x hx => ?_, fun x hx => ?_, fun x hx => ?_⟩ <;> simp only [List.mem_cons, Trie.all, List.mem_append, not_or] at hx
            · exact put_ne _ _ hx.1
            · exact put_ne _ _ hx.1
            · exact putC_ne _ _ _ hx.2.1.1
            · exact put_ne _ _ hx.1
    · rw [if_neg hsz]
      have hsz : c.sz t0 = n := by simpa using hsz
      have hfm := ring_fd a4
      have hlf : c.least ≤ l.fd t0 := hle _ (by simp only [Trie.all, List.mem_append]; exact Or.inl hfm)
      simp only
      rw [if_pos ⟨hlt, hlf⟩]
      refine ⟨_, rfl, .node t0 (p :: ring) lo hi, ⟨rfl, a2, ?_, ring_insert a4 hp'.1, ?_, ?_, ?_⟩, ⟨?_, f2, f3, f4, f5⟩, ?_, ?_, ⟨rfl, rfl, rfl, rfl⟩⟩
      · show put l.parent p 0 t0 = par
        rw [put_ne _ _ (fun e => hpt e.symm)]; exact a3
      · intro q hq
        simp only [List.mem_cons] at hq
        show put l.parent p 0 q = 0 ∧ ∀ b, l.child q b = 0
        rcases hq with e | hq
        · subst e; exact ⟨put_eq _ _ _, hc⟩
        · rw [put_ne _ _ (fun e => hp'.1 (by simp [← e, hq]))]; exact a5 q hq
      · refine at_congr a6 ⟨fun x hx => ?_, fun x hx => ?_, fun x hx => rfl, fun x hx => ?_⟩
        · show put (put l.fd t0 p) p (l.fd t0) x = l.fd x
          rw [put_ne _ _ (ne_mem hx hp'.2.1), put_ne _ _ (ne_mem hx (n4 t0 (by simp)).1)]
        · show put (put l.bk (l.fd t0) p) p t0 x = l.bk x
          rw [put_ne _ _ (ne_mem hx hp'.2.1), put_ne _ _ (ne_mem hx (n4 _ hfm).1)]
        · exact put_ne _ _ (ne_mem hx hp'.2.1)
      · refine at_congr a7 ⟨fun x hx => ?_, fun x hx => ?_, fun x hx => rfl, fun x hx => ?_⟩
        · show put (put l.fd t0 p) p (l.fd t0) x = l.fd x
          rw [put_ne _ _ (ne_mem hx hp'.2.2), put_ne _ _ (ne_mem hx (n4 t0 (by simp)).2)]
        · show put (put l.bk (l.fd t0) p) p t0 x = l.bk x
          rw [put_ne _ _ (ne_mem hx hp'.2.2), put_ne _ _ (ne_mem hx (n4 _ hfm).2)]
        · exact put_ne _ _ (ne_mem hx hp'.2.2)
      · intro q hq
        simp only [List.mem_cons] at hq
        rcases hq with e | hq
        · rw [e, hpn, hsz]
        · exact f1 q hq
      · rw [List.perm_iff_count]; intro x
        simp only [Trie.all, List.count_cons, List.count_append, List.cons_append]; omega
      · refine ⟨fun x hx => ?_, fun x hx => ?_, fun x hx => rfl, fun x hx => ?_⟩ <;> simp only [List.mem_cons, Trie.all, List.mem_append, not_or] at hx
        · show put (put l.fd t0 p) p (l.fd t0) x = l.fd x
          rw [put_ne _ _ hx.1, put_ne _ _ hx.2.1.1]
        · show put (put l.bk (l.fd t0) p) p t0 x = l.bk x
          rw [put_ne _ _ hx.1, put_ne _ _ (fun e => ?_)]
          subst e
          simp only [List.mem_cons] at hfm
          rcases hfm with e | hm
          · exact hx.2.1.1 e
          · exact hx.2.1.2 hm
        · exact put_ne _ _ hx.1

end Arax.Dl
