import Verif.Dl.TrieRemove2
/-!
# Searching the trees
-/
namespace Arax.Dl

/-- What a chunk of `n` bytes leaves of a request for `nb`, when it compares below what is left so far. -/
theorem sub64_lt {n nb r : Nat} (h0 : 0 < nb) (hn : n < W) (hb : nb < W) (hr : r ≤ W - nb) : sub64 n nb < r ↔ nb ≤ n ∧ n - nb < r := by
  unfold sub64
  rw [Nat.mod_eq_of_lt hb]
  by_cases h : nb ≤ n
  · have : W + n - nb = n - nb + W := by omega
    rw [this, Nat.add_mod_right, Nat.mod_eq_of_lt (by omega)]
    omega
  · rw [Nat.mod_eq_of_lt (by omega)]
    omega

theorem sub64_eq {n nb : Nat} (hn : n < W) (hb : nb < W) (h : nb ≤ n) : sub64 n nb = n - nb := by
  unfold sub64
  rw [Nat.mod_eq_of_lt hb]
  have : W + n - nb = n - nb + W := by omega
  rw [this, Nat.add_mod_right, Nat.mod_eq_of_lt (by omega)]

theorem sub64_zero {nb : Nat} (h0 : 0 < nb) (hb : nb < W) : sub64 0 nb = W - nb := by
  unfold sub64
  rw [Nat.mod_eq_of_lt hb, Nat.mod_eq_of_lt (by omega)]
  omega

/-- The best chunk so far: either what it was, or a chunk of `l` that is large enough. (No code of its own.) -/
def Chose (c : Ctx) (nb : Nat) (l : List Nat) (v rsize v' rsize' : Nat) : Prop :=
  rsize' ≤ rsize ∧ ((v' = v ∧ rsize' = rsize) ∨ (v' ∈ l ∧ nb ≤ c.sz v' ∧ rsize' = c.sz v' - nb))

theorem Chose.mono {c : Ctx} {nb : Nat} {l l' : List Nat} {v r v' r' : Nat} (h : Chose c nb l v r v' r') (hs : ∀ x ∈ l, x ∈ l') : Chose c nb l' v r v' r' :=
  ⟨h.1, h.2.imp id fun ⟨a, b⟩ => ⟨hs _ a, b⟩⟩

theorem Chose.trans {c : Ctx} {nb : Nat} {l : List Nat} {v r v' r' v'' r'' : Nat} (h : Chose c nb l v r v' r') (h' : Chose c nb l v' r' v'' r'') : Chose c nb l v r v'' r'' := by
  refine ⟨Nat.le_trans h'.1 h.1, ?_⟩
  rcases h'.2 with ⟨rfl, rfl⟩ | e
  · exact h.2
  · exact Or.inr e

theorem smallestLoop_ok {c : Ctx} {l : Links} {nb : Nat} (h0 : 0 < nb) (hnb : nb < W) : ∀ (T : Trie) (b h k par t v r : Nat), T.At l par t → T.Fit c.sz b h → (b + 2 ≤ k ∨ T = .leaf ∧ 1 ≤ k) → r ≤ W - nb →
    (∀ q ∈ T.all, c.sz q < W) →
    ∃ v' r', smallestLoop c l nb k t v r = .ok (v', r') ∧ Chose c nb T.all v r v' r' ∧ ((∀ q ∈ T.all, nb ≤ c.sz q) → ∀ q ∈ T.all, r' ≤ c.sz q - nb)
  | .leaf, _, _, 0, _, _, _, _, _, _, hk, _, _ => absurd hk (by omega)
  | .leaf, _, _, k + 1, _, t, v, r, hat, _, _, _, _ => by
    have e : t = 0 := hat
    subst e
    exact ⟨v, r, by simp [smallestLoop], ⟨Nat.le_refl _, Or.inl ⟨rfl, rfl⟩⟩, fun _ q hq => by simp [Trie.all] at hq⟩
  | .node t ring lo hi, _, _, 0, _, _, _, _, _, _, hk, _, _ => absurd hk (by simp)
  | .node t ring lo hi, b, h, k + 1, par, t0, v, r, hat, hf, hk, hr, hsz => by
    obtain ⟨e0, a2, a3, a4, a5, a6, a7⟩ := hat
    obtain ⟨f1, f2, f3, f4, f5⟩ := hf
    subst e0
    have hk : b + 1 ≤ k := by rcases hk with h | h
                              · omega
                              · exact absurd h.1 (by simp)
    have hst := hsz t0 (by simp [Trie.all])
    have htr := sub64_lt h0 hst hnb hr
    -- what is left at this chunk
    obtain ⟨v1, r1, hstep, hch, hle⟩ : ∃ v1 r1, smallestLoop c l nb (k + 1) t0 v r = smallestLoop c l nb k (l.leftmost t0) v1 r1 ∧ Chose c nb (t0 :: ring) v r v1 r1 ∧ (nb ≤ c.sz t0 → r1 ≤ c.sz t0 - nb) := by
      by_cases hlt : sub64 (c.sz t0) nb < r
      · refine ⟨t0, sub64 (c.sz t0) nb, by simp only [smallestLoop, ne_eq, a2, not_false_eq_true, if_true, hlt], ?_⟩
        obtain ⟨h1, h2⟩ := htr.mp hlt
        rw [sub64_eq hst hnb h1]
        exact ⟨⟨Nat.le_of_lt h2, Or.inr ⟨by simp, h1, rfl⟩⟩, fun _ => Nat.le_refl _⟩
      · refine ⟨v, r, by simp only [smallestLoop, ne_eq, a2, not_false_eq_true, if_true, hlt, if_false], ⟨Nat.le_refl _, Or.inl ⟨rfl, rfl⟩⟩, fun h1 => ?_⟩
        rw [htr] at hlt
        omega
    have hsub : ∀ {U : Trie}, (∀ q ∈ U.all, q ∈ lo.all ∨ q ∈ hi.all) → ∀ q ∈ U.all, q ∈ (Trie.node t0 ring lo hi).all := by
      intro U hU q hq
      simp only [Trie.all, List.mem_append]
      exact Or.inr (hU q hq)
    -- the way on
    have hgo : ∀ (U : Trie) (h' : Nat), U.At l t0 (l.leftmost t0) → U.Fit c.sz (b - 1) h' → (b - 1 + 2 ≤ k ∨ U = .leaf ∧ 1 ≤ k) → (∀ q ∈ U.all, q ∈ lo.all ∨ q ∈ hi.all) →
        ((∀ q, q ∈ lo.all ∨ q ∈ hi.all → q ∈ U.all ∨ ∃ u ∈ U.all, c.sz u ≤ c.sz q)) →
        ∃ v' r', smallestLoop c l nb (k + 1) t0 v r = .ok (v', r') ∧ Chose c nb (Trie.node t0 ring lo hi).all v r v' r' ∧
          ((∀ q ∈ (Trie.node t0 ring lo hi).all, nb ≤ c.sz q) → ∀ q ∈ (Trie.node t0 ring lo hi).all, r' ≤ c.sz q - nb) := by
      intro U h' hU hUf hkk hUs hmin
      have hr1 : r1 ≤ W - nb := Nat.le_trans hch.1 hr
      obtain ⟨v', r', g1, g2, g3⟩ := smallestLoop_ok h0 hnb U (b - 1) h' k t0 (l.leftmost t0) v1 r1 hU hUf hkk hr1 (fun q hq => hsz q (hsub hUs q hq))
      refine ⟨v', r', hstep.trans g1, ?_, fun hall q hq => ?_⟩
      · refine Chose.trans (hch.mono fun x hx => ?_) (g2.mono (hsub hUs))
        simp only [Trie.all, List.mem_append]; exact Or.inl hx
      · have hall' : ∀ q ∈ U.all, nb ≤ c.sz q := fun q hq => hall q (hsub hUs q hq)
        have hnode : r' ≤ c.sz t0 - nb := Nat.le_trans g2.1 (hle (hall t0 (by simp [Trie.all])))
        simp only [Trie.all, List.mem_append, List.mem_cons] at hq
        rcases hq with (e | hq) | hq
        · rw [e]; exact hnode
        · rw [f1 q hq]; exact hnode
        · rcases hmin q hq with hm | ⟨u, hu, hle'⟩
          · exact g3 hall' q hm
          · have := g3 hall' u hu
            omega
    unfold Links.leftmost at hgo
    by_cases hl : l.child t0 false ≠ 0
    · rw [if_pos hl] at hgo
      have hb : b ≠ 0 := fun e => hl ((at_zero a6).mpr (f3 e).1)
      have hlm := at_mem a6 hl
      refine hgo lo (2 * h) a6 f4 (Or.inl (by omega)) (fun q hq => Or.inl hq) (fun q hq => ?_)
      rcases hq with hq | hq
      · exact Or.inl hq
      · exact Or.inr ⟨_, hlm, Nat.le_of_lt (fit_lt f4 f5 hlm hq)⟩
    · rw [if_neg hl] at hgo
      have hl : l.child t0 false = 0 := by simpa using hl
      have hlo : lo = .leaf := (at_zero a6).mp hl
      by_cases hb : b = 0
      · obtain ⟨-, e⟩ := f3 hb
        rw [e] at a7
        refine hgo .leaf 0 a7 trivial (Or.inr ⟨rfl, by omega⟩) (fun q hq => by simp [Trie.all] at hq) (fun q hq => ?_)
        rw [hlo, e] at hq
        simp [Trie.all] at hq
      · refine hgo hi (2 * h + 1) a7 f5 (Or.inl (by omega)) (fun q hq => Or.inr hq) (fun q hq => ?_)
        rcases hq with hq | hq
        · rw [hlo] at hq; simp [Trie.all] at hq
        · exact Or.inl hq

/-- A subtree that is left for later: everything in it is larger than the request. (No code of its own.) -/
structure Later (c : Ctx) (l : Links) (nb : Nat) (U : Trie) (a : Nat) : Prop where
  at_ : ∃ par b h, U.At l par a ∧ U.Fit c.sz b h ∧ b ≤ 64
  big : ∀ u ∈ U.all, nb ≤ c.sz u

/-- The result of the walk: the best so far and the subtree left, which together have a chunk at least as good as every chunk of `l`. (No code of its own.) -/
def Walked (c : Ctx) (l : Links) (nb : Nat) (T U0 : Trie) (v r t' v' r' : Nat) : Prop :=
  Chose c nb T.all v r v' r' ∧
  ((t' ≠ 0 ∧ r' = 0 ∧ v' ∈ T.all ∧ ∃ (U : Trie) (par b h : Nat), U.At l par t' ∧ U.Fit c.sz b h ∧ b ≤ 64 ∧ ∀ q ∈ U.all, q ∈ T.all) ∨
   ∃ U, Later c l nb U t' ∧ (∀ q ∈ U.all, q ∈ T.all ∨ q ∈ U0.all) ∧ ∀ q, q ∈ T.all ∨ q ∈ U0.all → nb ≤ c.sz q → r' ≤ c.sz q - nb ∨ ∃ u ∈ U.all, c.sz u ≤ c.sz q)

theorem pathLoop_ok {c : Ctx} {l : Links} {nb : Nat} (h0 : 0 < nb) (hnb : nb < W) : ∀ (T U0 : Trie) (b h k bits par t rst v r : Nat), T.At l par t → T ≠ .leaf → T.Fit c.sz b h → nb / 2 ^ b = h →
    bits = nb * 2 ^ (64 - b) % 2 ^ 64 → b ≤ 64 → b + 1 ≤ k → r ≤ W - nb → (∀ q ∈ T.all, c.sz q < W) → Later c l nb U0 rst → (∀ u ∈ U0.all, ∀ q ∈ T.all, c.sz q ≤ c.sz u) →
    ∃ t' v' r', pathLoop c l nb k t rst v r bits = .ok (t', v', r') ∧ Walked c l nb T U0 v r t' v' r'
  | .leaf, _, _, _, _, _, _, _, _, _, _, _, h, _, _, _, _, _, _, _, _, _ => absurd rfl h
  | .node t ring lo hi, _, _, _, 0, _, _, _, _, _, _, _, _, _, _, _, _, hk, _, _, _, _ => absurd hk (by omega)
  | .node t ring lo hi, U0, b, h, k + 1, bits, par, t0, rst, v, r, hat, _, hf, hnbh, hbits, hb, hk, hr, hsz, hlat, hsep => by
    have hat0 := hat
    have hf0 := hf
    obtain ⟨e0, a2, a3, a4, a5, a6, a7⟩ := hat
    obtain ⟨f1, f2, f3, f4, f5⟩ := hf
    subst e0
    have hst := hsz t0 (by simp [Trie.all])
    have htr := sub64_lt h0 hst hnb hr
    have hlo' : ∀ q ∈ lo.all, q ∈ (Trie.node t0 ring lo hi).all := fun q hq => by simp only [Trie.all, List.mem_append]; exact Or.inr (Or.inl hq)
    have hhi' : ∀ q ∈ hi.all, q ∈ (Trie.node t0 ring lo hi).all := fun q hq => by simp only [Trie.all, List.mem_append]; exact Or.inr (Or.inr hq)
    have hrg' : ∀ q ∈ t0 :: ring, q ∈ (Trie.node t0 ring lo hi).all := fun q hq => by simp only [Trie.all, List.mem_append]; exact Or.inl hq
    unfold pathLoop
    simp only
    by_cases hz : sub64 (c.sz t0) nb < r ∧ sub64 (c.sz t0) nb = 0
    · rw [if_pos hz]
      obtain ⟨h1, h2⟩ := htr.mp hz.1
      have e := sub64_eq hst hnb h1
      refine ⟨t0, t0, 0, rfl, ⟨Nat.zero_le _, Or.inr ⟨hrg' t0 (by simp), h1, by omega⟩⟩, Or.inl ⟨a2, rfl, hrg' t0 (by simp), _, par, b, h, hat0, hf0, hb, fun q hq => hq⟩⟩
    · rw [if_neg hz]
      obtain ⟨v1, r1, hv1, hr1, hch, hle⟩ : ∃ v1 r1, (if sub64 (c.sz t0) nb < r then t0 else v) = v1 ∧ (if sub64 (c.sz t0) nb < r then sub64 (c.sz t0) nb else r) = r1 ∧
          Chose c nb (t0 :: ring) v r v1 r1 ∧ (nb ≤ c.sz t0 → r1 ≤ c.sz t0 - nb) := by
        by_cases hlt : sub64 (c.sz t0) nb < r
        · obtain ⟨h1, h2⟩ := htr.mp hlt
          refine ⟨_, _, if_pos hlt, if_pos hlt, ?_⟩
          rw [sub64_eq hst hnb h1]
          exact ⟨⟨Nat.le_of_lt h2, Or.inr ⟨by simp, h1, rfl⟩⟩, fun _ => Nat.le_refl _⟩
        · refine ⟨_, _, if_neg hlt, if_neg hlt, ⟨Nat.le_refl _, Or.inl ⟨rfl, rfl⟩⟩, fun h1 => ?_⟩
          rw [htr] at hlt; omega
      rw [hv1, hr1]
      have hnode : ∀ r', r' ≤ r1 → ∀ q ∈ t0 :: ring, nb ≤ c.sz q → r' ≤ c.sz q - nb := by
        intro r' hr' q hq hnq
        have e : c.sz q = c.sz t0 := by
          simp only [List.mem_cons] at hq; rcases hq with e | hq
          · rw [e]
          · exact f1 q hq
        rw [e] at hnq ⊢
        exact Nat.le_trans hr' (hle hnq)
      have hr1W : r1 ≤ W - nb := Nat.le_trans hch.1 hr
      have hchT : Chose c nb (Trie.node t0 ring lo hi).all v r v1 r1 := hch.mono hrg'
      have hsplit : ∀ q, q ∈ (Trie.node t0 ring lo hi).all → q ∈ t0 :: ring ∨ q ∈ lo.all ∨ q ∈ hi.all := fun q hq => by
        simpa only [Trie.all, List.mem_append] using hq
      -- the request is less than everything in the right subtree when its bit is 0, more than everything in the left one when its bit is 1
      by_cases hb0 : b = 0
      · obtain ⟨rfl, rfl⟩ := f3 hb0
        have c0 : l.child t0 false = 0 := a6
        have c1 : l.child t0 true = 0 := a7
        have ct : l.child t0 (topBit bits) = 0 := by cases topBit bits <;> assumption
        rw [ct, c1, if_pos rfl, if_neg (by simp)]
        refine ⟨rst, v1, r1, rfl, hchT, Or.inr ⟨U0, hlat, fun q hq => Or.inr hq, fun q hq hnq => ?_⟩⟩
        rcases hq with hq | hq
        · rcases hsplit q hq with h | h | h
          · exact Or.inl (hnode r1 (Nat.le_refl _) q h hnq)
          · simp [Trie.all] at h
          · simp [Trie.all] at h
        · exact Or.inr ⟨q, hq, Nat.le_refl _⟩
      · obtain ⟨b', rfl⟩ : ∃ b', b = b' + 1 := ⟨b - 1, by omega⟩
        simp only [Nat.add_sub_cancel] at f4 f5
        have htb := topBit_at (by omega) hbits
        have hsh := shl1_at (by omega) hbits
        have ed : nb / 2 ^ (b' + 1) = nb / 2 ^ b' / 2 := by rw [Nat.pow_succ, Nat.div_div_eq_div_mul]
        have hdiv : nb / 2 ^ b' = 2 * h + (topBit bits).toNat := by
          rw [htb]
          rw [ed] at hnbh
          have : nb / 2 ^ b' % 2 = 0 ∨ nb / 2 ^ b' % 2 = 1 := by omega
          rcases this with e | e <;> simp [e] <;> omega
        generalize hs : topBit bits = s at hdiv
        cases s with
        | true =>
          have hdiv : nb / 2 ^ b' = 2 * h + 1 := hdiv
          have hin : (if l.child t0 true ≠ 0 ∧ l.child t0 true ≠ l.child t0 true then l.child t0 true else rst) = rst := if_neg (by simp)
          rw [hin]
          have hsm : ∀ q ∈ lo.all, ¬ nb ≤ c.sz q := fun q hq hle => by
            have e := fit_high f4 q hq
            have := Nat.div_le_div_right (c := 2 ^ b') hle
            omega
          by_cases hc : l.child t0 true = 0
          · rw [if_pos hc]
            have hhi : hi = .leaf := (at_zero a7).mp hc
            refine ⟨rst, v1, r1, rfl, hchT, Or.inr ⟨U0, hlat, fun q hq => Or.inr hq, fun q hq hnq => ?_⟩⟩
            rcases hq with hq | hq
            · rcases hsplit q hq with h | h | h
              · exact Or.inl (hnode r1 (Nat.le_refl _) q h hnq)
              · exact absurd hnq (hsm q h)
              · rw [hhi] at h; simp [Trie.all] at h
            · exact Or.inr ⟨q, hq, Nat.le_refl _⟩
          · rw [if_neg hc]
            obtain ⟨t', v', r', g1, g2, g3⟩ := pathLoop_ok h0 hnb hi U0 b' (2 * h + 1) k (shl1 bits) t0 (l.child t0 true) rst v1 r1 a7 (fun e => hc ((at_zero a7).mpr e)) f5 hdiv hsh (by omega) (by omega)
              hr1W (fun q hq => hsz q (hhi' q hq)) hlat (fun u hu q hq => hsep u hu q (hhi' q hq))
            refine ⟨t', v', r', g1, hchT.trans (g2.mono hhi'), ?_⟩
            rcases g3 with ⟨x1, x2, x3, U, par', b2, h2, y1, y2, y3, y4⟩ | ⟨U, x1, x2, x3⟩
            · exact Or.inl ⟨x1, x2, hhi' _ x3, U, par', b2, h2, y1, y2, y3, fun q hq => hhi' q (y4 q hq)⟩
            · refine Or.inr ⟨U, x1, fun q hq => (x2 q hq).imp (hhi' q) id, fun q hq hnq => ?_⟩
              rcases hq with hq | hq
              · rcases hsplit q hq with h | h | h
                · exact Or.inl (hnode r' g2.1 q h hnq)
                · exact absurd hnq (hsm q h)
                · exact x3 q (Or.inl h) hnq
              · exact x3 q (Or.inr hq) hnq
        | false =>
          have hdiv : nb / 2 ^ b' = 2 * h := hdiv
          have hbig : ∀ q ∈ hi.all, nb ≤ c.sz q := fun q hq => by
            have e := fit_high f5 q hq
            rcases Nat.lt_or_ge (c.sz q) nb with hlt | hge
            · have := Nat.div_le_div_right (c := 2 ^ b') (Nat.le_of_lt hlt); omega
            · exact hge
          -- the subtree left for later
          obtain ⟨U1, rst1, e1, hl1, hs1, hcov, hm1⟩ : ∃ U1 rst1, (if l.child t0 true ≠ 0 ∧ l.child t0 true ≠ l.child t0 false then l.child t0 true else rst) = rst1 ∧ Later c l nb U1 rst1 ∧
              (∀ u ∈ U1.all, ∀ q ∈ lo.all, c.sz q ≤ c.sz u) ∧ (∀ q, q ∈ hi.all ∨ q ∈ U0.all → ∃ u ∈ U1.all, c.sz u ≤ c.sz q) ∧
              (∀ q ∈ U1.all, q ∈ hi.all ∨ q ∈ U0.all) := by
            by_cases hc : l.child t0 true = 0
            · have hhi : hi = .leaf := (at_zero a7).mp hc
              refine ⟨U0, rst, if_neg (by simp [hc]), hlat, fun u hu q hq => hsep u hu q (hlo' q hq), fun q hq => ?_, fun q hq => Or.inr hq⟩
              rcases hq with hq | hq
              · rw [hhi] at hq; simp [Trie.all] at hq
              · exact ⟨q, hq, Nat.le_refl _⟩
            · have hm := at_mem a7 hc
              have hne : l.child t0 true ≠ l.child t0 false := by
                intro e
                rw [e] at hc hm
                have hm2 := at_mem a6 hc
                exact Nat.lt_irrefl _ (fit_lt f4 f5 hm2 hm)
              refine ⟨hi, l.child t0 true, if_pos ⟨hc, hne⟩, ⟨⟨t0, b', _, a7, f5, by omega⟩, hbig⟩, fun u hu q hq => Nat.le_of_lt (fit_lt f4 f5 hq hu), fun q hq => ?_, fun q hq => Or.inl hq⟩
              rcases hq with hq | hq
              · exact ⟨q, hq, Nat.le_refl _⟩
              · exact ⟨_, hm, hsep q hq _ (hhi' _ hm)⟩
          rw [e1]
          by_cases hc : l.child t0 false = 0
          · rw [if_pos hc]
            have hlo : lo = .leaf := (at_zero a6).mp hc
            refine ⟨rst1, v1, r1, rfl, hchT, Or.inr ⟨U1, hl1, fun q hq => (hm1 q hq).imp (hhi' q) id, fun q hq hnq => ?_⟩⟩
            rcases hq with hq | hq
            · rcases hsplit q hq with h | h | h
              · exact Or.inl (hnode r1 (Nat.le_refl _) q h hnq)
              · rw [hlo] at h; simp [Trie.all] at h
              · exact Or.inr (hcov q (Or.inl h))
            · exact Or.inr (hcov q (Or.inr hq))
          · rw [if_neg hc]
            obtain ⟨t', v', r', g1, g2, g3⟩ := pathLoop_ok h0 hnb lo U1 b' (2 * h) k (shl1 bits) t0 (l.child t0 false) rst1 v1 r1 a6 (fun e => hc ((at_zero a6).mpr e)) f4 hdiv hsh (by omega) (by omega)
              hr1W (fun q hq => hsz q (hlo' q hq)) hl1 hs1
            refine ⟨t', v', r', g1, hchT.trans (g2.mono hlo'), ?_⟩
            rcases g3 with ⟨x1, x2, x3, U, par', b2, h2, y1, y2, y3, y4⟩ | ⟨U, x1, x2, x3⟩
            · exact Or.inl ⟨x1, x2, hlo' _ x3, U, par', b2, h2, y1, y2, y3, fun q hq => hlo' q (y4 q hq)⟩
            · refine Or.inr ⟨U, x1, fun q hq => ?_, fun q hq hnq => ?_⟩
              · rcases x2 q hq with h | h
                · exact Or.inl (hlo' q h)
                · exact (hm1 q h).imp (hhi' q) id
              · have hvia : (q ∈ hi.all ∨ q ∈ U0.all) → r' ≤ c.sz q - nb ∨ ∃ u ∈ U.all, c.sz u ≤ c.sz q := by
                  intro hq
                  obtain ⟨u, hu, hle'⟩ := hcov q hq
                  rcases x3 u (Or.inr hu) (hl1.big u hu) with h | ⟨w, hw, hle2⟩
                  · left; omega
                  · exact Or.inr ⟨w, hw, Nat.le_trans hle2 hle'⟩
                rcases hq with hq | hq
                · rcases hsplit q hq with h | h | h
                  · exact Or.inl (hnode r' g2.1 q h hnq)
                  · exact x3 q (Or.inl h) hnq
                  · exact hvia (Or.inl h)
                · exact hvia (Or.inr hq)

end Arax.Dl
