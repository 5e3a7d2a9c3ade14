import Verif.Dl.Release
/-!
# Freeing a block
-/
namespace Arax.Dl
open Arax.Bitmap (bit Bmp Took Released)

/-- The blocks after a step are the blocks before, without the one at `p`. (No code of its own.) -/
structure Freed (cf : Conf) (s : Heap) (L : Lay) (D : List (Nat × Nat)) (env : Nat → Bool) (p : Nat) (s' : Heap) : Prop where
  spec : ∃ L' D', Inv cf s' L' D' env ∧ (∀ q k, Blk L' D' q k ↔ Blk L D q k ∧ q ≠ p) ∧ Kept L D s.mem L' D' s'.mem
  mst : s'.mst = s.mst
  frame : Frame cf env s.mem s'.mem

theorem Freed.tidy {cf : Conf} {s s' s'' : Heap} {L : Lay} {D : List (Nat × Nat)} {env : Nat → Bool} {p : Nat} (h1 : Freed cf s L D env p s')
    (h2 : ∀ L' D', Inv cf s' L' D' env → Tidy cf s' L' D' env s'') : Freed cf s L D env p s'' := by
  obtain ⟨⟨L1, D1, hi1, hb1, hk1⟩, hm1, hf1⟩ := h1
  obtain ⟨⟨L2, D2, hi2, hb2, hk2⟩, hm2, hf2⟩ := h2 L1 D1 hi1
  refine ⟨⟨L2, D2, hi2, fun q k => by rw [hb2, hb1], hk1.trans hk2 fun p n _ h => (hb2 p n).mp h⟩, by rw [hm2, hm1], hf1.trans hf2⟩

/-- Blocks after replacing a stretch with one used chunk by one with none. -/
theorem blk_gone {cf : Conf} {s : Heap} {L1 L2 : Lay} {g : Seg} {xs mid mid' ys : List Ck} {D : List (Nat × Nat)} {env : Nat → Bool} {p n : Nat}
    (hi : Inv cf s (L1 ++ (g, xs ++ mid ++ ys) :: L2) D env) (hsz : sz mid' = sz mid) (hn : 16 ≤ n)
    (h1 : ∀ q k, (q, (⟨k, .used⟩ : Ck)) ∈ addrs (g.base + sz xs) mid ↔ q = p ∧ k = n)
    (h2 : ∀ q k, (q, (⟨k, .used⟩ : Ck)) ∉ addrs (g.base + sz xs) mid') (q k : Nat) :
    Blk (L1 ++ (g, xs ++ mid' ++ ys) :: L2) D q k ↔ Blk (L1 ++ (g, xs ++ mid ++ ys) :: L2) D q k ∧ q ≠ p := by
  have hpin := addrs_bounds ((h1 p n).mpr ⟨rfl, rfl⟩)
  simp only at hpin
  unfold Blk
  rw [mem_focus, mem_focus, h1]
  have : around L1 g xs mid' ys L2 = around L1 g xs mid ys L2 := by unfold around; rw [hsz]
  rw [this]
  have h2' := h2 q k
  have ha : (q, (⟨k, .used⟩ : Ck)) ∈ around L1 g xs mid ys L2 → q ≠ p := by
    intro h e
    have hpos := addr_pos hi ((mem_focus ..).mpr (Or.inl h))
    have := around_apart hi h
    simp only at this hpos
    omega
  have hd : (q, k + 40) ∈ D → q ≠ p := by
    intro h e
    have hap := dir_apart hi (x := (g, xs ++ mid ++ ys)) (by simp) h
    have hf := (hi.ok (g, xs ++ mid ++ ys) (by simp)).fits
    simp only [sz_append] at hf
    simp only [Apart] at hap
    omega
  grind

/-- A stretch with one used chunk becomes one free chunk. -/
theorem freed_mid {cf : Conf} {s s' : Heap} {D : List (Nat × Nat)} {env : Nat → Bool} {L1 L2 : Lay} {g : Seg} {xs mid ys : List Ck} {c0 : Ck} {p n P N : Nat}
    (hi : Inv cf s (L1 ++ (g, xs ++ mid ++ c0 :: ys) :: L2) D env) (hP : P = g.base + sz xs) (hN : N = sz mid) (hl : lastPin true xs = true) (hlv : c0.k.live = true) (hn : 16 ≤ n)
    (h1 : ∀ q k, (q, (⟨k, .used⟩ : Ck)) ∈ addrs (g.base + sz xs) mid ↔ q = p ∧ k = n) (hp : p ≠ s.mst) (hN16 : N % 16 = 0) (hN32 : 32 ≤ N) (hpos : ∀ c ∈ mid, 16 ≤ c.n)
    (hs : Same s s') (ht : s'.top = s.top ∧ s'.topsize = s.topsize)
    (hm : ∀ x, x ≠ P + 8 → x ≠ P + N → x ≠ P + N + 8 → s'.mem x = s.mem x) (hm1 : s'.mem (P + 8) = N + 1) (hm2 : s'.mem (P + N) = N) (hm3 : s'.mem (P + N + 8) = enc c0 false)
    (hb : ∀ q k, (q, k) ∈ s'.bins ↔ ((IsFree s q k ∧ ¬ (P ≤ q ∧ q < P + N)) ∨ (q = P ∧ k = N)) ∧ q ≠ s'.dv) (hnd : s'.bins.Nodup)
    (hdv : (s'.dv = 0 ∧ s'.dvsize = 0) ∨ (IsFree s s'.dv s'.dvsize ∧ ¬ (P ≤ s'.dv ∧ s'.dv < P + N)) ∨ (s'.dv = P ∧ s'.dvsize = N)) :
    Freed cf s (L1 ++ (g, xs ++ mid ++ c0 :: ys) :: L2) D env p s' := by
  have hfr := around_free hi
  have hfit := (hi.ok (g, xs ++ mid ++ c0 :: ys) (by simp)).fits
  simp only [sz_append, sz_cons] at hfit
  refine ⟨⟨L1 ++ (g, xs ++ [⟨N, .free⟩] ++ c0 :: ys) :: L2, D, ?_, ?_, ?_⟩, hs.mst, fun x h h' => by
    have h2 := seg_not_env hi (z := (g, xs ++ mid ++ c0 :: ys)) (by simp) h h'
    simp only at h2
    exact hm x (by omega) (by omega) (by omega)⟩
  · refine inv_interior (mid := mid) hi hs ht ?_ (by simp [hN]) ?_ ?_ ?_ (by simp) ?_ hnd ?_ ?_
    · intro x hx; exact hm x (by omega) (by omega) (by omega)
    · refine ⟨⟨?_, ?_, hN16, by simp only; omega, fun _ => hN32, by simp [hl]⟩, trivial⟩
      · rw [← hP, hm1]; simp [enc, Kind.live, hl]
      · intro _; rw [← hP]; exact hm2
    · rw [← hP, ← hN, hm3]; simp [Ck.pin]
    · simp [hlv]
    · intro q k; rw [hb, hfr]; simp only [IsFree, ← hP, ← hN, addrs_cons, addrs_nil, List.mem_singleton, Prod.mk.injEq, Ck.mk.injEq, and_true]
    · rw [hfr]; simp only [← hP, ← hN, addrs_cons, addrs_nil, List.mem_singleton, Prod.mk.injEq, Ck.mk.injEq, and_true]; exact hdv
    · rw [h1]; rintro ⟨e, -⟩; exact hp e.symm
  · exact blk_gone hi (by simp [hN]) hn h1 (by simp)
  · refine kept_interior (mid' := [⟨N, .free⟩]) hi ?_ (by omega) (by simp [hN]) rfl (Or.inr (by simp)) hpos (Or.inl (by simp [hN]))
    intro x hx; exact hm x (by omega) (by omega) (by omega)

/-- A stretch with one used chunk before the top joins the top. -/
theorem freed_top {cf : Conf} {s s' : Heap} {D : List (Nat × Nat)} {env : Nat → Bool} {L2 : Lay} {g : Seg} {xs mid : List Ck} {p n P N : Nat}
    (hi : Inv cf s ((g, xs ++ mid ++ [⟨s.topsize, .top⟩]) :: L2) D env) (hP : P = g.base + sz xs) (hN : N = sz mid) (hl : lastPin true xs = true) (hn : 16 ≤ n)
    (h1 : ∀ q k, (q, (⟨k, .used⟩ : Ck)) ∈ addrs (g.base + sz xs) mid ↔ q = p ∧ k = n) (hp : p ≠ s.mst) (hN16 : N % 16 = 0) (hN32 : 32 ≤ N) (hpos : ∀ c ∈ mid, 16 ≤ c.n)
    (hs : Same s s') (ht : s'.top = P ∧ s'.topsize = s.topsize + N)
    (hm : ∀ x, x ≠ P + 8 → s'.mem x = s.mem x) (hm1 : s'.mem (P + 8) = s.topsize + N + 1)
    (hb : ∀ q k, (q, k) ∈ s'.bins ↔ (IsFree s q k ∧ ¬ (P ≤ q ∧ q < P + N)) ∧ q ≠ s'.dv) (hnd : s'.bins.Nodup)
    (hdv : (s'.dv = 0 ∧ s'.dvsize = 0) ∨ (IsFree s s'.dv s'.dvsize ∧ ¬ (P ≤ s'.dv ∧ s'.dv < P + N))) :
    Freed cf s ((g, xs ++ mid ++ [⟨s.topsize, .top⟩]) :: L2) D env p s' := by
  have hi' : Inv cf s ([] ++ (g, xs ++ (mid ++ [⟨s.topsize, .top⟩]) ++ []) :: L2) D env := by simpa using hi
  have hi2 : Inv cf s ([] ++ (g, xs ++ mid ++ [⟨s.topsize, .top⟩]) :: L2) D env := hi
  have hk := hi.ok (g, xs ++ mid ++ [⟨s.topsize, .top⟩]) (by simp)
  have hfit := hk.fits
  obtain ⟨x, T, e, hx1, hx2⟩ := hi.hd
  simp only [List.cons.injEq] at e; obtain ⟨rfl, rfl⟩ := e
  simp only at hx1
  have hlim := hk.lim
  rw [if_pos hx1] at hlim
  have htc := hk.chain
  rw [chain_append] at htc
  have htm := htc.2.1.mul
  have htp := htc.2.1.pos
  simp only [sz_append, sz_cons, sz_nil] at hfit hlim
  simp only at htm htp
  have hfr : ∀ q k, (q, (⟨k, .free⟩ : Ck)) ∈ around [] g xs (mid ++ [⟨s.topsize, .top⟩]) [] L2 ↔ (IsFree s q k ∧ ¬ (P ≤ q ∧ q < P + N)) := by
    intro q k
    rw [around_free hi']
    simp only [sz_append, sz_cons, sz_nil, ← hP, ← hN, IsFree]
    constructor
    · rintro ⟨h, h'⟩; exact ⟨h, by omega⟩
    · rintro ⟨h, h'⟩
      refine ⟨h, ?_⟩
      have hf := (isFree_iff hi q k).mp h
      have htop : (P + N, (⟨s.topsize, .top⟩ : Ck)) ∈ flat ([] ++ (g, xs ++ mid ++ [⟨s.topsize, .top⟩]) :: L2) := by
        rw [mem_focus]; left; unfold around; simp [hP, hN]
      have hpf := addr_pos hi hf
      simp only at hpf
      rcases flat_unique hi2 hf htop with h2 | h2 | h2
      · simp at h2
      · simp only at h2; omega
      · simp only at h2; omega
  obtain ⟨ht1, ht2⟩ := ht
  have e : (g, xs ++ mid ++ [⟨s.topsize, .top⟩]) = (g, xs ++ (mid ++ [⟨s.topsize, .top⟩]) ++ []) := by simp
  refine ⟨⟨(g, xs ++ [⟨s'.topsize, .top⟩]) :: L2, D, ?_, ?_, ?_⟩, hs.mst, fun x h h' => by
    have h2 := seg_not_env hi List.mem_cons_self h h'
    simp only at h2
    exact hm x (by omega)⟩
  · have := inv_top (s := s) (s' := s') (L2 := L2) (g := g) (xs := xs) (mid := mid) (mid' := []) hi hs ?_ ?_ ?_ ?_ (by simp) ?_ hnd ?_ ?_
    · simpa using this
    · intro x hx; exact hm x (by omega)
    · simp; omega
    · simp [ht1, hP]
    · refine ⟨⟨?_, by simp, ?_, ?_, by simp, by simp [hl]⟩, trivial⟩
      · rw [← hP, hm1, ht2]; simp [enc, Kind.live, hl]
      · simp only [ht2]; omega
      · simp only [ht2]; omega
    · intro q k; rw [hfr, hb]; simp
    · rw [hfr]; simp only [addrs_nil, List.not_mem_nil, or_false]; exact hdv
    · rw [h1]; rintro ⟨e, -⟩; exact hp e.symm
  · intro q k
    have := blk_gone (L1 := []) (mid' := [⟨s'.topsize, .top⟩]) (p := p) (n := n) hi' (by simp; omega) hn (by intro q k; rw [addrs_append, List.mem_append, h1]; simp) (by simp) q k
    simpa using this
  · have := kept_interior (s' := s') (L1 := []) (L2 := L2) (g := g) (xs := xs) (mid := mid ++ [⟨s.topsize, .top⟩]) (mid' := [⟨s'.topsize, .top⟩]) (ys := []) hi' ?_
      (by simp only [sz_append, sz_cons, sz_nil]; omega) (by simp; omega) rfl (Or.inr (by simp)) (by intro c hc; rcases List.mem_append.mp hc with h | h; exact hpos c h; simp only [List.mem_singleton] at h; rw [h]; exact htp) (Or.inl (by simp; omega))
    · simpa using this
    · intro x hx; exact hm x (by omega)

theorem binFreed_ok {cf : Conf} {s s0 : Heap} {L : Lay} {D : List (Nat × Nat)} {env : Nat → Bool} {p0 p n : Nat} (h : Freed cf s0 L D env p0 (insertChunk s p n)) :
    ∃ s', binFreed cf s p n = .ok s' ∧ Freed cf s0 L D env p0 s' := by
  unfold binFreed
  split
  · exact ⟨_, rfl, h⟩
  · simp only
    have h2 : Freed cf s0 L D env p0 { insertChunk s p n with checks := (insertChunk s p n).checks - 1 } := by
      refine h.tidy fun L' D' hi' => ⟨⟨L', D', ?_, fun _ _ => Iff.rfl, fun _ _ _ _ _ _ _ => rfl⟩, rfl, fun _ _ _ => rfl⟩
      exact hi'.misc _ _ _ hi'.trim
    split
    · obtain ⟨⟨L1, D1, hi1, -, -⟩, -, -⟩ := id h2
      obtain ⟨s2, e2, -, -⟩ := releaseUnused_ok hi1
      refine ⟨s2, e2, h2.tidy fun L' D' hi' => ?_⟩
      obtain ⟨s2', e2', hT, -⟩ := releaseUnused_ok hi'
      rw [e2] at e2'; cases e2'; exact hT
    · exact ⟨_, rfl, h2⟩

end Arax.Dl
