import Verif.Dl.Free
/-!
# Consolidation
-/
namespace Arax.Dl
open Arax.Bitmap (bit Bmp Took Released)

/-- The top chunk is the last of the first segment. -/
theorem top_place {cf : Conf} {s : Heap} {L1 L2 : Lay} {g : Seg} {xs ys : List Ck} {c : Ck} {D : List (Nat × Nat)} {env : Nat → Bool}
    (hi : Inv cf s (L1 ++ (g, xs ++ c :: ys) :: L2) D env) (hk : c.k = .top) : L1 = [] ∧ ys = [] ∧ c = ⟨s.topsize, .top⟩ ∧ s.top = g.base + sz xs := by
  have ho := hi.ok (g, xs ++ c :: ys) (by simp)
  obtain ⟨bd, hb, hpl⟩ := ho.body
  simp only at hb
  have hlim := ho.lim
  have hys : ys = [] := by
    rcases List.eq_nil_or_concat ys with h | ⟨ys', cl, rfl⟩
    · exact h
    · exfalso
      have hb' : (xs ++ c :: ys') ++ [cl] = bd ++ [if g.link = s.hrec then (⟨s.topsize, .top⟩ : Ck) else ⟨48, .link⟩] := by simpa using hb
      obtain ⟨h1, -⟩ := List.append_inj' hb' rfl
      have := hpl c (by rw [← h1]; simp)
      rw [hk] at this; simp at this
  subst hys
  obtain ⟨h1, h2⟩ := List.append_inj' hb rfl
  simp only [List.cons.injEq, and_true] at h2
  have hl : g.link = s.hrec := by
    by_cases h : g.link = s.hrec
    · exact h
    · rw [if_neg h] at h2; rw [h2] at hk; simp at hk
  rw [if_pos hl] at h2 hlim
  have hL : L1 = [] := by
    obtain ⟨x, T, e, -, hx⟩ := hi.hd
    cases L1 with
    | nil => rfl
    | cons y L1 =>
      simp only [List.cons_append, List.cons.injEq] at e
      exact absurd hl (hx (g, xs ++ [c]) (by rw [← e.2]; simp))
  refine ⟨hL, rfl, h2, ?_⟩
  subst h2
  simp only [sz_append, sz_cons, sz_nil] at hlim
  omega

theorem freeFwd_ok {cf : Conf} {s : Heap} {D : List (Nat × Nat)} {env : Nat → Bool} {L1 L2 : Lay} {g : Seg} {xs mid ys : List Ck} {c0 : Ck} {p n P N : Nat} {B : List (Nat × Nat)}
    (hi : Inv cf s (L1 ++ (g, xs ++ mid ++ c0 :: ys) :: L2) D env) (hP : P = g.base + sz xs) (hN : N = sz mid) (hl : lastPin true xs = true) (hn : 16 ≤ n)
    (h1 : ∀ q k, (q, (⟨k, .used⟩ : Ck)) ∈ addrs (g.base + sz xs) mid ↔ q = p ∧ k = n) (hp : p ≠ s.mst) (hN16 : N % 16 = 0) (hN32 : 32 ≤ N) (hpos : ∀ c ∈ mid, 16 ≤ c.n)
    (hlm : lastPin true mid = true) (honly : ∀ q k, IsFree s q k → P ≤ q → q < P + N → q = P) (hB : ∀ q k, (q, k) ∈ B ↔ (q, k) ∈ s.bins ∧ q ≠ P) (hBn : B.Nodup)
    (hcase : c0.k.live = true → P ≠ s.dv) :
    ∃ s', freeFwd cf { s with bins := B } P N (P + N) = .ok s' ∧ Freed cf s (L1 ++ (g, xs ++ mid ++ c0 :: ys) :: L2) D env p s' := by
  have ho := hi.ok (g, xs ++ mid ++ c0 :: ys) (by simp)
  have hfit := ho.fits
  have hch := ho.chain
  simp only at hch
  rw [chain_append, lastPin_append, hl, hlm] at hch
  obtain ⟨-, hc0, hcr⟩ := hch
  simp only [sz_append, sz_cons, ← Nat.add_assoc] at hc0 hcr hfit
  rw [← hP, ← hN] at hc0 hcr
  have hhd : s.mem (P + N + 8) = enc c0 true := hc0.head
  have hdvz : ∀ q k, IsFree s q k → q ≠ s.dv → (q, k) ∈ s.bins := by
    rintro q k (h | h) h2
    · exact h
    · exact absurd h.1 h2
  have hbd : ∀ q k, (q, k) ∈ s.bins → q ≠ s.dv := fun q k h => ((hi.bins q k).mp h).2
  have hnx : (P + N, c0) ∈ flat (L1 ++ (g, xs ++ mid ++ c0 :: ys) :: L2) := by
    rw [mem_focus]; left; unfold around; simp [hP, hN]
  unfold freeFwd
  simp only [Heap.hd, hhd, pinuse_enc _ _ hc0.mul, cinuse_enc _ _ hc0.mul, csize_enc _ _ hc0.mul]
  rw [if_neg (by simp; omega)]
  by_cases hlv : c0.k.live = true
  · rw [if_pos hlv]
    have hPd := hcase hlv
    apply binFreed_ok
    refine freed_mid hi hP hN hl hlv hn h1 hp hN16 hN32 hpos ⟨rfl, rfl, rfl, rfl, rfl, rfl⟩ ⟨rfl, rfl⟩ ?_ ?_ ?_ ?_ ?_ ?_ ?_
    · intro x hx1 hx2 hx3; simp only [insertChunk, setFreeP, setFree]; rw [put_other _ _ hx2, put_other _ _ hx1, put_other _ _ hx3]
    · simp only [insertChunk, setFreeP, setFree]; rw [put_other _ _ (by omega), put_same]
    · simp only [insertChunk, setFreeP, setFree]; rw [put_same]
    · simp only [insertChunk, setFreeP, setFree]; rw [put_other _ _ (by omega), put_other _ _ (by omega), put_same, hhd, clrP_enc _ _ hc0.mul]
    · intro q k
      simp only [insertChunk, List.mem_cons, Prod.mk.injEq, hB]
      constructor
      · rintro (⟨rfl, rfl⟩ | ⟨h, h'⟩)
        · exact ⟨Or.inr ⟨rfl, rfl⟩, hPd⟩
        · exact ⟨Or.inl ⟨Or.inl h, fun hr => h' (honly q k (Or.inl h) hr.1 hr.2)⟩, hbd _ _ h⟩
      · rintro ⟨⟨h, h'⟩ | h, h2⟩
        · exact Or.inr ⟨hdvz _ _ h h2, fun e => h' (by omega)⟩
        · exact Or.inl h
    · refine List.nodup_cons.mpr ⟨fun h => ((hB _ _).mp h).2 rfl, hBn⟩
    · simp only [insertChunk]
      rcases hi.dv with h | h
      · exact Or.inl h
      · have hf := (isFree_iff hi _ _).mpr h
        exact Or.inr (Or.inl ⟨hf, fun hr => hPd (honly _ _ hf hr.1 hr.2).symm⟩)
  rw [if_neg hlv]
  by_cases htop : c0.k = .top
  · obtain ⟨rfl, rfl, rfl, ht⟩ := top_place hi htop
    rw [sz_append, ← Nat.add_assoc, ← hP, ← hN] at ht
    rw [if_pos ht.symm]
    have key : ∀ s' : Heap, s' = (if P = s.dv then { s with bins := B, topsize := s.topsize + N, top := P, mem := put s.mem (P + 8) (s.topsize + N + 1), dv := 0, dvsize := 0 } else
        { s with bins := B, topsize := s.topsize + N, top := P, mem := put s.mem (P + 8) (s.topsize + N + 1) }) → Freed cf s ([] ++ (g, xs ++ mid ++ [⟨s.topsize, .top⟩]) :: L2) D env p s' := by
      intro s' e
      by_cases hd : P = s.dv
      · rw [if_pos hd] at e; subst e
        refine freed_top hi hP hN hl hn h1 hp hN16 hN32 hpos ⟨rfl, rfl, rfl, rfl, rfl, rfl⟩ ⟨rfl, rfl⟩ ?_ ?_ ?_ hBn (Or.inl ⟨rfl, rfl⟩)
        · intro x hx; simp only; rw [put_other _ _ hx]
        · simp only [put_same]
        · intro q k
          simp only [hB]
          constructor
          · rintro ⟨h, h'⟩
            have := addr_pos hi ((hi.bins _ _).mp h).1
            simp only at this
            exact ⟨⟨Or.inl h, fun hr => h' (honly q k (Or.inl h) hr.1 hr.2)⟩, by omega⟩
          · rintro ⟨⟨h, h'⟩, h2⟩
            have hqP : q ≠ P := fun e => h' (by omega)
            exact ⟨hdvz _ _ h (by rw [← hd]; exact hqP), hqP⟩
      · rw [if_neg hd] at e; subst e
        refine freed_top hi hP hN hl hn h1 hp hN16 hN32 hpos ⟨rfl, rfl, rfl, rfl, rfl, rfl⟩ ⟨rfl, rfl⟩ ?_ ?_ ?_ hBn ?_
        · intro x hx; simp only; rw [put_other _ _ hx]
        · simp only [put_same]
        · intro q k
          simp only [hB]
          constructor
          · rintro ⟨h, h'⟩; exact ⟨⟨Or.inl h, fun hr => h' (honly q k (Or.inl h) hr.1 hr.2)⟩, hbd _ _ h⟩
          · rintro ⟨⟨h, h'⟩, h2⟩; exact ⟨hdvz _ _ h h2, fun e => h' (by omega)⟩
        · simp only
          rcases hi.dv with h | h
          · exact Or.inl h
          · have hf := (isFree_iff hi _ _).mpr h
            exact Or.inr ⟨hf, fun hr => hd (honly _ _ hf hr.1 hr.2).symm⟩
    have hF := key _ rfl
    have htr : ∀ s' : Heap, s' = (if P = s.dv then { s with bins := B, topsize := s.topsize + N, top := P, mem := put s.mem (P + 8) (s.topsize + N + 1), dv := 0, dvsize := 0 } else
        { s with bins := B, topsize := s.topsize + N, top := P, mem := put s.mem (P + 8) (s.topsize + N + 1) }) → s'.topsize = s.topsize + N := by
      intro s' e; rw [e]; split <;> rfl
    have htr := htr _ rfl
    generalize hs' : (if P = s.dv then { s with bins := B, topsize := s.topsize + N, top := P, mem := put s.mem (P + 8) (s.topsize + N + 1), dv := 0, dvsize := 0 } else
        { s with bins := B, topsize := s.topsize + N, top := P, mem := put s.mem (P + 8) (s.topsize + N + 1) } : Heap) = s' at hF htr ⊢
    split
    · next hbig =>
      obtain ⟨⟨L', D', hi', -, -⟩, -⟩ := id hF
      obtain ⟨s2, e2, -⟩ := sysTrim_ok hi' (by rw [htr]; exact hbig)
      refine ⟨s2, e2, hF.tidy fun L' D' hi' => ?_⟩
      obtain ⟨s2', e2', hT⟩ := sysTrim_ok hi' (by rw [htr]; exact hbig)
      rw [e2] at e2'; cases e2'; exact hT
    · exact ⟨_, rfl, hF⟩
  · have hfree : c0.k = .free := by
      obtain ⟨m, k⟩ := c0
      cases k <;> simp_all [Kind.live]
    obtain ⟨m, kk⟩ := c0
    simp only at hfree; subst hfree
    have hm32 : 32 ≤ m := hc0.min (by simp)
    have hm16 : m % 16 = 0 := hc0.mul
    have hfoot : s.mem (P + N + m) = m := hc0.foot rfl
    obtain ⟨c1, ys', rfl⟩ := has_next hi (Or.inr rfl)
    have hc1 := hcr.1
    have hlv1 : c1.k.live = true := hc1.adj (by simp [Ck.pin])
    have hd1 : s.mem (P + N + m + 8) = enc c1 false := hc1.head
    have hnt : ¬ P + N = s.top := by
      intro e
      obtain ⟨g', body, L2', hL, -, -, ht, -⟩ := top_focus hi
      have : (s.top, (⟨s.topsize, .top⟩ : Ck)) ∈ flat (L1 ++ (g, xs ++ mid ++ ⟨m, .free⟩ :: c1 :: ys') :: L2) := by rw [hL, flat_cons]; simp [ht]
      have hpt := addr_pos hi this
      rcases flat_unique hi hnx this with h | h | h
      · simp at h
      · simp only at h; omega
      · simp only at h hpt; omega
    rw [if_neg hnt]
    have hi2 : Inv cf s (L1 ++ (g, xs ++ (mid ++ [⟨m, .free⟩]) ++ c1 :: ys') :: L2) D env := by simpa using hi
    have hL : L1 ++ (g, xs ++ mid ++ ⟨m, .free⟩ :: c1 :: ys') :: L2 = L1 ++ (g, xs ++ (mid ++ [⟨m, .free⟩]) ++ c1 :: ys') :: L2 := by simp
    have hN2 : N + m = sz (mid ++ [⟨m, .free⟩]) := by simp [hN]
    have h12 : ∀ q k, (q, (⟨k, .used⟩ : Ck)) ∈ addrs (g.base + sz xs) (mid ++ [⟨m, .free⟩]) ↔ q = p ∧ k = n := by intro q k; rw [addrs_append, List.mem_append, h1]; simp
    have hpos2 : ∀ c ∈ mid ++ [⟨m, .free⟩], 16 ≤ c.n := by
      intro c hc
      rcases List.mem_append.mp hc with h | h
      · exact hpos c h
      · simp only [List.mem_singleton] at h; rw [h]; simp only; omega
    have hsame : ∀ q k, IsFree s q k → q = P + N → k = m := by
      intro q k h e
      have hf := (isFree_iff hi q k).mp h
      have hpf := addr_pos hi hf
      rcases flat_unique hi hf hnx with h | h | h
      · simp only [Prod.mk.injEq, Ck.mk.injEq, and_true] at h; exact h.2
      · simp only at h hpf; omega
      · simp only at h; omega
    have honly2 : ∀ q k, IsFree s q k → P ≤ q → q < P + (N + m) → q = P ∨ q = P + N := by
      intro q k h hq1 hq2
      by_cases hq : q < P + N
      · exact Or.inl (honly q k h hq1 hq)
      · right
        have hf := (isFree_iff hi q k).mp h
        have hpf := addr_pos hi hf
        rcases flat_unique hi hf hnx with h | h | h
        · simp only [Prod.mk.injEq] at h; exact h.1
        · simp only at h hpf; omega
        · simp only at h; omega
    have hnxf : IsFree s (P + N) m := (isFree_iff hi _ _).mpr hnx
    by_cases hdv : P + N = s.dv
    · rw [if_pos hdv]
      have hdm : s.dvsize = m := by
        rcases hi.dv with h | h
        · omega
        · exact hsame _ _ ((isFree_iff hi _ _).mpr h) hdv.symm
      rw [hdm, Nat.add_comm m N]
      refine ⟨_, rfl, ?_⟩
      rw [hL]
      refine freed_mid hi2 hP hN2 hl hlv1 hn h12 hp (by omega) (by omega) hpos2 ⟨rfl, rfl, rfl, rfl, rfl, rfl⟩ ⟨rfl, rfl⟩ ?_ ?_ ?_ ?_ ?_ hBn (Or.inr (Or.inr ⟨rfl, rfl⟩))
      · intro x hx1 hx2 hx3; simp only [setFree]; rw [put_other _ _ hx2, put_other _ _ hx1]
      · simp only [setFree]; rw [put_other _ _ (by omega), put_same]
      · simp only [setFree]; rw [put_same]
      · simp only [setFree]; rw [put_other _ _ (by omega), put_other _ _ (by omega), ← Nat.add_assoc, hd1]
      · intro q k
        simp only [hB]
        constructor
        · rintro ⟨h, h'⟩
          refine ⟨Or.inl ⟨Or.inl h, fun hr => ?_⟩, h'⟩
          rcases honly2 q k (Or.inl h) hr.1 hr.2 with e | e
          · exact h' e
          · exact hbd _ _ h (by rw [e, hdv])
        · rintro ⟨⟨h, h'⟩ | h, h2⟩
          · exact ⟨hdvz _ _ h fun e => h' (by omega), h2⟩
          · exact absurd h.1 h2
    · rw [if_neg hdv]
      have hin : (P + N, m) ∈ B := (hB _ _).mpr ⟨hdvz _ _ hnxf hdv, by omega⟩
      unfold unlinkChunk
      rw [if_pos hin]
      simp only [Out.bind_ok]
      have hbe : ∀ q k, (q, k) ∈ B.erase (P + N, m) ↔ (q, k) ∈ s.bins ∧ q ≠ P ∧ q ≠ P + N := by
        intro q k
        rw [hBn.mem_erase_iff, hB]
        constructor
        · rintro ⟨h, h2, h3⟩; exact ⟨h2, h3, fun e => h (by rw [e, hsame q k (Or.inl h2) e])⟩
        · rintro ⟨h2, h3, h4⟩; exact ⟨fun e => h4 (by simp only [Prod.mk.injEq] at e; exact e.1), h2, h3⟩
      by_cases hPd : P = s.dv
      · rw [if_pos hPd]
        refine ⟨_, rfl, ?_⟩
        rw [hL]
        refine freed_mid hi2 hP hN2 hl hlv1 hn h12 hp (by omega) (by omega) hpos2 ⟨rfl, rfl, rfl, rfl, rfl, rfl⟩ ⟨rfl, rfl⟩ ?_ ?_ ?_ ?_ ?_ (hBn.erase _) (Or.inr (Or.inr ⟨hPd.symm, rfl⟩))
        · intro x hx1 hx2 hx3; simp only [setFree]; rw [put_other _ _ hx2, put_other _ _ hx1]
        · simp only [setFree]; rw [put_other _ _ (by omega), put_same]
        · simp only [setFree]; rw [put_same]
        · simp only [setFree]; rw [put_other _ _ (by omega), put_other _ _ (by omega), ← Nat.add_assoc, hd1]
        · intro q k
          simp only [hbe]
          constructor
          · rintro ⟨h, h', h''⟩
            refine ⟨Or.inl ⟨Or.inl h, fun hr => ?_⟩, hbd _ _ h⟩
            rcases honly2 q k (Or.inl h) hr.1 hr.2 with e | e
            · exact h' e
            · exact h'' e
          · rintro ⟨⟨h, h'⟩ | h, h2⟩
            · exact ⟨hdvz _ _ h h2, fun e => h' (by omega), fun e => h' (by omega)⟩
            · exact absurd (h.1.trans hPd) h2
      · rw [if_neg hPd]
        apply binFreed_ok
        rw [hL]
        refine freed_mid hi2 hP hN2 hl hlv1 hn h12 hp (by omega) (by omega) hpos2 ⟨rfl, rfl, rfl, rfl, rfl, rfl⟩ ⟨rfl, rfl⟩ ?_ ?_ ?_ ?_ ?_ ?_ ?_
        · intro x hx1 hx2 hx3; simp only [insertChunk, setFree]; rw [put_other _ _ hx2, put_other _ _ hx1]
        · simp only [insertChunk, setFree]; rw [put_other _ _ (by omega), put_same]
        · simp only [insertChunk, setFree]; rw [put_same]
        · simp only [insertChunk, setFree]; rw [put_other _ _ (by omega), put_other _ _ (by omega), ← Nat.add_assoc, hd1]
        · intro q k
          simp only [insertChunk, List.mem_cons, Prod.mk.injEq, hbe]
          constructor
          · rintro (⟨rfl, rfl⟩ | ⟨h, h', h''⟩)
            · exact ⟨Or.inr ⟨rfl, rfl⟩, hPd⟩
            · refine ⟨Or.inl ⟨Or.inl h, fun hr => ?_⟩, hbd _ _ h⟩
              rcases honly2 q k (Or.inl h) hr.1 hr.2 with e | e
              · exact h' e
              · exact h'' e
          · rintro ⟨⟨h, h'⟩ | h, h2⟩
            · exact Or.inr ⟨hdvz _ _ h h2, fun e => h' (by omega), fun e => h' (by omega)⟩
            · exact Or.inl h
        · refine List.nodup_cons.mpr ⟨fun h => ((hbe _ _).mp h).2.1 rfl, hBn.erase _⟩
        · simp only [insertChunk]
          rcases hi.dv with h | h
          · exact Or.inl h
          · have hf := (isFree_iff hi _ _).mpr h
            refine Or.inr (Or.inl ⟨hf, fun hr => ?_⟩)
            rcases honly2 _ _ hf hr.1 hr.2 with e | e
            · exact hPd e.symm
            · exact hdv e.symm

/-- Freeing a directly mapped block. -/
theorem freeDirect_ok {cf : Conf} {s : Heap} {L : Lay} {D : List (Nat × Nat)} {env : Nat → Bool} (hi : Inv cf s L D env) {p n : Nat} (hp : (p, n + 40) ∈ D) :
    ∃ s', free cf s (p + 16) = .ok s' ∧ Freed cf s L D env p s' := by
  obtain ⟨d1, d2, d3, d4, d5⟩ := hi.dir _ hp
  simp only at d1 d2 d3 d4 d5
  have hlow := hi.low (p, n + 40) (List.mem_append_right _ hp)
  simp only at hlow
  have hh : s.mem (p + 8) = n + 8 := by omega
  have hR : (regs L D).Perm ((p, n + 40) :: regs L (D.erase (p, n + 40))) := by
    unfold regs
    exact (List.Perm.append_left _ (List.perm_cons_erase hp)).trans List.perm_middle
  have hreg0 := hi.regs.perm hR
  obtain ⟨b', hmu, -, hreg⟩ := munmap_ok (s := s) hreg0
  simp only at hmu hreg
  unfold free
  have e1 : isInuse (n + 8) = true := by unfold isInuse; simp; omega
  have e2 : csize (n + 8) = n + 8 := by unfold csize; omega
  have e3 : pinuse (n + 8) = false := by unfold pinuse; simp; omega
  have e4 : isMmapped (n + 8) = true := by unfold isMmapped; simp; omega
  simp only [Nat.add_sub_cancel, Heap.hd, hh, e1, e2, e3, e4, d1]
  rw [if_neg (by omega), if_neg (by simp; omega)]
  simp only [Bool.false_eq_true, if_false, if_true, Nat.sub_zero, Nat.add_zero]
  rw [show n + 8 + 32 = n + 40 by omega, hmu]
  simp only [Out.bind_ok]
  refine ⟨_, rfl, ⟨⟨L, D.erase (p, n + 40), ?_, ?_, ?_⟩, rfl, fun _ _ _ => rfl⟩⟩
  · exact ⟨hi.segs, hi.ok, hi.hd, hi.bins, hi.bnd, hi.dv, hi.mst, fun r hr => hi.dir r (List.mem_of_mem_erase hr), hreg.disj, hreg.low, hreg.pages, hreg.envb, hreg.only, hreg.bmp, hreg.foot, hreg.start, hreg.top64, hreg.lpos, hi.trim⟩
  · have hdj := hreg0.disj
    have hap := (List.pairwise_cons.mp hdj).1
    intro q k
    unfold Blk
    constructor
    · rintro (h | h)
      · refine ⟨Or.inl h, fun e => ?_⟩
        obtain ⟨z, hz, hyz⟩ := List.mem_flatMap.mp h
        have hb := addrs_bounds hyz
        have hf := (hi.ok z hz).fits
        have := dir_apart hi hz hp
        simp only [Apart] at this hb
        have hpz := addr_pos hi h
        simp only at hpz
        omega
      · refine ⟨Or.inr (List.mem_of_mem_erase h), fun e => ?_⟩
        have := hap _ (List.mem_append_right _ h)
        simp only [Apart] at this
        omega
    · rintro ⟨h | h, h'⟩
      · exact Or.inl h
      · exact Or.inr ((List.mem_erase_of_ne (by simp only [ne_eq, Prod.mk.injEq, not_and]; intro e; exact absurd e h')).mpr h)
  · intro q k _ _ x _ _; rfl

/-- `mspace_free` of a block: it is there no more, and nothing else changes. -/
theorem free_ok {cf : Conf} {s : Heap} {L : Lay} {D : List (Nat × Nat)} {env : Nat → Bool} (hi : Inv cf s L D env) {p n : Nat} (hp : Blk L D p n) (hm : p ≠ s.mst) :
    ∃ s', free cf s (p + 16) = .ok s' ∧ Freed cf s L D env p s' := by
  rcases hp with hp | hp
  case inr => exact freeDirect_ok hi hp
  have hpos := addr_pos hi hp
  simp only at hpos
  obtain ⟨L1, g, xs, ys, L2, rfl, ha⟩ := flat_split hp
  simp only at ha hi hp ⊢
  obtain ⟨c0, ys, rfl⟩ := has_next hi (Or.inl rfl)
  have hk := hi.ok _ (show (g, xs ++ ⟨n, .used⟩ :: c0 :: ys) ∈ _ by simp)
  have hf := hk.fits
  have hc := hk.chain
  rw [chain_append] at hc
  obtain ⟨hx, h1, h2, -⟩ := hc
  rw [← ha] at h1 h2
  have hn32 : 32 ≤ n := h1.min (by simp)
  have hn16 : n % 16 = 0 := h1.mul
  have hhd : s.mem (p + 8) = enc ⟨n, .used⟩ (lastPin true xs) := h1.head
  have hhd2 : s.mem (p + n + 8) = enc c0 true := h2.head
  have hpu : ∀ q k, IsFree s q k → p ≤ q → q < p + n → False := by
    intro q k h hq1 hq2
    have hff := (isFree_iff hi q k).mp h
    have hpf := addr_pos hi hff
    rcases flat_unique hi hff hp with h | h | h
    · simp at h
    · simp only at h hpf; omega
    · simp only at h; omega
  unfold free
  simp only [Nat.add_sub_cancel, Heap.hd, hhd, isInuse_enc ⟨n, .used⟩ _ h1.mul, csize_enc ⟨n, .used⟩ _ h1.mul, pinuse_enc ⟨n, .used⟩ _ h1.mul, isMmapped_enc ⟨n, .used⟩ _ h1.mul]
  rw [if_neg (by omega), if_neg (by simp [Kind.live]; omega)]
  cases hlp : lastPin true xs with
  | true =>
    rw [if_pos rfl]
    have hi1 : Inv cf s (L1 ++ (g, xs ++ [⟨n, .used⟩] ++ c0 :: ys) :: L2) D env := by simpa using hi
    have hL : L1 ++ (g, xs ++ ⟨n, .used⟩ :: c0 :: ys) :: L2 = L1 ++ (g, xs ++ [⟨n, .used⟩] ++ c0 :: ys) :: L2 := by simp
    rw [hL]
    refine freeFwd_ok (B := s.bins) (p := p) (n := n) hi1 ha (by simp) hlp (by omega) (by intro q k; simp [ha]) hm hn16 hn32 (by simp; omega) (by simp [Ck.pin]) ?_ ?_ hi.bnd ?_
    · intro q k h hq1 hq2; exact absurd (hpu q k h hq1 hq2) id
    · intro q k; exact ⟨fun h => ⟨h, fun e => hpu q k (Or.inl h) (by omega) (by omega)⟩, fun h => h.1⟩
    · intro _ e
      rcases hi.dv with h | h
      · omega
      · exact hpu s.dv s.dvsize ((isFree_iff hi _ _).mpr h) (by omega) (by omega)
  | false =>
    simp only [Bool.false_eq_true, if_false, Kind.live, Bool.not_true, Bool.false_and]
    obtain ⟨xs, k, rfl, hmk, hlx⟩ := chain_prev hx hlp
    rw [← ha] at hmk
    simp only [sz_append, sz_cons, sz_nil, Nat.add_zero] at ha
    have hcp := hx
    rw [chain_append] at hcp
    have hk32 : 32 ≤ k := hcp.2.1.min (by simp)
    have hk16 : k % 16 = 0 := hcp.2.1.mul
    have hpk : p - k = g.base + sz xs := by omega
    rw [hmk, hpk]
    have hi1 : Inv cf s (L1 ++ (g, xs ++ [⟨k, .free⟩, ⟨n, .used⟩] ++ c0 :: ys) :: L2) D env := by simpa using hi
    have hL : L1 ++ (g, xs ++ [⟨k, .free⟩] ++ ⟨n, .used⟩ :: c0 :: ys) :: L2 = L1 ++ (g, xs ++ [⟨k, .free⟩, ⟨n, .used⟩] ++ c0 :: ys) :: L2 := by simp
    have hpf : (g.base + sz xs, (⟨k, .free⟩ : Ck)) ∈ flat (L1 ++ (g, xs ++ [⟨k, .free⟩, ⟨n, .used⟩] ++ c0 :: ys) :: L2) := by rw [mem_focus]; simp
    have hppos := addr_pos hi1 hpf
    simp only at hppos
    rw [if_neg (by simp; omega)]
    generalize hPd : g.base + sz xs = P at *
    have hpP : p = P + k := by omega
    have honly : ∀ q j, IsFree s q j → P ≤ q → q < P + (n + k) → q = P ∧ j = k := by
      intro q j h hq1 hq2
      have hff := (isFree_iff hi1 q j).mp h
      have hfpos := addr_pos hi1 hff
      by_cases hq : p ≤ q
      · exact absurd (hpu q j h hq (by omega)) id
      · rcases flat_unique hi1 hff hpf with h | h | h
        · simp only [Prod.mk.injEq, Ck.mk.injEq, and_true] at h; exact h
        · simp only at h hfpos; omega
        · simp only at h; omega
    have hu : ∀ q j, (q, (⟨j, .used⟩ : Ck)) ∈ addrs (g.base + sz xs) [⟨k, .free⟩, ⟨n, .used⟩] ↔ q = p ∧ j = n := by intro q j; simp [hPd, hpP]
    have hisf : IsFree s P k := (isFree_iff hi1 _ _).mpr hpf
    rw [hL, show p + n = P + (n + k) by omega]
    by_cases hdv : P = s.dv
    · rw [if_neg (by simp [hdv])]
      by_cases h4 : s.mem (P + (n + k) + 8) % 4 = 3
      · rw [if_pos h4]
        rw [show P + (n + k) + 8 = p + n + 8 by omega, hhd2, mod4_enc _ _ h2.mul] at h4
        refine ⟨_, rfl, ?_⟩
        refine freed_mid hi1 hPd.symm (N := n + k) (by simp; omega) hlx h4.1 (by omega) hu hm (by omega) (by omega) (by simp; omega) ⟨rfl, rfl, rfl, rfl, rfl, rfl⟩ ⟨rfl, rfl⟩ ?_ ?_ ?_ ?_ ?_ hi.bnd (Or.inr (Or.inr ⟨hdv.symm, rfl⟩))
        · intro x hx1 hx2 hx3; simp only [setFreeP, setFree]; rw [put_other _ _ hx2, put_other _ _ hx1, put_other _ _ hx3]
        · simp only [setFreeP, setFree]; rw [put_other _ _ (by omega), put_same]
        · simp only [setFreeP, setFree]; rw [put_same]
        · simp only [setFreeP, setFree]; rw [put_other _ _ (by omega), put_other _ _ (by omega), put_same, show P + (n + k) + 8 = p + n + 8 by omega, hhd2, clrP_enc _ _ h2.mul]
        · intro q j
          simp only
          constructor
          · intro h
            have hqd := ((hi.bins q j).mp h).2
            exact ⟨Or.inl ⟨Or.inl h, fun hr => hqd (by rw [(honly q j (Or.inl h) hr.1 hr.2).1, hdv])⟩, hqd⟩
          · rintro ⟨⟨h | h, h'⟩ | h, h2⟩
            · exact h
            · exact absurd h.1 h2
            · exact absurd (h.1.trans hdv) h2
      · rw [if_neg h4]
        refine freeFwd_ok (B := s.bins) (p := p) (n := n) hi1 hPd.symm (N := n + k) (by simp; omega) hlx (by omega) hu hm (by omega) (by omega) (by simp; omega) (by simp [Ck.pin]) ?_ ?_ hi.bnd ?_
        · intro q j h hq1 hq2; exact (honly q j h hq1 hq2).1
        · intro q j; exact ⟨fun h => ⟨h, fun e => ((hi.bins q j).mp h).2 (by rw [e, hdv])⟩, fun h => h.1⟩
        · intro hlv
          rw [show P + (n + k) + 8 = p + n + 8 by omega, hhd2, mod4_enc _ _ h2.mul] at h4
          exact absurd ⟨hlv, rfl⟩ h4
    · rw [if_pos hdv]
      have hin : (P, k) ∈ s.bins := (hi1.bins _ _).mpr ⟨hpf, hdv⟩
      unfold unlinkChunk
      rw [if_pos hin]
      simp only [Out.bind_ok]
      refine freeFwd_ok (B := s.bins.erase (P, k)) (p := p) (n := n) hi1 hPd.symm (N := n + k) (by simp; omega) hlx (by omega) hu hm (by omega) (by omega) (by simp; omega) (by simp [Ck.pin]) ?_ ?_ (hi.bnd.erase _) (fun _ => hdv)
      · intro q j h hq1 hq2; exact (honly q j h hq1 hq2).1
      · intro q j
        have := mem_erase_bins hi1 hin q j
        exact this

end Arax.Dl
