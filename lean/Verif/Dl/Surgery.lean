import Verif.Dl.Inv
/-!
# Replacing a stretch of chunks
-/
namespace Arax.Dl
open Arax.Bitmap (bit Bmp)

/-- The regions do not depend on how the chunks of a segment are cut. -/
theorem regs_focus (L1 L2 : Lay) (g : Seg) (cs cs' : List Ck) (D : List (Nat × Nat)) : regs (L1 ++ (g, cs') :: L2) D = regs (L1 ++ (g, cs) :: L2) D := by
  simp [regs]

/-- A directly mapped block is apart from every segment. -/
theorem dir_apart {cf : Conf} {s : Heap} {L : Lay} {D : List (Nat × Nat)} {env : Nat → Bool} (hi : Inv cf s L D env) {x : Seg × List Ck} (hx : x ∈ L) {r : Nat × Nat} (hr : r ∈ D) :
    Apart (x.1.base, x.1.size) r := by
  have hd := hi.disj
  unfold regs at hd
  rw [List.pairwise_append] at hd
  exact hd.2.2 _ (List.mem_map_of_mem hx) _ hr

/-- Two segments are apart. -/
theorem seg_apart {cf : Conf} {s : Heap} {L1 L2 : Lay} {x : Seg × List Ck} {D : List (Nat × Nat)} {env : Nat → Bool} (hi : Inv cf s (L1 ++ x :: L2) D env) {z : Seg × List Ck}
    (hz : z ∈ L1 ∨ z ∈ L2) : Apart (z.1.base, z.1.size) (x.1.base, x.1.size) := by
  have hd := hi.disj
  unfold regs at hd
  rw [List.pairwise_append] at hd
  have hd := hd.1
  rw [List.map_append, List.map_cons, List.pairwise_append] at hd
  rcases hz with hz | hz
  · exact hd.2.2 _ (List.mem_map_of_mem hz) _ (List.mem_cons_self)
  · exact apart_symm ((List.pairwise_cons.mp hd.2.1).1 _ (List.mem_map_of_mem hz))

/-- What does not change when chunks are cut differently. (No code of its own.) -/
structure Same (s s' : Heap) : Prop where
  segs : s'.segs = s.segs
  bmp : s'.bmp = s.bmp
  least : s'.least = s.least
  foot : s'.foot = s.foot
  mst : s'.mst = s.mst
  trim : s'.trim = s.trim

/-- The parts of the invariant that only depend on the regions of a segment whose chunks are cut differently. -/
theorem inv_recut {cf : Conf} {s s' : Heap} {D : List (Nat × Nat)} {env : Nat → Bool} {L1 L2 : Lay} {g : Seg} {cs cs' : List Ck}
    (hi : Inv cf s (L1 ++ (g, cs) :: L2) D env) (hs : Same s s')
    (hm : ∀ x, (x < g.base ∨ g.base + g.size ≤ x) → s'.mem x = s.mem x)
    (hok : SegOK s'.mem s'.hrec s'.top s'.topsize g cs')
    (htop : ∀ x, x ∈ L1 ∨ x ∈ L2 → x.1.link = s.hrec → s'.top = s.top ∧ s'.topsize = s.topsize)
    (hbins : ∀ p n, (p, n) ∈ s'.bins ↔ (p, (⟨n, .free⟩ : Ck)) ∈ flat (L1 ++ (g, cs') :: L2) ∧ p ≠ s'.dv)
    (hnd : s'.bins.Nodup)
    (hdv : (s'.dv = 0 ∧ s'.dvsize = 0) ∨ (s'.dv, (⟨s'.dvsize, .free⟩ : Ck)) ∈ flat (L1 ++ (g, cs') :: L2))
    (hmst : (s'.mst, (⟨mstSize, .used⟩ : Ck)) ∈ flat (L1 ++ (g, cs') :: L2)) :
    Inv cf s' (L1 ++ (g, cs') :: L2) D env := by
  have hrec : s'.hrec = s.hrec := by unfold Heap.hrec; rw [hs.mst]
  have hreg := regs_focus L1 L2 g cs cs' D
  refine ⟨?_, ?_, ?_, hbins, hnd, hdv, hmst, ?_, ?_, ?_, ?_, ?_, ?_, ?_, ?_, hi.start, ?_, by rw [hs.least]; exact hi.lpos, by rw [hs.trim]; exact hi.trim⟩
  · rw [hs.segs, hi.segs]; simp
  · intro x hx
    have hother : ∀ x : Seg × List Ck, x ∈ L1 ∨ x ∈ L2 → SegOK s'.mem s'.hrec s'.top s'.topsize x.1 x.2 := by
      intro x hx
      have hap := seg_apart hi hx
      have hxk := hi.ok x (by rcases hx with h | h <;> simp [h])
      have hf := hxk.fits
      rw [hrec]
      refine ⟨hxk.base, hxk.size, chain_frame hxk.chain fun w h1 h2 => hm w ?_, ?_, ?_⟩
      · rcases hap with h | h <;> simp only at h <;> omega
      · have hb := hxk.body
        by_cases e : x.1.link = s.hrec
        · rw [(htop x hx e).2]; exact hb
        · simp only [if_neg e] at hb ⊢; exact hb
      · have hb := hxk.lim
        by_cases e : x.1.link = s.hrec
        · rw [if_pos e] at hb ⊢; rw [(htop x hx e).2, (htop x hx e).1]; exact hb
        · simp only [if_neg e] at hb ⊢
          refine ⟨hb.1, hb.2.1, ?_⟩
          rw [hm _ (by rcases hap with h | h <;> simp only at h <;> omega)]; exact hb.2.2
    simp only [List.mem_append, List.mem_cons] at hx
    rcases hx with hx | rfl | hx
    · exact hother x (Or.inl hx)
    · exact hok
    · exact hother x (Or.inr hx)
  · obtain ⟨x, T, e, h1, h2⟩ := hi.hd
    rw [hrec]
    cases L1 with
    | nil => simp only [List.nil_append, List.cons.injEq] at e; obtain ⟨rfl, rfl⟩ := e; exact ⟨_, _, rfl, h1, h2⟩
    | cons y L1 =>
      simp only [List.cons_append, List.cons.injEq] at e; obtain ⟨rfl, rfl⟩ := e
      refine ⟨_, _, rfl, h1, ?_⟩
      intro z hz
      have hz : z ∈ L1 ++ (g, cs') :: L2 := hz
      simp only [List.mem_append, List.mem_cons] at hz
      rcases hz with hz | rfl | hz
      · exact h2 z (by simp [hz])
      · exact h2 (g, cs) (by simp)
      · exact h2 z (by simp [hz])
  · intro r hr
    have hap := dir_apart hi (x := (g, cs)) (by simp) hr
    obtain ⟨h1, h2, h3, h4, h5⟩ := hi.dir r hr
    have hn : ∀ w, w = r.1 ∨ w = r.1 + 8 → s'.mem w = s.mem w := fun w hw => hm w (by
      rcases hap with h | h <;> simp only at h <;> omega)
    exact ⟨by rw [hn _ (Or.inl rfl)]; exact h1, by rw [hn _ (Or.inr rfl)]; exact h2, h3, h4, h5⟩
  · rw [hreg]; exact hi.disj
  · rw [hreg, hs.least, hs.bmp]; exact hi.low
  · rw [hreg, hs.bmp]; exact hi.pages
  · rw [hs.bmp]; exact hi.envb
  · rw [hreg, hs.bmp]; exact hi.only
  · rw [hs.bmp]; exact hi.bmp
  · rw [hreg, hs.foot]; exact hi.foot
  · rw [hs.bmp]; exact hi.top64

/-- Replacing chunks inside a segment: only words of the stretch, and the head of the chunk after it, change. -/
theorem inv_interior {cf : Conf} {s s' : Heap} {D : List (Nat × Nat)} {env : Nat → Bool} {L1 L2 : Lay} {g : Seg} {xs mid mid' ys : List Ck} {c0 : Ck}
    (hi : Inv cf s (L1 ++ (g, xs ++ mid ++ c0 :: ys) :: L2) D env) (hs : Same s s') (ht : s'.top = s.top ∧ s'.topsize = s.topsize)
    (hm : ∀ x, (x < g.base + sz xs + 8 ∨ g.base + sz xs + sz mid + 8 < x) → s'.mem x = s.mem x)
    (hsz : sz mid' = sz mid)
    (hch : Chain s'.mem (g.base + sz xs) (lastPin true xs) mid')
    (hh : s'.mem (g.base + sz xs + sz mid + 8) = enc c0 (lastPin (lastPin true xs) mid'))
    (hadj : lastPin (lastPin true xs) mid' = false → c0.k.live = true)
    (hpl : ∀ c ∈ mid', c.k = .used ∨ c.k = .free)
    (hbins : ∀ p n, (p, n) ∈ s'.bins ↔ ((p, (⟨n, .free⟩ : Ck)) ∈ around L1 g xs mid (c0 :: ys) L2 ∨ (p, (⟨n, .free⟩ : Ck)) ∈ addrs (g.base + sz xs) mid') ∧ p ≠ s'.dv)
    (hnd : s'.bins.Nodup)
    (hdv : (s'.dv = 0 ∧ s'.dvsize = 0) ∨ (s'.dv, (⟨s'.dvsize, .free⟩ : Ck)) ∈ around L1 g xs mid (c0 :: ys) L2 ∨ (s'.dv, (⟨s'.dvsize, .free⟩ : Ck)) ∈ addrs (g.base + sz xs) mid')
    (hmst : (s.mst, (⟨mstSize, .used⟩ : Ck)) ∉ addrs (g.base + sz xs) mid) :
    Inv cf s' (L1 ++ (g, xs ++ mid' ++ c0 :: ys) :: L2) D env := by
  have hrec : s'.hrec = s.hrec := by unfold Heap.hrec; rw [hs.mst]
  have hg := hi.ok (g, xs ++ mid ++ c0 :: ys) (by simp)
  have hfit := hg.fits
  have hmf : ∀ y, y ∈ flat (L1 ++ (g, xs ++ mid' ++ c0 :: ys) :: L2) ↔ y ∈ around L1 g xs mid (c0 :: ys) L2 ∨ y ∈ addrs (g.base + sz xs) mid' := by
    intro y; rw [mem_focus]; unfold around; rw [hsz]
  have hc := hg.chain
  rw [List.append_assoc, chain_append, chain_append] at hc
  obtain ⟨hc1, hc2, hc3, hc4⟩ := hc
  refine inv_recut hi hs ?_ ⟨hg.base, hg.size, ?_, ?_, ?_⟩ (fun _ _ _ => ht) ?_ hnd ?_ ?_
  · intro x hx; apply hm
    simp only [sz_append, sz_cons] at hfit
    have := hc3.pos
    omega
  · rw [List.append_assoc, chain_append, chain_append]
    refine ⟨chain_frame hc1 fun x h1 h2 => hm x (by omega), hch, ?_, ?_⟩
    · rw [hsz]
      have hp := hc3.pos
      refine ⟨hh, ?_, hc3.mul, hc3.pos, hc3.min, hadj⟩
      intro hk; rw [hm _ (by omega)]; exact hc3.foot hk
    · rw [hsz]
      have hp := hc3.pos
      exact chain_frame hc4 fun x h1 h2 => hm x (by omega)
  · obtain ⟨body, hb, hpb⟩ := hg.body
    rw [hrec, ht.2]
    rcases List.eq_nil_or_concat ys with rfl | ⟨ys', cl, rfl⟩
    · have hb' : (xs ++ mid) ++ [c0] = body ++ [if g.link = s.hrec then (⟨s.topsize, .top⟩ : Ck) else ⟨48, .link⟩] := by simpa using hb
      obtain ⟨h1, h2⟩ := List.append_inj' hb' rfl
      refine ⟨xs ++ mid', by rw [← h2], ?_⟩
      intro c hc
      rcases List.mem_append.mp hc with hc | hc
      · exact hpb c (by rw [← h1]; simp [hc])
      · exact hpl c hc
    · have hb' : (xs ++ mid ++ c0 :: ys') ++ [cl] = body ++ [if g.link = s.hrec then (⟨s.topsize, .top⟩ : Ck) else ⟨48, .link⟩] := by simpa using hb
      obtain ⟨h1, h2⟩ := List.append_inj' hb' rfl
      refine ⟨xs ++ mid' ++ c0 :: ys', by rw [← h2]; simp, ?_⟩
      intro c hc
      simp only [List.mem_append, List.mem_cons] at hc
      rcases hc with (hc | hc) | hc
      · exact hpb c (by rw [← h1]; simp [hc])
      · exact hpl c hc
      · exact hpb c (by rw [← h1]; simp only [List.mem_append, List.mem_cons]; exact Or.inr hc)
  · have hl := hg.lim
    rw [hrec, ht.2, ht.1]
    have e : sz (xs ++ mid' ++ c0 :: ys) = sz (xs ++ mid ++ c0 :: ys) := by simp [hsz]
    rw [e]
    simp only at hl
    by_cases hgl : g.link = s.hrec
    · rw [if_pos hgl] at hl ⊢; exact hl
    · rw [if_neg hgl] at hl ⊢
      refine ⟨hl.1, hl.2.1, ?_⟩
      have hp := hc3.pos
      have h1 := hl.1
      simp only [sz_append, sz_cons] at h1
      rw [hm _ (by omega)]; exact hl.2.2
  · intro p n; rw [hbins, hmf]
  · rw [hmf]; exact hdv
  · rw [hmf, hs.mst]
    rcases (mem_focus ..).mp hi.mst with h | h
    · exact Or.inl h
    · exact absurd h hmst

/-- Replacing chunks at the end of the first segment, with the top chunk. -/
theorem inv_top {cf : Conf} {s s' : Heap} {D : List (Nat × Nat)} {env : Nat → Bool} {L2 : Lay} {g : Seg} {xs mid mid' : List Ck}
    (hi : Inv cf s ((g, xs ++ mid ++ [⟨s.topsize, .top⟩]) :: L2) D env) (hs : Same s s')
    (hm : ∀ x, (x < g.base + sz xs + 8 ∨ g.base + sz xs + sz mid + s.topsize + 8 ≤ x) → s'.mem x = s.mem x)
    (hsz : sz mid' + s'.topsize = sz mid + s.topsize) (ht : s'.top = g.base + sz xs + sz mid')
    (hch : Chain s'.mem (g.base + sz xs) (lastPin true xs) (mid' ++ [⟨s'.topsize, .top⟩]))
    (hpl : ∀ c ∈ mid', c.k = .used ∨ c.k = .free)
    (hbins : ∀ p n, (p, n) ∈ s'.bins ↔
      ((p, (⟨n, .free⟩ : Ck)) ∈ around [] g xs (mid ++ [⟨s.topsize, .top⟩]) [] L2 ∨ (p, (⟨n, .free⟩ : Ck)) ∈ addrs (g.base + sz xs) mid') ∧ p ≠ s'.dv)
    (hnd : s'.bins.Nodup)
    (hdv : (s'.dv = 0 ∧ s'.dvsize = 0) ∨ (s'.dv, (⟨s'.dvsize, .free⟩ : Ck)) ∈ around [] g xs (mid ++ [⟨s.topsize, .top⟩]) [] L2 ∨
      (s'.dv, (⟨s'.dvsize, .free⟩ : Ck)) ∈ addrs (g.base + sz xs) mid')
    (hmst : (s.mst, (⟨mstSize, .used⟩ : Ck)) ∉ addrs (g.base + sz xs) mid) :
    Inv cf s' ((g, xs ++ mid' ++ [⟨s'.topsize, .top⟩]) :: L2) D env := by
  have hrec : s'.hrec = s.hrec := by unfold Heap.hrec; rw [hs.mst]
  have hg := hi.ok (g, xs ++ mid ++ [⟨s.topsize, .top⟩]) (by simp)
  have hfit := hg.fits
  obtain ⟨x, T, e, h1, h2⟩ := hi.hd
  simp only [List.cons.injEq] at e; obtain ⟨rfl, rfl⟩ := e
  simp only at h1
  have hmf : ∀ y, y ∈ flat ((g, xs ++ mid' ++ [⟨s'.topsize, .top⟩]) :: L2) ↔
      y ∈ around [] g xs (mid ++ [⟨s.topsize, .top⟩]) [] L2 ∨ y ∈ addrs (g.base + sz xs) (mid' ++ [⟨s'.topsize, .top⟩]) := by
    intro y
    have := mem_focus [] g xs (mid' ++ [⟨s'.topsize, .top⟩]) [] L2 y
    simp only [List.nil_append, List.append_nil, ← List.append_assoc] at this
    rw [this]; unfold around; simp [hsz]
  have hmf2 : ∀ y : Nat × Ck, y.2.k ≠ .top → (y ∈ flat ((g, xs ++ mid' ++ [⟨s'.topsize, .top⟩]) :: L2) ↔
      y ∈ around [] g xs (mid ++ [⟨s.topsize, .top⟩]) [] L2 ∨ y ∈ addrs (g.base + sz xs) mid') := by
    intro y hy
    rw [hmf, addrs_append, List.mem_append]
    have : y ∉ addrs (g.base + sz xs + sz mid') [⟨s'.topsize, .top⟩] := by
      intro h; simp only [addrs_cons, addrs_nil, List.mem_singleton] at h; rw [h] at hy; simp at hy
    simp only [this, or_false]
  have hc := hg.chain
  rw [List.append_assoc, chain_append] at hc
  refine inv_recut (L1 := []) hi hs ?_ ⟨hg.base, hg.size, ?_, ?_, ?_⟩ ?_ ?_ hnd ?_ ?_
  · intro x hx; apply hm
    simp only [sz_append, sz_cons, sz_nil] at hfit
    omega
  · rw [List.append_assoc, chain_append]
    exact ⟨chain_frame hc.1 fun x h1 h2 => hm x (by omega), hch⟩
  · obtain ⟨body, hb, hpb⟩ := hg.body
    rw [hrec, if_pos h1]
    rw [if_pos h1] at hb
    obtain ⟨h1, -⟩ := List.append_inj' hb rfl
    refine ⟨xs ++ mid', rfl, ?_⟩
    intro c hc
    rcases List.mem_append.mp hc with hc | hc
    · exact hpb c (by rw [← h1]; simp [hc])
    · exact hpl c hc
  · have hl := hg.lim
    rw [if_pos h1] at hl
    rw [hrec, if_pos h1]
    simp only [sz_append, sz_cons, sz_nil] at hl ⊢
    omega
  · intro x hx e
    rcases hx with hx | hx
    · cases hx
    · exact absurd e (h2 x hx)
  · intro p n
    rw [List.nil_append, hmf2 _ (by simp)]; exact hbins p n
  · rw [List.nil_append, hmf2 _ (by simp)]; exact hdv
  · rw [List.nil_append, hmf2 _ (by simp), hs.mst]
    have hm2 := mem_focus [] g xs (mid ++ [⟨s.topsize, .top⟩]) [] L2 (s.mst, ⟨mstSize, .used⟩)
    simp only [List.nil_append, List.append_nil, ← List.append_assoc] at hm2
    rcases hm2.mp hi.mst with h | h
    · exact Or.inl h
    · rw [addrs_append, List.mem_append] at h
      rcases h with h | h
      · exact absurd h hmst
      · simp at h

end Arax.Dl
