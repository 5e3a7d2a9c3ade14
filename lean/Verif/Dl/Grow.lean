import Verif.Dl.Regions
/-!
# Getting pages from the system
-/
namespace Arax.Dl
open Arax.Bitmap (bit Bmp Took Released)

/-- A step that changes no block. (No code of its own.) -/
structure Tidy (cf : Conf) (s : Heap) (L : Lay) (D : List (Nat × Nat)) (env : Nat → Bool) (s' : Heap) : Prop where
  spec : ∃ L' D', Inv cf s' L' D' env ∧ (∀ q k, Blk L' D' q k ↔ Blk L D q k) ∧ Kept L D s.mem L' D' s'.mem
  mst : s'.mst = s.mst
  frame : Frame cf env s.mem s'.mem

theorem Tidy.trans {cf : Conf} {s s' s'' : Heap} {L : Lay} {D : List (Nat × Nat)} {env : Nat → Bool} (h1 : Tidy cf s L D env s')
    (h2 : ∀ L' D', Inv cf s' L' D' env → Tidy cf s' L' D' env s'') : Tidy cf s L D env s'' := by
  obtain ⟨⟨L1, D1, hi1, hb1, hk1⟩, hm1, hf1⟩ := h1
  obtain ⟨⟨L2, D2, hi2, hb2, hk2⟩, hm2, hf2⟩ := h2 L1 D1 hi1
  refine ⟨⟨L2, D2, hi2, fun q k => by rw [hb2, hb1], hk1.trans hk2 fun p n h _ => (hb1 p n).mpr h⟩, by rw [hm2, hm1], hf1.trans hf2⟩

theorem Tidy.alloced {cf : Conf} {s s' s'' : Heap} {L : Lay} {D : List (Nat × Nat)} {env : Nat → Bool} {nb a : Nat} (h1 : Tidy cf s L D env s')
    (h2 : ∀ L' D', Inv cf s' L' D' env → Alloced cf s' L' D' env nb s'' a) : Alloced cf s L D env nb s'' a := by
  obtain ⟨⟨L1, D1, hi1, hb1, hk1⟩, hm1, hf1⟩ := h1
  obtain ⟨⟨L2, D2, p, n, hi2, ha, hn, hb2, hf, hk2⟩, hm2, hf2⟩ := h2 L1 D1 hi1
  refine ⟨⟨L2, D2, p, n, hi2, ha, hn, fun q k => by rw [hb2, hb1], fun h => hf ((hb1 _ _).mpr h), hk1.trans hk2 fun p n h _ => (hb1 p n).mpr h⟩, by rw [hm2, hm1], hf1.trans hf2⟩

theorem SegOK.keep {m m' : Nat → Nat} {hrec top topsize : Nat} {g : Seg} {cs : List Ck} (h : SegOK m hrec top topsize g cs) (hm : ∀ x, g.base ≤ x → x < g.base + g.size → m' x = m x) :
    SegOK m' hrec top topsize g cs := by
  refine ⟨h.base, h.size, chain_frame h.chain fun x h1 h2 => hm x (by omega) (by have := h.fits; omega), h.body, ?_⟩
  have hl := h.lim
  have hf := h.fits
  by_cases e : g.link = hrec
  · rw [if_pos e] at hl ⊢; exact hl
  · rw [if_neg e] at hl ⊢
    exact ⟨hl.1, hl.2.1, by rw [hm _ (by omega) (by omega)]; exact hl.2.2⟩

/-- A segment other than the first does not depend on the top. -/
theorem SegOK.retop {m : Nat → Nat} {hrec top topsize top' topsize' : Nat} {g : Seg} {cs : List Ck} (h : SegOK m hrec top topsize g cs) (hl : g.link ≠ hrec) : SegOK m hrec top' topsize' g cs := by
  refine ⟨h.base, h.size, h.chain, ?_, ?_⟩
  · have := h.body; simp only [if_neg hl] at this ⊢; exact this
  · have := h.lim; simp only [if_neg hl] at this ⊢; exact this

/-- The region a block is in. -/
theorem blk_reg {cf : Conf} {s : Heap} {L : Lay} {D : List (Nat × Nat)} {env : Nat → Bool} (hi : Inv cf s L D env) {p n : Nat} (h : Blk L D p n) : ∃ r ∈ regs L D, r.1 ≤ p ∧ p + n + 16 ≤ r.1 + r.2 := by
  rcases h with h | h
  · obtain ⟨z, hz, hyz⟩ := List.mem_flatMap.mp h
    have := addrs_bounds hyz
    have hf := (hi.ok z hz).fits
    refine ⟨(z.1.base, z.1.size), List.mem_append_left _ (List.mem_map_of_mem hz), ?_, ?_⟩ <;> simp only at * <;> omega
  · exact ⟨_, List.mem_append_right _ h, by simp, by simp only; omega⟩

/-- Replacing a segment by a larger or smaller one with the same record. -/
theorem inv_reseg {cf : Conf} {s s' : Heap} {D : List (Nat × Nat)} {env : Nat → Bool} {L1 L2 : Lay} {g g' : Seg} {cs cs' : List Ck}
    (hi : Inv cf s (L1 ++ (g, cs) :: L2) D env)
    (hr : Regs cf s'.bmp s'.least s'.foot (regs (L1 ++ (g', cs') :: L2) D) env)
    (hsegs : s'.segs = (L1 ++ (g', cs') :: L2).map Prod.fst) (hlink : g'.link = g.link) (hms : s'.mst = s.mst) (htr : 2097152 ≤ s'.trim)
    (hm : ∀ x, (x < g'.base ∨ g'.base + g'.size ≤ x) → s'.mem x = s.mem x)
    (hok : SegOK s'.mem s'.hrec s'.top s'.topsize g' cs')
    (htop : ∀ x, x ∈ L1 ∨ x ∈ L2 → x.1.link = s.hrec → s'.top = s.top ∧ s'.topsize = s.topsize)
    (hbins : ∀ p n, (p, n) ∈ s'.bins ↔ (p, (⟨n, .free⟩ : Ck)) ∈ flat (L1 ++ (g', cs') :: L2) ∧ p ≠ s'.dv)
    (hnd : s'.bins.Nodup)
    (hdv : (s'.dv = 0 ∧ s'.dvsize = 0) ∨ (s'.dv, (⟨s'.dvsize, .free⟩ : Ck)) ∈ flat (L1 ++ (g', cs') :: L2))
    (hmst : (s'.mst, (⟨mstSize, .used⟩ : Ck)) ∈ flat (L1 ++ (g', cs') :: L2)) :
    Inv cf s' (L1 ++ (g', cs') :: L2) D env := by
  have hrec : s'.hrec = s.hrec := by unfold Heap.hrec; rw [hms]
  have hdj := hr.disj
  unfold regs at hdj
  rw [List.pairwise_append] at hdj
  obtain ⟨hdj1, -, hdj2⟩ := hdj
  rw [List.map_append, List.map_cons, List.pairwise_append] at hdj1
  refine ⟨hsegs, ?_, ?_, hbins, hnd, hdv, hmst, ?_, hr.disj, hr.low, hr.pages, hr.envb, hr.only, hr.bmp, hr.foot, hr.start, hr.top64, hr.lpos, htr⟩
  · intro x hx
    have hother : ∀ x : Seg × List Ck, x ∈ L1 ∨ x ∈ L2 → SegOK s'.mem s'.hrec s'.top s'.topsize x.1 x.2 := by
      intro x hx
      have hap : Apart (x.1.base, x.1.size) (g'.base, g'.size) := by
        rcases hx with hx | hx
        · exact hdj1.2.2 _ (List.mem_map_of_mem hx) _ List.mem_cons_self
        · exact apart_symm ((List.pairwise_cons.mp hdj1.2.1).1 _ (List.mem_map_of_mem hx))
      have hxk := hi.ok x (by rcases hx with h | h <;> simp [h])
      rw [hrec]
      have hk := hxk.keep (m' := s'.mem) (fun w h1 h2 => hm w (by rcases hap with h | h <;> simp only at h <;> omega))
      by_cases e : x.1.link = s.hrec
      · obtain ⟨e1, e2⟩ := htop x hx e
        rw [e1, e2]; exact hk
      · exact hk.retop e
    simp only [List.mem_append, List.mem_cons] at hx
    rcases hx with hx | rfl | hx
    · exact hother x (Or.inl hx)
    · exact hok
    · exact hother x (Or.inr hx)
  · obtain ⟨x, T, e, h1, h2⟩ := hi.hd
    rw [hrec]
    cases L1 with
    | nil => simp only [List.nil_append, List.cons.injEq] at e; obtain ⟨rfl, rfl⟩ := e; exact ⟨_, _, rfl, by rw [← h1]; exact hlink, h2⟩
    | cons y L1 =>
      simp only [List.cons_append, List.cons.injEq] at e; obtain ⟨rfl, rfl⟩ := e
      refine ⟨_, _, rfl, h1, ?_⟩
      intro z hz
      have hz : z ∈ L1 ++ (g', cs') :: L2 := hz
      simp only [List.mem_append, List.mem_cons] at hz
      rcases hz with hz | rfl | hz
      · exact h2 z (by simp [hz])
      · simp only [hlink]; exact h2 (g, cs) (by simp)
      · exact h2 z (by simp [hz])
  · intro r hr'
    have hap : Apart (g'.base, g'.size) r := hdj2 _ (by simp) _ hr'
    obtain ⟨h1, h2, h3, h4, h5⟩ := hi.dir r hr'
    have hn : ∀ w, w = r.1 ∨ w = r.1 + 8 → s'.mem w = s.mem w := fun w hw => hm w (by rcases hap with h | h <;> simp only at h <;> omega)
    exact ⟨by rw [hn _ (Or.inl rfl)]; exact h1, by rw [hn _ (Or.inr rfl)]; exact h2, h3, h4, h5⟩

/-- A directly mapped block. -/
theorem mmapAlloc_ok {cf : Conf} {s : Heap} {L : Lay} {D : List (Nat × Nat)} {env : Nat → Bool} (hi : Inv cf s L D env) {nb : Nat} (hW : nb < W) :
    (mmapAlloc cf s nb = .noMem ∧ ∃ k, (Bitmap.alloc s.bmp k).2 = none ∧ nb < 4096 * k ∧ 4096 * k ≤ nb + 4200) ∨
    (mmapAlloc cf s nb = .ok (s, 0) ∧ W ≤ nb + 4200) ∨ ∃ s' a, mmapAlloc cf s nb = .ok (s', a) ∧ a ≠ 0 ∧ Alloced cf s L D env nb s' a := by
  unfold mmapAlloc
  simp only
  have hpa : pageAlign (nb + 48 + 15) % 4096 = 0 := by unfold pageAlign; omega
  have hpb : nb < pageAlign (nb + 48 + 15) → nb + 63 ≤ pageAlign (nb + 48 + 15) ∧ pageAlign (nb + 48 + 15) ≤ nb + 4158 := by unfold pageAlign W at *; omega
  have hpc : ¬ nb < pageAlign (nb + 48 + 15) → W ≤ nb + 4200 := by unfold pageAlign W at *; omega
  generalize pageAlign (nb + 48 + 15) = mm at hpa hpb hpc
  by_cases hgt : nb < mm
  · obtain ⟨hpb, hpb2⟩ := hpb hgt
    rw [if_pos hgt]
    rcases mmap_ok (s := s) hi.regs hpa (by omega) with ⟨h, hno⟩ | ⟨b', a, h, ha0, ha, hreg⟩
    · left; rw [h]; exact ⟨rfl, mm / 4096, hno, by omega, by omega⟩
    · right; right
      rw [h]
      simp only [Out.bind_ok]
      rw [alignOff_zero (by omega)]
      simp only [Nat.add_zero, Nat.sub_zero]
      have hst := hi.start
      refine ⟨_, _, rfl, by omega, ?_⟩
      have hl := hi.lpos
      have hreg := hreg (if s.least = 0 ∨ a < s.least then a else s.least) (by split <;> omega) (by split <;> omega) (by split <;> omega)
      generalize hs' : ({ mem := put (put (put (put s.mem a 0) (a + 8) (mm - 32)) (a + (mm - 32) + 8) 11) (a + (mm - 32) + 8 + 8) 0, bmp := b', segs := s.segs, bins := s.bins, dv := s.dv, dvsize := s.dvsize, top := s.top, topsize := s.topsize, least := (if s.least = 0 ∨ a < s.least then a else s.least), trim := s.trim, checks := s.checks, foot := s.foot + mm, maxFoot := max s.maxFoot (s.foot + mm), mst := s.mst } : Heap) = s'
      have hm : ∀ x, (x < a ∨ a + mm ≤ x) → s'.mem x = s.mem x := by
        intro x hx; subst hs'; simp only
        rw [put_other _ _ (by omega), put_other _ _ (by omega), put_other _ _ (by omega), put_other _ _ (by omega)]
      have hm0 : s'.mem a = 0 := by
        subst hs'; simp only
        rw [put_other _ _ (by omega), put_other _ _ (by omega), put_other _ _ (by omega), put_same]
      have hm1 : s'.mem (a + 8) = mm - 32 := by
        subst hs'; simp only
        rw [put_other _ _ (by omega), put_other _ _ (by omega), put_same]
      have hap := (List.pairwise_cons.mp hreg.disj).1
      have hR : (regs L ((a, mm) :: D)).Perm ((a, mm) :: regs L D) := by unfold regs; exact List.perm_middle
      have hreg2 := hreg.perm hR.symm
      have hmo : ∀ r ∈ regs L D, ∀ x, r.1 ≤ x → x < r.1 + r.2 → s'.mem x = s.mem x := by
        intro r hr x h1 h2
        have := hap r hr
        refine hm x ?_
        rcases this with h | h <;> simp only at h <;> omega
      have e : s'.hrec = s.hrec ∧ s'.top = s.top ∧ s'.topsize = s.topsize ∧ s'.bins = s.bins ∧ s'.dv = s.dv ∧ s'.dvsize = s.dvsize ∧ s'.segs = s.segs ∧ s'.mst = s.mst ∧ s'.trim = s.trim ∧
          s'.bmp = b' ∧ s'.foot = s.foot + mm ∧ s'.least = (if s.least = 0 ∨ a < s.least then a else s.least) := by subst hs'; exact ⟨rfl, rfl, rfl, rfl, rfl, rfl, rfl, rfl, rfl, rfl, rfl, rfl⟩
      obtain ⟨e1, e2, e3, e4, e5, e6, e7, e8, e9, e10, e11, e12⟩ := e
      rw [← e10, ← e11, ← e12] at hreg2
      refine ⟨⟨L, (a, mm) :: D, a, mm - 40, ?_, rfl, by omega, ?_, ?_, ?_⟩, e8, fun x h h' => hm x (hreg.not_env List.mem_cons_self h h')⟩
      · refine ⟨by rw [e7]; exact hi.segs, ?_, by rw [e1]; exact hi.hd, by rw [e4, e5]; exact hi.bins, by rw [e4]; exact hi.bnd, by rw [e5, e6]; exact hi.dv, by rw [e8]; exact hi.mst, ?_,
          hreg2.disj, hreg2.low, hreg2.pages, hreg2.envb, hreg2.only, hreg2.bmp, hreg2.foot, hreg2.start, hreg2.top64, hreg2.lpos, by rw [e9]; exact hi.trim⟩
        · intro x hx
          rw [e1, e2, e3]
          exact (hi.ok x hx).keep (hmo (x.1.base, x.1.size) (List.mem_append_left _ (List.mem_map_of_mem hx)))
        · intro r hr
          rcases List.mem_cons.mp hr with rfl | hr
          · exact ⟨hm0, by rw [hm1]; simp only; omega, ha, hpa, by simp only; omega⟩
          · obtain ⟨h1, h2, h3, h4, h5⟩ := hi.dir r hr
            have hk := hmo r (List.mem_append_right _ hr)
            exact ⟨by rw [hk _ (by omega) (by omega)]; exact h1, by rw [hk _ (by omega) (by omega)]; exact h2, h3, h4, h5⟩
      · intro q k
        unfold Blk
        simp only [List.mem_cons, Prod.mk.injEq]
        have : k + 40 = mm ↔ k = mm - 40 := by omega
        rw [this]; grind
      · intro h
        obtain ⟨r, hr, h1, h2⟩ := blk_reg hi h
        have := hap r hr
        rcases this with h | h <;> simp only at h <;> omega
      · intro p n h _ x hx hx'
        obtain ⟨r, hr, h1, h2⟩ := blk_reg hi h
        exact hmo r hr x (by omega) (by omega)
  · right; left
    rw [if_neg hgt]; exact ⟨rfl, hpc hgt⟩

end Arax.Dl
