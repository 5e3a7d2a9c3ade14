import Verif.Dl.Prepend2
/-!
# A new segment
-/
namespace Arax.Dl
open Arax.Bitmap (bit Bmp Took Released)

theorem fences_other (m : Nat → Nat) (e : Nat) : ∀ (n p x : Nat), (x < p + 8 ∨ e ≤ x) → p + 16 ≤ e → (e - p) % 8 = 0 → fences m e n p x = m x
  | 0, _, _, _, _, _ => rfl
  | n + 1, p, x, hx, hp, h8 => by
    unfold fences
    split
    · rw [put_other _ _ (by omega)]
      exact fences_other m e n (p + 8) x (by omega) (by omega) (by omega)
    · rw [put_other _ _ (by omega)]

theorem fences_first (m : Nat → Nat) (e n p : Nat) (hn : 0 < n) : fences m e n p (p + 8) = 11 := by
  cases n with
  | zero => omega
  | succ n => unfold fences; split <;> rw [put_same]

/-- The invariant after a segment has been added. -/
theorem addSeg_core {cf : Conf} {s s' : Heap} {L2 : Lay} {g : Seg} {body fr : List Ck} {D : List (Nat × Nat)} {env : Nat → Bool} (hi : Inv cf s ((g, body ++ [⟨s.topsize, .top⟩]) :: L2) D env)
    (ht : s.top = g.base + sz body) (hlp : lastPin true body = true) (hend : s.top + s.topsize + 80 = g.base + g.size) (h16 : s.topsize % 16 = 0) (hp16 : 16 ≤ s.topsize) (hlk : g.link = s.hrec)
    (hL2 : ∀ y ∈ L2, y.1.link ≠ s.hrec) {b' : Bmp} {a n csp least : Nat} (hn : n % 4096 = 0) (hn0 : 4096 ≤ n) (ha : a % 4096 = 0)
    (hreg : Regs cf b' least (s.foot + n) ((a, n) :: regs ((g, body ++ [⟨s.topsize, .top⟩]) :: L2) D) env)
    (hcsp : (csp = s.top ∧ s.topsize = 16 ∧ fr = []) ∨ (csp = s.top + s.topsize ∧ 32 ≤ s.topsize ∧ fr = [⟨s.topsize, .free⟩]))
    (hm : ∀ x, (x < s.top + 8 ∨ g.base + g.size ≤ x) → x ≠ a + 8 → x ≠ a + (n - 80) + 8 → s'.mem x = s.mem x) (hm1 : s'.mem (a + 8) = n - 80 + 1)
    (hm2 : s'.mem (csp + 8) = enc ⟨48, .link⟩ (decide (csp = s.top))) (hm3 : csp ≠ s.top → s'.mem (s.top + 8) = s.topsize + 1 ∧ s'.mem (s.top + s.topsize) = s.topsize)
    (hm4 : s'.mem (csp + 56) = 11)
    (e : s'.hrec = s.hrec ∧ s'.top = a ∧ s'.topsize = n - 80 ∧ s'.dv = s.dv ∧ s'.dvsize = s.dvsize ∧ s'.mst = s.mst ∧ s'.bmp = b' ∧ s'.foot = s.foot + n ∧ s'.least = least ∧
      s'.trim = 2097152 ∧ s'.segs = ⟨a, n, g.link⟩ :: { g with link := csp + 16 } :: L2.map Prod.fst)
    (hb : s'.bins = (if csp = s.top then s.bins else (s.top, s.topsize) :: s.bins)) :
    Tidy cf s ((g, body ++ [⟨s.topsize, .top⟩]) :: L2) D env s' := by
  obtain ⟨e1, e2, e3, e5, e6, e7, e8, e9, e10, e11, e12⟩ := e
  have hk := hi.ok _ List.mem_cons_self
  simp only at hk
  have hst := hi.start
  have hap := (List.pairwise_cons.mp hreg.disj).1
  have hapg := hap (g.base, g.size) (by unfold regs; simp)
  have hfit := hk.fits
  have hbsz := hk.base
  have hc := hk.chain
  rw [chain_append] at hc
  have hapos : 0 < a := by
    have := hreg.low (a, n) List.mem_cons_self
    simp only at this; omega
  obtain ⟨bd, hbd1, hbd2⟩ := hk.body
  rw [if_pos hlk] at hbd1
  obtain ⟨rfl, -⟩ := List.append_inj' hbd1 rfl
  have hfl : ∀ y : Nat × Ck, y.2.k ≠ .top → y.2.k ≠ .link →
      (y ∈ flat ((⟨a, n, g.link⟩, [⟨n - 80, .top⟩]) :: ({ g with link := csp + 16 }, body ++ fr ++ [⟨48, .link⟩]) :: L2) ↔
        y ∈ flat ((g, body ++ [⟨s.topsize, .top⟩]) :: L2) ∨ y ∈ addrs s.top fr) := by
    intro y hy1 hy2
    have h1 : ∀ k q, y ≠ (q, (⟨k, .top⟩ : Ck)) := fun k q h => hy1 (by rw [h])
    have h2 : ∀ k q, y ≠ (q, (⟨k, .link⟩ : Ck)) := fun k q h => hy2 (by rw [h])
    rw [flat_cons, flat_cons, flat_cons]
    simp only [addrs_append, addrs_cons, addrs_nil, List.mem_append, List.mem_cons, List.not_mem_nil, or_false, h1, h2, false_or, ← ht]
    grind
  have hmo : ∀ z ∈ L2, ∀ x, z.1.base ≤ x → x < z.1.base + z.1.size → s'.mem x = s.mem x := by
    intro z hz x h1 h2
    have h3 := hap (z.1.base, z.1.size) (by unfold regs; simp only [List.map_cons, List.cons_append, List.mem_cons, List.mem_append]; exact Or.inr (Or.inl (List.mem_map_of_mem hz)))
    have h4 := seg_apart (L1 := []) hi (Or.inr hz)
    simp only [Apart] at h3 h4
    exact hm x (by omega) (by omega) (by omega)
  have hmd : ∀ r ∈ D, ∀ x, r.1 ≤ x → x < r.1 + r.2 → s'.mem x = s.mem x := by
    intro r hr x h1 h2
    have h3 := hap r (by unfold regs; simp [hr])
    have h4 := dir_apart hi List.mem_cons_self hr
    simp only [Apart] at h3 h4
    exact hm x (by omega) (by omega) (by omega)
  have hmsta : s.mst + mstSize ≤ s.top ∨ g.base + g.size ≤ s.mst ∨ s.mst + mstSize ≤ g.base := by
    have h := hi.mst
    rw [flat_cons, List.mem_append] at h
    rcases h with h | h
    · simp only [addrs_append, addrs_cons, addrs_nil, List.mem_append, List.mem_singleton, Prod.mk.injEq, Ck.mk.injEq] at h
      rcases h with h | h
      · have := addrs_bounds h; simp only at this; omega
      · simp at h
    · obtain ⟨z, hz, hyz⟩ := List.mem_flatMap.mp h
      have hbz := addrs_bounds hyz
      have hf := (hi.ok z (List.mem_cons_of_mem _ hz)).fits
      have h4 := seg_apart (L1 := []) hi (Or.inr hz)
      simp only [Apart] at h4 hbz; omega
  have hlne : csp + 16 ≠ s.hrec := by unfold Heap.hrec mstSize at *; omega
  have hnoF : ∀ k, ¬ IsFree s s.top k := by
    intro k h
    rw [isFree_iff hi] at h
    have h0 : (s.top, (⟨s.topsize, .top⟩ : Ck)) ∈ flat ((g, body ++ [⟨s.topsize, .top⟩]) :: L2) := by rw [flat_cons]; simp [ht]
    have := addr_pos hi h
    rcases flat_unique hi h h0 with h' | h' | h'
    · simp at h'
    · simp only at h' this; omega
    · simp only at h' this; omega
  refine ⟨⟨(⟨a, n, g.link⟩, [⟨n - 80, .top⟩]) :: ({ g with link := csp + 16 }, body ++ fr ++ [⟨48, .link⟩]) :: L2, D, ?_, ?_, ?_⟩, e7, fun x h h' => by
    have h1 := hreg.not_env List.mem_cons_self h h'
    have h2 := seg_not_env hi List.mem_cons_self h h'
    simp only at h1 h2
    exact hm x (by omega) (by omega) (by omega)⟩
  · have hreg2 : Regs cf s'.bmp s'.least s'.foot (regs ((⟨a, n, g.link⟩, [⟨n - 80, .top⟩]) :: ({ g with link := csp + 16 }, body ++ fr ++ [⟨48, .link⟩]) :: L2) D) env := by
      rw [e8, e9, e10]; exact hreg
    refine ⟨by rw [e12]; simp, ?_, ⟨_, _, rfl, by rw [e1]; exact hlk, ?_⟩, ?_, ?_, ?_, ?_, ?_, hreg2.disj, hreg2.low, hreg2.pages, hreg2.envb, hreg2.only, hreg2.bmp, hreg2.foot, hreg2.start, hreg2.top64, hreg2.lpos,
      by omega⟩
    · intro x hx
      rw [e1, e2, e3]
      simp only [List.mem_cons] at hx
      rcases hx with rfl | rfl | hx
      · refine ⟨ha, hn, ⟨⟨?_, by simp, by simp only; omega, by simp only; omega, by simp, by simp⟩, trivial⟩, ?_, ?_⟩
        · simp only; rw [hm1]; simp [enc, Kind.live]
        · simp only [if_pos hlk]; exact ⟨[], rfl, by simp⟩
        · simp only [if_pos hlk, sz_cons, sz_nil]; omega
      · refine ⟨hk.base, hk.size, ?_, ?_, ?_⟩
        · simp only [List.append_assoc]
          rw [chain_append]
          refine ⟨chain_frame hc.1 fun x h1 h2 => hm x (by omega) ?_ ?_, ?_⟩
          · simp only [Apart] at hapg; omega
          · simp only [Apart] at hapg; omega
          · rcases hcsp with ⟨rfl, h2, rfl⟩ | ⟨rfl, h2, rfl⟩
            · refine ⟨⟨?_, by simp, by simp, by simp, by simp, by simp [hlp]⟩, trivial⟩
              rw [← ht, hm2, hlp]; simp
            · obtain ⟨h3, h4⟩ := hm3 (by omega)
              refine ⟨⟨?_, ?_, h16, hp16, fun _ => h2, by simp [hlp]⟩, ⟨?_, by simp, by simp, by simp, by simp, by simp [Kind.live]⟩, trivial⟩
              · rw [← ht, h3, hlp]; simp [enc, Kind.live]
              · intro _; rw [← ht]; exact h4
              · simp only; rw [← ht, hm2]
                have hne : s.topsize ≠ 0 := by omega
                simp [Ck.pin, hne]
        · simp only [if_neg hlne]
          refine ⟨body ++ fr, rfl, ?_⟩
          intro c hc
          rcases List.mem_append.mp hc with hc | hc
          · exact hbd2 c hc
          · rcases hcsp with ⟨-, -, rfl⟩ | ⟨-, -, rfl⟩
            · cases hc
            · simp at hc; subst hc; simp
        · simp only [if_neg hlne, sz_append, sz_cons, sz_nil]
          rcases hcsp with ⟨rfl, h2, rfl⟩ | ⟨rfl, h2, rfl⟩ <;> simp only [sz_cons, sz_nil] <;> exact ⟨by omega, by omega, hm4, by omega⟩
      · exact ((hi.ok x (List.mem_cons_of_mem _ hx)).keep (hmo x hx)).retop (hL2 x hx)
    · rw [e1]
      intro y hy
      rcases List.mem_cons.mp hy with rfl | hy
      · exact hlne
      · exact hL2 y hy
    · intro q k
      rw [hfl _ (by simp) (by simp), hb, e5]
      rcases hcsp with ⟨rfl, h2, rfl⟩ | ⟨rfl, h2, rfl⟩
      · rw [if_pos rfl, hi.bins]; simp
      · rw [if_neg (by omega), List.mem_cons, hi.bins]
        simp only [addrs_cons, addrs_nil, List.mem_singleton, Prod.mk.injEq, Ck.mk.injEq, and_true]
        constructor
        · rintro (⟨rfl, rfl⟩ | h)
          · refine ⟨Or.inr ⟨rfl, rfl⟩, fun e => ?_⟩
            rcases hi.dv with h | h
            · have := addr_pos hi (y := (s.top, ⟨s.topsize, .top⟩)) (by rw [flat_cons]; simp [ht]); simp only at this; omega
            · rw [← e] at h; exact hnoF _ ((isFree_iff hi _ _).mpr h)
          · exact ⟨Or.inl h.1, h.2⟩
        · rintro ⟨h | h, h2⟩
          · exact Or.inr ⟨h, h2⟩
          · exact Or.inl h
    · rw [hb]
      split
      · exact hi.bnd
      · exact List.nodup_cons.mpr ⟨fun h => hnoF _ (Or.inl h), hi.bnd⟩
    · rw [hfl _ (by simp) (by simp), e5, e6]
      rcases hi.dv with h | h
      · exact Or.inl h
      · exact Or.inr (Or.inl h)
    · rw [hfl _ (by simp) (by simp), e7]; exact Or.inl hi.mst
    · intro r hr
      obtain ⟨h1, h2, h3, h4, h5⟩ := hi.dir r hr
      exact ⟨by rw [hmd r hr _ (by omega) (by omega)]; exact h1, by rw [hmd r hr _ (by omega) (by omega)]; exact h2, h3, h4, h5⟩
  · intro q k; unfold Blk
    rw [hfl _ (by simp) (by simp)]
    have : (q, (⟨k, .used⟩ : Ck)) ∉ addrs s.top fr := by
      rcases hcsp with ⟨-, -, rfl⟩ | ⟨-, -, rfl⟩ <;> simp
    simp [this]
  · intro p k h _ x hx hx'
    rcases h with h | h
    · rw [flat_cons, List.mem_append] at h
      rcases h with h | h
      · simp only [addrs_append, addrs_cons, addrs_nil, List.mem_append, List.mem_singleton, Prod.mk.injEq, Ck.mk.injEq] at h
        rcases h with h | h
        · have := addrs_bounds h; simp only at this
          simp only [Apart] at hapg
          exact hm x (by omega) (by omega) (by omega)
        · simp at h
      · obtain ⟨z, hz, hyz⟩ := List.mem_flatMap.mp h
        have hbz := addrs_bounds hyz
        have hf := (hi.ok z (List.mem_cons_of_mem _ hz)).fits
        simp only at hbz
        exact hmo z hz x (by omega) (by omega)
    · exact hmd _ h x (by simp only; omega) (by simp only; omega)

theorem addSegment_ok {cf : Conf} {s s1 : Heap} {L : Lay} {D : List (Nat × Nat)} {env : Nat → Bool} (hi : Inv cf s L D env) {b' : Bmp} {n a least mf : Nat} (hn : n % 4096 = 0) (hn0 : 4096 ≤ n)
    (ha : a % 4096 = 0) (hreg : Regs cf b' least (s.foot + n) ((a, n) :: regs L D) env) (hs1 : s1 = { s with bmp := b', foot := s.foot + n, maxFoot := mf, least := least }) :
    ∃ s', addSegment s1 a n = .ok s' ∧ s'.topsize = n - 80 ∧ Tidy cf s L D env s' := by
  obtain ⟨g, body, L2, rfl, h1, h2, ht, hlp, h16, hp, hmt, hend, hpl⟩ := top_focus hi
  have hk := hi.ok _ List.mem_cons_self
  simp only at hk
  have hgb := hk.base
  have hgs := hk.size
  have hsegs : s1.segs = g :: L2.map Prod.fst := by rw [hs1]; simp [hi.segs]
  have hholds : g.holds s1.top = true := by rw [hs1]; unfold Seg.holds; simp; omega
  have hst := hi.start
  have hlo := hi.low (g.base, g.size) (by unfold regs; simp)
  simp only at hlo
  have hapos : 0 < a ∧ cf.start ≤ a := by
    have := hreg.low (a, n) List.mem_cons_self
    simp only at this; omega
  have hapg : Apart (a, n) (g.base, g.size) := (List.pairwise_cons.mp hreg.disj).1 _ (by unfold regs; simp)
  simp only [Apart] at hapg
  unfold addSegment
  have hfind : (g :: L2.map Prod.fst).find? (fun x : Seg => x.holds s1.top) = some g := by simp [List.find?_cons, hholds]
  rw [hsegs, hfind]
  simp only
  have e0 : s1.top = s.top ∧ s1.mem = s.mem ∧ s1.bins = s.bins := by rw [hs1]; exact ⟨rfl, rfl, rfl⟩
  obtain ⟨e01, e02, e03⟩ := e0
  have hoff : alignOff (g.base + g.size - (48 + 32 + 15) + 16) = 15 := by unfold alignOff; rw [if_neg (by omega)]; omega
  rw [hoff, e01]
  have hcv : g.base + g.size - (48 + 32 + 15) + 15 = s.top + s.topsize := by omega
  rw [hcv]
  have hoff2 : alignOff (a + 16) = 0 := alignOff_zero (by omega)
  by_cases h32 : s.topsize < 32
  · have h16' : s.topsize = 16 := by omega
    have hcs : (if s.top + s.topsize < s.top + 32 then s.top else s.top + s.topsize) = s.top := if_pos (by omega)
    rw [hcs, if_neg (by simp)]
    refine ⟨_, rfl, ?_, ?_⟩
    · simp only [initTop, hoff2, topFoot, Nat.sub_zero]
    · refine addSeg_core (csp := s.top) (fr := []) hi ht hlp hend h16 hp h1 h2 hn hn0 ha hreg (Or.inl ⟨rfl, h16', rfl⟩) ?_ ?_ ?_ ?_ ?_ ⟨?_, ?_, ?_, ?_, ?_, ?_, ?_, ?_, ?_, ?_, ?_⟩ ?_
      · intro x hx hx1 hx2
        simp only
        rw [fences_other _ _ _ _ _ (by omega) (by omega) (by omega)]
        simp only [initTop, hoff2, topFoot, Nat.add_zero, Nat.sub_zero, e02]
        rw [put_other _ _ (by omega), put_other _ _ (by omega), put_other _ _ (by omega)]
      · simp only
        rw [fences_other _ _ _ _ _ (by omega) (by omega) (by omega)]
        simp only [initTop, hoff2, topFoot, Nat.add_zero, Nat.sub_zero, e02]
        rw [put_other _ _ (by omega), put_other _ _ (by omega), put_same]
      · simp only
        rw [fences_other _ _ _ _ _ (by omega) (by omega) (by omega), put_same]
        simp [enc, Kind.live]
      · intro h; exact absurd rfl h
      · simp only; exact fences_first _ _ _ _ (by omega)
      · unfold Heap.hrec; rw [hs1]; rfl
      · simp only [initTop, hoff2, Nat.add_zero]
      · simp only [initTop, hoff2, topFoot, Nat.sub_zero]
      · rw [hs1]; rfl
      · rw [hs1]; rfl
      · rw [hs1]; rfl
      · rw [hs1]; rfl
      · rw [hs1]; rfl
      · rw [hs1]; rfl
      · rfl
      · rfl
      · rw [hs1]; simp [initTop]
  · have hcs : (if s.top + s.topsize < s.top + 32 then s.top else s.top + s.topsize) = s.top + s.topsize := if_neg (by omega)
    rw [hcs, if_pos (by omega)]
    refine ⟨_, rfl, ?_, ?_⟩
    · simp only [insertChunk, initTop, hoff2, topFoot, Nat.sub_zero]
    · rw [show s.top + s.topsize - s.top = s.topsize by omega]
      refine addSeg_core (csp := s.top + s.topsize) (fr := [⟨s.topsize, .free⟩]) hi ht hlp hend h16 hp h1 h2 hn hn0 ha hreg (Or.inr ⟨rfl, by omega, rfl⟩) ?_ ?_ ?_ ?_ ?_ ⟨?_, ?_, ?_, ?_, ?_, ?_, ?_, ?_, ?_, ?_, ?_⟩ ?_
      · intro x hx hx1 hx2
        simp only [insertChunk, setFreeP, setFree]
        rw [put_other _ _ (by omega), put_other _ _ (by omega), put_other _ _ (by omega), fences_other _ _ _ _ _ (by omega) (by omega) (by omega)]
        simp only [initTop, hoff2, topFoot, Nat.add_zero, Nat.sub_zero, e02]
        rw [put_other _ _ (by omega), put_other _ _ (by omega), put_other _ _ (by omega)]
      · simp only [insertChunk, setFreeP, setFree]
        rw [put_other _ _ (by omega), put_other _ _ (by omega), put_other _ _ (by omega), fences_other _ _ _ _ _ (by omega) (by omega) (by omega)]
        simp only [initTop, hoff2, topFoot, Nat.add_zero, Nat.sub_zero, e02]
        rw [put_other _ _ (by omega), put_other _ _ (by omega), put_same]
      · simp only [insertChunk, setFreeP, setFree]
        rw [put_other _ _ (by omega), put_other _ _ (by omega), put_same, fences_other _ _ _ _ _ (by omega) (by omega) (by omega), put_same]
        have hne : s.topsize ≠ 0 := by omega
        simp [enc, Kind.live, hne, clrP]
      · intro _
        simp only [insertChunk, setFreeP, setFree]
        constructor
        · rw [put_other _ _ (by omega), put_same]
        · rw [put_same]
      · simp only [insertChunk, setFreeP, setFree]
        rw [put_other _ _ (by omega), put_other _ _ (by omega), put_other _ _ (by omega)]
        exact fences_first _ _ _ _ (by omega)
      · unfold Heap.hrec; rw [hs1]; rfl
      · simp only [insertChunk, initTop, hoff2, Nat.add_zero]
      · simp only [insertChunk, initTop, hoff2, topFoot, Nat.sub_zero]
      · rw [hs1]; rfl
      · rw [hs1]; rfl
      · rw [hs1]; rfl
      · rw [hs1]; rfl
      · rw [hs1]; rfl
      · rw [hs1]; rfl
      · rfl
      · rfl
      · rw [hs1, if_neg (by omega)]; simp [initTop, insertChunk]

end Arax.Dl
