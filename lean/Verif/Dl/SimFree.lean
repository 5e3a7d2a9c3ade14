import Verif.Dl.SimMalloc2
/-!
# Simulation: `mspace_free`
-/
namespace Arax.Dl
open Arax.Bitmap (bit Bmp)

theorem alignOff_lt (a : Nat) : alignOff a < 16 := by unfold alignOff; split <;> omega

theorem releaseLoop_sim {cf : Conf} : ∀ (t : List Seg) (s : Heap) (l : Links), Linked s l → (∀ g ∈ t, 4096 ≤ g.size) →
    Sim (fun r r' => r'.1 = r.1 ∧ Rel r.2 r'.2) (releaseLoop cf t s) (LHeap.releaseLoop cf t ⟨bare s, l⟩)
  | [], s, l, h, _ => Sim.ok ⟨rfl, rfl, h⟩
  | g :: t, s, l, h, hg => by
    unfold releaseLoop LHeap.releaseLoop
    simp only
    have e : (bare s).hd = s.hd := rfl
    rw [e]
    have hal := alignOff_lt (g.base + 16)
    have hgs := hg g List.mem_cons_self
    by_cases hcond : (!isInuse (s.hd (g.base + alignOff (g.base + 16))) && decide (g.base + g.size - topFoot ≤ g.base + alignOff (g.base + 16) + csize (s.hd (g.base + alignOff (g.base + 16))))) = true
    · rw [if_pos hcond, if_pos hcond]
      have hsz : 256 ≤ csize (s.hd (g.base + alignOff (g.base + 16))) := by
        simp only [Bool.and_eq_true] at hcond
        have := of_decide_eq_true hcond.2
        unfold topFoot at this
        omega
      generalize g.base + alignOff (g.base + 16) = p at *
      refine Sim.bind (rel := Rel) ?_ ?_
      · by_cases hd : p = s.dv
        · rw [if_pos hd, if_pos (show p = (bare s).dv from hd)]
          exact Sim.ok ⟨rfl, h.of rfl rfl h.lpos (Nat.le_refl _)⟩
        · rw [if_neg hd, if_neg (show ¬ p = (bare s).dv from hd), unlinkLarge_eq _ _ hsz]
          unfold unlinkChunk
          split
          · rename_i hin
            obtain ⟨l', g1, g2⟩ := unlink_sim h hin
            exact ⟨_, g1, rfl, g2⟩
          · trivial
      · rintro s1 ⟨bh, bl⟩ - ⟨e1, e2⟩
        simp only at e1 e2 ⊢
        subst e1
        refine Sim.bind (rel := fun t b => b = bare t ∧ Linked t bl) ?_ ?_
        · rw [munmap_bare]
          cases hm : munmap cf s1 g.base g.size with
          | ok t =>
            obtain ⟨m1, m2, m3, -⟩ := munmap_keeps hm
            exact ⟨_, rfl, rfl, e2.of m1 m2 (by rw [m3]; exact e2.lpos) (by rw [m3]; exact Nat.le_refl _)⟩
          | noMem => rfl
          | corrupt => trivial
        · rintro s2 b2 - ⟨e3, e4⟩
          subst e3
          exact releaseLoop_sim t { s2 with foot := s2.foot - g.size } bl (e4.of rfl rfl e4.lpos (Nat.le_refl _)) (fun x hx => hg x (List.mem_cons_of_mem _ hx))
    · rw [if_neg hcond, if_neg hcond]
      refine Sim.bind (releaseLoop_sim t s l h fun x hx => hg x (List.mem_cons_of_mem _ hx)) ?_
      rintro ⟨t', s1⟩ ⟨t'', b⟩ - ⟨e1, e2⟩
      simp only at e1 e2 ⊢
      rw [e1]
      exact Sim.ok ⟨rfl, e2⟩

theorem releaseUnused_sim {cf : Conf} {s : Heap} {l : Links} (h : Linked s l) (hg : ∀ g ∈ s.segs, 4096 ≤ g.size) : Sim Rel (releaseUnused cf s) (LHeap.releaseUnused cf ⟨bare s, l⟩) := by
  unfold releaseUnused LHeap.releaseUnused
  show Sim Rel _ (match s.segs with | [] => _ | g :: t => _)
  cases hs : s.segs with
  | nil => trivial
  | cons g t =>
    simp only
    refine Sim.bind (releaseLoop_sim t s l h fun x hx => hg x (by rw [hs]; exact List.mem_cons_of_mem _ hx)) ?_
    rintro ⟨t', s1⟩ ⟨t'', ⟨bh, bl⟩⟩ - ⟨e1, e2, e3⟩
    simp only at e1 e2 e3 ⊢
    subst e1 e2
    exact Sim.ok ⟨rfl, e3.of rfl rfl e3.lpos (Nat.le_refl _)⟩

theorem segs_large {cf : Conf} {s : Heap} {L : Lay} {D : List (Nat × Nat)} {env : Nat → Bool} (hi : Inv cf s L D env) : ∀ g ∈ s.segs, 4096 ≤ g.size := by
  intro g hg
  rw [hi.segs] at hg
  obtain ⟨z, hz, rfl⟩ := List.mem_map.mp hg
  have h1 := (hi.ok z hz).fits
  have h2 := (hi.ok z hz).size
  omega

theorem trimTop_sim {cf : Conf} {s : Heap} {l : Links} (h : Linked s l) :
    Sim (fun r r' => r'.1 = bare r.1 ∧ Linked r.1 l ∧ r'.2 = r.2) (trimTop cf s) (trimTop cf (bare s)) := by
  unfold trimTop
  simp only [show (bare s).topsize = s.topsize from rfl, show (bare s).segs = s.segs from rfl, show (bare s).top = s.top from rfl]
  split
  · cases hf : s.segs.find? (·.holds s.top) with
    | none => trivial
    | some g =>
      simp only
      generalize ((s.topsize - topFoot + 65535) / 65536 - 1) * 65536 = ex
      split
      · refine Sim.bind (rel := fun t b => b = bare t ∧ Linked t l) ?_ ?_
        · split
          · exact Sim.ok ⟨rfl, h⟩
          · rw [munmap_bare]
            cases hm : munmap cf s (g.base + (g.size - ex)) ex with
            | ok t =>
              obtain ⟨m1, m2, m3, -⟩ := munmap_keeps hm
              exact ⟨_, rfl, rfl, h.of m1 m2 (by rw [m3]; exact h.lpos) (by rw [m3]; exact Nat.le_refl _)⟩
            | noMem => rfl
            | corrupt => trivial
        · rintro s1 b1 - ⟨e1, e2⟩
          subst e1
          split
          · exact Sim.ok ⟨rfl, e2.of rfl rfl e2.lpos (Nat.le_refl _), rfl⟩
          · exact Sim.ok ⟨rfl, e2, rfl⟩
      · exact Sim.ok ⟨rfl, h, rfl⟩
  · exact Sim.ok ⟨rfl, h, rfl⟩

theorem sysTrim_sim {cf : Conf} {s : Heap} {L : Lay} {D : List (Nat × Nat)} {env : Nat → Bool} (hi : Inv cf s L D env) (hbig : s.trim < s.topsize) {l : Links} (h : Linked s l) :
    Sim Rel (sysTrim cf s) (LHeap.sysTrim cf ⟨bare s, l⟩) := by
  obtain ⟨s1, r, h1, hT1⟩ := trimTop_ok hi (by have := hi.trim; omega)
  obtain ⟨⟨L1, D1, hi1, -⟩, -, -⟩ := hT1
  unfold sysTrim LHeap.sysTrim
  simp only
  refine Sim.bind (trimTop_sim h) ?_
  rintro ⟨s1', r1⟩ ⟨b1, r1'⟩ e ⟨e1, e2, e3⟩
  rw [h1] at e
  simp only [Out.ok.injEq, Prod.mk.injEq] at e
  obtain ⟨rfl, rfl⟩ := e
  simp only at e1 e2 e3 ⊢
  subst e1 e3
  refine Sim.bind (releaseUnused_sim e2 (segs_large hi1)) ?_
  rintro s2 ⟨bh, bl⟩ - ⟨e4, e5⟩
  simp only at e4 e5 ⊢
  subst e4
  have eb : (r1' = 0 ∧ (bare s2).foot = (bare s1).foot ∧ (bare s2).topsize > (bare s2).trim) = (r1' = 0 ∧ s2.foot = s1.foot ∧ s2.topsize > s2.trim) := rfl
  by_cases hc : r1' = 0 ∧ s2.foot = s1.foot ∧ s2.topsize > s2.trim
  · rw [if_pos hc, if_pos (by rw [eb]; exact hc)]
    exact Sim.ok ⟨rfl, e5.of rfl rfl e5.lpos (Nat.le_refl _)⟩
  · rw [if_neg hc, if_neg (by rw [eb]; exact hc)]
    exact Sim.ok ⟨rfl, e5⟩

/-- The heap with another count-down to the next release and another trim threshold: neither matters before the freed chunk is binned or merged with the top. -/
def Heap.calm (s : Heap) (c T : Nat) : Heap := { s with checks := c, trim := T }

theorem binFreed_sim {cf : Conf} (hc : Small cf) {env : Nat → Bool} {s : Heap} {l : Links} (h : Linked s l) {p n : Nat} (hG : ∃ L D, Inv cf (insertChunk s p n) L D env) :
    Sim Rel (binFreed cf s p n) (LHeap.binFreed cf ⟨bare s, l⟩ p n) := by
  obtain ⟨L, D, hi⟩ := hG
  obtain ⟨l', g1, g2⟩ := insert_sim h (ready_of_inv hc hi)
  unfold binFreed LHeap.binFreed
  by_cases hn : n < 256
  · rw [if_pos hn, if_pos (show n / 8 < 32 by omega), insertSmall_eq _ _ hn, g1]
    exact Sim.ok ⟨rfl, g2⟩
  · rw [if_neg hn, if_neg (show ¬ n / 8 < 32 by omega), insertLarge_eq _ _ (show 256 ≤ n by omega), g1]
    simp only [Out.bind_ok]
    have e : (bare s).checks = (insertChunk s p n).checks := rfl
    rw [e]
    split
    · exact releaseUnused_sim (s := { insertChunk s p n with checks := (insertChunk s p n).checks - 1 }) (g2.of rfl rfl g2.lpos (Nat.le_refl _)) (segs_large (cf := cf) (L := L) (D := D) (env := env) (hi.misc _ _ _ hi.trim))
    · exact Sim.ok ⟨rfl, g2.of rfl rfl g2.lpos (Nat.le_refl _)⟩

theorem freeFwd_sim {cf : Conf} (hc : Small cf) {env : Nat → Bool} {s : Heap} {l : Links} (h : Linked s l) (htr : 2097152 ≤ s.trim) {p psize nx : Nat}
    (hG : ∀ c T t, 2097152 ≤ T → freeFwd cf (s.calm c T) p psize nx = .ok t → ∃ L D, Inv cf t L D env) : Sim Rel (freeFwd cf s p psize nx) (LHeap.freeFwd cf ⟨bare s, l⟩ p psize nx) := by
  have hbin : ∀ (s : Heap) (l : Links) (p n : Nat), Linked s l → 2097152 ≤ s.trim → (∀ c T t, 2097152 ≤ T → binFreed cf (s.calm c T) p n = .ok t → ∃ L D, Inv cf t L D env) →
      Sim Rel (binFreed cf s p n) (LHeap.binFreed cf ⟨bare s, l⟩ p n) := by
    intro s l p n h htr hG
    refine binFreed_sim hc (env := env) h ?_
    have h1 : binFreed cf (s.calm (s.checks + 2) s.trim) p n = .ok (if n < 256 then insertChunk (s.calm (s.checks + 2) s.trim) p n else { insertChunk (s.calm (s.checks + 2) s.trim) p n with checks := s.checks + 1 }) := by
      unfold binFreed
      split
      · rfl
      · simp only
        rw [if_neg (by simp only [insertChunk, Heap.calm]; omega)]
        rfl
    obtain ⟨L, D, hi⟩ := hG _ _ _ htr h1
    refine ⟨L, D, ?_⟩
    split at hi
    · exact hi.misc s.trim s.checks s.maxFoot htr
    · exact hi.misc s.trim s.checks s.maxFoot htr
  unfold freeFwd at hG ⊢
  unfold LHeap.freeFwd
  have ehd : (bare s).hd = s.hd := rfl
  have ehc : ∀ c T, (s.calm c T).hd = s.hd := fun _ _ => rfl
  simp only at hG ⊢
  rw [ehd]
  by_cases h1 : (!(decide (p < nx) && pinuse (s.hd nx))) = true
  · rw [if_pos h1]; trivial
  · rw [if_neg h1, if_neg h1]
    simp only [ehc, if_neg h1] at hG
    by_cases h2 : cinuse (s.hd nx) = true
    · rw [if_pos h2, if_pos h2]
      simp only [if_pos h2] at hG
      exact hbin { s with mem := setFreeP s.mem p psize nx } l p psize (h.of rfl rfl h.lpos (Nat.le_refl _)) htr hG
    · rw [if_neg h2, if_neg h2]
      simp only [if_neg h2] at hG
      by_cases h3 : nx = s.top
      · rw [if_pos h3, if_pos (show nx = (bare s).top from h3)]
        have hG1 := hG s.checks (max 2097152 (s.topsize + psize)) _ (by omega)
          (by rw [if_pos (show nx = (s.calm s.checks (max 2097152 (s.topsize + psize))).top from h3), if_neg (by
            show ¬ s.topsize + psize > _
            split <;> simp only [Heap.calm] <;> omega)])
        obtain ⟨L, D, hi⟩ := hG1
        generalize hs2 : (if p = s.dv then ({ s with topsize := s.topsize + psize, top := p, mem := put s.mem (p + 8) (s.topsize + psize + 1), dv := 0, dvsize := 0 } : Heap)
          else { s with topsize := s.topsize + psize, top := p, mem := put s.mem (p + 8) (s.topsize + psize + 1) }) = s2
        have hb2 : (if p = (bare s).dv then ({ (bare s) with topsize := (bare s).topsize + psize, top := p, mem := put (bare s).mem (p + 8) ((bare s).topsize + psize + 1), dv := 0, dvsize := 0 } : Heap)
          else { (bare s) with topsize := (bare s).topsize + psize, top := p, mem := put (bare s).mem (p + 8) ((bare s).topsize + psize + 1) }) = bare s2 := by
          rw [← hs2]
          by_cases hd : p = s.dv
          · rw [if_pos hd, if_pos (show p = (bare s).dv from hd)]; rfl
          · rw [if_neg hd, if_neg (show ¬ p = (bare s).dv from hd)]; rfl
        have hl2 : Linked s2 l := by
          rw [← hs2]
          split
          · exact h.of rfl rfl h.lpos (Nat.le_refl _)
          · exact h.of rfl rfl h.lpos (Nat.le_refl _)
        have hi2 : Inv cf s2 L D env := by
          have := hi.misc s.trim s.checks s.maxFoot htr
          rw [← hs2]
          by_cases hd : p = s.dv
          · rw [if_pos hd]
            have hd' : p = (s.calm s.checks (max 2097152 (s.topsize + psize))).dv := hd
            simp only [if_pos hd'] at this
            exact this
          · rw [if_neg hd]
            have hd' : ¬ p = (s.calm s.checks (max 2097152 (s.topsize + psize))).dv := hd
            simp only [if_neg hd'] at this
            exact this
        have htop : s2.topsize = s.topsize + psize := by rw [← hs2]; split <;> rfl
        simp only at hb2 ⊢
        rw [hb2]
        have e2 : (bare s).topsize + psize = s2.topsize := htop.symm
        rw [e2, ← htop]
        show Sim Rel _ (if s2.topsize > s2.trim then _ else _)
        by_cases hbig : s2.topsize > s2.trim
        · rw [if_pos hbig, if_pos hbig]; exact sysTrim_sim hi2 hbig hl2
        · rw [if_neg hbig, if_neg hbig]; exact Sim.ok ⟨rfl, hl2⟩
      · rw [if_neg h3, if_neg (show ¬ nx = (bare s).top from h3)]
        simp only [show ∀ c T, (s.calm c T).top = s.top from fun _ _ => rfl, if_neg h3] at hG
        by_cases h4 : nx = s.dv
        · rw [if_pos h4, if_pos (show nx = (bare s).dv from h4)]
          exact Sim.ok ⟨rfl, h.of rfl rfl h.lpos (Nat.le_refl _)⟩
        · rw [if_neg h4, if_neg (show ¬ nx = (bare s).dv from h4)]
          simp only [show ∀ c T, (s.calm c T).dv = s.dv from fun _ _ => rfl, if_neg h4] at hG
          unfold unlinkChunk at hG ⊢
          by_cases hin : (nx, csize (s.hd nx)) ∈ s.bins
          · rw [if_pos hin]
            simp only [show ∀ c T, (s.calm c T).bins = s.bins from fun _ _ => rfl, if_pos hin, Out.bind_ok] at hG
            obtain ⟨l', g1, g2⟩ := unlink_sim h hin
            rw [g1]
            simp only [Out.bind_ok]
            by_cases h5 : p = s.dv
            · rw [if_pos h5, if_pos (show p = (bare s).dv from h5)]
              exact Sim.ok ⟨rfl, g2.of rfl rfl g2.lpos (Nat.le_refl _)⟩
            · rw [if_neg h5, if_neg (show ¬ p = (bare s).dv from h5)]
              simp only [show ∀ c T, (s.calm c T).dv = s.dv from fun _ _ => rfl, if_neg h5] at hG
              exact hbin { s with bins := s.bins.erase (nx, csize (s.hd nx)), mem := setFree s.mem p (psize + csize (s.hd nx)) } l' p _ (g2.of rfl rfl g2.lpos (Nat.le_refl _)) htr hG
          · rw [if_neg hin]; trivial

theorem free_sim {cf : Conf} (hc : Small cf) {env : Nat → Bool} {s : Heap} {l : Links} (h : Linked s l) (htr : 2097152 ≤ s.trim) {a : Nat}
    (hG : ∀ c T t, 2097152 ≤ T → free cf (s.calm c T) a = .ok t → ∃ L D, Inv cf t L D env) : Sim Rel (free cf s a) (LHeap.free cf ⟨bare s, l⟩ a) := by
  unfold free at hG ⊢
  unfold LHeap.free
  have ehd : (bare s).hd = s.hd := rfl
  have ehc : ∀ c T, (s.calm c T).hd = s.hd := fun _ _ => rfl
  have elc : ∀ c T, (s.calm c T).least = s.least := fun _ _ => rfl
  have emc : ∀ c T, (s.calm c T).mem = s.mem := fun _ _ => rfl
  have edc : ∀ c T, (s.calm c T).dv = s.dv := fun _ _ => rfl
  have ebc : ∀ c T, (s.calm c T).bins = s.bins := fun _ _ => rfl
  simp only at hG ⊢
  rw [ehd]
  by_cases h0 : a = 0
  · rw [if_pos h0, if_pos h0]; exact Sim.ok ⟨rfl, h⟩
  · rw [if_neg h0, if_neg h0]
    simp only [if_neg h0, ehc, elc] at hG
    by_cases h1 : (!(decide (s.least ≤ a - 16) && isInuse (s.hd (a - 16)))) = true
    · rw [if_pos h1]; trivial
    · rw [if_neg h1, if_neg (show ¬ (!(decide ((bare s).least ≤ a - 16) && isInuse (s.hd (a - 16)))) = true from h1)]
      simp only [if_neg h1] at hG
      by_cases h2 : pinuse (s.hd (a - 16)) = true
      · rw [if_pos h2, if_pos h2]
        simp only [if_pos h2] at hG
        exact freeFwd_sim hc h htr hG
      · rw [if_neg h2, if_neg h2]
        simp only [if_neg h2, emc] at hG
        by_cases h3 : isMmapped (s.hd (a - 16)) = true
        · rw [if_pos h3, if_pos h3]
          refine Sim.bind (rel := fun t b => b = bare t ∧ Linked t l) ?_ ?_
          · rw [munmap_bare]
            show Sim _ (munmap cf s (a - 16 - s.mem (a - 16)) (csize (s.hd (a - 16)) + s.mem (a - 16) + 32)) _
            cases hm : munmap cf s (a - 16 - s.mem (a - 16)) (csize (s.hd (a - 16)) + s.mem (a - 16) + 32) with
            | ok t =>
              obtain ⟨m1, m2, m3, -⟩ := munmap_keeps hm
              refine ⟨bare t, ?_, rfl, h.of m1 m2 (by rw [m3]; exact h.lpos) (by rw [m3]; exact Nat.le_refl _)⟩
              show (munmap cf s (a - 16 - s.mem (a - 16)) (csize (s.hd (a - 16)) + s.mem (a - 16) + 32)).bind _ = _
              rw [hm]; rfl
            | noMem =>
              show (munmap cf s (a - 16 - s.mem (a - 16)) (csize (s.hd (a - 16)) + s.mem (a - 16) + 32)).bind _ = _
              rw [hm]; rfl
            | corrupt => trivial
          · rintro s1 b1 - ⟨e1, e2⟩
            subst e1
            exact Sim.ok ⟨rfl, e2.of rfl rfl e2.lpos (Nat.le_refl _)⟩
        · rw [if_neg h3, if_neg h3]
          simp only [if_neg h3] at hG
          by_cases h4 : (!decide (s.least ≤ a - 16 - s.mem (a - 16))) = true
          · rw [if_pos h4]; trivial
          · rw [if_neg h4, if_neg (show ¬ (!decide ((bare s).least ≤ a - 16 - (bare s).mem (a - 16))) = true from h4)]
            simp only [if_neg h4, edc] at hG
            by_cases h5 : a - 16 - s.mem (a - 16) ≠ s.dv
            · rw [if_pos h5, if_pos (show a - 16 - (bare s).mem (a - 16) ≠ (bare s).dv from h5)]
              simp only [if_pos h5] at hG
              unfold unlinkChunk at hG ⊢
              by_cases hin : (a - 16 - s.mem (a - 16), s.mem (a - 16)) ∈ s.bins
              · rw [if_pos hin]
                simp only [ebc, if_pos hin, Out.bind_ok] at hG
                obtain ⟨l', g1, g2⟩ := unlink_sim h hin
                have g1 : LHeap.unlink ⟨bare s, l⟩ (a - 16 - (bare s).mem (a - 16)) ((bare s).mem (a - 16)) = .ok ⟨bare s, l'⟩ := g1
                rw [g1]
                exact freeFwd_sim (s := { s with bins := s.bins.erase (a - 16 - s.mem (a - 16), s.mem (a - 16)) }) hc g2 htr hG
              · rw [if_neg hin]; trivial
            · rw [if_neg h5, if_neg (show ¬ a - 16 - (bare s).mem (a - 16) ≠ (bare s).dv from h5)]
              simp only [if_neg h5] at hG
              by_cases h6 : s.hd (a - 16 + csize (s.hd (a - 16))) % 4 = 3
              · rw [if_pos h6, if_pos h6]
                exact Sim.ok ⟨rfl, h.of rfl rfl h.lpos (Nat.le_refl _)⟩
              · rw [if_neg h6, if_neg h6]
                simp only [if_neg h6] at hG
                exact freeFwd_sim hc h htr hG

end Arax.Dl
