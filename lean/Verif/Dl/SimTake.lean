import Verif.Dl.Sim
/-!
# Simulation: using chunks
-/
namespace Arax.Dl
open Arax.Bitmap (bit Bmp)

theorem takeBin_sim {s : Heap} {l : Links} {c : Nat × Nat} {nb : Nat} (h : Linked { s with bins := s.bins.erase c } l) (hnb : nb ≤ c.2) (hr : Ready (takeBin s c nb).1) :
    Sim RelP (.ok (takeBin s c nb)) (LHeap.splitBin ⟨bare s, l⟩ c.1 nb (c.2 - nb)) := by
  unfold takeBin at hr ⊢
  unfold LHeap.splitBin
  simp only at hr ⊢
  by_cases hlt : c.2 - nb < 32
  · rw [if_pos hlt, if_pos hlt]
    rw [show c.2 - nb + nb = c.2 by omega]
    exact Sim.ok ⟨⟨rfl, h.of rfl rfl h.lpos (Nat.le_refl _)⟩, rfl⟩
  · rw [if_neg hlt] at hr ⊢
    rw [if_neg hlt]
    simp only at hr
    obtain ⟨l', h1, h2⟩ := insert_sim (s := { s with bins := s.bins.erase c, mem := setFree (put s.mem (c.1 + 8) (nb + 3)) (c.1 + nb) (c.2 - nb) }) (h.of rfl rfl h.lpos (Nat.le_refl _)) hr
    have h1 : LHeap.insert ⟨{ (bare s) with mem := setFree (put (bare s).mem (c.1 + 8) (nb + 3)) (c.1 + nb) (c.2 - nb) }, l⟩ (c.1 + nb) (c.2 - nb) = .ok ⟨_, l'⟩ := h1
    rw [h1]
    exact ⟨_, rfl, ⟨rfl, h2⟩, rfl⟩

theorem replaceDv_sim {s : Heap} {l : Links} (h : Linked s l) (hdv : s.dvsize < 256) {p n : Nat} (hr : s.dvsize ≠ 0 → Ready (insertChunk s s.dv s.dvsize)) :
    Sim Rel (.ok (replaceDv s p n)) (LHeap.replaceDv ⟨bare s, l⟩ p n) := by
  unfold replaceDv LHeap.replaceDv
  simp only
  by_cases h0 : s.dvsize ≠ 0
  · rw [if_pos h0]
    have e : (if (bare s).dvsize ≠ 0 then LHeap.insertSmall ⟨bare s, l⟩ (bare s).dv (bare s).dvsize else .ok ⟨bare s, l⟩) = LHeap.insert ⟨bare s, l⟩ s.dv s.dvsize := by
      rw [if_pos (show (bare s).dvsize ≠ 0 from h0)]
      exact insertSmall_eq _ _ hdv
    rw [e]
    obtain ⟨l', h1, h2⟩ := insert_sim h (hr h0)
    rw [h1]
    exact ⟨_, rfl, rfl, h2.of rfl rfl h2.lpos (Nat.le_refl _)⟩
  · rw [if_neg h0, if_neg (show ¬ (bare s).dvsize ≠ 0 from h0)]
    exact ⟨_, rfl, rfl, h.of rfl rfl h.lpos (Nat.le_refl _)⟩

theorem takeDv_sim {s : Heap} {l : Links} {c : Nat × Nat} {nb : Nat} (h : Linked { s with bins := s.bins.erase c } l) (hnb : nb ≤ c.2) (hdv : s.dvsize < 256) (hr : Ready (takeDv s c nb).1) :
    Sim RelP (.ok (takeDv s c nb)) (LHeap.splitDv ⟨bare s, l⟩ c.1 nb (c.2 - nb)) := by
  unfold takeDv at hr ⊢
  unfold LHeap.splitDv
  simp only at hr ⊢
  by_cases hlt : c.2 - nb < 32
  · rw [if_pos hlt, if_pos hlt]
    rw [show c.2 - nb + nb = c.2 by omega]
    exact Sim.ok ⟨⟨rfl, h.of rfl rfl h.lpos (Nat.le_refl _)⟩, rfl⟩
  · rw [if_neg hlt] at hr ⊢
    rw [if_neg hlt]
    simp only at hr
    have hs := replaceDv_sim (s := { s with bins := s.bins.erase c, mem := setFree (put s.mem (c.1 + 8) (nb + 3)) (c.1 + nb) (c.2 - nb) }) (p := c.1 + nb) (n := c.2 - nb) (h.of rfl rfl h.lpos (Nat.le_refl _)) hdv
      (fun h0 => by
        unfold replaceDv at hr
        rw [if_pos h0] at hr
        exact ⟨hr.lpos, hr.nd, hr.ok⟩)
    obtain ⟨b, h1, h2⟩ := hs
    refine ⟨(b, c.1 + 16), ?_, h2, rfl⟩
    have h1 : LHeap.replaceDv ⟨{ (bare s) with mem := setFree (put (bare s).mem (c.1 + 8) (nb + 3)) (c.1 + nb) (c.2 - nb) }, l⟩ (c.1 + nb) (c.2 - nb) = .ok b := h1
    rw [h1]; rfl

theorem takeTop_sim {s : Heap} {l : Links} (h : Linked s l) (nb : Nat) : RelP (takeTop s nb) (LHeap.put ⟨bare s, l⟩ (takeTop (bare s) nb)) :=
  ⟨⟨rfl, h.of rfl rfl h.lpos (Nat.le_refl _)⟩, rfl⟩

theorem takeVictim_sim {s : Heap} {l : Links} (h : Linked s l) (nb : Nat) : RelP (takeVictim s nb) (LHeap.put ⟨bare s, l⟩ (takeVictim (bare s) nb)) := by
  unfold takeVictim
  show RelP _ (LHeap.put ⟨bare s, l⟩ (if s.dvsize - nb ≥ 32 then _ else _))
  split
  · exact ⟨⟨rfl, h.of rfl rfl h.lpos (Nat.le_refl _)⟩, rfl⟩
  · exact ⟨⟨rfl, h.of rfl rfl h.lpos (Nat.le_refl _)⟩, rfl⟩

theorem fromNewTop_sim {s : Heap} {l : Links} (h : Linked s l) (nb : Nat) : RelP (fromNewTop s nb) (LHeap.put ⟨bare s, l⟩ (fromNewTop (bare s) nb)) := by
  unfold fromNewTop
  show RelP _ (LHeap.put ⟨bare s, l⟩ (if nb < s.topsize then _ else _))
  split
  · exact takeTop_sim h nb
  · exact ⟨⟨rfl, h⟩, rfl⟩

/-! ## Getting memory from the system -/

theorem mmapAlloc_sim {cf : Conf} {s : Heap} {l : Links} (h : Linked s l) (nb : Nat) (hst : 0 < cf.start) :
    Sim (fun r r' => r'.1 = bare r.1 ∧ Linked r.1 l ∧ r'.2 = r.2) (mmapAlloc cf s nb) (mmapAlloc cf (bare s) nb) := by
  unfold mmapAlloc
  simp only
  split
  · rw [mmap_bare]
    cases hm : mmap cf s (pageAlign (nb + 48 + 15)) with
    | noMem => rfl
    | corrupt => trivial
    | ok r =>
      obtain ⟨t, a⟩ := r
      obtain ⟨e1, e2, e3⟩ := mmap_keeps hm
      have ha : 0 < a := by
        unfold mmap at hm
        split at hm
        · cases hm
        · split at hm
          · cases hm
          · simp only [Out.ok.injEq, Prod.mk.injEq] at hm; omega
      have h0 := h.lpos
      refine ⟨_, rfl, rfl, ?_, rfl⟩
      refine h.of e1 e2 ?_ ?_
      · simp only; split <;> omega
      · simp only; rw [e3]; split <;> omega
  · exact ⟨_, rfl, rfl, h, rfl⟩

theorem prependTail_sim {s1 : Heap} {l : Links} (hl1 : Linked s1 l) {o q qs r : Nat}
    (hr : ∀ t m, (if isInuse (s1.hd o) then .ok (insertChunk { s1 with mem := setFreeP s1.mem q qs o } q qs, r) else (unlinkChunk s1 o (csize (s1.hd o))).bind fun s =>
      .ok (insertChunk { s with mem := setFreeP s.mem q (qs + csize (s1.hd o)) (o + csize (s1.hd o)) } q (qs + csize (s1.hd o)), r) : Out (Heap × Nat)) = .ok (t, m) → Ready t) :
    Sim RelP (if isInuse (s1.hd o) then .ok (insertChunk { s1 with mem := setFreeP s1.mem q qs o } q qs, r) else (unlinkChunk s1 o (csize (s1.hd o))).bind fun s =>
        .ok (insertChunk { s with mem := setFreeP s.mem q (qs + csize (s1.hd o)) (o + csize (s1.hd o)) } q (qs + csize (s1.hd o)), r))
      ((if isInuse (s1.hd o) then .ok (⟨bare s1, l⟩, o, qs)
        else (LHeap.unlink ⟨bare s1, l⟩ o (csize (s1.hd o))).bind fun b => .ok (b, o + csize (s1.hd o), qs + csize (s1.hd o)) : Out (LHeap × Nat × Nat)).bind fun (b, next, n) =>
      (LHeap.insert ⟨{ b.h with mem := setFreeP b.h.mem q n next }, b.l⟩ q n).bind fun b => .ok (b, r)) := by
  by_cases h3 : isInuse (s1.hd o) = true
  · rw [if_pos h3] at hr ⊢
    rw [if_pos h3]
    simp only [Out.bind_ok]
    obtain ⟨l', g1, g2⟩ := insert_sim (s := { s1 with mem := setFreeP s1.mem q qs o }) (hl1.of rfl rfl hl1.lpos (Nat.le_refl _)) (hr _ _ rfl)
    have g1 : LHeap.insert ⟨{ (bare s1) with mem := setFreeP (bare s1).mem q qs o }, l⟩ q qs = .ok ⟨_, l'⟩ := g1
    rw [g1]
    exact ⟨_, rfl, ⟨rfl, g2⟩, rfl⟩
  · rw [if_neg h3] at hr ⊢
    rw [if_neg h3]
    unfold unlinkChunk at hr ⊢
    by_cases h4 : (o, csize (s1.hd o)) ∈ s1.bins
    · rw [if_pos h4] at hr ⊢
      simp only [Out.bind_ok] at hr ⊢
      obtain ⟨l', g1, g2⟩ := unlink_sim hl1 h4
      rw [g1]
      simp only [Out.bind_ok]
      obtain ⟨l'', g3, g4⟩ := insert_sim (s := { s1 with bins := s1.bins.erase (o, csize (s1.hd o)), mem := setFreeP s1.mem q (qs + csize (s1.hd o)) (o + csize (s1.hd o)) })
        (g2.of rfl rfl g2.lpos (Nat.le_refl _)) (hr _ _ rfl)
      have g3 : LHeap.insert ⟨{ (bare s1) with mem := setFreeP (bare s1).mem q (qs + csize (s1.hd o)) (o + csize (s1.hd o)) }, l'⟩ q (qs + csize (s1.hd o)) = .ok ⟨_, l''⟩ := g3
      rw [g3]
      exact ⟨_, rfl, ⟨rfl, g4⟩, rfl⟩
    · rw [if_neg h4]; trivial

theorem prependAlloc_sim {s : Heap} {l : Links} (h : Linked s l) {a b nb : Nat} (hr : ∀ t m, prependAlloc s a b nb = .ok (t, m) → Ready t) :
    Sim RelP (prependAlloc s a b nb) (LHeap.prependAlloc ⟨bare s, l⟩ a b nb) := by
  unfold prependAlloc at hr ⊢
  unfold LHeap.prependAlloc
  simp only at hr ⊢
  by_cases h1 : b + alignOff (b + 16) = s.top
  · rw [if_pos h1, if_pos (show b + alignOff (b + 16) = (bare s).top from h1)]
    exact Sim.ok ⟨⟨rfl, h.of rfl rfl h.lpos (Nat.le_refl _)⟩, rfl⟩
  · rw [if_neg h1] at hr ⊢
    rw [if_neg (show ¬ b + alignOff (b + 16) = (bare s).top from h1)]
    by_cases h2 : b + alignOff (b + 16) = s.dv
    · rw [if_pos h2, if_pos (show b + alignOff (b + 16) = (bare s).dv from h2)]
      exact Sim.ok ⟨⟨rfl, h.of rfl rfl h.lpos (Nat.le_refl _)⟩, rfl⟩
    · rw [if_neg h2] at hr ⊢
      rw [if_neg (show ¬ b + alignOff (b + 16) = (bare s).dv from h2)]
      exact prependTail_sim (s1 := { s with mem := put s.mem (a + alignOff (a + 16) + 8) (nb + 3) }) (h.of rfl rfl h.lpos (Nat.le_refl _)) hr

theorem addSegment_sim {s : Heap} {l : Links} (h : Linked s l) {a n : Nat} (hr : ∀ t, addSegment s a n = .ok t → Ready t) : Sim Rel (addSegment s a n) (LHeap.addSegment ⟨bare s, l⟩ a n) := by
  unfold addSegment at hr ⊢
  unfold LHeap.addSegment
  show Sim Rel _ (match s.segs.find? (·.holds s.top), s.segs with
  | some oldsp, g :: t => _
  | _, _ => _)
  cases hf : s.segs.find? (·.holds s.top) with
  | none => trivial
  | some o =>
    cases hg : s.segs with
    | nil => rw [hg] at hf; cases hf
    | cons g t =>
      rw [hf, hg] at hr
      simp only at hr ⊢
      generalize hc : (if o.base + o.size - (48 + 32 + 15) + alignOff (o.base + o.size - (48 + 32 + 15) + 16) < s.top + 32 then s.top else o.base + o.size - (48 + 32 + 15) + alignOff (o.base + o.size - (48 + 32 + 15) + 16)) = csp at *
      have hc' : (if o.base + o.size - (48 + 32 + 15) + alignOff (o.base + o.size - (48 + 32 + 15) + 16) < (bare s).top + 32 then (bare s).top else o.base + o.size - (48 + 32 + 15) + alignOff (o.base + o.size - (48 + 32 + 15) + 16)) = csp := hc
      rw [hc']
      by_cases h1 : csp ≠ s.top
      · rw [if_pos h1] at hr ⊢
        rw [if_pos (show csp ≠ (bare s).top from h1)]
        refine (fun ⟨l', g1, g2⟩ => ⟨_, g1, rfl, g2⟩) (insert_sim (l := l) ?_ (hr _ rfl))
        exact h.of rfl rfl h.lpos (Nat.le_refl _)
      · rw [if_neg h1]
        rw [if_neg (show ¬ csp ≠ (bare s).top from h1)]
        exact Sim.ok ⟨rfl, h.of rfl rfl h.lpos (Nat.le_refl _)⟩

end Arax.Dl
