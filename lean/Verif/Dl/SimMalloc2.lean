import Verif.Dl.SimMalloc
/-!
# Simulation: `mspace_malloc`, which chunk is used
-/
namespace Arax.Dl
open Arax.Bitmap (bit Bmp)

theorem ready_alloced {cf : Conf} (hc : Small cf) {s s' : Heap} {L : Lay} {D : List (Nat × Nat)} {env : Nat → Bool} {nb a : Nat} (h : Alloced cf s L D env nb s' a) : Ready s' := by
  obtain ⟨⟨L', D', p, k, hi', -⟩, -, -⟩ := h
  exact ready_of_inv hc hi'

theorem best_first {l : List (Nat × Nat)} {c : Nat × Nat} (hm : ∀ d ∈ l, c.2 ≤ d.2) (hf : l.find? (fun x => x.2 == c.2) = some c) : best l 0 = some c := by
  have hc := List.mem_of_find?_eq_some hf
  have hmin : (l.map Prod.snd).min? = some c.2 := by
    rw [List.min?_eq_some_iff]
    exact ⟨List.mem_map_of_mem hc, fun b hb => by obtain ⟨d, hd, rfl⟩ := List.mem_map.mp hb; exact hm d hd⟩
  unfold best
  rw [hmin]
  simp only
  rw [Nat.zero_mod, ← List.head?_eq_getElem?, List.head?_filter, hf]

theorem find_filter {l : List (Nat × Nat)} {f g : Nat × Nat → Bool} (h : ∀ x, f x = true → g x = true) : (l.filter g).find? f = l.find? f := by
  rw [List.find?_filter]
  congr 1
  funext x
  cases hf : f x with
  | true => simp [h x hf]
  | false => simp

theorem tmallocSmall_sim {cf : Conf} (hc : Small cf) {s : Heap} {L : Lay} {D : List (Nat × Nat)} {env : Nat → Bool} (hi : Inv cf s L D env) {l : Links} (hl : Linked s l) {nb : Nat} (h16 : nb % 16 = 0)
    (h32 : 32 ≤ nb) (hnb : nb < 256) (hdv : s.dvsize < 256) (ht : l.treemap ≠ 0) :
    ∃ pick c, best (s.bins.filter (fun c => 256 ≤ c.2)) pick = some c ∧ Sim RelP (.ok (takeDv s c nb)) (LHeap.tmallocSmall ⟨bare s, l⟩ nb) := by
  have hB := hl.bins (ready_of_inv hc hi)
  obtain ⟨v, r, h1, n, h2, h3, h4, h5⟩ := searchSmall_ok hB (nb := nb) (by omega) hnb ht
  have hin := (List.mem_filter.mp h2).1
  have h256 : 256 ≤ n := by simpa using (List.mem_filter.mp h2).2
  obtain ⟨pick, hp⟩ := best_of h2 (fun d hd => h5 d hd (by have := (List.mem_filter.mp hd).2; simp at this; omega))
  refine ⟨pick, (v, n), hp, ?_⟩
  have hfit := hB.ok _ hin
  obtain ⟨l', g1, g2⟩ := unlink_sim hl hin
  have hs := takeDv_sim (nb := nb) g2 h3 hdv (ready_alloced hc (takeDv_ok hi hin h16 h32 h3))
  unfold LHeap.tmallocSmall
  have h1 : l.searchSmall (LHeap.ctx ⟨bare s, l⟩) nb = .ok (v, r) := h1
  simp only
  rw [h1]
  simp only [Out.bind_ok]
  rw [if_pos ⟨show s.least ≤ v from hfit.least, by omega⟩, unlinkLarge_eq _ _ h256, g1]
  simp only [Out.bind_ok]
  rw [h4]
  exact hs

/-- What `tmalloc_large` does, for a choice. -/
theorem tmallocLarge_sim {cf : Conf} (hc : Small cf) {s : Heap} {L : Lay} {D : List (Nat × Nat)} {env : Nat → Bool} (hi : Inv cf s L D env) {l : Links} (hl : Linked s l) {nb : Nat} (h16 : nb % 16 = 0)
    (hnb : 256 ≤ nb) (hW : nb < W) :
    ∃ pick, match (generalizing := false) best (s.bins.filter (fun c => 256 ≤ c.2 && nb ≤ c.2)) pick with
      | some c => if c.2 - nb < (W + s.dvsize - nb) % W then ∃ r, Sim RelP (.ok (takeBin s c nb)) (.ok r) ∧ LHeap.tmallocLarge ⟨bare s, l⟩ nb = .ok (some r) else LHeap.tmallocLarge ⟨bare s, l⟩ nb = .ok none
      | none => LHeap.tmallocLarge ⟨bare s, l⟩ nb = .ok none := by
  have hB := hl.bins (ready_of_inv hc hi)
  obtain ⟨v, r, h1, h2⟩ := searchLarge_ok hB hnb hW
  have h1 : l.searchLarge (LHeap.ctx ⟨bare s, l⟩) nb = .ok (v, r) := h1
  have hsub : sub64 s.dvsize nb = (W + s.dvsize - nb) % W := by unfold sub64; rw [Nat.mod_eq_of_lt hW]
  unfold LHeap.tmallocLarge
  simp only
  rw [h1]
  simp only [Out.bind_ok]
  rcases h2 with ⟨hv, hr, hno⟩ | ⟨hv, n, h2, h3, h4, h5⟩
  · refine ⟨0, ?_⟩
    rw [best_nil (by
      rw [List.filter_eq_nil_iff]; intro x hx; have := hno x hx; simp; omega)]
    simp only
    rw [if_neg (fun h => h.1 hv)]
  · have hmem : (v, n) ∈ s.bins.filter (fun c => 256 ≤ c.2 && nb ≤ c.2) := List.mem_filter.mpr ⟨h2, by simp; omega⟩
    obtain ⟨pick, hp⟩ := best_of hmem (fun d hd => h5 d (List.mem_filter.mp hd).1 (by have := (List.mem_filter.mp hd).2; simp at this; omega))
    refine ⟨pick, ?_⟩
    rw [hp]
    simp only
    have hfit := hB.ok _ h2
    by_cases hlt : n - nb < (W + s.dvsize - nb) % W
    · rw [if_pos hlt]
      rw [if_pos (show v ≠ 0 ∧ r < sub64 (bare s).dvsize nb from ⟨hv, by rw [h4, show (bare s).dvsize = s.dvsize from rfl, hsub]; exact hlt⟩),
        if_pos (show (bare s).least ≤ v ∧ v < v + nb from ⟨hfit.least, by omega⟩)]
      obtain ⟨l', g1, g2⟩ := unlink_sim hl h2
      obtain ⟨r', e1, e2⟩ := takeBin_sim (nb := nb) g2 h3 (ready_alloced hc (takeBin_ok hi h2 h16 (by omega) h3))
      refine ⟨r', Sim.ok e2, ?_⟩
      rw [unlinkLarge_eq _ _ (show 256 ≤ n by omega), g1]
      simp only [Out.bind_ok]
      rw [h4, e1]
      rfl
    · rw [if_neg hlt]
      rw [if_neg (fun h : v ≠ 0 ∧ r < sub64 (bare s).dvsize nb => hlt (by rw [← h4, ← hsub]; exact h.2))]

theorem malloc_sim {cf : Conf} (hc : Small cf) {s : Heap} {L : Lay} {D : List (Nat × Nat)} {env : Nat → Bool} (hi : Inv cf s L D env) {l : Links} (hl : Linked s l) (bytes : Nat) :
    ∃ pick, Sim RelP (malloc cf s bytes pick) (LHeap.malloc cf ⟨bare s, l⟩ bytes) := by
  have hr := ready_of_inv hc hi
  have hB := hl.bins hr
  have hmaxW : maxRequest + 128 = W := rfl
  unfold malloc LHeap.malloc
  by_cases hb : bytes ≤ 232
  · simp only [if_pos hb]
    have h32 : 32 ≤ (if bytes < 23 then 32 else padReq bytes) := by unfold padReq; split <;> omega
    have h16 : (if bytes < 23 then 32 else padReq bytes) % 16 = 0 := by unfold padReq; split <;> omega
    have h240 : (if bytes < 23 then 32 else padReq bytes) ≤ 240 := by unfold padReq; split <;> omega
    generalize (if bytes < 23 then 32 else padReq bytes) = nb at *
    have hx := exactBin_eq l (nb := nb) (by omega)
    have hx2 : ∀ i, i < 32 → l.smallmap.getLsbD i = true → exactFit s nb = s.bins.find? (fun x => x.2 == 8 * i) →
        ∃ pick, Sim RelP (match exactFit s nb with
          | some c => .ok ({ s with bins := s.bins.erase c, mem := setInuse s.mem c.1 c.2 }, c.1 + 16)
          | none =>
            if nb > s.dvsize then
              match best (s.bins.filter (fun c => nb < c.2 && c.2 < 256)) 0 with
              | some c => .ok (takeDv s c nb)
              | none =>
                match best (s.bins.filter (fun c => 256 ≤ c.2)) pick with
                | some c => .ok (takeDv s c nb)
                | none => lastResort cf s nb
            else lastResort cf s nb)
          ((LHeap.unlinkFirst ⟨bare s, l⟩ i).bind fun (b, p) => .ok (⟨{ b.h with mem := setInuse b.h.mem p (8 * i) }, b.l⟩, p + 16)) := by
      intro i hi32 hbit he
      obtain ⟨p, l', g1, g2, g3, g4⟩ := unlinkFirst_sim hl hr hi32 hbit
      refine ⟨0, ?_⟩
      rw [he, g3, g1]
      simp only [Out.bind_ok]
      exact Sim.ok ⟨⟨rfl, g4.of rfl rfl g4.lpos (Nat.le_refl _)⟩, rfl⟩
    by_cases hb0 : l.smallmap.getLsbD (nb / 8) = true
    · rw [if_pos hb0] at hx
      rw [hx]
      simp only
      refine hx2 (nb / 8) (by omega) hb0 ?_
      have := first_small hB (by omega) hb0
      rw [show 8 * (nb / 8) = nb by omega] at this ⊢
      unfold exactFit
      rw [this]
    · rw [if_neg hb0] at hx
      have hno0 := no_small hB (i := nb / 8) (by omega) (by simpa using hb0)
      have hf0 : s.bins.find? (fun c => c.2 == nb) = none := by
        rw [List.find?_eq_none]
        intro x hx h
        have h : x.2 = nb := by simpa using h
        exact hno0 x hx (by omega) (by omega)
      by_cases hb1 : l.smallmap.getLsbD (nb / 8 + 1) = true
      · rw [if_pos hb1] at hx
        rw [hx]
        simp only
        refine hx2 (nb / 8 + 1) (by omega) hb1 ?_
        unfold exactFit
        rw [hf0, show 8 * (nb / 8 + 1) = nb + 8 by omega]
      · rw [if_neg hb1] at hx
        rw [hx]
        simp only
        have hno1 := no_small hB (i := nb / 8 + 1) (by omega) (by simpa using hb1)
        have hex : exactFit s nb = none := by
          unfold exactFit
          rw [hf0]
          simp only
          rw [List.find?_eq_none]
          intro x hx h
          have h : x.2 = nb + 8 := by simpa using h
          exact hno1 x hx (by omega) (by omega)
        rw [hex]
        simp only
        by_cases hdv : nb > s.dvsize
        · simp only [if_pos hdv, if_pos (show nb > (bare s).dvsize from hdv)]
          have hn := nextBin_eq l (nb := nb) (by omega) hx
          cases hnb : l.nextBin nb with
          | some i =>
            rw [hnb] at hn
            obtain ⟨n1, n2, n3, n4⟩ := hn
            simp only
            obtain ⟨p, l', g1, g2, g3, g4⟩ := unlinkFirst_sim hl hr n2 n3
            have hbest : best (s.bins.filter (fun c => nb < c.2 && c.2 < 256)) 0 = some (p, 8 * i) := by
              refine best_first ?_ ?_
              · intro d hd
                simp only
                obtain ⟨d1, d2⟩ := List.mem_filter.mp hd
                simp only [Bool.and_eq_true, decide_eq_true_eq] at d2
                rcases Nat.lt_or_ge (d.2 / 8) i with h | h
                · exact absurd rfl (no_small hB (i := d.2 / 8) (by omega) (n4 _ (by omega) h) d d1 d2.2)
                · omega
              · rw [find_filter (by intro x h; have h : x.2 = 8 * i := by simpa using h
                                    simp; omega)]
                exact g3
            refine ⟨0, ?_⟩
            rw [hbest, g1]
            simp only [Out.bind_ok]
            exact takeDv_sim (c := (p, 8 * i)) g4 (by simp only; omega) (by omega) (ready_alloced hc (takeDv_ok hi g2 h16 h32 (by simp only; omega)))
          | none =>
            rw [hnb] at hn
            simp only at hn ⊢
            have hnil : best (s.bins.filter (fun c => nb < c.2 && c.2 < 256)) 0 = none := best_nil (by
              rw [List.filter_eq_nil_iff]; intro x hx h
              simp only [Bool.and_eq_true, decide_eq_true_eq] at h
              exact no_small hB (i := x.2 / 8) (by omega) (hn _ (by omega)) x hx h.2 rfl) 0
            simp only [hnil]
            by_cases ht : l.treemap ≠ 0
            · rw [if_pos ht]
              obtain ⟨pick, c, h1, h2⟩ := tmallocSmall_sim hc hi hl h16 h32 (by omega) (by omega) ht
              exact ⟨pick, by rw [h1]; exact h2⟩
            · rw [if_neg ht]
              have hz := (treemap_zero hB).mp (by simpa using ht)
              refine ⟨0, ?_⟩
              rw [best_nil (by rw [List.filter_eq_nil_iff]; intro x hx; have := hz x hx; simp; omega)]
              exact lastResort_sim hc hi hl (Or.inl h16) h32 (by unfold W; omega)
        · simp only [if_neg hdv, if_neg (show ¬ nb > (bare s).dvsize from hdv)]
          exact ⟨0, lastResort_sim hc hi hl (Or.inl h16) h32 (by unfold W; omega)⟩
  · simp only [if_neg hb]
    by_cases hm : bytes ≥ maxRequest
    · simp only [if_pos hm]
      exact ⟨0, lastResort_sim hc hi hl (Or.inr rfl) (by unfold W; omega) (by unfold W; omega)⟩
    · simp only [if_neg hm]
      have h16 : padReq bytes % 16 = 0 := by unfold padReq; omega
      have h256 : 256 ≤ padReq bytes := by unfold padReq; omega
      have hW : padReq bytes < W := by unfold padReq; omega
      generalize padReq bytes = nb at *
      have hlast := lastResort_sim hc hi hl (Or.inl h16) (by omega) hW
      by_cases ht : l.treemap ≠ 0
      · rw [if_pos ht]
        obtain ⟨pick, h⟩ := tmallocLarge_sim hc hi hl h16 h256 hW
        refine ⟨pick, ?_⟩
        cases hbst : best (s.bins.filter (fun c => 256 ≤ c.2 && nb ≤ c.2)) pick with
        | none =>
          rw [hbst] at h
          simp only at h ⊢
          rw [h]
          exact hlast
        | some c =>
          rw [hbst] at h
          simp only at h ⊢
          split
          · rename_i hlt
            rw [if_pos hlt] at h
            obtain ⟨r, e1, e2⟩ := h
            rw [e2]
            exact e1
          · rename_i hlt
            rw [if_neg hlt] at h
            rw [h]
            exact hlast
      · rw [if_neg ht]
        have hz := (treemap_zero hB).mp (by simpa using ht)
        refine ⟨0, ?_⟩
        rw [best_nil (by rw [List.filter_eq_nil_iff]; intro x hx; have := hz x hx; simp; omega)]
        exact hlast

end Arax.Dl
