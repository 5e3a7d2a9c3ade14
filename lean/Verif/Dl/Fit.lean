import Verif.Dl.Reuse
/-!
# Which chunk a request is served from
-/
namespace Arax.Dl
open Arax.Bitmap (bit Bmp)

theorem takeDv_addr (s : Heap) (c : Nat × Nat) (nb : Nat) : (takeDv s c nb).2 = c.1 + 16 := by unfold takeDv; simp only; split <;> rfl
theorem takeBin_addr (s : Heap) (c : Nat × Nat) (nb : Nat) : (takeBin s c nb).2 = c.1 + 16 := by unfold takeBin; simp only; split <;> rfl
theorem takeVictim_addr (s : Heap) (nb : Nat) : (takeVictim s nb).2 = s.dv + 16 ∧ (takeVictim s nb).1.bmp = s.bmp := by unfold takeVictim; split <;> exact ⟨rfl, rfl⟩

/-- The chunk `d` of `n` bytes is the one dlmalloc takes for `bytes` bytes, in a chunk of `nb`: for large requests the smallest that fits; for small ones one of the very size, else the designated victim, else the
smallest that fits. (No code of its own.) -/
structure Place (s : Heap) (bytes nb d n : Nat) : Prop where
  free : IsFree s d n
  fits : nb ≤ n
  large : 232 < bytes → ∀ q k, IsFree s q k → nb ≤ k → n ≤ k
  small : bytes ≤ 232 → (d ≠ s.dv ∧ (∀ q k, (q, k) ∈ s.bins → nb ≤ k → n ≤ k) ∧ (n = nb ∨ s.dvsize < nb)) ∨ (d = s.dv ∧ ∀ q, (q, nb) ∉ s.bins)

theorem malloc_place {cf : Conf} {s : Heap} {L : Lay} {D : List (Nat × Nat)} {env : Nat → Bool} (hi : Inv cf s L D env) {bytes : Nat} (pick : Nat) (hlt : bytes < maxRequest)
    (hf : ∃ p n, IsFree s p n ∧ chunkFor bytes ≤ n) : ∃ s' d n, malloc cf s bytes pick = .ok (s', d + 16) ∧ s'.bmp = s.bmp ∧ Place s bytes (chunkFor bytes) d n := by
  have hmul : ∀ p n, (p, n) ∈ s.bins → n % 16 = 0 ∧ n < W := by
    intro p n h
    have hfl := ((hi.bins p n).mp h).1
    obtain ⟨q, hq⟩ := flat_ok hi hfl
    refine ⟨hq.mul, ?_⟩
    obtain ⟨z, hz, hyz⟩ := List.mem_flatMap.mp hfl
    have h1 := addrs_bounds hyz
    have h2 := (hi.ok z hz).fits
    have h3 := hi.low (z.1.base, z.1.size) (by unfold regs; exact List.mem_append_left _ (List.mem_map.mpr ⟨z, hz, rfl⟩))
    have h4 := hi.top64.1
    simp only at h1 h3; omega
  have hdv : ∀ p n, (p, n) ∈ s.bins → p ≠ s.dv := fun p n h => ((hi.bins p n).mp h).2
  have h16 : chunkFor bytes % 16 = 0 := by unfold chunkFor padReq; split <;> omega
  have h32 : 32 ≤ chunkFor bytes := by unfold chunkFor padReq; split <;> omega
  have hd0 : chunkFor bytes ≤ s.dvsize → IsFree s s.dv s.dvsize := by
    intro h
    refine Or.inr ⟨rfl, rfl, ?_⟩
    rcases hi.dv with h0 | h0
    · omega
    · have := addr_pos hi h0; simp only at this; omega
  have hlast : chunkFor bytes ≤ s.dvsize → ∃ s', lastResort cf s (chunkFor bytes) = .ok (s', s.dv + 16) ∧ s'.bmp = s.bmp := by
    intro h
    unfold lastResort
    rw [if_pos h]
    obtain ⟨h1, h2⟩ := takeVictim_addr s (chunkFor bytes)
    exact ⟨(takeVictim s (chunkFor bytes)).1, by rw [← h1], h2⟩
  unfold malloc
  by_cases hsm : bytes ≤ 232
  · rw [if_pos hsm]
    have hnb : (if bytes < 23 then 32 else padReq bytes) = chunkFor bytes := rfl
    simp only [hnb]
    cases hx : exactFit s (chunkFor bytes) with
    | some c =>
      have hc : c ∈ s.bins ∧ c.2 = chunkFor bytes := by
        unfold exactFit at hx
        cases hy : s.bins.find? (fun c => c.2 == chunkFor bytes) with
        | some c' =>
          rw [hy] at hx
          simp only [Option.some.injEq] at hx
          subst hx
          exact ⟨List.mem_of_find?_eq_some hy, by simpa using List.find?_some hy⟩
        | none =>
          rw [hy] at hx
          have h1 := List.mem_of_find?_eq_some hx
          have h2 := List.find?_some hx
          have := (hmul c.1 c.2 h1).1
          simp at h2; omega
      refine ⟨_, c.1, c.2, rfl, rfl, Or.inl hc.1, by omega, by omega, fun _ => Or.inl ⟨hdv _ _ hc.1, fun q k _ h => by omega, Or.inl hc.2⟩⟩
    | none =>
      have hno : ∀ p n, (p, n) ∈ s.bins → n ≠ chunkFor bytes := by
        intro p n h e
        unfold exactFit at hx
        cases hy : s.bins.find? (fun c => c.2 == chunkFor bytes) with
        | some c => rw [hy] at hx; cases hx
        | none => have := List.find?_eq_none.mp hy _ h; simp [e] at this
      simp only
      by_cases hd : chunkFor bytes > s.dvsize
      · rw [if_pos hd]
        cases hb : best (s.bins.filter (fun c => chunkFor bytes < c.2 && c.2 < 256)) 0 with
        | some c =>
          obtain ⟨h1, h2⟩ := best_mem hb
          rw [List.mem_filter] at h1
          have h3 := h1.2
          simp at h3
          refine ⟨(takeDv s c (chunkFor bytes)).1, c.1, c.2, by rw [← takeDv_addr s c (chunkFor bytes)], (takeDv_bmp s c _).1.1, Or.inl h1.1, by omega, by omega, fun _ => Or.inl ⟨hdv _ _ h1.1, ?_, Or.inr hd⟩⟩
          intro q k hq hk
          by_cases h4 : k < 256
          · have h5 := hno q k hq
            exact h2 (q, k) (List.mem_filter.mpr ⟨hq, by simp; omega⟩)
          · omega
        | none =>
          simp only
          have hn1 := List.filter_eq_nil_iff.mp (best_none hb)
          cases hb2 : best (s.bins.filter (fun c => 256 ≤ c.2)) pick with
          | some c =>
            obtain ⟨h1, h2⟩ := best_mem hb2
            rw [List.mem_filter] at h1
            have h3 := h1.2
            simp at h3
            have h4 : chunkFor bytes ≤ 256 := by unfold chunkFor padReq; split <;> omega
            refine ⟨(takeDv s c (chunkFor bytes)).1, c.1, c.2, by rw [← takeDv_addr s c (chunkFor bytes)], (takeDv_bmp s c _).1.1, Or.inl h1.1, by omega, by omega, fun _ => Or.inl ⟨hdv _ _ h1.1, ?_, Or.inr hd⟩⟩
            intro q k hq hk
            have h5 := hno q k hq
            have h6 := hn1 (q, k) hq
            simp at h6
            exact h2 (q, k) (List.mem_filter.mpr ⟨hq, by simp; omega⟩)
          | none =>
            exfalso
            have hn2 := List.filter_eq_nil_iff.mp (best_none hb2)
            obtain ⟨p, n, h1 | h1, h2⟩ := hf
            · have h3 := hn1 _ h1
              have h4 := hn2 _ h1
              have h5 := hno p n h1
              simp at h3 h4; omega
            · omega
      · rw [if_neg hd]
        obtain ⟨s', h1, h2⟩ := hlast (by omega)
        exact ⟨s', s.dv, s.dvsize, h1, h2, hd0 (by omega), by omega, by omega, fun _ => Or.inr ⟨rfl, fun q hq => hno _ _ hq rfl⟩⟩
  · rw [if_neg hsm, if_neg (by omega)]
    have hnb : padReq bytes = chunkFor bytes := by unfold chunkFor; rw [if_neg (by omega)]
    simp only [hnb]
    have h256 : 256 ≤ chunkFor bytes := by rw [← hnb]; unfold padReq; omega
    have hW : chunkFor bytes < W := by rw [← hnb]; unfold padReq maxRequest W at *; omega
    cases hb : best (s.bins.filter (fun c => 256 ≤ c.2 && chunkFor bytes ≤ c.2)) pick with
    | none =>
      have hn := List.filter_eq_nil_iff.mp (best_none hb)
      have hbn : ∀ p n, (p, n) ∈ s.bins → n < chunkFor bytes := by
        intro p n h
        have := hn _ h
        simp at this; omega
      have hdf : chunkFor bytes ≤ s.dvsize := by
        obtain ⟨p, n, h1 | h1, h2⟩ := hf
        · have := hbn p n h1; omega
        · omega
      obtain ⟨s', h1, h2⟩ := hlast hdf
      refine ⟨s', s.dv, s.dvsize, h1, h2, hd0 hdf, hdf, fun _ q k hq hk => ?_, by omega⟩
      rcases hq with hq | hq
      · have := hbn q k hq; omega
      · omega
    | some c =>
      obtain ⟨h1, h2⟩ := best_mem hb
      rw [List.mem_filter] at h1
      have h3 := h1.2
      simp at h3
      have h4 := hmul c.1 c.2 h1.1
      simp only
      have hmin : ∀ q k, (q, k) ∈ s.bins → chunkFor bytes ≤ k → c.2 ≤ k := fun q k hq hk => h2 (q, k) (List.mem_filter.mpr ⟨hq, by simp; omega⟩)
      split
      · rename_i hlt2
        refine ⟨(takeBin s c (chunkFor bytes)).1, c.1, c.2, by rw [← takeBin_addr s c (chunkFor bytes)], (takeBin_bmp s c _).1.1, Or.inl h1.1, by omega, fun _ q k hq hk => ?_, by omega⟩
        rcases hq with hq | ⟨e1, e2, -⟩
        · exact hmin q k hq hk
        · have h5 : s.dvsize < W := by
            rcases hi.dv with h0 | h0
            · unfold W; omega
            · obtain ⟨z, hz, hyz⟩ := List.mem_flatMap.mp h0
              have h1 := addrs_bounds hyz
              have h2 := (hi.ok z hz).fits
              have h3 := hi.low (z.1.base, z.1.size) (by unfold regs; exact List.mem_append_left _ (List.mem_map.mpr ⟨z, hz, rfl⟩))
              have h4 := hi.top64.1
              simp only at h1 h3; omega
          rw [show W + s.dvsize - chunkFor bytes = W + (s.dvsize - chunkFor bytes) by omega, Nat.add_mod_left, Nat.mod_eq_of_lt (by omega)] at hlt2
          omega
      · rename_i hle
        have hdf : chunkFor bytes ≤ s.dvsize := by
          by_cases hd : chunkFor bytes ≤ s.dvsize
          · exact hd
          · exfalso; apply hle
            rw [Nat.mod_eq_of_lt (by omega)]
            omega
        obtain ⟨s', h5, h6⟩ := hlast hdf
        refine ⟨s', s.dv, s.dvsize, h5, h6, hd0 hdf, hdf, fun _ q k hq hk => ?_, by omega⟩
        have h5 : s.dvsize < W := by
          rcases hi.dv with h0 | h0
          · unfold W; omega
          · obtain ⟨z, hz, hyz⟩ := List.mem_flatMap.mp h0
            have h1 := addrs_bounds hyz
            have h2 := (hi.ok z hz).fits
            have h3 := hi.low (z.1.base, z.1.size) (by unfold regs; exact List.mem_append_left _ (List.mem_map.mpr ⟨z, hz, rfl⟩))
            have h4 := hi.top64.1
            simp only at h1 h3; omega
        rw [show W + s.dvsize - chunkFor bytes = W + (s.dvsize - chunkFor bytes) by omega, Nat.add_mod_left, Nat.mod_eq_of_lt (by omega)] at hle
        rcases hq with hq | ⟨e1, e2, -⟩
        · have := hmin q k hq hk; omega
        · omega

end Arax.Dl
