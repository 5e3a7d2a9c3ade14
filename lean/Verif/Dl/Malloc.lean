import Verif.Dl.AddSeg
/-!
# `mspace_malloc`
-/
namespace Arax.Dl
open Arax.Bitmap (bit Bmp Took Released)

theorem fromNewTop_ok {cf : Conf} {s : Heap} {L : Lay} {D : List (Nat × Nat)} {env : Nat → Bool} (hi : Inv cf s L D env) {nb : Nat} (hnb16 : nb % 16 = 0) (hnb32 : 32 ≤ nb) (hnb : nb < s.topsize) :
    (fromNewTop s nb).2 ≠ 0 ∧ Alloced cf s L D env nb (fromNewTop s nb).1 (fromNewTop s nb).2 := by
  unfold fromNewTop
  rw [if_pos hnb]
  exact ⟨by simp [takeTop], takeTop_ok hi hnb16 hnb32 hnb⟩

theorem growBy_ok {cf : Conf} {s s1 : Heap} {L : Lay} {D : List (Nat × Nat)} {env : Nat → Bool} (hi : Inv cf s L D env) {b' : Bmp} {n a nb : Nat} (hn : n % 4096 = 0) (ha : a % 4096 = 0)
    (hnb16 : nb % 16 = 0) (hnb32 : 32 ≤ nb) (hnb : nb + 96 ≤ n) (hn0 : 4096 ≤ n)
    (hreg : ∀ least', 0 < least' → least' ≤ s.least → least' ≤ a → Regs cf b' least' (s.foot + n) ((a, n) :: regs L D) env) (hs1 : s1 = { s with bmp := b' }) (ha0 : cf.start ≤ a) :
    ∃ s' m, growBy s1 a n nb = .ok (s', m) ∧ m ≠ 0 ∧ Alloced cf s L D env nb s' m := by
  have hlp := hi.lpos
  have hst := hi.start
  subst hs1
  unfold growBy
  simp only
  generalize hsA : ({ s with bmp := b', foot := s.foot + n, maxFoot := max s.maxFoot (s.foot + n) } : Heap) = sA
  have hA : sA.segs = s.segs ∧ sA.top = s.top ∧ sA.topsize = s.topsize := by subst hsA; exact ⟨rfl, rfl, rfl⟩
  obtain ⟨hA1, hA2, hA3⟩ := hA
  cases hap : appendSeg sA a with
  | some g0 =>
    simp only
    have hg0 : g0 ∈ s.segs ∧ a = g0.base + g0.size ∧ g0.holds s.top = true := by
      unfold appendSeg at hap
      rw [hA1, hA2] at hap
      cases hf : List.find? (fun g : Seg => a == g.base + g.size) s.segs with
      | none => rw [hf] at hap; cases hap
      | some g =>
        rw [hf] at hap
        simp only at hap
        split at hap
        · rename_i hh
          cases hap
          exact ⟨List.mem_of_find?_eq_some hf, by simpa using List.find?_some hf, hh⟩
        · cases hap
    clear hap
    subst hsA
    obtain ⟨g, body, L2, rfl, h1, h2, ht, hlp, h16, hp, hmt, hend, hpl⟩ := top_focus hi
    have hgg := holds_top hi ht hend hg0.1 hg0.2.2
    subst hgg
    have hlo := hi.low (g0.base, g0.size) (by unfold regs; simp)
    simp only at hlo
    have hr := hreg s.least hi.lpos (Nat.le_refl _) (by omega)
    rw [hg0.2.1] at hr
    have hT := append_ok (mf := max s.maxFoot (s.foot + n)) hi ht hlp hend h16 hp h1 hn hr
    refine ⟨_, _, rfl, ?_⟩
    refine ⟨(fromNewTop_ok (cf := cf) (Classical.choose_spec (Classical.choose_spec hT.spec)).1 hnb16 hnb32 ?_).1, hT.alloced fun L' D' hi' => (fromNewTop_ok hi' hnb16 hnb32 ?_).2⟩
    · simp only [initTop]; unfold alignOff; split <;> omega
    · simp only [initTop]; unfold alignOff; split <;> omega
  | none =>
    clear hap
    subst hsA
    simp only
    cases hf : List.find? (fun g : Seg => g.base == a + n) s.segs with
    | some g =>
      have hgm := List.mem_of_find?_eq_some hf
      have hgb : g.base = a + n := by simpa using List.find?_some hf
      rw [hi.segs] at hgm
      obtain ⟨⟨g', cs⟩, hz, rfl⟩ := List.mem_map.mp hgm
      obtain ⟨L1, L2, rfl⟩ := List.append_of_mem hz
      simp only at hgb ⊢
      exact prependAlloc_ok (mf := max s.maxFoot (s.foot + n)) (least := (if a < s.least then a else s.least)) hi hgb hn ha hnb16 hnb32 (by omega)
        (hreg _ (by split <;> omega) (by split <;> omega) (by split <;> omega)) rfl
    | none =>
      simp only
      obtain ⟨s', h1, h2, h3⟩ := addSegment_ok (mf := max s.maxFoot (s.foot + n)) (least := (if a < s.least then a else s.least)) hi hn hn0 ha
        (hreg _ (by split <;> omega) (by split <;> omega) (by split <;> omega)) rfl
      rw [h1]
      simp only [Out.bind_ok]
      refine ⟨_, _, rfl, (fromNewTop_ok (cf := cf) (Classical.choose_spec (Classical.choose_spec h3.spec)).1 hnb16 hnb32 (by omega)).1, h3.alloced fun L' D' hi' => (fromNewTop_ok hi' hnb16 hnb32 (by omega)).2⟩

/-- Outcomes of an allocation: aborted because the bitmap has no run of the pages needed; NULL, with nothing changed, for a request close to 2^64; or a new block of at least `nb` bytes. (/repo/src/alloc/dlmalloc/malloc.c:1909-1926 and the callers.) -/
def Outcome (cf : Conf) (s : Heap) (L : Lay) (D : List (Nat × Nat)) (env : Nat → Bool) (nb : Nat) (r : Out (Heap × Nat)) : Prop :=
  (r = .noMem ∧ ∃ k, (Bitmap.alloc s.bmp k).2 = none ∧ nb < 4096 * k ∧ 4096 * k ≤ nb + 65632) ∨
  (r = .ok (s, 0) ∧ W ≤ nb + 65632) ∨ ∃ s' a, r = .ok (s', a) ∧ a ≠ 0 ∧ Alloced cf s L D env nb s' a

theorem Outcome.of {cf : Conf} {s : Heap} {L : Lay} {D : List (Nat × Nat)} {env : Nat → Bool} {nb : Nat} {r : Heap × Nat} (ha : r.2 ≠ 0) (h : Alloced cf s L D env nb r.1 r.2) :
    Outcome cf s L D env nb (.ok r) := Or.inr (Or.inr ⟨r.1, r.2, rfl, ha, h⟩)

theorem sysAlloc_ok {cf : Conf} {s : Heap} {L : Lay} {D : List (Nat × Nat)} {env : Nat → Bool} (hi : Inv cf s L D env) {nb : Nat} (hnb16 : nb % 16 = 0 ∨ nb = W - 1) (hnb32 : 32 ≤ nb) (hW : nb < W) :
    Outcome cf s L D env nb (sysAlloc cf s nb) := by
  have hrest : Outcome cf s L D env nb
      (let asize := granAlign (nb + (topFoot + 16))
       if asize ≤ nb then .ok (s, 0) else (mmap cf s asize).bind fun (s, tbase) => growBy s tbase asize nb) := by
    simp only
    have hpa : granAlign (nb + (topFoot + 16)) % 4096 = 0 := by unfold granAlign; omega
    have hpb : nb < granAlign (nb + (topFoot + 16)) → nb + 96 ≤ granAlign (nb + (topFoot + 16)) ∧ granAlign (nb + (topFoot + 16)) ≤ nb + 65631 ∧ nb ≠ W - 1 := by unfold granAlign W topFoot at *; omega
    have hpc : granAlign (nb + (topFoot + 16)) ≤ nb → W ≤ nb + 65632 := by unfold granAlign W topFoot at *; omega
    generalize granAlign (nb + (topFoot + 16)) = mm at hpa hpb hpc
    by_cases hle : mm ≤ nb
    · rw [if_pos hle]; exact Or.inr (Or.inl ⟨rfl, hpc hle⟩)
    · rw [if_neg hle]
      obtain ⟨hb1, hb2, hb3⟩ := hpb (by omega)
      rcases mmap_ok (s := s) hi.regs hpa (by omega) with ⟨h, hno⟩ | ⟨b', a, h, ha0, ha, hreg⟩
      · left; rw [h]; exact ⟨rfl, mm / 4096, hno, by omega, by omega⟩
      · rw [h]
        simp only [Out.bind_ok]
        right; right
        exact growBy_ok hi hpa ha (by rcases hnb16 with h | h; exact h; exact absurd h hb3) hnb32 hb1 (by omega) hreg rfl ha0
  unfold sysAlloc
  simp only at hrest ⊢
  split
  · rcases mmapAlloc_ok hi hW with ⟨h, k, h1, h2, h3⟩ | ⟨h, h1⟩ | ⟨s', a, h, ha, hA⟩
    · rw [h]; exact Or.inl ⟨rfl, k, h1, h2, by omega⟩
    · rw [h]
      simp only [Out.bind_ok]
      rw [if_neg (by simp)]
      exact hrest
    · rw [h]
      simp only [Out.bind_ok]
      rw [if_pos ha]
      exact Or.inr (Or.inr ⟨s', a, rfl, ha, hA⟩)
  · exact hrest

/-- No chunk is as large as the address space. -/
theorem chunk_small {cf : Conf} {s : Heap} {L : Lay} {D : List (Nat × Nat)} {env : Nat → Bool} (hi : Inv cf s L D env) {y : Nat × Ck} (hy : y ∈ flat L) : y.1 + y.2.n < W - 16 := by
  obtain ⟨z, hz, hyz⟩ := List.mem_flatMap.mp hy
  have h1 := addrs_bounds hyz
  have h2 := (hi.ok z hz).fits
  have h3 := hi.low (z.1.base, z.1.size) (List.mem_append_left _ (List.mem_map_of_mem hz))
  have h4 := hi.top64
  simp only at h3
  omega

theorem lastResort_ok {cf : Conf} {s : Heap} {L : Lay} {D : List (Nat × Nat)} {env : Nat → Bool} (hi : Inv cf s L D env) {nb : Nat} (hnb16 : nb % 16 = 0 ∨ nb = W - 1) (hnb32 : 32 ≤ nb) (hW : nb < W) :
    Outcome cf s L D env nb (lastResort cf s nb) := by
  unfold lastResort
  split
  · rename_i h
    have hd : (s.dv, (⟨s.dvsize, .free⟩ : Ck)) ∈ flat L := by
      rcases hi.dv with h' | h'
      · omega
      · exact h'
    have hsm := chunk_small hi hd
    simp only at hsm
    refine Outcome.of ?_ (takeVictim_ok hi (by omega) hnb32 h)
    unfold takeVictim; split <;> simp
  · split
    · rename_i h0 h
      obtain ⟨g, body, L2, rfl, h1, h2, ht, hlp, h16, hp, hmt, hend, hpl⟩ := top_focus hi
      have hsm := chunk_small hi (y := (s.top, ⟨s.topsize, .top⟩)) (by rw [flat_cons]; simp [ht])
      simp only at hsm
      exact Or.inr (Or.inr ⟨_, _, rfl, by simp [takeTop], takeTop_ok hi (by omega) hnb32 h⟩)
    · exact sysAlloc_ok hi hnb16 hnb32 hW

theorem best_mem {l : List (Nat × Nat)} {pick : Nat} {c : Nat × Nat} (h : best l pick = some c) : c ∈ l ∧ ∀ d ∈ l, c.2 ≤ d.2 := by
  unfold best at h
  cases hm : (l.map Prod.snd).min? with
  | none => rw [hm] at h; cases h
  | some m =>
    rw [hm] at h
    simp only at h
    have hc := List.mem_of_getElem? h
    rw [List.mem_filter] at hc
    refine ⟨hc.1, fun d hd => ?_⟩
    have e : c.2 = m := by simpa using hc.2
    rw [e]
    have := List.min?_eq_some_iff.mp hm
    exact this.2 _ (List.mem_map_of_mem hd)

theorem best_none {l : List (Nat × Nat)} {pick : Nat} (h : best l pick = none) : l = [] := by
  unfold best at h
  cases hm : (l.map Prod.snd).min? with
  | none => simpa using hm
  | some m =>
    exfalso
    rw [hm] at h
    simp only at h
    have := List.min?_eq_some_iff.mp hm
    obtain ⟨d, hd, e⟩ := List.mem_map.mp this.1
    have hne : d ∈ l.filter (fun c => c.2 == m) := List.mem_filter.mpr ⟨hd, by simp [e]⟩
    have hpos : 0 < (l.filter (fun c => c.2 == m)).length := List.length_pos_of_mem hne
    rw [List.getElem?_eq_none_iff] at h
    have := Nat.mod_lt pick hpos
    omega

/-- The size of the chunk for a request. (`request2size`, /repo/src/alloc/dlmalloc/malloc.c.) -/
def chunkFor (bytes : Nat) : Nat := if bytes < 23 then 32 else padReq bytes

theorem malloc_ok {cf : Conf} {s : Heap} {L : Lay} {D : List (Nat × Nat)} {env : Nat → Bool} (hi : Inv cf s L D env) (bytes pick : Nat) :
    (bytes < maxRequest → Outcome cf s L D env (chunkFor bytes) (malloc cf s bytes pick)) ∧ (maxRequest ≤ bytes → malloc cf s bytes pick = .ok (s, 0)) := by
  have h32 : 32 ≤ chunkFor bytes := by unfold chunkFor padReq; split <;> omega
  have h16 : chunkFor bytes % 16 = 0 := by unfold chunkFor padReq; split <;> omega
  have hW : bytes < maxRequest → chunkFor bytes < W := by unfold chunkFor padReq maxRequest W; split <;> omega
  have hdvne : ∀ nb c, (takeDv s c nb).2 ≠ 0 := by intro nb c; unfold takeDv; simp only; split <;> simp
  have hbne : ∀ nb c, (takeBin s c nb).2 ≠ 0 := by intro nb c; unfold takeBin; simp only; split <;> simp
  unfold malloc
  split
  · rename_i hsm
    refine ⟨fun hlt => ?_, fun h => absurd h (by unfold maxRequest; omega)⟩
    have hW := hW hlt
    simp only
    change Outcome _ _ _ _ _ _ (match exactFit s (chunkFor bytes) with
      | some c => .ok ({ s with bins := s.bins.erase c, mem := setInuse s.mem c.1 c.2 }, c.1 + 16)
      | none =>
        if chunkFor bytes > s.dvsize then
          match best (s.bins.filter (fun c => chunkFor bytes < c.2 && c.2 < 256)) 0 with
          | some c => .ok (takeDv s c (chunkFor bytes))
          | none =>
            match best (s.bins.filter (fun c => 256 ≤ c.2)) pick with
            | some c => .ok (takeDv s c (chunkFor bytes))
            | none => lastResort cf s (chunkFor bytes)
        else lastResort cf s (chunkFor bytes))
    have hc256 : chunkFor bytes ≤ 256 := by unfold chunkFor padReq; split <;> omega
    generalize chunkFor bytes = nb at *
    cases he : exactFit s nb with
    | some c =>
      simp only
      have hc : c ∈ s.bins ∧ nb ≤ c.2 := by
        unfold exactFit at he
        cases hf : s.bins.find? (fun c => c.2 == nb) with
        | some d =>
          rw [hf] at he; cases he
          exact ⟨List.mem_of_find?_eq_some hf, by have := List.find?_some hf; simp at this; omega⟩
        | none =>
          rw [hf] at he; simp only at he
          exact ⟨List.mem_of_find?_eq_some he, by have := List.find?_some he; simp at this; omega⟩
      exact Or.inr (Or.inr ⟨_, _, rfl, by simp, takeExact_ok hi hc.1 hc.2⟩)
    | none =>
      simp only
      split
      · cases hb : best (s.bins.filter (fun c => nb < c.2 && c.2 < 256)) 0 with
        | some c =>
          simp only
          have hc := (best_mem hb).1
          rw [List.mem_filter] at hc
          exact Outcome.of (hdvne _ _) (takeDv_ok hi hc.1 h16 h32 (by have := hc.2; simp at this; omega))
        | none =>
          simp only
          cases hb2 : best (s.bins.filter (fun c => 256 ≤ c.2)) pick with
          | some c =>
            simp only
            have hc := (best_mem hb2).1
            rw [List.mem_filter] at hc
            exact Outcome.of (hdvne _ _) (takeDv_ok hi hc.1 h16 h32 (by have := hc.2; simp at this; omega))
          | none => exact lastResort_ok hi (Or.inl h16) h32 hW
      · exact lastResort_ok hi (Or.inl h16) h32 hW
  · rename_i hbig
    split
    · rename_i hmax
      refine ⟨fun h => absurd h (by omega), fun _ => ?_⟩
      have hcap : ∀ y ∈ flat L, y.2.n < W - 1 := fun y hy => by have := chunk_small hi hy; omega
      unfold lastResort
      have hd : ¬ W - 1 ≤ s.dvsize := by
        rcases hi.dv with h | h
        · unfold W; omega
        · have := hcap _ h; simp only at this; omega
      rw [if_neg hd]
      have ht : ¬ W - 1 < s.topsize := by
        obtain ⟨g, body, L2, rfl, h1, h2, ht, -⟩ := top_focus hi
        have := hcap (s.top, ⟨s.topsize, .top⟩) (by rw [flat_cons]; simp [ht]); simp only at this; omega
      rw [if_neg ht]
      unfold sysAlloc mmapAlloc
      have e1 : pageAlign (W - 1 + 48 + 15) = 4096 := by unfold pageAlign W; omega
      have e2 : granAlign (W - 1 + (topFoot + 16)) = 65536 := by unfold granAlign W topFoot; omega
      simp only [e1, e2]
      have e3 : ¬ 4096 > W - 1 := by unfold W; omega
      have e4 : 65536 ≤ W - 1 := by unfold W; omega
      rw [if_neg e3, if_pos e4]
      simp
      intro _ _ h; omega
    · rename_i hmax
      refine ⟨fun hlt => ?_, fun h => absurd h (by omega)⟩
      have hW := hW hlt
      have hcf : padReq bytes = chunkFor bytes := by unfold chunkFor; rw [if_neg (by omega)]
      simp only [hcf]
      generalize chunkFor bytes = nb at *
      cases hb : best (s.bins.filter (fun c => 256 ≤ c.2 && nb ≤ c.2)) pick with
      | some c =>
        simp only
        have hc := (best_mem hb).1
        rw [List.mem_filter] at hc
        split
        · exact Outcome.of (hbne _ _) (takeBin_ok hi hc.1 h16 h32 (by have := hc.2; simp at this; omega))
        · exact lastResort_ok hi (Or.inl h16) h32 hW
      | none => exact lastResort_ok hi (Or.inl h16) h32 hW

end Arax.Dl
