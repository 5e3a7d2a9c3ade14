import Verif.Dl.SimTake
/-!
# Simulation: `mspace_malloc`
-/
namespace Arax.Dl
open Arax.Bitmap (bit Bmp)

theorem growBy_sim {cf : Conf} (hc : Small cf) {s s1 : Heap} {L : Lay} {D : List (Nat × Nat)} {env : Nat → Bool} (hi : Inv cf s L D env) {l : Links} (hl : Linked s l) {b' : Bmp} {n a nb : Nat} (hn : n % 4096 = 0)
    (ha : a % 4096 = 0) (hnb16 : nb % 16 = 0) (hnb32 : 32 ≤ nb) (hnb : nb + 96 ≤ n) (hn0 : 4096 ≤ n)
    (hreg : ∀ least', 0 < least' → least' ≤ s.least → least' ≤ a → Regs cf b' least' (s.foot + n) ((a, n) :: regs L D) env) (hs1 : s1 = { s with bmp := b' }) (ha0 : cf.start ≤ a) :
    Sim RelP (growBy s1 a n nb) (LHeap.growBy ⟨bare s1, l⟩ a n nb) := by
  have hlp := hi.lpos
  have hst := hi.start
  subst hs1
  unfold growBy LHeap.growBy
  simp only
  have eA : appendSeg { (bare { s with bmp := b' }) with foot := (bare { s with bmp := b' }).foot + n, maxFoot := max (bare { s with bmp := b' }).maxFoot ((bare { s with bmp := b' }).foot + n) } a =
    appendSeg { s with bmp := b', foot := s.foot + n, maxFoot := max s.maxFoot (s.foot + n) } a := rfl
  rw [eA]
  cases hap : appendSeg { s with bmp := b', foot := s.foot + n, maxFoot := max s.maxFoot (s.foot + n) } a with
  | some g0 =>
    simp only
    refine Sim.ok ?_
    exact fromNewTop_sim (s := initTop { s with bmp := b', foot := s.foot + n, maxFoot := max s.maxFoot (s.foot + n), segs := s.segs.map (fun x => if x.base = g0.base then { x with size := x.size + n } else x) } s.top (s.topsize + n))
      (hl.of rfl rfl hl.lpos (Nat.le_refl _)) nb
  | none =>
    simp only
    have eF : (bare { s with bmp := b' }).segs.find? (fun g => g.base == a + n) = s.segs.find? (fun g => g.base == a + n) := rfl
    rw [eF]
    have hle : 0 < (if a < s.least then a else s.least) ∧ (if a < s.least then a else s.least) ≤ s.least := by split <;> omega
    cases hf : s.segs.find? (fun g => g.base == a + n) with
    | some g =>
      have hgm := List.mem_of_find?_eq_some hf
      have hgb : g.base = a + n := by simpa using List.find?_some hf
      rw [hi.segs] at hgm
      obtain ⟨⟨g', cs⟩, hz, rfl⟩ := List.mem_map.mp hgm
      obtain ⟨L1, L2, rfl⟩ := List.append_of_mem hz
      simp only at hgb ⊢
      obtain ⟨s', m, h1, -, h3⟩ := prependAlloc_ok (mf := max s.maxFoot (s.foot + n)) (least := (if a < s.least then a else s.least)) hi hgb hn ha hnb16 hnb32 (by omega)
        (hreg _ (by split <;> omega) (by split <;> omega) (by split <;> omega)) rfl
      obtain ⟨⟨L', D', p, k, hi', -⟩, -, -⟩ := h3
      exact prependAlloc_sim (s := { s with bmp := b', foot := s.foot + n, maxFoot := max s.maxFoot (s.foot + n), least := (if a < s.least then a else s.least), segs := s.segs.map (fun x => if x.base = g'.base then { x with base := a, size := x.size + n } else x) }) (hl.of rfl rfl hle.1 hle.2)
        (fun t m' e => by rw [h1] at e; cases e; exact ready_of_inv hc hi')
    | none =>
      simp only
      obtain ⟨s', h1, -, h3⟩ := addSegment_ok (mf := max s.maxFoot (s.foot + n)) (least := (if a < s.least then a else s.least)) hi hn hn0 ha
        (hreg _ (by split <;> omega) (by split <;> omega) (by split <;> omega)) rfl
      obtain ⟨⟨L', D', hi', -⟩, -, -⟩ := h3
      refine Sim.bind (rel := Rel) ?_ ?_
      · exact addSegment_sim (s := { s with bmp := b', foot := s.foot + n, maxFoot := max s.maxFoot (s.foot + n), least := (if a < s.least then a else s.least) }) (hl.of rfl rfl hle.1 hle.2)
          (fun t e => by rw [h1] at e; cases e; exact ready_of_inv hc hi')
      · rintro t ⟨bh, bl⟩ e ⟨e1, e2⟩
        simp only at e1 e2
        subst e1
        exact Sim.ok (fromNewTop_sim e2 nb)

theorem sysAlloc_sim {cf : Conf} (hc : Small cf) {s : Heap} {L : Lay} {D : List (Nat × Nat)} {env : Nat → Bool} (hi : Inv cf s L D env) {l : Links} (hl : Linked s l) {nb : Nat} (hnb16 : nb % 16 = 0 ∨ nb = W - 1)
    (hnb32 : 32 ≤ nb) (hW : nb < W) : Sim RelP (sysAlloc cf s nb) (LHeap.sysAlloc cf ⟨bare s, l⟩ nb) := by
  have hrest : Sim RelP
      (let asize := granAlign (nb + (topFoot + 16))
       if asize ≤ nb then .ok (s, 0) else (mmap cf s asize).bind fun (s, tbase) => growBy s tbase asize nb)
      (let asize := granAlign (nb + (topFoot + 16))
       if asize ≤ nb then .ok (⟨bare s, l⟩, 0) else (mmap cf (bare s) asize).bind fun (h, tbase) => LHeap.growBy ⟨h, l⟩ tbase asize nb) := by
    simp only
    have hpa : granAlign (nb + (topFoot + 16)) % 4096 = 0 := by unfold granAlign; omega
    have hpb : nb < granAlign (nb + (topFoot + 16)) → nb + 96 ≤ granAlign (nb + (topFoot + 16)) ∧ granAlign (nb + (topFoot + 16)) ≤ nb + 65631 ∧ nb ≠ W - 1 := by unfold granAlign W topFoot at *; omega
    generalize granAlign (nb + (topFoot + 16)) = mm at hpa hpb
    by_cases hle : mm ≤ nb
    · rw [if_pos hle, if_pos hle]; exact Sim.ok ⟨⟨rfl, hl⟩, rfl⟩
    · rw [if_neg hle, if_neg hle]
      obtain ⟨hb1, hb2, hb3⟩ := hpb (by omega)
      rw [mmap_bare]
      rcases mmap_ok (s := s) hi.regs hpa (by omega) with ⟨h, hno⟩ | ⟨b', a, h, ha0, ha, hreg⟩
      · rw [h]; rfl
      · rw [h]
        simp only [Out.bind_ok]
        exact growBy_sim hc hi hl hpa ha (by rcases hnb16 with h | h; exact h; exact absurd h hb3) hnb32 hb1 (by omega) hreg rfl ha0
  unfold sysAlloc LHeap.sysAlloc
  simp only at hrest ⊢
  by_cases hb : nb ≥ 262144 ∧ s.topsize ≠ 0
  · rw [if_pos hb, if_pos (show nb ≥ 262144 ∧ (bare s).topsize ≠ 0 from hb)]
    refine Sim.bind (mmapAlloc_sim hl nb hi.start.2) ?_
    rintro ⟨t, m⟩ ⟨t', m'⟩ e ⟨e1, e2, e3⟩
    simp only at e1 e2 e3 ⊢
    rw [e1, e3]
    by_cases hm : m ≠ 0
    · rw [if_pos hm, if_pos hm]; exact Sim.ok ⟨⟨rfl, e2⟩, rfl⟩
    · rw [if_neg hm, if_neg hm]
      have ht : t = s := by
        rcases mmapAlloc_ok hi hW with ⟨h, -⟩ | ⟨h, -⟩ | ⟨s', a, h, ha, -⟩
        · rw [h] at e; cases e
        · rw [h] at e; cases e; rfl
        · rw [h] at e; cases e; exact absurd ha hm
      subst ht
      exact hrest
  · rw [if_neg hb, if_neg (show ¬ (nb ≥ 262144 ∧ (bare s).topsize ≠ 0) from hb)]
    exact hrest

theorem lastResort_sim {cf : Conf} (hc : Small cf) {s : Heap} {L : Lay} {D : List (Nat × Nat)} {env : Nat → Bool} (hi : Inv cf s L D env) {l : Links} (hl : Linked s l) {nb : Nat} (hnb16 : nb % 16 = 0 ∨ nb = W - 1)
    (hnb32 : 32 ≤ nb) (hW : nb < W) : Sim RelP (lastResort cf s nb) (LHeap.lastResort cf ⟨bare s, l⟩ nb) := by
  unfold lastResort LHeap.lastResort
  show Sim RelP _ (if nb ≤ s.dvsize then _ else if nb < s.topsize then _ else _)
  split
  · exact Sim.ok (takeVictim_sim hl nb)
  · split
    · exact Sim.ok (takeTop_sim hl nb)
    · exact sysAlloc_sim hc hi hl hnb16 hnb32 hW

/-! ## Which chunk -/

theorem best_of {l : List (Nat × Nat)} {c : Nat × Nat} (hc : c ∈ l) (hm : ∀ d ∈ l, c.2 ≤ d.2) : ∃ pick, best l pick = some c := by
  have hmin : (l.map Prod.snd).min? = some c.2 := by
    rw [List.min?_eq_some_iff]
    exact ⟨List.mem_map_of_mem hc, fun b hb => by obtain ⟨d, hd, rfl⟩ := List.mem_map.mp hb; exact hm d hd⟩
  have hcf : c ∈ l.filter (fun d => d.2 == c.2) := List.mem_filter.mpr ⟨hc, by simp⟩
  obtain ⟨i, hi, e⟩ := List.mem_iff_getElem.mp hcf
  refine ⟨i, ?_⟩
  unfold best
  rw [hmin]
  simp only
  rw [Nat.mod_eq_of_lt hi, List.getElem?_eq_getElem hi, e]

theorem best_nil {l : List (Nat × Nat)} (h : l = []) (pick : Nat) : best l pick = none := by subst h; rfl

/-- The first chunk of a small bin is the first of its size in the list. -/
theorem first_small {c : Ctx} {l : Links} {bins : List (Nat × Nat)} (h : BinsOK c l bins) {i : Nat} (hi : i < 32) (hb : l.smallmap.getLsbD i = true) :
    bins.find? (fun x => x.2 == 8 * i) = some (l.fd (c.sbin i), 8 * i) := by
  obtain ⟨s1, s2⟩ := h.small i hi
  have hne := s1.mp hb
  have hring := s2 hne
  have hfil : (fun x : Nat × Nat => decide (x.2 < 256) && decide (x.2 / 8 = i)) = fun x => decide (x.2 < 256) && decide (x.2 / 8 = i) := rfl
  have hsub : ∀ x ∈ bins, (decide (x.2 < 256) && decide (x.2 / 8 = i)) = (x.2 == 8 * i) := by
    intro x hx
    have f := h.ok x hx
    have := f.mul
    rw [Bool.eq_iff_iff]
    simp only [Bool.and_eq_true, decide_eq_true_eq, beq_iff_eq]
    omega
  have hsm : smalls bins i = (bins.filter fun x => x.2 == 8 * i).map Prod.fst := by
    unfold smalls
    rw [List.filter_congr hsub]
  rw [hsm] at hne hring
  have hfind : bins.find? (fun x => x.2 == 8 * i) = (bins.filter fun x => x.2 == 8 * i).head? := by rw [List.head?_filter]
  rw [hfind]
  cases hf : bins.filter (fun x => x.2 == 8 * i) with
  | nil => rw [hf] at hne; simp at hne
  | cons y ys =>
    rw [hf] at hring
    have hy : y ∈ bins.filter (fun x => x.2 == 8 * i) := by rw [hf]; simp
    have hy2 : y.2 = 8 * i := by simpa using (List.mem_filter.mp hy).2
    have hfd : l.fd (c.sbin i) = y.1 := hring.2.1
    rw [hfd, ← hy2]; rfl

theorem no_small {c : Ctx} {l : Links} {bins : List (Nat × Nat)} (h : BinsOK c l bins) {i : Nat} (hi : i < 32) (hb : l.smallmap.getLsbD i = false) : ∀ x ∈ bins, x.2 < 256 → x.2 / 8 ≠ i := by
  intro x hx hlt e
  have := (h.small i hi).1.mpr (List.ne_nil_of_mem (mem_smalls.mpr ⟨x.2, hx, hlt, e⟩))
  rw [hb] at this; cases this

theorem unlinkFirst_sim {s : Heap} {l : Links} (hl : Linked s l) (hr : Ready s) {i : Nat} (hi : i < 32) (hb : l.smallmap.getLsbD i = true) :
    ∃ p l', LHeap.unlinkFirst ⟨bare s, l⟩ i = .ok (⟨bare s, l'⟩, p) ∧ (p, 8 * i) ∈ s.bins ∧ s.bins.find? (fun x => x.2 == 8 * i) = some (p, 8 * i) ∧ Linked { s with bins := s.bins.erase (p, 8 * i) } l' := by
  have hB := hl.bins hr
  have hf := first_small hB hi hb
  have hin := List.mem_of_find?_eq_some hf
  obtain ⟨n, m1, m2, m3, m4⟩ := unlinkFirst_eq hB hi hb
  have hn : n = 8 * i := pair_unique hB.nd m1 hin
  rw [hn] at m4
  obtain ⟨l', g1, g2⟩ := unlink_sim hl hin
  refine ⟨_, l', ?_, hin, hf, g2⟩
  unfold LHeap.unlinkFirst
  simp only
  unfold LHeap.unlink at g1
  have hctx : LHeap.ctx ⟨bare s, l⟩ = s.ctx := rfl
  rw [hctx] at g1 ⊢
  rw [m4]
  cases hu : l.unlink s.ctx (l.fd (s.ctx.sbin i)) (8 * i) with
  | ok l2 => rw [hu] at g1; simp only [Out.bind_ok, Out.ok.injEq, LHeap.mk.injEq] at g1 ⊢; rw [g1.2]
  | noMem => rw [hu] at g1; cases g1
  | corrupt => rw [hu] at g1; cases g1

end Arax.Dl
