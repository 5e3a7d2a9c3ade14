import Verif.Dl.Grow2
/-!
# A larger segment: pages before it
-/
namespace Arax.Dl
open Arax.Bitmap (bit Bmp Took Released)

/-- The regions after pages have been put before a segment. -/
theorem regs_prepend {cf : Conf} {b' : Bmp} {least foot n a : Nat} {L1 L2 : Lay} {g : Seg} {cs cs' : List Ck} {D : List (Nat × Nat)} {env : Nat → Bool} (hg : g.base = a + n)
    (hreg : Regs cf b' least foot ((a, n) :: regs (L1 ++ (g, cs) :: L2) D) env) :
    Regs cf b' least foot (regs (L1 ++ ({ g with base := a, size := g.size + n }, cs') :: L2) D) env := by
  have h1 := hreg.perm ((regs_mid L1 L2 g cs D).cons (a, n))
  rw [hg] at h1
  have h2 := h1.merge
  refine h2.perm ?_
  have := regs_mid L1 L2 { g with base := a, size := g.size + n } cs' D
  simp only at this
  rw [Nat.add_comm n]
  exact this.symm

/-- Words of old blocks that pages put before a segment do not touch. -/
theorem prepend_kept {cf : Conf} {s : Heap} {L1 L2 : Lay} {g : Seg} {mid ys : List Ck} {D : List (Nat × Nat)} {env : Nat → Bool} (hi : Inv cf s (L1 ++ (g, mid ++ ys) :: L2) D env)
    {b' : Bmp} {least foot n a : Nat} (hg : g.base = a + n) (hreg : Regs cf b' least foot ((a, n) :: regs (L1 ++ (g, mid ++ ys) :: L2) D) env)
    (hu : ∀ c ∈ mid, c.k ≠ .used) {p k : Nat} (h : Blk (L1 ++ (g, mid ++ ys) :: L2) D p k) {x : Nat} (hx : p + 16 ≤ x) (hx' : x < p + k + 8) :
    (x < a ∨ a + n + sz mid + 16 ≤ x) := by
  have hap := (List.pairwise_cons.mp hreg.disj).1
  have hfit := (hi.ok (g, mid ++ ys) (by simp)).fits
  rcases h with h | h
  · have h0 : (p, (⟨k, .used⟩ : Ck)) ∈ flat (L1 ++ (g, [] ++ mid ++ ys) :: L2) := h
    rcases (mem_focus L1 g [] mid ys L2 _).mp h0 with h' | h'
    · simp only [around, List.mem_append, addrs_nil, List.not_mem_nil, or_false] at h'
      have hother : ∀ z : Seg × List Ck, z ∈ L1 ∨ z ∈ L2 → (p, (⟨k, .used⟩ : Ck)) ∈ addrs z.1.base z.2 → (x < a ∨ a + n + sz mid + 16 ≤ x) := by
        intro z hz hyz
        have hb := addrs_bounds hyz
        have hf := (hi.ok z (by rcases hz with h | h <;> simp [h])).fits
        have h1 := hap (z.1.base, z.1.size) (by unfold regs; simp only [List.map_append, List.map_cons, List.mem_append, List.mem_cons]; rcases hz with h | h
                                                · exact Or.inl (Or.inl (List.mem_map_of_mem h))
                                                · exact Or.inl (Or.inr (Or.inr (List.mem_map_of_mem h))))
        have h2 := seg_apart hi hz
        simp only [Apart, sz_append] at h1 h2 hb hfit
        omega
      rcases h' with (h' | h') | h'
      · obtain ⟨z, hz, hyz⟩ := List.mem_flatMap.mp h'
        exact hother z (Or.inl hz) hyz
      · have := addrs_bounds h'
        simp only [sz_nil] at this; omega
      · obtain ⟨z, hz, hyz⟩ := List.mem_flatMap.mp h'
        exact hother z (Or.inr hz) hyz
    · exfalso
      obtain ⟨as, bs, e, -⟩ := addrs_split h'
      exact hu ⟨k, .used⟩ (by rw [e]; simp) rfl
  · have h1 := hap (p, k + 40) (by unfold regs; simp [h])
    have h2 := dir_apart hi (x := (g, mid ++ ys)) (by simp) h
    simp only [Apart, sz_append] at h1 h2 hfit
    omega

/-- Blocks after a stretch at the start of a segment has been replaced by a longer one. -/
theorem blk_prepend {L1 L2 : Lay} {g : Seg} {mid mid' ys : List Ck} {D : List (Nat × Nat)} {a n p k0 : Nat} (hg : g.base = a + n) (hsz : sz mid' = n + sz mid)
    (h1 : ∀ q k, (q, (⟨k, .used⟩ : Ck)) ∉ addrs g.base mid) (h2 : ∀ q k, (q, (⟨k, .used⟩ : Ck)) ∈ addrs a mid' ↔ q = p ∧ k = k0) (q k : Nat) :
    Blk (L1 ++ ({ g with base := a, size := g.size + n }, mid' ++ ys) :: L2) D q k ↔ Blk (L1 ++ (g, mid ++ ys) :: L2) D q k ∨ (q = p ∧ k = k0) := by
  have e1 := mem_focus L1 g [] mid ys L2 (q, ⟨k, .used⟩)
  have e2 := mem_focus L1 { g with base := a, size := g.size + n } [] mid' ys L2 (q, ⟨k, .used⟩)
  simp only [List.nil_append, sz_nil, Nat.add_zero] at e1 e2
  have e3 : around L1 { g with base := a, size := g.size + n } [] mid' ys L2 = around L1 g [] mid ys L2 := by
    unfold around; simp only [sz_nil, Nat.add_zero, addrs_nil, hsz, hg, Nat.add_assoc]
  unfold Blk
  rw [e1, e2, e3, h2]
  have := h1 q k
  grind

theorem not_blk_prepend {cf : Conf} {s : Heap} {L : Lay} {D : List (Nat × Nat)} {env : Nat → Bool} (hi : Inv cf s L D env) {b' : Bmp} {least foot n a nb : Nat} (hn : 0 < n)
    (hreg : Regs cf b' least foot ((a, n) :: regs L D) env) : ¬ Blk L D a nb := by
  intro h
  obtain ⟨r, hr, h1, h2⟩ := blk_reg hi h
  have := (List.pairwise_cons.mp hreg.disj).1 r hr
  simp only [Apart] at this; omega

/-- The remainder of the new pages is a free chunk. -/
theorem prepend_free {cf : Conf} {s s' : Heap} {L1 L2 : Lay} {g : Seg} {mid ys : List Ck} {c0 : Ck} {D : List (Nat × Nat)} {env : Nat → Bool} (hi : Inv cf s (L1 ++ (g, mid ++ c0 :: ys) :: L2) D env)
    (hmid : mid = [] ∨ ∃ k, mid = [⟨k, .free⟩]) (hlv : c0.k.live = true) {b' : Bmp} {n a nb least : Nat} (hg : g.base = a + n) (hn : n % 4096 = 0) (ha : a % 4096 = 0) (hnb16 : nb % 16 = 0) (hnb32 : 32 ≤ nb)
    (hnb : nb + 32 ≤ n) (hreg : Regs cf b' least (s.foot + n) ((a, n) :: regs (L1 ++ (g, mid ++ c0 :: ys) :: L2) D) env)
    (hm : ∀ x, x ≠ a + 8 → x ≠ a + nb + 8 → x ≠ a + n + sz mid → x ≠ a + n + sz mid + 8 → s'.mem x = s.mem x)
    (hm1 : s'.mem (a + 8) = nb + 3) (hm2 : s'.mem (a + nb + 8) = n - nb + sz mid + 1) (hm3 : s'.mem (a + n + sz mid) = n - nb + sz mid) (hm4 : s'.mem (a + n + sz mid + 8) = enc c0 false)
    (e : s'.top = s.top ∧ s'.topsize = s.topsize ∧ s'.mst = s.mst ∧ s'.bmp = b' ∧ s'.foot = s.foot + n ∧ s'.least = least ∧ s'.trim = s.trim ∧
      s'.segs = s.segs.map (fun x => if x.base = g.base then { x with base := a, size := x.size + n } else x))
    (hb : ∀ q k, (q, k) ∈ s'.bins ↔ ((IsFree s q k ∧ ¬ (g.base ≤ q ∧ q < g.base + sz mid)) ∨ (q = a + nb ∧ k = n - nb + sz mid)) ∧ q ≠ s'.dv) (hnd : s'.bins.Nodup)
    (hdv : (s'.dv = 0 ∧ s'.dvsize = 0) ∨ (IsFree s s'.dv s'.dvsize ∧ ¬ (g.base ≤ s'.dv ∧ s'.dv < g.base + sz mid)) ∨ (s'.dv = a + nb ∧ s'.dvsize = n - nb + sz mid)) :
    Alloced cf s (L1 ++ (g, mid ++ c0 :: ys) :: L2) D env nb s' (a + 16) := by
  obtain ⟨e1, e2, e3, e4, e5, e6, e7, e8⟩ := e
  have hrec : s'.hrec = s.hrec := by unfold Heap.hrec; rw [e3]
  have hk := hi.ok (g, mid ++ c0 :: ys) (by simp)
  simp only at hk
  have hfit := hk.fits
  have hu : ∀ c ∈ mid, c.k ≠ .used := by rcases hmid with rfl | ⟨k, rfl⟩ <;> simp
  have hu2 : ∀ q k, (q, (⟨k, .used⟩ : Ck)) ∉ addrs g.base mid := by
    intro q k h
    obtain ⟨as, bs, e, -⟩ := addrs_split h
    exact hu ⟨k, .used⟩ (by rw [e]; simp) rfl
  have hsm : sz mid % 16 = 0 := by
    have hc := hk.chain
    rcases hmid with rfl | ⟨k, rfl⟩
    · rfl
    · have := hc.1.mul; simpa using this
  have hfr := around_free (xs := []) hi
  simp only [sz_nil, Nat.add_zero] at hfr
  have hmf : ∀ y, y ∈ flat (L1 ++ ({ g with base := a, size := g.size + n }, [⟨nb, .used⟩, ⟨n - nb + sz mid, .free⟩] ++ c0 :: ys) :: L2) ↔
      y ∈ around L1 g [] mid (c0 :: ys) L2 ∨ y ∈ addrs a [⟨nb, .used⟩, ⟨n - nb + sz mid, .free⟩] := by
    intro y
    have := mem_focus L1 { g with base := a, size := g.size + n } [] [⟨nb, .used⟩, ⟨n - nb + sz mid, .free⟩] (c0 :: ys) L2 y
    simp only [List.nil_append, sz_nil, Nat.add_zero] at this
    rw [this]
    have e3 : around L1 { g with base := a, size := g.size + n } [] [⟨nb, .used⟩, ⟨n - nb + sz mid, .free⟩] (c0 :: ys) L2 = around L1 g [] mid (c0 :: ys) L2 := by
      unfold around; simp only [sz_cons, sz_nil, Nat.add_zero, addrs_nil, hg]
      rw [show a + (nb + (n - nb + sz mid)) = a + n + sz mid by omega]
    rw [e3]
  have hc := hk.chain
  rw [chain_append] at hc
  obtain ⟨-, hc3, hc4⟩ := hc
  have hp0 := hc3.pos
  simp only [sz_append, sz_cons] at hfit
  refine ⟨⟨L1 ++ ({ g with base := a, size := g.size + n }, [⟨nb, .used⟩, ⟨n - nb + sz mid, .free⟩] ++ c0 :: ys) :: L2, D, a, nb, ?_, rfl, Nat.le_refl _, ?_, ?_, ?_⟩, e3, fun x h h' => by
    have h1 := hreg.not_env List.mem_cons_self h h'
    have h2 := seg_not_env hi (z := (g, mid ++ c0 :: ys)) (by simp) h h'
    simp only [sz_append, sz_cons] at h1 h2 hfit
    exact hm x (by omega) (by omega) (by omega) (by omega)⟩
  · refine inv_reseg (g' := { g with base := a, size := g.size + n }) hi ?_ ?_ rfl e3 (by rw [e7]; exact hi.trim) ?_ ⟨ha, ?_, ?_, ?_, ?_⟩ (fun _ _ _ => ⟨e1, e2⟩) ?_ hnd ?_ ?_
    · rw [e4, e5, e6]; exact regs_prepend hg hreg
    · rw [e8]; exact segs_map hi (fun x => { x with base := a, size := x.size + n }) _
    · intro x hx; simp only at hx; exact hm x (by omega) (by omega) (by omega) (by omega)
    · have := hk.size; simp only; omega
    · simp only [List.cons_append, List.nil_append, chain_cons]
      refine ⟨⟨?_, by simp, hnb16, by simp only; omega, fun _ => hnb32, by simp⟩, ⟨?_, ?_, by simp only; omega, by simp only; omega, fun _ => by simp only; omega, by simp [Ck.pin]⟩, ⟨?_, ?_, hc3.mul, hc3.pos, hc3.min, fun _ => hlv⟩, ?_⟩
      · (try simp only); rw [hm1]; simp [enc, Kind.live]
      · (try simp only); rw [hm2]; simp [enc, Kind.live, Ck.pin]
      · intro _; simp only; rw [show a + nb + (n - nb + sz mid) = a + n + sz mid by omega]; exact hm3
      · (try simp only); rw [show a + nb + (n - nb + sz mid) = a + n + sz mid by omega, hm4]; simp [Ck.pin]
      · intro h
        rw [show a + nb + (n - nb + sz mid) = a + n + sz mid by omega, hm _ (by omega) (by omega) (by omega) (by omega), ← hg]; exact hc3.foot h
      · (try simp only); rw [show a + nb + (n - nb + sz mid) = g.base + sz mid by omega]
        exact chain_frame hc4 fun x h1 h2 => hm x (by omega) (by omega) (by omega) (by omega)
    · obtain ⟨bd, h1, h2⟩ := hk.body
      rw [hrec, e2]
      simp only
      rcases hmid with rfl | ⟨k, rfl⟩
      · refine ⟨[⟨nb, .used⟩, ⟨n - nb + sz [], .free⟩] ++ bd, ?_, ?_⟩
        · have h1 : c0 :: ys = bd ++ _ := h1
          rw [h1]; simp
        · intro c hc; simp only [List.cons_append, List.nil_append, List.mem_cons] at hc
          rcases hc with rfl | rfl | hc
          · simp
          · simp
          · exact h2 c hc
      · cases bd with
        | nil => simp at h1
        | cons b bd =>
          simp only [List.cons_append, List.nil_append, List.cons.injEq] at h1
          refine ⟨[⟨nb, .used⟩, ⟨n - nb + sz [⟨k, .free⟩], .free⟩] ++ bd, ?_, ?_⟩
          · have h1 : c0 :: ys = bd ++ _ := h1.2
            rw [h1]; simp
          · intro c hc; simp only [List.cons_append, List.nil_append, List.mem_cons] at hc
            rcases hc with rfl | rfl | hc
            · simp
            · simp
            · exact h2 c (by simp [hc])
    · have hl := hk.lim
      rw [hrec, e1, e2]
      simp only [sz_append, sz_cons, sz_nil] at hl ⊢
      split at hl
      · rename_i h; rw [if_pos h]; omega
      · rename_i h; rw [if_neg h]
        have hp := hc3.pos
        refine ⟨by omega, by omega, ?_, by omega⟩
        rw [hm _ (by omega) (by omega) (by omega) (by omega)]; exact hl.2.2.1
    · intro q k; rw [hb, hmf, hfr]; simp only [IsFree]; simp
    · rw [hmf, hfr]
      rcases hdv with h | h | ⟨h, h'⟩
      · exact Or.inl h
      · exact Or.inr (Or.inl h)
      · right; right; rw [h, h']; simp
    · rw [hmf, e3]
      rcases (mem_focus L1 g [] mid (c0 :: ys) L2 _).mp hi.mst with h | h
      · exact Or.inl h
      · exact absurd h (by simpa using hu2 _ _)
  · exact blk_prepend hg (by simp; omega) hu2 (by intro q k; simp)
  · exact not_blk_prepend hi (by omega) hreg
  · intro p k h _ x hx hx'
    have := prepend_kept hi hg hreg hu h hx hx'
    exact hm x (by omega) (by omega) (by omega) (by omega)

/-- The remainder of the new pages joins the top, which was the whole segment. -/
theorem prepend_top {cf : Conf} {s s' : Heap} {L2 : Lay} {g : Seg} {D : List (Nat × Nat)} {env : Nat → Bool} (hi : Inv cf s ((g, [⟨s.topsize, .top⟩]) :: L2) D env)
    (hlk : g.link = s.hrec) (hL2 : ∀ y ∈ L2, y.1.link ≠ s.hrec) {b' : Bmp} {n a nb least : Nat} (hg : g.base = a + n) (hn : n % 4096 = 0) (ha : a % 4096 = 0) (hnb16 : nb % 16 = 0) (hnb32 : 32 ≤ nb)
    (hnb : nb + 32 ≤ n) (hreg : Regs cf b' least (s.foot + n) ((a, n) :: regs ((g, [⟨s.topsize, .top⟩]) :: L2) D) env)
    (hm : ∀ x, x ≠ a + 8 → x ≠ a + nb + 8 → s'.mem x = s.mem x)
    (hm1 : s'.mem (a + 8) = nb + 3) (hm2 : s'.mem (a + nb + 8) = s.topsize + (n - nb) + 1)
    (e : s'.top = a + nb ∧ s'.topsize = s.topsize + (n - nb) ∧ s'.mst = s.mst ∧ s'.bmp = b' ∧ s'.foot = s.foot + n ∧ s'.least = least ∧ s'.trim = s.trim ∧
      s'.segs = s.segs.map (fun x => if x.base = g.base then { x with base := a, size := x.size + n } else x) ∧ s'.bins = s.bins ∧ s'.dv = s.dv ∧ s'.dvsize = s.dvsize) :
    Alloced cf s ((g, [⟨s.topsize, .top⟩]) :: L2) D env nb s' (a + 16) := by
  obtain ⟨e1, e2, e3, e4, e5, e6, e7, e8, e9, e10, e11⟩ := e
  have hrec : s'.hrec = s.hrec := by unfold Heap.hrec; rw [e3]
  have hk := hi.ok _ List.mem_cons_self
  simp only at hk
  have hfit := hk.fits
  have hfl : ∀ y : Nat × Ck, y.2.k ≠ .top → (y ∈ flat (({ g with base := a, size := g.size + n }, [⟨nb, .used⟩, ⟨s.topsize + (n - nb), .top⟩]) :: L2) ↔
      y ∈ flat ((g, [⟨s.topsize, .top⟩]) :: L2) ∨ y = (a, (⟨nb, .used⟩ : Ck))) := by
    intro y hy
    have h1 : ∀ k q, y ≠ (q, (⟨k, .top⟩ : Ck)) := fun k q h => hy (by rw [h])
    rw [flat_cons, flat_cons]
    simp only [addrs_cons, addrs_nil, List.mem_append, List.mem_cons, List.not_mem_nil, or_false, h1, false_or]
    exact or_comm
  have hc := hk.chain
  obtain ⟨hc1, -⟩ := hc
  have h16 := hc1.mul
  have hp := hc1.pos
  simp only [sz_cons, sz_nil] at hfit h16 hp
  refine ⟨⟨({ g with base := a, size := g.size + n }, [⟨nb, .used⟩, ⟨s.topsize + (n - nb), .top⟩]) :: L2, D, a, nb, ?_, rfl, Nat.le_refl _, ?_, ?_, ?_⟩, e3, fun x h h' => by
    have h1 := hreg.not_env List.mem_cons_self h h'
    simp only at h1
    exact hm x (by omega) (by omega)⟩
  · refine inv_reseg (L1 := []) (g' := { g with base := a, size := g.size + n }) hi ?_ ?_ rfl e3 (by rw [e7]; exact hi.trim) ?_ ⟨ha, ?_, ?_, ?_, ?_⟩ ?_ ?_ (by rw [e9]; exact hi.bnd) ?_ ?_
    · rw [e4, e5, e6]; exact regs_prepend (L1 := []) hg hreg
    · rw [e8]; exact segs_map (L1 := []) hi (fun x => { x with base := a, size := x.size + n }) _
    · intro x hx; simp only at hx; exact hm x (by omega) (by omega)
    · have := hk.size; simp only; omega
    · simp only [chain_cons]
      refine ⟨⟨?_, by simp, hnb16, by simp only; omega, fun _ => hnb32, by simp⟩, ⟨?_, by simp, by simp only; omega, by simp only; omega, by simp, by simp [Ck.pin]⟩, trivial⟩
      · (try simp only); rw [hm1]; simp [enc, Kind.live]
      · (try simp only); rw [hm2]; simp [enc, Kind.live, Ck.pin]
    · rw [hrec]; simp only [if_pos hlk]; rw [e2]; exact ⟨[⟨nb, .used⟩], rfl, by simp⟩
    · have hl := hk.lim
      rw [if_pos hlk] at hl
      rw [hrec]; simp only [if_pos hlk]; rw [e1, e2]
      simp only [sz_cons, sz_nil] at hl ⊢
      omega
    · intro x hx h
      rcases hx with hx | hx
      · cases hx
      · exact absurd h (hL2 x hx)
    · intro q k; rw [List.nil_append, hfl _ (by simp), e9, e10, hi.bins]; simp
    · rw [List.nil_append, hfl _ (by simp), e10, e11]
      rcases hi.dv with h | h
      · exact Or.inl h
      · exact Or.inr (Or.inl h)
    · rw [List.nil_append, hfl _ (by simp), e3]; exact Or.inl hi.mst
  · intro q k
    unfold Blk
    rw [hfl _ (by simp)]
    simp only [Prod.mk.injEq, Ck.mk.injEq, and_true]
    grind
  · exact not_blk_prepend hi (by omega) hreg
  · intro p k h _ x hx hx'
    have := prepend_kept (L1 := []) (mid := []) hi hg hreg (by simp) h hx hx'
    exact hm x (by omega) (by omega)

end Arax.Dl
