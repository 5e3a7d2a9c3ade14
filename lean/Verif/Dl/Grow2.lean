import Verif.Dl.Grow
/-!
# A larger segment: `sys_alloc` next to a segment
-/
namespace Arax.Dl
open Arax.Bitmap (bit Bmp Took Released)

theorem regs_mid (L1 L2 : Lay) (g : Seg) (cs : List Ck) (D : List (Nat × Nat)) : (regs (L1 ++ (g, cs) :: L2) D).Perm ((g.base, g.size) :: regs (L1 ++ L2) D) := by
  unfold regs
  rw [List.map_append, List.map_cons, List.map_append, List.append_assoc, List.append_assoc]
  exact List.perm_middle

/-- Changing one segment by its base. -/
theorem segs_map {cf : Conf} {s : Heap} {L1 L2 : Lay} {g : Seg} {cs : List Ck} {D : List (Nat × Nat)} {env : Nat → Bool} (hi : Inv cf s (L1 ++ (g, cs) :: L2) D env) (f : Seg → Seg) (cs' : List Ck) :
    s.segs.map (fun x => if x.base = g.base then f x else x) = (L1 ++ (f g, cs') :: L2).map Prod.fst := by
  rw [hi.segs]
  have hne : ∀ x, x ∈ L1 ∨ x ∈ L2 → x.1.base ≠ g.base := by
    intro x hx e
    have hap := seg_apart hi hx
    have h1 := (hi.ok x (by rcases hx with h | h <;> simp [h])).fits
    have h2 := (hi.ok (g, cs) (by simp)).fits
    rcases hap with h | h <;> simp only at h h1 h2 <;> omega
  have key : ∀ l : Lay, (∀ x ∈ l, x.1.base ≠ g.base) → (l.map Prod.fst).map (fun x => if x.base = g.base then f x else x) = l.map Prod.fst := by
    intro l hl
    rw [List.map_map]
    apply List.map_congr_left
    intro x hx
    simp [hl x hx]
  rw [List.map_append, List.map_cons, List.map_append, List.map_cons, key L1 (fun x hx => hne x (Or.inl hx)), key L2 (fun x hx => hne x (Or.inr hx))]
  simp

/-- The segment that holds the top is the first. -/
theorem holds_top {cf : Conf} {s : Heap} {L2 : Lay} {g : Seg} {body : List Ck} {D : List (Nat × Nat)} {env : Nat → Bool} (hi : Inv cf s ((g, body ++ [⟨s.topsize, .top⟩]) :: L2) D env)
    (ht : s.top = g.base + sz body) (hend : s.top + s.topsize + 80 = g.base + g.size) {g0 : Seg} (hg : g0 ∈ s.segs) (hh : g0.holds s.top = true) : g0 = g := by
  rw [hi.segs] at hg
  obtain ⟨z, hz, rfl⟩ := List.mem_map.mp hg
  rcases List.mem_cons.mp hz with rfl | hz
  · rfl
  · exfalso
    have hap := seg_apart (L1 := []) hi (Or.inr hz)
    unfold Seg.holds at hh
    simp only [Bool.and_eq_true, decide_eq_true_eq] at hh
    rcases hap with h | h <;> simp only at h <;> omega

/-- More pages after the segment that holds the top. -/
theorem append_core {cf : Conf} {s s' : Heap} {L2 : Lay} {g : Seg} {body : List Ck} {D : List (Nat × Nat)} {env : Nat → Bool} (hi : Inv cf s ((g, body ++ [⟨s.topsize, .top⟩]) :: L2) D env)
    (ht : s.top = g.base + sz body) (hlp : lastPin true body = true) (hend : s.top + s.topsize + 80 = g.base + g.size) (h16 : s.topsize % 16 = 0) (hp16 : 16 ≤ s.topsize) (hlk : g.link = s.hrec)
    {b' : Bmp} {n : Nat} (hn : n % 4096 = 0)
    (hreg : Regs cf b' s.least (s.foot + n) ((g.base + g.size, n) :: regs ((g, body ++ [⟨s.topsize, .top⟩]) :: L2) D) env)
    (hmem : s'.mem = put (put s.mem (s.top + 8) (s.topsize + n + 1)) (s.top + (s.topsize + n) + 8) topFoot)
    (e : s'.hrec = s.hrec ∧ s'.top = s.top ∧ s'.topsize = s.topsize + n ∧ s'.bins = s.bins ∧ s'.dv = s.dv ∧ s'.dvsize = s.dvsize ∧ s'.mst = s.mst ∧ s'.bmp = b' ∧ s'.foot = s.foot + n ∧ s'.least = s.least ∧
      s'.trim = 2097152 ∧ s'.segs = s.segs.map (fun x => if x.base = g.base then { x with size := x.size + n } else x)) :
    Tidy cf s ((g, body ++ [⟨s.topsize, .top⟩]) :: L2) D env s' := by
  have hk := hi.ok _ (List.mem_cons_self)
  simp only at hk
  obtain ⟨e1, e2, e3, e4, e5, e6, e7, e8, e9, e10, e11, e12⟩ := e
  have hm : ∀ x, x ≠ s.top + 8 → x ≠ s.top + s.topsize + n + 8 → s'.mem x = s.mem x := by
    intro x h1 h2; rw [hmem, put_other _ _ (by omega), put_other _ _ h1]
  have hm1 : s'.mem (s.top + 8) = s.topsize + n + 1 := by rw [hmem, put_other _ _ (by omega), put_same]
  have hfl : ∀ y : Nat × Ck, y.2.k ≠ .top → (y ∈ flat (({ g with size := g.size + n }, body ++ [⟨s.topsize + n, .top⟩]) :: L2) ↔ y ∈ flat ((g, body ++ [⟨s.topsize, .top⟩]) :: L2)) := by
    intro y hy
    rw [flat_cons, flat_cons]
    simp only [addrs_append, addrs_cons, addrs_nil, List.mem_append, List.mem_singleton]
    have h1 : ∀ k, y ≠ (g.base + sz body, (⟨k, .top⟩ : Ck)) := fun k h => hy (by rw [h])
    simp [h1]
  have hc := hk.chain
  rw [chain_append] at hc
  refine ⟨⟨({ g with size := g.size + n }, body ++ [⟨s.topsize + n, .top⟩]) :: L2, D, ?_, ?_, ?_⟩, e7, fun x h h' => by
    have h1 := hreg.not_env List.mem_cons_self h h'
    have h2 := seg_not_env hi List.mem_cons_self h h'
    simp only at h1 h2
    exact hm x (by omega) (by omega)⟩
  · refine inv_reseg (L1 := []) (g' := { g with size := g.size + n }) hi ?_ ?_ rfl e7 (by omega) ?_ ⟨hk.base, ?_, ?_, ?_, ?_⟩ ?_ ?_ (by rw [e4]; exact hi.bnd) ?_ ?_
    · rw [e8, e10, e9]
      have h1 : ((g.base, g.size) :: (g.base + g.size, n) :: regs L2 D).Perm ((g.base + g.size, n) :: regs ((g, body ++ [⟨s.topsize, .top⟩]) :: L2) D) := List.Perm.swap ..
      exact (hreg.perm h1.symm).merge
    · rw [e12]; exact segs_map (L1 := []) hi (fun x => { x with size := x.size + n }) _
    · intro x hx; simp only at hx; exact hm x (by omega) (by omega)
    · have := hk.size; simp only; omega
    · rw [chain_append]
      refine ⟨chain_frame hc.1 fun x h1 h2 => hm x (by simp only at h1 h2; omega) (by simp only at h1 h2; omega), ⟨?_, by simp, by simp only; omega, by simp only; omega, by simp, by simp [hlp]⟩, trivial⟩
      simp only; rw [← ht, hm1]; simp [enc, Kind.live, hlp]
    · rw [e1, if_pos hlk, e3]
      obtain ⟨bd, h1, h2⟩ := hk.body
      rw [if_pos hlk] at h1
      obtain ⟨rfl, -⟩ := List.append_inj' h1 rfl
      exact ⟨body, rfl, h2⟩
    · rw [e1, if_pos hlk, e2, e3]
      simp only [sz_append, sz_cons, sz_nil]
      omega
    · intro x hx h
      rcases hx with hx | hx
      · cases hx
      · obtain ⟨z, T, he, -, h2⟩ := hi.hd
        simp only [List.cons.injEq] at he; obtain ⟨rfl, rfl⟩ := he
        exact absurd h (h2 x hx)
    · intro p k; rw [List.nil_append, hfl _ (by simp), e4, e5]; exact hi.bins p k
    · rw [List.nil_append, hfl _ (by simp), e5, e6]; exact hi.dv
    · rw [List.nil_append, hfl _ (by simp), e7]; exact hi.mst
  · intro q k; unfold Blk; rw [hfl _ (by simp)]
  · intro p k h _ x hx hx'
    rcases h with h | h
    · rw [flat_cons, List.mem_append] at h
      rcases h with h | h
      · simp only [addrs_append, addrs_cons, addrs_nil, List.mem_append, List.mem_singleton, Prod.mk.injEq, Ck.mk.injEq] at h
        rcases h with h | h
        · have := addrs_bounds h; simp only at this
          exact hm x (by omega) (by omega)
        · simp at h
      · obtain ⟨z, hz, hyz⟩ := List.mem_flatMap.mp h
        have hb := addrs_bounds hyz
        have hf := (hi.ok z (List.mem_cons_of_mem _ hz)).fits
        have hdj := hreg.disj
        have h1 := (List.pairwise_cons.mp hdj).1 (z.1.base, z.1.size) (by unfold regs; simp only [List.map_cons, List.cons_append, List.mem_cons, List.mem_append]; exact Or.inr (Or.inl (List.mem_map_of_mem hz)))
        have h2 := seg_apart (L1 := []) hi (Or.inr hz)
        simp only [Apart] at h1 h2 hb
        exact hm x (by omega) (by omega)
    · have hdj := hreg.disj
      have h1 := (List.pairwise_cons.mp hdj).1 (p, k + 40) (by unfold regs; simp only [List.mem_append]; exact Or.inr h)
      have h2 := dir_apart hi List.mem_cons_self h
      simp only [Apart] at h1 h2
      exact hm x (by omega) (by omega)

theorem append_ok {cf : Conf} {s : Heap} {L2 : Lay} {g : Seg} {body : List Ck} {D : List (Nat × Nat)} {env : Nat → Bool} (hi : Inv cf s ((g, body ++ [⟨s.topsize, .top⟩]) :: L2) D env)
    (ht : s.top = g.base + sz body) (hlp : lastPin true body = true) (hend : s.top + s.topsize + 80 = g.base + g.size) (h16 : s.topsize % 16 = 0) (hp16 : 16 ≤ s.topsize) (hlk : g.link = s.hrec)
    {b' : Bmp} {n mf : Nat} (hn : n % 4096 = 0)
    (hreg : Regs cf b' s.least (s.foot + n) ((g.base + g.size, n) :: regs ((g, body ++ [⟨s.topsize, .top⟩]) :: L2) D) env) :
    Tidy cf s ((g, body ++ [⟨s.topsize, .top⟩]) :: L2) D env
      (initTop { s with bmp := b', foot := s.foot + n, maxFoot := mf, segs := s.segs.map (fun x => if x.base = g.base then { x with size := x.size + n } else x) } s.top (s.topsize + n)) := by
  have hal : alignOff (s.top + 16) = 0 := alignOff_zero (by
    have := addr_pos hi (y := (s.top, ⟨s.topsize, .top⟩)) (by rw [flat_cons]; simp [ht])
    simp only at this; omega)
  refine append_core hi ht hlp hend h16 hp16 hlk hn hreg ?_ ⟨rfl, ?_, ?_, rfl, rfl, rfl, rfl, rfl, rfl, rfl, rfl, rfl⟩
  · simp only [initTop, hal, Nat.add_zero, Nat.sub_zero]
  · simp only [initTop, hal, Nat.add_zero]
  · simp only [initTop, hal, Nat.sub_zero]

end Arax.Dl
