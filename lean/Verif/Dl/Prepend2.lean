import Verif.Dl.Prepend
/-!
# `prepend_alloc`
-/
namespace Arax.Dl
open Arax.Bitmap (bit Bmp Took Released)

/-- The first chunk of a segment. -/
theorem first_chunk {cf : Conf} {s : Heap} {L1 L2 : Lay} {g : Seg} {cs : List Ck} {D : List (Nat × Nat)} {env : Nat → Bool} (hi : Inv cf s (L1 ++ (g, cs) :: L2) D env) :
    ∃ c ys, cs = c :: ys ∧ CkOK s.mem g.base true c ∧ (g.base, c) ∈ flat (L1 ++ (g, cs) :: L2) := by
  have hk := hi.ok (g, cs) (by simp)
  obtain ⟨bd, h1, -⟩ := hk.body
  cases cs with
  | nil => simp at h1
  | cons c ys => exact ⟨c, ys, rfl, hk.chain.1, by rw [flat_append, flat_cons]; simp⟩

theorem prependAlloc_ok {cf : Conf} {s s1 : Heap} {L1 L2 : Lay} {g : Seg} {cs : List Ck} {D : List (Nat × Nat)} {env : Nat → Bool} (hi : Inv cf s (L1 ++ (g, cs) :: L2) D env)
    {b' : Bmp} {n a nb least mf : Nat} (hg : g.base = a + n) (hn : n % 4096 = 0) (ha : a % 4096 = 0) (hnb16 : nb % 16 = 0) (hnb32 : 32 ≤ nb)
    (hnb : nb + 32 ≤ n) (hreg : Regs cf b' least (s.foot + n) ((a, n) :: regs (L1 ++ (g, cs) :: L2) D) env)
    (hs1 : s1 = { s with bmp := b', foot := s.foot + n, maxFoot := mf, least := least, segs := s.segs.map (fun x => if x.base = g.base then { x with base := a, size := x.size + n } else x) }) :
    ∃ s' m, prependAlloc s1 a g.base nb = .ok (s', m) ∧ m ≠ 0 ∧ Alloced cf s (L1 ++ (g, cs) :: L2) D env nb s' m := by
  have hb := (hi.ok (g, cs) (by simp)).base
  simp only at hb
  have hlo := hi.low (g.base, g.size) (by simp [regs])
  simp only at hlo
  have hst := hi.start
  unfold prependAlloc
  rw [alignOff_zero (a := a + 16) (by omega), alignOff_zero (a := g.base + 16) (by omega)]
  simp only [Nat.add_zero]
  rw [show g.base - a - nb = n - nb by omega]
  obtain ⟨c, ys, rfl, hck, hcf⟩ := first_chunk hi
  have hs1m : s1.mem = s.mem := by rw [hs1]
  have hs1t : s1.top = s.top ∧ s1.topsize = s.topsize ∧ s1.dv = s.dv ∧ s1.dvsize = s.dvsize ∧ s1.bins = s.bins := by rw [hs1]; exact ⟨rfl, rfl, rfl, rfl, rfl⟩
  obtain ⟨t1, t2, t3, t4, t5⟩ := hs1t
  have hnoin : ∀ q k, IsFree s q k → q ≠ a + nb := by
    intro q k hf e
    rw [isFree_iff hi] at hf
    obtain ⟨z, hz, hyz⟩ := List.mem_flatMap.mp hf
    have hbd := addrs_bounds hyz
    have hz16 := (hi.ok z hz).fits
    have hpos := addr_pos hi hf
    have := (List.pairwise_cons.mp hreg.disj).1 (z.1.base, z.1.size) (List.mem_append_left _ (List.mem_map_of_mem hz))
    simp only [Apart] at this hbd hpos; omega
  have hapos : 0 < a := by
    have := hreg.low (a, n) List.mem_cons_self
    simp only at this; omega
  by_cases htop : g.base = s.top
  · rw [if_pos (by rw [t1]; exact htop)]
    obtain ⟨g0, body, L20, hL, h1, h2, h3, h4, h5, h6, h7, h8, h9⟩ := top_focus hi
    have hcase : L1 = [] ∧ g = g0 ∧ body = [] ∧ c = ⟨s.topsize, .top⟩ ∧ ys = [] ∧ L2 = L20 := by
      cases L1 with
      | nil =>
        simp only [List.nil_append, List.cons.injEq, Prod.mk.injEq] at hL
        obtain ⟨⟨rfl, hL⟩, hL2⟩ := hL
        cases body with
        | nil => simp only [List.nil_append, List.cons.injEq] at hL; exact ⟨rfl, rfl, rfl, hL.1, hL.2, hL2⟩
        | cons b0 bd =>
          exfalso
          have hcm := (hi.ok (g, c :: ys) (by simp)).chain
          simp only [hL] at hcm
          have := hcm.1.pos
          simp only [sz_cons] at h3; omega
      | cons z L1 =>
        exfalso
        simp only [List.cons_append, List.cons.injEq] at hL
        have hz : z = (g0, body ++ [⟨s.topsize, .top⟩]) := hL.1
        have hap := seg_apart hi (z := z) (Or.inl (by simp))
        have hf := (hi.ok z (by simp)).fits
        rw [hz] at hap hf
        have hf2 := (hi.ok (g, c :: ys) (by simp)).fits
        simp only [Apart] at hap hf hf2; omega
    obtain ⟨rfl, rfl, rfl, rfl, rfl, rfl⟩ := hcase
    refine ⟨_, _, rfl, by omega, ?_⟩
    refine prepend_top hi h1 h2 hg hn ha hnb16 hnb32 hnb hreg ?_ ?_ ?_ ⟨rfl, ?_, ?_, ?_, ?_, ?_, ?_, ?_, ?_, ?_, ?_⟩
    · intro x h1 h2; simp only; rw [put_other _ _ (by omega), put_other _ _ (by omega), hs1m]
    · simp only; rw [put_other _ _ (by omega), put_same]
    · simp only; rw [put_same, t2]
    all_goals (rw [hs1])
  · rw [if_neg (by rw [t1]; exact htop)]
    by_cases hdv : g.base = s.dv
    · rw [if_pos (by rw [t3]; exact hdv)]
      have hd : (s.dv, (⟨s.dvsize, .free⟩ : Ck)) ∈ flat (L1 ++ (g, c :: ys) :: L2) := by
        rcases hi.dv with h | h
        · omega
        · exact h
      have hc : c = ⟨s.dvsize, .free⟩ := by
        have h1 := addr_pos hi hd
        have h2 := hck.pos
        rcases flat_unique hi hcf hd with h | h | h
        · simp only [Prod.mk.injEq] at h; exact h.2
        · simp only at h h1; omega
        · simp only at h h1; omega
      subst hc
      obtain ⟨c0, ys, rfl⟩ := has_next (xs := []) hi (Or.inr rfl)
      have hch := (hi.ok _ (show (g, (⟨s.dvsize, .free⟩ : Ck) :: c0 :: ys) ∈ _ by simp)).chain
      obtain ⟨-, hc0, -⟩ := hch
      have h32 := hck.min (by simp)
      simp only at h32
      refine ⟨_, _, rfl, by omega, ?_⟩
      refine prepend_free (mid := [⟨s.dvsize, .free⟩]) (b' := b') (least := least) hi (Or.inr ⟨_, rfl⟩) (hc0.adj (by simp [Ck.pin])) hg hn ha hnb16 hnb32 hnb hreg ?_ ?_ ?_ ?_ ?_ ?_ ?_ ?_ ?_
      · intro x h1 h2 h3 h4; simp only [sz_cons, sz_nil] at h3 h4
        simp only [setFree, t4]; rw [put_other _ _ (by omega), put_other _ _ (by omega), put_other _ _ (by omega), hs1m]
      · simp only [setFree]; rw [put_other _ _ (by omega), put_other _ _ (by omega), put_same]
      · simp only [setFree, sz_cons, sz_nil]; rw [put_other _ _ (by omega), put_same, t4]; omega
      · simp only [setFree, sz_cons, sz_nil, t4]
        rw [show a + n + (s.dvsize + 0) = a + nb + (s.dvsize + (n - nb)) by omega, put_same]; omega
      · simp only [setFree, sz_cons, sz_nil, t4]
        rw [put_other _ _ (by omega), put_other _ _ (by omega), put_other _ _ (by omega), hs1m, ← hg]
        have := hc0.head
        simp only [Ck.pin] at this
        simpa using this
      · rw [hs1]; exact ⟨rfl, rfl, rfl, rfl, rfl, rfl, rfl, rfl⟩
      · intro q k
        simp only [t5, sz_cons, sz_nil]
        constructor
        · intro h
          refine ⟨Or.inl ⟨Or.inl h, ?_⟩, hnoin _ _ (Or.inl h)⟩
          have hq := ((hi.bins _ _).mp h)
          have := addr_pos hi hq.1
          rcases flat_unique hi hq.1 hd with h' | h' | h'
          · simp only [Prod.mk.injEq] at h'; exact absurd h'.1 hq.2
          · simp only at h' this; omega
          · simp only at h' this; omega
        · rintro ⟨⟨h | h, h'⟩ | h, h2⟩
          · exact h
          · omega
          · exact absurd h.1 h2
      · simp only [t5]; exact hi.bnd
      · exact Or.inr (Or.inr ⟨rfl, by simp only [sz_cons, sz_nil, t4]; omega⟩)
    · rw [if_neg (by rw [t3]; exact hdv)]
      have hhd : ({ s1 with mem := put s1.mem (a + 8) (nb + 3) } : Heap).hd g.base = enc c true := by
        unfold Heap.hd; simp only; rw [put_other _ _ (by omega), hs1m, hck.head]
      rw [hhd, isInuse_enc _ _ hck.mul]
      by_cases hlv : c.k.live = true
      · rw [if_pos (by simp [hlv])]
        refine ⟨_, _, rfl, by omega, ?_⟩
        have h16 := hck.pos
        refine prepend_free (mid := []) (b' := b') (least := least) hi (Or.inl rfl) hlv hg hn ha hnb16 hnb32 hnb hreg ?_ ?_ ?_ ?_ ?_ ?_ ?_ ?_ ?_
        · intro x h1 h2 h3 h4; simp only [sz_nil] at h3 h4
          simp only [setFreeP, setFree, insertChunk]; rw [put_other _ _ (by omega), put_other _ _ (by omega), put_other _ _ (by omega), put_other _ _ (by omega), hs1m]
        · simp only [setFreeP, setFree, insertChunk]; rw [put_other _ _ (by omega), put_other _ _ (by omega), put_other _ _ (by omega), put_same]
        · simp only [setFreeP, setFree, insertChunk, sz_nil]; rw [put_other _ _ (by omega), put_same]
        · simp only [setFreeP, setFree, insertChunk, sz_nil]
          rw [show a + n + 0 = a + nb + (n - nb) by omega, put_same]; omega
        · simp only [setFreeP, setFree, insertChunk, sz_nil]
          rw [put_other _ _ (by omega), put_other _ _ (by omega), show a + n + 0 + 8 = g.base + 8 by omega, put_same, put_other _ _ (by omega), hs1m, hck.head, clrP_enc _ _ hck.mul]
        · rw [hs1]; exact ⟨rfl, rfl, rfl, rfl, rfl, rfl, rfl, rfl⟩
        · intro q k
          simp only [insertChunk, t5, sz_nil, List.mem_cons, Prod.mk.injEq, t3]
          constructor
          · rintro (h | h)
            · refine ⟨Or.inr ⟨h.1, by omega⟩, ?_⟩
              intro e
              rcases hi.dv with h' | h'
              · omega
              · exact hnoin _ _ ((isFree_iff hi _ _).mpr h') (by omega)
            · exact ⟨Or.inl ⟨Or.inl h, by omega⟩, ((hi.bins _ _).mp h).2⟩
          · rintro ⟨⟨h | h, h'⟩ | h, h2⟩
            · exact Or.inr h
            · exact absurd h.1 h2
            · exact Or.inl ⟨h.1, by omega⟩
        · simp only [insertChunk, t5]
          exact List.nodup_cons.mpr ⟨fun h => hnoin _ _ (Or.inl h) rfl, hi.bnd⟩
        · simp only [insertChunk, t3, t4, sz_nil]
          rcases hi.dv with h | h
          · exact Or.inl h
          · exact Or.inr (Or.inl ⟨(isFree_iff hi _ _).mpr h, by omega⟩)
      · rw [if_neg (by simp [hlv]), csize_enc _ _ hck.mul]
        have hk : c.k = .free := by
          have h1 : c.k ≠ .top := by
            intro h
            obtain ⟨bd, h1, h2⟩ := (hi.ok (g, c :: ys) (by simp)).body
            cases bd with
            | nil =>
              simp only [List.nil_append, List.cons.injEq] at h1
              have hl := (hi.ok (g, c :: ys) (by simp)).lim
              rw [h1.1, h1.2] at hl
              simp only [sz_cons, sz_nil] at hl
              by_cases e : g.link = s.hrec
              · rw [if_pos e, if_pos e] at hl; simp only at hl; omega
              · rw [h1.1, if_neg e] at h; cases h
            | cons b0 bd =>
              simp only [List.cons_append, List.cons.injEq] at h1
              have := h2 c (by rw [h1.1]; simp)
              rw [h] at this; simp at this
          cases hck' : c.k with
          | used => rw [hck'] at hlv; exact absurd rfl hlv
          | link => rw [hck'] at hlv; exact absurd rfl hlv
          | top => exact absurd hck' h1
          | free => rfl
        obtain ⟨k0, kk⟩ := c
        simp only at hk; subst hk
        have hcb : (g.base, k0) ∈ s.bins := (hi.bins _ _).mpr ⟨hcf, hdv⟩
        have hul : unlinkChunk { s1 with mem := put s1.mem (a + 8) (nb + 3) } g.base k0 = .ok { s1 with mem := put s1.mem (a + 8) (nb + 3), bins := s.bins.erase (g.base, k0) } := by
          unfold unlinkChunk; simp only [t5]; rw [if_pos hcb]
        simp only
        rw [hul]
        simp only [Out.bind_ok]
        obtain ⟨c0, ys, rfl⟩ := has_next (xs := []) hi (Or.inr rfl)
        have hch := (hi.ok _ (show (g, (⟨k0, .free⟩ : Ck) :: c0 :: ys) ∈ _ by simp)).chain
        obtain ⟨-, hc0, -⟩ := hch
        have h32 := hck.min (by simp)
        simp only at h32
        refine ⟨_, _, rfl, by omega, ?_⟩
        refine prepend_free (mid := [⟨k0, .free⟩]) (b' := b') (least := least) hi (Or.inr ⟨_, rfl⟩) (hc0.adj (by simp [Ck.pin])) hg hn ha hnb16 hnb32 hnb hreg ?_ ?_ ?_ ?_ ?_ ?_ ?_ ?_ ?_
        · intro x h1 h2 h3 h4; simp only [sz_cons, sz_nil] at h3 h4
          simp only [setFreeP, setFree, insertChunk]; rw [put_other _ _ (by omega), put_other _ _ (by omega), put_other _ _ (by omega), put_other _ _ (by omega), hs1m]
        · simp only [setFreeP, setFree, insertChunk]; rw [put_other _ _ (by omega), put_other _ _ (by omega), put_other _ _ (by omega), put_same]
        · simp only [setFreeP, setFree, insertChunk, sz_cons, sz_nil]; rw [put_other _ _ (by omega), put_same]; omega
        · simp only [setFreeP, setFree, insertChunk, sz_cons, sz_nil]
          rw [show a + n + (k0 + 0) = a + nb + (n - nb + k0) by omega, put_same]; omega
        · simp only [setFreeP, setFree, insertChunk, sz_cons, sz_nil]
          rw [put_other _ _ (by omega), put_other _ _ (by omega), show a + n + (k0 + 0) + 8 = g.base + k0 + 8 by omega, put_same, put_other _ _ (by omega), hs1m]
          have := hc0.head
          simp only at this
          rw [this, clrP_enc _ _ hc0.mul]
        · rw [hs1]; exact ⟨rfl, rfl, rfl, rfl, rfl, rfl, rfl, rfl⟩
        · intro q k
          simp only [insertChunk, sz_cons, sz_nil, List.mem_cons, Prod.mk.injEq, t3, mem_erase_bins hi hcb]
          constructor
          · rintro (h | h)
            · refine ⟨Or.inr ⟨h.1, by omega⟩, ?_⟩
              intro e
              rcases hi.dv with h' | h'
              · omega
              · exact hnoin _ _ ((isFree_iff hi _ _).mpr h') (by omega)
            · refine ⟨Or.inl ⟨Or.inl h.1, ?_⟩, ((hi.bins _ _).mp h.1).2⟩
              intro hin
              have := free_inside hi (Or.inl hcb) (Or.inl h.1) (by omega)
              omega
          · rintro ⟨⟨h | h, h'⟩ | h, h2⟩
            · exact Or.inr ⟨h, by omega⟩
            · exact absurd h.1 h2
            · exact Or.inl ⟨h.1, by omega⟩
        · simp only [insertChunk]
          exact List.nodup_cons.mpr ⟨fun h => hnoin _ _ (Or.inl (List.mem_of_mem_erase h)) rfl, hi.bnd.erase _⟩
        · simp only [insertChunk, t3, t4, sz_cons, sz_nil]
          rcases hi.dv with h | h
          · exact Or.inl h
          · refine Or.inr (Or.inl ⟨(isFree_iff hi _ _).mpr h, ?_⟩)
            intro hin
            have := free_inside hi (Or.inl hcb) ((isFree_iff hi _ _).mpr h) (by omega)
            omega

end Arax.Dl
