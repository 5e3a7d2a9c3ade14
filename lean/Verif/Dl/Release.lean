import Verif.Dl.Malloc
/-!
# Giving pages back: `release_unused_segments` and `sys_trim`
-/
namespace Arax.Dl
open Arax.Bitmap (bit Bmp Took Released)

/-- Fields the invariant does not mention, and the trim threshold. -/
theorem Inv.misc {cf : Conf} {s : Heap} {L : Lay} {D : List (Nat × Nat)} {env : Nat → Bool} (hi : Inv cf s L D env) (t c f : Nat) (ht : 2097152 ≤ t) : Inv cf { s with trim := t, checks := c, maxFoot := f } L D env :=
  ⟨hi.segs, hi.ok, hi.hd, hi.bins, hi.bnd, hi.dv, hi.mst, hi.dir, hi.disj, hi.low, hi.pages, hi.envb, hi.only, hi.bmp, hi.foot, hi.start, hi.top64, hi.lpos, ht⟩

/-- A segment that is one free chunk and its record is dropped. -/
theorem drop_seg {cf : Conf} {s s' : Heap} {x : Seg × List Ck} {L1 L2 : Lay} {g : Seg} {k : Nat} {D : List (Nat × Nat)} {env : Nat → Bool}
    (hi : Inv cf s (x :: L1 ++ (g, [⟨k, .free⟩, ⟨48, .link⟩]) :: L2) D env) (hreg : Regs cf s'.bmp s'.least s'.foot (regs (x :: L1 ++ L2) D) env)
    (e : s'.mem = s.mem ∧ s'.top = s.top ∧ s'.topsize = s.topsize ∧ s'.mst = s.mst ∧ s'.trim = s.trim) (hsegs : s'.segs = (x :: L1 ++ L2).map Prod.fst)
    (hb : ∀ q n, (q, n) ∈ s'.bins ↔ IsFree s q n ∧ q ≠ g.base ∧ q ≠ s'.dv) (hnd : s'.bins.Nodup)
    (hdv : (s'.dv = 0 ∧ s'.dvsize = 0) ∨ (IsFree s s'.dv s'.dvsize ∧ s'.dv ≠ g.base)) :
    Inv cf s' (x :: L1 ++ L2) D env ∧ ∀ q n, Blk (x :: L1 ++ L2) D q n ↔ Blk (x :: L1 ++ (g, [⟨k, .free⟩, ⟨48, .link⟩]) :: L2) D q n := by
  obtain ⟨e1, e2, e3, e4, e5⟩ := e
  have hrec : s'.hrec = s.hrec := by unfold Heap.hrec; rw [e4]
  have hfl : ∀ y : Nat × Ck, y.2.k ≠ .link → (y ∈ flat (x :: L1 ++ (g, [⟨k, .free⟩, ⟨48, .link⟩]) :: L2) ↔ y ∈ flat (x :: L1 ++ L2) ∨ y = (g.base, (⟨k, .free⟩ : Ck))) := by
    intro y hy
    have h2 : ∀ k q, y ≠ (q, (⟨k, .link⟩ : Ck)) := fun k q h => hy (by rw [h])
    rw [flat_append, flat_append, flat_cons (g, [⟨k, .free⟩, ⟨48, .link⟩]) L2]
    simp only [addrs_cons, addrs_nil, List.mem_append, List.mem_cons, List.not_mem_nil, or_false, h2]
    constructor
    · rintro (h | h | h)
      · exact Or.inl (Or.inl h)
      · exact Or.inr h
      · exact Or.inl (Or.inr h)
    · rintro ((h | h) | h)
      · exact Or.inl h
      · exact Or.inr (Or.inr h)
      · exact Or.inr (Or.inl h)
  have hgf : (g.base, (⟨k, .free⟩ : Ck)) ∉ flat (x :: L1 ++ L2) := by
    intro h
    have hi' : Inv cf s ((x :: L1) ++ (g, [] ++ [⟨k, .free⟩, ⟨48, .link⟩] ++ []) :: L2) D env := by simpa using hi
    have hmem : (g.base, (⟨k, .free⟩ : Ck)) ∈ around (x :: L1) g [] [⟨k, .free⟩, ⟨48, .link⟩] [] L2 := by
      unfold around; rw [flat_append] at h; simpa using h
    have := around_apart hi' hmem
    have hp := addr_pos hi ((hfl _ (by simp)).mpr (Or.inl h))
    simp only [sz_cons, sz_nil] at this hp
    omega
  have hfree : ∀ q n, (q, (⟨n, .free⟩ : Ck)) ∈ flat (x :: L1 ++ L2) ↔ IsFree s q n ∧ q ≠ g.base := by
    intro q n
    rw [isFree_iff hi, hfl _ (by simp)]
    constructor
    · intro h
      refine ⟨Or.inl h, fun e => ?_⟩
      subst e
      have h1 : (g.base, (⟨n, .free⟩ : Ck)) ∈ flat (x :: L1 ++ (g, [⟨k, .free⟩, ⟨48, .link⟩]) :: L2) := (hfl _ (by simp)).mpr (Or.inl h)
      have h2 : (g.base, (⟨k, .free⟩ : Ck)) ∈ flat (x :: L1 ++ (g, [⟨k, .free⟩, ⟨48, .link⟩]) :: L2) := (hfl _ (by simp)).mpr (Or.inr rfl)
      have p1 := addr_pos hi h1
      have p2 := addr_pos hi h2
      rcases flat_unique hi h1 h2 with h' | h' | h'
      · rw [h'] at h; exact hgf h
      · simp only at h' p1; omega
      · simp only at h' p2; omega
    · rintro ⟨h | h, h'⟩
      · exact h
      · simp only [Prod.mk.injEq] at h; exact absurd h.1 h'
  refine ⟨⟨hsegs, ?_, ?_, ?_, hnd, ?_, ?_, ?_, hreg.disj, hreg.low, hreg.pages, hreg.envb, hreg.only, hreg.bmp, hreg.foot, hreg.start, hreg.top64, hreg.lpos, by rw [e5]; exact hi.trim⟩, ?_⟩
  · intro z hz
    rw [e1, e2, e3, hrec]
    exact hi.ok z (by simp only [List.mem_append, List.mem_cons] at hz ⊢; grind)
  · obtain ⟨y, T, he, h1, h2⟩ := hi.hd
    simp only [List.cons_append, List.cons.injEq] at he
    obtain ⟨rfl, rfl⟩ := he
    rw [hrec]
    refine ⟨_, _, rfl, h1, fun z hz => h2 z ?_⟩
    have hz : z ∈ L1 ++ L2 := hz
    simp only [List.mem_append, List.mem_cons] at hz ⊢; grind
  · intro q n; rw [hb, hfree, and_assoc]
  · rw [hfree]; exact hdv
  · rw [e4]
    rcases (hfl _ (by simp)).mp hi.mst with h | h
    · exact h
    · simp at h
  · rw [e1]; exact hi.dir
  · intro q n
    unfold Blk
    rw [hfl _ (by simp)]
    simp

/-- The first chunk of a segment other than the first, when it is not in use, is free. -/
theorem first_free {m : Nat → Nat} {hrec top topsize : Nat} {g : Seg} {c : Ck} {ys : List Ck} (hk : SegOK m hrec top topsize g (c :: ys)) (hl : g.link ≠ hrec) (hlv : c.k.live = false) : c.k = .free := by
  obtain ⟨bd, h1, h2⟩ := hk.body
  rw [if_neg hl] at h1
  cases bd with
  | nil => simp only [List.nil_append, List.cons.injEq] at h1; rw [h1.1] at hlv; simp [Kind.live] at hlv
  | cons b bd =>
    simp only [List.cons_append, List.cons.injEq] at h1
    rcases h2 c (by rw [h1.1]; simp) with h | h
    · rw [h] at hlv; simp [Kind.live] at hlv
    · exact h

theorem releaseLoop_ok {cf : Conf} {D : List (Nat × Nat)} {env : Nat → Bool} : ∀ (T : Lay) (x : Seg × List Ck) (done : Lay) (s : Heap),
    Inv cf { s with segs := (x :: done ++ T).map Prod.fst } (x :: done ++ T) D env →
    ∃ (T' : Lay) (s' : Heap), releaseLoop cf (T.map Prod.fst) s = .ok (T'.map Prod.fst, s') ∧ Inv cf { s' with segs := (x :: done ++ T').map Prod.fst } (x :: done ++ T') D env ∧
      (∀ q n, Blk (x :: done ++ T') D q n ↔ Blk (x :: done ++ T) D q n) ∧ s'.mem = s.mem ∧ s'.mst = s.mst ∧ s'.trim = s.trim ∧ s'.topsize = s.topsize
  | [], x, done, s, hi => ⟨[], s, rfl, hi, fun _ _ => Iff.rfl, rfl, rfl, rfl, rfl⟩
  | (g, cs) :: T, x, done, s, hi => by
    rw [List.map_cons]
    unfold releaseLoop
    have hb := (hi.ok (g, cs) (by simp)).base
    simp only at hb
    rw [alignOff_zero (a := g.base + 16) (by omega)]
    simp only [Nat.add_zero]
    obtain ⟨c, ys, rfl, hck, hcf⟩ := first_chunk (L1 := x :: done) hi
    have hhd : s.hd g.base = enc c true := hck.head
    simp only [hhd, isInuse_enc _ _ hck.mul, csize_enc _ _ hck.mul]
    have hlk : g.link ≠ s.hrec := by
      obtain ⟨y, T', he, h1, h2⟩ := hi.hd
      simp only [List.cons_append, List.cons.injEq] at he
      obtain ⟨rfl, rfl⟩ := he
      exact h2 (g, c :: ys) (by simp)
    by_cases hcond : (!(!(!c.k.live && true)) && decide (g.base + g.size - topFoot ≤ g.base + c.n)) = true
    · rw [if_pos hcond]
      simp only [Bool.and_true, Bool.not_not, Bool.and_eq_true, Bool.not_eq_true', decide_eq_true_eq, topFoot] at hcond
      have hk := hi.ok (g, c :: ys) (by simp)
      have hcfree := first_free hk hlk hcond.1
      obtain ⟨k, kk⟩ := c
      simp only at hcfree; subst hcfree
      have hys : ys = [⟨48, .link⟩] := by
        obtain ⟨bd, h1, h2⟩ := hk.body
        have hl := hk.lim
        have e : ¬ g.link = ({ s with segs := (x :: done ++ (g, ⟨k, .free⟩ :: ys) :: T).map Prod.fst } : Heap).hrec := hlk
        rw [if_neg e] at h1 hl
        have hch := hk.chain
        cases bd with
        | nil => simp only [List.nil_append, List.cons.injEq, Ck.mk.injEq] at h1; simp at h1
        | cons b bd =>
          simp only [List.cons_append, List.cons.injEq] at h1
          obtain ⟨-, rfl⟩ := h1
          simp only [sz_cons, sz_append, sz_nil] at hl hcond
          cases bd with
          | nil => rfl
          | cons b2 bd =>
            exfalso
            have := hch.2.1.pos
            have hc2 := of_decide_eq_true hcond.2
            simp only [sz_cons] at hl this hc2
            omega
      subst hys
      have hpos := addr_pos hi hcf
      simp only at hpos
      have hcF : IsFree s g.base k := (isFree_iff hi _ _).mpr hcf
      obtain ⟨s1, hs1, hs1e, hs1b, hs1n, hs1d⟩ : ∃ s1 : Heap, (if g.base = s.dv then Out.ok { s with dv := 0, dvsize := 0 } else unlinkChunk s g.base k) = .ok s1 ∧
          (s1.mem = s.mem ∧ s1.top = s.top ∧ s1.topsize = s.topsize ∧ s1.mst = s.mst ∧ s1.trim = s.trim ∧ s1.bmp = s.bmp ∧ s1.least = s.least ∧ s1.foot = s.foot) ∧
          (∀ q n, (q, n) ∈ s1.bins ↔ IsFree s q n ∧ q ≠ g.base ∧ q ≠ s1.dv) ∧ s1.bins.Nodup ∧ ((s1.dv = 0 ∧ s1.dvsize = 0) ∨ (IsFree s s1.dv s1.dvsize ∧ s1.dv ≠ g.base)) := by
        by_cases hd : g.base = s.dv
        · rw [if_pos hd]
          refine ⟨_, rfl, ⟨rfl, rfl, rfl, rfl, rfl, rfl, rfl, rfl⟩, ?_, hi.bnd, Or.inl ⟨rfl, rfl⟩⟩
          intro q n
          simp only [IsFree]
          constructor
          · intro h
            have := addr_pos hi ((hi.bins _ _).mp h).1
            simp only at this
            exact ⟨Or.inl h, fun e => ((hi.bins _ _).mp h).2 (by rw [e]; exact hd), by omega⟩
          · rintro ⟨h | h, h2, h3⟩
            · exact h
            · exact absurd (h.1.trans hd.symm) h2
        · rw [if_neg hd]
          have hin : (g.base, k) ∈ s.bins := (hi.bins _ _).mpr ⟨hcf, hd⟩
          refine ⟨{ s with bins := s.bins.erase (g.base, k) }, by unfold unlinkChunk; rw [if_pos hin], ⟨rfl, rfl, rfl, rfl, rfl, rfl, rfl, rfl⟩, ?_, hi.bnd.erase _, ?_⟩
          · intro q n
            have := mem_erase_bins hi hin q n
            simp only at this ⊢
            rw [this]
            constructor
            · rintro ⟨h1, h2⟩; exact ⟨Or.inl h1, h2, ((hi.bins _ _).mp h1).2⟩
            · rintro ⟨h | h, h2, h3⟩
              · exact ⟨h, h2⟩
              · exact absurd h.1 h3
          · rcases hi.dv with h | h
            · exact Or.inl h
            · exact Or.inr ⟨(isFree_iff hi _ _).mpr h, Ne.symm hd⟩
      simp only
      rw [hs1]
      simp only [Out.bind_ok]
      obtain ⟨f1, f2, f3, f4, f5, f6, f7, f8⟩ := hs1e
      have hr0 := hi.regs.perm (regs_mid (x :: done) T g [⟨k, .free⟩, ⟨48, .link⟩] D)
      simp only at hr0
      rw [← f6] at hr0
      obtain ⟨b', hmu, -, hreg⟩ := munmap_ok (s := s1) hr0
      simp only at hmu
      rw [hmu]
      simp only [Out.bind_ok]
      have hdrop := drop_seg (s' := { s1 with bmp := b', foot := s1.foot - g.size, segs := (x :: done ++ T).map Prod.fst }) hi (by simp only; rw [f7, f8]; exact hreg) ⟨f1, f2, f3, f4, f5⟩ rfl hs1b hs1n hs1d
      obtain ⟨T', s', h1, h2, h3, h4, h5, h6, h7⟩ := releaseLoop_ok T x done { s1 with bmp := b', foot := s1.foot - g.size } hdrop.1
      exact ⟨T', s', h1, h2, fun q n => by rw [h3, hdrop.2], by rw [h4]; exact f1, by rw [h5]; exact f4, by rw [h6]; exact f5, by rw [h7]; exact f3⟩
    · rw [if_neg hcond]
      have e : x :: done ++ (g, c :: ys) :: T = x :: (done ++ [(g, c :: ys)]) ++ T := by simp
      rw [e] at hi
      obtain ⟨T', s', h1, h2, h3, h4⟩ := releaseLoop_ok T x (done ++ [(g, c :: ys)]) s hi
      rw [h1]
      refine ⟨(g, c :: ys) :: T', s', rfl, ?_, ?_, h4⟩
      · have e' : x :: done ++ (g, c :: ys) :: T' = x :: (done ++ [(g, c :: ys)]) ++ T' := by simp
        rw [e']; exact h2
      · have e' : x :: done ++ (g, c :: ys) :: T' = x :: (done ++ [(g, c :: ys)]) ++ T' := by simp
        rw [e', e]; exact h3

theorem releaseUnused_ok {cf : Conf} {s : Heap} {L : Lay} {D : List (Nat × Nat)} {env : Nat → Bool} (hi : Inv cf s L D env) :
    ∃ s', releaseUnused cf s = .ok s' ∧ Tidy cf s L D env s' ∧ s'.trim = s.trim ∧ s'.topsize = s.topsize := by
  obtain ⟨x, T, rfl, -, -⟩ := hi.hd
  have hsg := hi.segs
  unfold releaseUnused
  rw [hsg, List.map_cons]
  simp only
  have hi' : Inv cf { s with segs := (x :: [] ++ T).map Prod.fst } (x :: [] ++ T) D env :=
    ⟨rfl, hi.ok, hi.hd, hi.bins, hi.bnd, hi.dv, hi.mst, hi.dir, hi.disj, hi.low, hi.pages, hi.envb, hi.only, hi.bmp, hi.foot, hi.start, hi.top64, hi.lpos, hi.trim⟩
  obtain ⟨T', s', h1, h2, h3, h4, h5, h6, h7⟩ := releaseLoop_ok T x [] s hi'
  rw [h1]
  simp only [Out.bind_ok]
  refine ⟨_, rfl, ⟨⟨x :: T', D, ?_, h3, ?_⟩, h5, fun y _ _ => by simp only; rw [h4]⟩, h6, h7⟩
  · exact h2.misc _ _ _ h2.trim
  · intro p n _ _ y _ _; simp only; rw [h4]

/-- Shrinking the first segment. -/
theorem trim_core {cf : Conf} {s s' : Heap} {L2 : Lay} {g : Seg} {body : List Ck} {D : List (Nat × Nat)} {env : Nat → Bool} (hi : Inv cf s ((g, body ++ [⟨s.topsize, .top⟩]) :: L2) D env)
    (ht : s.top = g.base + sz body) (hlp : lastPin true body = true) (hend : s.top + s.topsize + 80 = g.base + g.size) (h16 : s.topsize % 16 = 0) (hlk : g.link = s.hrec)
    {b' : Bmp} {n : Nat} (hn : n % 4096 = 0) (hlt : n + 80 < s.topsize)
    (hreg : Regs cf b' s.least (s.foot - n) ((g.base, g.size - n) :: regs L2 D) env)
    (hmem : s'.mem = put (put s.mem (s.top + 8) (s.topsize - n + 1)) (s.top + (s.topsize - n) + 8) topFoot)
    (e : s'.hrec = s.hrec ∧ s'.top = s.top ∧ s'.topsize = s.topsize - n ∧ s'.bins = s.bins ∧ s'.dv = s.dv ∧ s'.dvsize = s.dvsize ∧ s'.mst = s.mst ∧ s'.bmp = b' ∧ s'.foot = s.foot - n ∧ s'.least = s.least ∧
      s'.trim = 2097152 ∧ s'.segs = s.segs.map (fun x => if x.base = g.base then { x with size := x.size - n } else x)) :
    Tidy cf s ((g, body ++ [⟨s.topsize, .top⟩]) :: L2) D env s' := by
  have hk := hi.ok _ (List.mem_cons_self)
  simp only at hk
  obtain ⟨e1, e2, e3, e4, e5, e6, e7, e8, e9, e10, e11, e12⟩ := e
  have hm : ∀ x, x ≠ s.top + 8 → x ≠ s.top + (s.topsize - n) + 8 → s'.mem x = s.mem x := by
    intro x h1 h2; rw [hmem, put_other _ _ (by omega), put_other _ _ h1]
  have hm1 : s'.mem (s.top + 8) = s.topsize - n + 1 := by rw [hmem, put_other _ _ (by omega), put_same]
  have hfl : ∀ y : Nat × Ck, y.2.k ≠ .top → (y ∈ flat (({ g with size := g.size - n }, body ++ [⟨s.topsize - n, .top⟩]) :: L2) ↔ y ∈ flat ((g, body ++ [⟨s.topsize, .top⟩]) :: L2)) := by
    intro y hy
    rw [flat_cons, flat_cons]
    simp only [addrs_append, addrs_cons, addrs_nil, List.mem_append, List.mem_singleton]
    have h1 : ∀ k, y ≠ (g.base + sz body, (⟨k, .top⟩ : Ck)) := fun k h => hy (by rw [h])
    simp [h1]
  have hc := hk.chain
  rw [chain_append] at hc
  refine ⟨⟨({ g with size := g.size - n }, body ++ [⟨s.topsize - n, .top⟩]) :: L2, D, ?_, ?_, ?_⟩, e7, fun x h h' => by
    have h2 := seg_not_env hi List.mem_cons_self h h'
    simp only at h2
    exact hm x (by omega) (by omega)⟩
  · refine inv_reseg (L1 := []) (g' := { g with size := g.size - n }) hi ?_ ?_ rfl e7 (by omega) ?_ ⟨hk.base, ?_, ?_, ?_, ?_⟩ ?_ ?_ (by rw [e4]; exact hi.bnd) ?_ ?_
    · rw [e8, e10, e9]; exact hreg
    · rw [e12]; exact segs_map (L1 := []) hi (fun x => { x with size := x.size - n }) _
    · intro x hx; simp only at hx; exact hm x (by omega) (by omega)
    · have := hk.size; simp only; omega
    · rw [chain_append]
      refine ⟨chain_frame hc.1 fun x h1 h2 => hm x (by simp only at h1 h2; omega) (by simp only at h1 h2; omega), ⟨?_, by simp, by simp only; omega, by simp only; omega, by simp, by simp [hlp]⟩, trivial⟩
      simp only; rw [← ht, hm1]; simp [enc, Kind.live, hlp]
    · rw [e1, if_pos hlk, e3]
      obtain ⟨bd, h1, h2⟩ := hk.body
      rw [if_pos hlk] at h1
      obtain ⟨rfl, -⟩ := List.append_inj' h1 rfl
      exact ⟨body, rfl, h2⟩
    · rw [e1, if_pos hlk, e2, e3]
      simp only [sz_append, sz_cons, sz_nil]
      omega
    · intro x hx h
      rcases hx with hx | hx
      · cases hx
      · obtain ⟨z, T, he, -, h2⟩ := hi.hd
        simp only [List.cons.injEq] at he; obtain ⟨rfl, rfl⟩ := he
        exact absurd h (h2 x hx)
    · intro p k; rw [List.nil_append, hfl _ (by simp), e4, e5]; exact hi.bins p k
    · rw [List.nil_append, hfl _ (by simp), e5, e6]; exact hi.dv
    · rw [List.nil_append, hfl _ (by simp), e7]; exact hi.mst
  · intro q k; unfold Blk; rw [hfl _ (by simp)]
  · intro p k h _ x hx hx'
    rcases h with h | h
    · rw [flat_cons, List.mem_append] at h
      rcases h with h | h
      · simp only [addrs_append, addrs_cons, addrs_nil, List.mem_append, List.mem_singleton, Prod.mk.injEq, Ck.mk.injEq] at h
        rcases h with h | h
        · have := addrs_bounds h; simp only at this
          exact hm x (by omega) (by omega)
        · simp at h
      · obtain ⟨z, hz, hyz⟩ := List.mem_flatMap.mp h
        have hb := addrs_bounds hyz
        have hf := (hi.ok z (List.mem_cons_of_mem _ hz)).fits
        have h2 := seg_apart (L1 := []) hi (Or.inr hz)
        simp only [Apart] at h2 hb
        exact hm x (by omega) (by omega)
    · have h2 := dir_apart hi List.mem_cons_self h
      simp only [Apart] at h2
      exact hm x (by omega) (by omega)

theorem trimTop_ok {cf : Conf} {s : Heap} {L : Lay} {D : List (Nat × Nat)} {env : Nat → Bool} (hi : Inv cf s L D env) (hbig : 2097152 < s.topsize) :
    ∃ s' r, trimTop cf s = .ok (s', r) ∧ Tidy cf s L D env s' := by
  have hself : Tidy cf s L D env s := ⟨⟨L, D, hi, fun _ _ => Iff.rfl, fun _ _ _ _ _ _ _ => rfl⟩, rfl, fun _ _ _ => rfl⟩
  obtain ⟨g, body, L2, rfl, h1, h2, ht, hlp, h16, hp, hmt, hend, hpl⟩ := top_focus hi
  have hk := hi.ok _ List.mem_cons_self
  simp only at hk
  have hgb := hk.base
  have hgs := hk.size
  have hholds : g.holds s.top = true := by unfold Seg.holds; simp; omega
  have hfind : s.segs.find? (·.holds s.top) = some g := by rw [hi.segs]; simp [List.find?_cons, hholds]
  unfold trimTop
  rw [if_pos (by unfold topFoot; omega)]
  dsimp only
  rw [show topFoot = 80 from rfl]
  have hx : 0 < ((s.topsize - 80 + 65535) / 65536 - 1) * 65536 ∧ ((s.topsize - 80 + 65535) / 65536 - 1) * 65536 + 80 < s.topsize ∧ ((s.topsize - 80 + 65535) / 65536 - 1) * 65536 % 4096 = 0 := by omega
  generalize ((s.topsize - 80 + 65535) / 65536 - 1) * 65536 = n at hx
  obtain ⟨hx0, hx1, hx2⟩ := hx
  rw [hfind]
  simp only
  split
  · have hr0 : Regs cf s.bmp s.least s.foot ((g.base, (g.size - n) + n) :: regs L2 D) env := by
      rw [show g.size - n + n = g.size by omega]; exact hi.regs
    have hr1 := (hr0.cut ⟨by omega, by omega⟩ ⟨hx2, hx0⟩).perm (List.Perm.swap ..)
    have hal : alignOff (s.top + 16) = 0 := alignOff_zero (by
      have := addr_pos hi (y := (s.top, ⟨s.topsize, .top⟩)) (by rw [flat_cons]; simp [ht])
      simp only at this; omega)
    by_cases hmr : cf.mremap = true
    · rw [if_pos hmr]
      simp only [Out.bind_ok]
      rw [if_pos (by omega)]
      refine ⟨_, _, rfl, trim_core hi ht hlp hend h16 h1 hx2 hx1 (hr1.leak hmr) ?_ ⟨rfl, ?_, ?_, rfl, rfl, rfl, rfl, rfl, rfl, rfl, rfl, rfl⟩⟩
      · simp only [initTop, hal, Nat.add_zero, Nat.sub_zero]
      · simp only [initTop, hal, Nat.add_zero]
      · simp only [initTop, hal, Nat.sub_zero]
    · rw [if_neg hmr]
      obtain ⟨b', hmu, -, hreg⟩ := munmap_ok (s := s) hr1
      simp only at hmu
      rw [hmu]
      simp only [Out.bind_ok]
      rw [if_pos (by omega)]
      refine ⟨_, _, rfl, trim_core hi ht hlp hend h16 h1 hx2 hx1 hreg ?_ ⟨rfl, ?_, ?_, rfl, rfl, rfl, rfl, rfl, rfl, rfl, rfl, rfl⟩⟩
      · simp only [initTop, hal, Nat.add_zero, Nat.sub_zero]
      · simp only [initTop, hal, Nat.add_zero]
      · simp only [initTop, hal, Nat.sub_zero]
  · exact ⟨s, 0, rfl, hself⟩

theorem sysTrim_ok {cf : Conf} {s : Heap} {L : Lay} {D : List (Nat × Nat)} {env : Nat → Bool} (hi : Inv cf s L D env) (hbig : s.trim < s.topsize) :
    ∃ s', sysTrim cf s = .ok s' ∧ Tidy cf s L D env s' := by
  obtain ⟨s1, r, h1, hT1⟩ := trimTop_ok hi (by have := hi.trim; omega)
  unfold sysTrim
  rw [h1]
  simp only [Out.bind_ok]
  have hT1' := hT1
  obtain ⟨⟨L1, D1, hi1, -, -⟩, -, -⟩ := hT1
  obtain ⟨s2, h2, -, -⟩ := releaseUnused_ok hi1
  rw [h2]
  simp only [Out.bind_ok]
  refine ⟨_, rfl, (hT1'.trans (s'' := s2) fun L' D' hi' => ?_).trans fun L' D' hi' => ?_⟩
  · obtain ⟨s2', h2', hT, -⟩ := releaseUnused_ok hi'
    rw [h2] at h2'; cases h2'; exact hT
  · split
    · exact ⟨⟨L', D', hi'.misc _ _ _ (by unfold W; omega), fun _ _ => Iff.rfl, fun _ _ _ _ _ _ _ => rfl⟩, rfl, fun _ _ _ => rfl⟩
    · exact ⟨⟨L', D', hi', fun _ _ => Iff.rfl, fun _ _ _ _ _ _ _ => rfl⟩, rfl, fun _ _ _ => rfl⟩

end Arax.Dl
