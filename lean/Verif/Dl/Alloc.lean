import Verif.Dl.Take
/-!
# Allocating from a free chunk or from the top
-/
namespace Arax.Dl
open Arax.Bitmap (bit Bmp)

/-- A chunk `(p, n)` is free: it is binned or the designated victim. (No code of its own.) -/
def IsFree (s : Heap) (p n : Nat) : Prop := (p, n) ∈ s.bins ∨ (p = s.dv ∧ n = s.dvsize ∧ s.dv ≠ 0)

theorem isFree_iff {cf : Conf} {s : Heap} {L : Lay} {D : List (Nat × Nat)} {env : Nat → Bool} (hi : Inv cf s L D env) (p n : Nat) : IsFree s p n ↔ (p, (⟨n, .free⟩ : Ck)) ∈ flat L := by
  constructor
  · rintro (h | ⟨rfl, rfl, h0⟩)
    · exact ((hi.bins p n).mp h).1
    · rcases hi.dv with ⟨h, -⟩ | h
      · exact absurd h h0
      · exact h
  · intro h
    by_cases e : p = s.dv
    · right
      have hp := addr_pos hi h
      rcases hi.dv with ⟨h0, -⟩ | hd
      · simp only at hp; omega
      · rcases flat_unique hi h hd with h' | h' | h'
        · simp only [Prod.mk.injEq, Ck.mk.injEq, and_true] at h'; simp only at hp; exact ⟨e, h'.2, by omega⟩
        · simp only at h' hp; omega
        · have := (addr_pos hi hd).2.1; simp only at h' this; omega
    · left; exact (hi.bins p n).mpr ⟨h, e⟩

/-- The blocks after a step are the blocks before, and one new one of at least `nb` bytes at `a`. (No code of its own.) -/
structure Alloced (cf : Conf) (s : Heap) (L : Lay) (D : List (Nat × Nat)) (env : Nat → Bool) (nb : Nat) (s' : Heap) (a : Nat) : Prop where
  spec : ∃ L' D' p n, Inv cf s' L' D' env ∧ a = p + 16 ∧ nb ≤ n ∧ (∀ q k, Blk L' D' q k ↔ Blk L D q k ∨ (q = p ∧ k = n)) ∧ ¬ Blk L D p n ∧ Kept L D s.mem L' D' s'.mem
  mst : s'.mst = s.mst
  frame : Frame cf env s.mem s'.mem

theorem free_focus {cf : Conf} {s : Heap} {L : Lay} {D : List (Nat × Nat)} {env : Nat → Bool} (hi : Inv cf s L D env) {p n : Nat} (hp : (p, (⟨n, .free⟩ : Ck)) ∈ flat L) :
    ∃ L1 g xs c0 ys L2, L = L1 ++ (g, xs ++ [⟨n, .free⟩] ++ c0 :: ys) :: L2 ∧ p = g.base + sz xs ∧ lastPin true xs = true ∧ n % 16 = 0 ∧ 32 ≤ n ∧ c0.k.live = true ∧ c0.n % 16 = 0 ∧ 16 ≤ c0.n ∧
      s.mem (p + 8) = n + 1 ∧ s.mem (p + n) = n ∧ s.mem (p + n + 8) = enc c0 false ∧ p + n + 32 + c0.n ≤ g.base + g.size := by
  obtain ⟨L1, g, xs, ys, L2, rfl, ha⟩ := flat_split hp
  simp only at ha hi
  obtain ⟨c0, ys, rfl⟩ := has_next hi (Or.inr rfl)
  have hk := hi.ok _ (show (g, xs ++ ⟨n, .free⟩ :: c0 :: ys) ∈ _ by simp)
  have hf := hk.fits
  have hc := hk.chain
  rw [chain_append] at hc
  obtain ⟨-, h1, h2, -⟩ := hc
  have hl : lastPin true xs = true := by
    cases h : lastPin true xs with
    | true => rfl
    | false => have := h1.adj h; simp [Kind.live] at this
  have h3 := h1.head
  rw [hl] at h3
  refine ⟨L1, g, xs, c0, ys, L2, by simp, ha, hl, h1.mul, h1.min (by simp), h2.adj (by simp [Ck.pin]), h2.mul, h2.pos, ?_, ?_, ?_, ?_⟩
  · rw [ha, h3]; simp [enc, Kind.live]
  · rw [ha]; exact h1.foot rfl
  · rw [ha]; exact h2.head
  · simp only [sz_append, sz_cons] at hf; omega

/-- Blocks after replacing a stretch with no used chunk by one with one used chunk. -/
theorem blk_new {L1 L2 : Lay} {g : Seg} {xs mid mid' ys : List Ck} {D : List (Nat × Nat)} {p n : Nat} (hsz : sz mid' = sz mid)
    (h1 : ∀ q k, (q, (⟨k, .used⟩ : Ck)) ∉ addrs (g.base + sz xs) mid)
    (h2 : ∀ q k, (q, (⟨k, .used⟩ : Ck)) ∈ addrs (g.base + sz xs) mid' ↔ q = p ∧ k = n) (q k : Nat) :
    Blk (L1 ++ (g, xs ++ mid' ++ ys) :: L2) D q k ↔ Blk (L1 ++ (g, xs ++ mid ++ ys) :: L2) D q k ∨ (q = p ∧ k = n) := by
  unfold Blk
  rw [mem_focus, mem_focus, h2]
  have : around L1 g xs mid' ys L2 = around L1 g xs mid ys L2 := by unfold around; rw [hsz]
  rw [this]
  have := h1 q k
  grind

/-- An address inside a stretch is no block. -/
theorem not_blk {cf : Conf} {s : Heap} {D : List (Nat × Nat)} {env : Nat → Bool} {L1 L2 : Lay} {g : Seg} {xs mid ys : List Ck}
    (hi : Inv cf s (L1 ++ (g, xs ++ mid ++ ys) :: L2) D env) {p n : Nat} (h1 : ∀ q k, (q, (⟨k, .used⟩ : Ck)) ∉ addrs (g.base + sz xs) mid) (hp : g.base + sz xs ≤ p) (hp' : p < g.base + sz xs + sz mid) :
    ¬ Blk (L1 ++ (g, xs ++ mid ++ ys) :: L2) D p n := by
  rintro (h | h)
  · have hpos := addr_pos hi h
    rcases (mem_focus ..).mp h with h | h
    · have := around_apart hi h; simp only at this hpos; omega
    · exact h1 _ _ h
  · have hap := dir_apart hi (x := (g, xs ++ mid ++ ys)) (by simp) h
    have hf := (hi.ok (g, xs ++ mid ++ ys) (by simp)).fits
    simp only [sz_append] at hf
    simp only [Apart] at hap; omega

/-- Using all of a free chunk. -/
theorem take_whole {cf : Conf} {s s' : Heap} {L : Lay} {D : List (Nat × Nat)} {env : Nat → Bool} (hi : Inv cf s L D env) {p n : Nat} (hp : IsFree s p n) (hs : Same s s')
    (ht : s'.top = s.top ∧ s'.topsize = s.topsize) (hm : s'.mem = setInuse s.mem p n)
    (hb : ∀ q k, (q, k) ∈ s'.bins ↔ IsFree s q k ∧ q ≠ p ∧ q ≠ s'.dv) (hnd : s'.bins.Nodup)
    (hdv : (s'.dv = 0 ∧ s'.dvsize = 0) ∨ (IsFree s s'.dv s'.dvsize ∧ s'.dv ≠ p)) {nb : Nat} (hnb : nb ≤ n) : Alloced cf s L D env nb s' (p + 16) := by
  rw [isFree_iff hi] at hp
  obtain ⟨L1, g, xs, c0, ys, L2, rfl, hpa, hl, h16, h32, hlv, h016, h0p, hm1, hm2, hm3, hin⟩ := free_focus hi hp
  have hu : ∀ q k, (q, (⟨k, .used⟩ : Ck)) ∉ addrs (g.base + sz xs) [(⟨n, .free⟩ : Ck)] := by intro q k; simp
  have hfr := around_free1 hi
  have hme : ∀ x, x ≠ p + 8 → x ≠ p + n + 8 → s'.mem x = s.mem x := by
    intro x h1 h2; rw [hm]; unfold setInuse; rw [put_other _ _ h2, put_other _ _ h1]
  have hme1 : s'.mem (p + 8) = n + 3 := by rw [hm]; unfold setInuse; rw [put_other _ _ (by omega), put_same]
  have hme2 : s'.mem (p + n + 8) = enc c0 true := by
    rw [hm]; unfold setInuse; rw [put_same, put_other _ _ (by omega), hm3, setP_enc _ _ h016]
  refine ⟨⟨L1 ++ (g, xs ++ [⟨n, .used⟩] ++ c0 :: ys) :: L2, D, p, n, ?_, rfl, hnb, ?_, ?_, ?_⟩, hs.mst, fun x hx hx' => by
    have := seg_not_env hi (z := (g, xs ++ [⟨n, .free⟩] ++ c0 :: ys)) (by simp) hx hx'
    exact hme x (by simp only at this; omega) (by simp only at this; omega)⟩
  · refine inv_interior (mid := [⟨n, .free⟩]) hi hs ht ?_ (by simp) ?_ ?_ ?_ (by simp) ?_ hnd ?_ (by simp)
    · intro x hx; simp only [sz_cons, sz_nil] at hx; exact hme x (by omega) (by omega)
    · refine ⟨⟨?_, by simp, h16, by simp only; omega, fun _ => h32, by simp [hl]⟩, trivial⟩
      rw [← hpa, hme1]; simp [enc, Kind.live, hl]
    · simp only [sz_cons, sz_nil, Nat.add_zero, ← hpa, hme2]; simp [Ck.pin]
    · simp [hlv]
    · intro q k; rw [hb, hfr]; simp only [IsFree, ← hpa]; simp; grind
    · rw [hfr]
      rcases hdv with h | ⟨h, h'⟩
      · exact Or.inl h
      · exact Or.inr (Or.inl ⟨h, by rw [← hpa]; exact h'⟩)
  · exact blk_new (by simp) hu (by intro q k; simp [hpa])
  · exact not_blk hi hu (by omega) (by simp; omega)
  · refine kept_interior (mid' := [⟨n, .used⟩]) hi ?_ (by simp only [sz_cons, sz_nil]; omega) (by simp) rfl (Or.inl (by simp)) (by simp; omega) (Or.inl (by simp))
    intro x hx; simp only [sz_cons, sz_nil] at hx; exact hme x (by omega) (by omega)

/-- Using the first `nb` bytes of a free chunk. -/
theorem take_split {cf : Conf} {s s' : Heap} {L : Lay} {D : List (Nat × Nat)} {env : Nat → Bool} (hi : Inv cf s L D env) {p n nb : Nat} (hp : IsFree s p n) (hs : Same s s')
    (ht : s'.top = s.top ∧ s'.topsize = s.topsize) (hnb : nb + 32 ≤ n) (hnb16 : nb % 16 = 0) (hnb32 : 32 ≤ nb)
    (hm : ∀ x, x ≠ p + 8 → x ≠ p + nb + 8 → x ≠ p + n → s'.mem x = s.mem x) (hm1 : s'.mem (p + 8) = nb + 3) (hm2 : s'.mem (p + nb + 8) = n - nb + 1) (hm3 : s'.mem (p + n) = n - nb)
    (hb : ∀ q k, (q, k) ∈ s'.bins ↔ ((IsFree s q k ∧ q ≠ p) ∨ (q = p + nb ∧ k = n - nb)) ∧ q ≠ s'.dv) (hnd : s'.bins.Nodup)
    (hdv : (s'.dv = 0 ∧ s'.dvsize = 0) ∨ (IsFree s s'.dv s'.dvsize ∧ s'.dv ≠ p) ∨ (s'.dv = p + nb ∧ s'.dvsize = n - nb)) : Alloced cf s L D env nb s' (p + 16) := by
  rw [isFree_iff hi] at hp
  obtain ⟨L1, g, xs, c0, ys, L2, rfl, hpa, hl, h16, h32, hlv, h016, h0p, hq1, hq2, hq3, hin⟩ := free_focus hi hp
  have hu : ∀ q k, (q, (⟨k, .used⟩ : Ck)) ∉ addrs (g.base + sz xs) [(⟨n, .free⟩ : Ck)] := by intro q k; simp
  have hfr := around_free1 hi
  refine ⟨⟨L1 ++ (g, xs ++ [⟨nb, .used⟩, ⟨n - nb, .free⟩] ++ c0 :: ys) :: L2, D, p, nb, ?_, rfl, Nat.le_refl _, ?_, ?_, ?_⟩, hs.mst, fun x hx hx' => by
    have := seg_not_env hi (z := (g, xs ++ [⟨n, .free⟩] ++ c0 :: ys)) (by simp) hx hx'
    simp only at this
    exact hm x (by omega) (by omega) (by omega)⟩
  · refine inv_interior (mid := [⟨n, .free⟩]) hi hs ht ?_ (by simp; omega) ?_ ?_ ?_ (by simp) ?_ hnd ?_ (by simp)
    · intro x hx; simp only [sz_cons, sz_nil] at hx; exact hm x (by omega) (by omega) (by omega)
    · refine ⟨⟨?_, by simp, hnb16, by simp only; omega, fun _ => hnb32, by simp [hl]⟩, ⟨?_, ?_, ?_, ?_, ?_, ?_⟩, trivial⟩
      · rw [← hpa, hm1]; simp [enc, Kind.live, hl]
      · simp only [← hpa]; rw [hm2]; simp [enc, Kind.live, Ck.pin]
      · intro _; simp only [← hpa]; rw [show p + nb + (n - nb) = p + n by omega, hm3]
      · simp only; omega
      · simp only; omega
      · simp only; omega
      · simp [Ck.pin]
    · simp only [sz_cons, sz_nil, Nat.add_zero, ← hpa]; rw [hm _ (by omega) (by omega) (by omega), hq3]; simp [Ck.pin]
    · simp [hlv]
    · intro q k; rw [hb, hfr]; simp only [IsFree, ← hpa]; simp
    · rw [hfr]
      rcases hdv with h | ⟨h, h'⟩ | ⟨h, h'⟩
      · exact Or.inl h
      · exact Or.inr (Or.inl ⟨h, by rw [← hpa]; exact h'⟩)
      · right; right; rw [h, h', ← hpa]; simp
  · exact blk_new (by simp; omega) hu (by intro q k; simp [hpa])
  · exact not_blk hi hu (by omega) (by simp; omega)
  · refine kept_interior (mid' := [⟨nb, .used⟩, ⟨n - nb, .free⟩]) hi ?_ (by simp only [sz_cons, sz_nil]; omega) (by simp; omega) rfl (Or.inl (by simp)) (by simp; omega) (Or.inl (by simp; omega))
    intro x hx; simp only [sz_cons, sz_nil] at hx; exact hm x (by omega) (by omega) (by omega)

/-- Where the top chunk is. -/
theorem top_focus {cf : Conf} {s : Heap} {L : Lay} {D : List (Nat × Nat)} {env : Nat → Bool} (hi : Inv cf s L D env) :
    ∃ g body L2, L = (g, body ++ [⟨s.topsize, .top⟩]) :: L2 ∧ g.link = s.hrec ∧ (∀ y ∈ L2, y.1.link ≠ s.hrec) ∧ s.top = g.base + sz body ∧ lastPin true body = true ∧ s.topsize % 16 = 0 ∧ 16 ≤ s.topsize ∧
      s.mem (s.top + 8) = s.topsize + 1 ∧ s.top + s.topsize + 80 = g.base + g.size ∧ (∀ c ∈ body, c.k = .used ∨ c.k = .free) := by
  obtain ⟨⟨g, cs⟩, T, rfl, h1, h2⟩ := hi.hd
  simp only at h1
  have hk := hi.ok (g, cs) (by simp)
  obtain ⟨body, hb, hpl⟩ := hk.body
  rw [if_pos h1] at hb
  simp only at hb; subst hb
  have hl := hk.lim
  rw [if_pos h1] at hl
  have hc := hk.chain
  rw [chain_append] at hc
  obtain ⟨-, h3, -⟩ := hc
  simp only [sz_append, sz_cons, sz_nil] at hl
  have hlp : lastPin true body = true := by
    cases h : lastPin true body with
    | true => rfl
    | false => have := h3.adj h; simp [Kind.live] at this
  have hh := h3.head
  have hp := h3.pos
  rw [hlp] at hh
  have ht : s.top = g.base + sz body := by omega
  refine ⟨g, body, T, rfl, h1, h2, ht, hlp, h3.mul, h3.pos, ?_, by omega, hpl⟩
  rw [ht, hh]; simp [enc, Kind.live]

/-- The free chunks when the end of the first segment is left out. -/
theorem around_top {cf : Conf} {s : Heap} {D : List (Nat × Nat)} {env : Nat → Bool} {L2 : Lay} {g : Seg} {body : List Ck}
    (hi : Inv cf s ((g, body ++ [⟨s.topsize, .top⟩]) :: L2) D env) (p n : Nat) :
    (p, (⟨n, .free⟩ : Ck)) ∈ around [] g body [⟨s.topsize, .top⟩] [] L2 ↔ IsFree s p n := by
  rw [isFree_iff hi]
  have := mem_focus [] g body [⟨s.topsize, .top⟩] [] L2 (p, ⟨n, .free⟩)
  simp only [List.nil_append, List.append_nil] at this
  rw [this]; simp

/-- Splitting the top. -/
theorem takeTop_ok {cf : Conf} {s : Heap} {L : Lay} {D : List (Nat × Nat)} {env : Nat → Bool} (hi : Inv cf s L D env) {nb : Nat} (hnb16 : nb % 16 = 0) (hnb32 : 32 ≤ nb) (hnb : nb < s.topsize) :
    Alloced cf s L D env nb (takeTop s nb).1 (takeTop s nb).2 := by
  obtain ⟨g, body, L2, rfl, h1, h2, ht, hlp, h16, hp, hm, hend, hpl⟩ := top_focus hi
  have hme : ∀ x, x ≠ s.top + 8 → x ≠ s.top + nb + 8 → (takeTop s nb).1.mem x = s.mem x := by
    intro x h1 h2; simp only [takeTop]; rw [put_other _ _ h1, put_other _ _ h2]
  have hme1 : (takeTop s nb).1.mem (s.top + 8) = nb + 3 := by simp only [takeTop]; rw [put_same]
  have hme2 : (takeTop s nb).1.mem (s.top + nb + 8) = s.topsize - nb + 1 := by simp only [takeTop]; rw [put_other _ _ (by omega), put_same]
  have e : (takeTop s nb).1.topsize = s.topsize - nb := rfl
  have hu : ∀ q k, (q, (⟨k, .used⟩ : Ck)) ∉ addrs (g.base + sz body) [(⟨s.topsize, .top⟩ : Ck)] := by intro q k; simp
  have hft := around_top hi
  refine ⟨⟨(g, body ++ [⟨nb, .used⟩] ++ [⟨s.topsize - nb, .top⟩]) :: L2, D, s.top, nb, ?_, rfl, Nat.le_refl _, ?_, ?_, ?_⟩, rfl, fun x hx hx' => by
    have := seg_not_env hi (z := (g, body ++ [⟨s.topsize, .top⟩])) (by simp) hx hx'
    simp only at this
    exact hme x (by omega) (by omega)⟩
  · have := inv_top (s := s) (s' := (takeTop s nb).1) (L2 := L2) (g := g) (xs := body) (mid := []) (mid' := [⟨nb, .used⟩]) (by simpa using hi) ⟨rfl, rfl, rfl, rfl, rfl, rfl⟩ ?_ ?_ ?_ ?_ (by simp) ?_ hi.bnd ?_ (by simp)
    · rw [e] at this; exact this
    · intro x hx; simp only [sz_nil] at hx; exact hme x (by omega) (by omega)
    · rw [e]; simp; omega
    · simp only [sz_cons, sz_nil, Nat.add_zero, ← ht]; rfl
    · refine ⟨⟨?_, by simp, hnb16, by simp only; omega, fun _ => hnb32, by simp [hlp]⟩, ⟨?_, ?_, ?_, ?_, ?_, ?_⟩, trivial⟩
      · rw [← ht, hme1]; simp [enc, Kind.live, hlp]
      · simp only [← ht]; rw [hme2, e]; simp [enc, Kind.live, Ck.pin]
      · simp
      · rw [e]; simp only; omega
      · rw [e]; simp only; omega
      · simp
      · simp [Ck.pin]
    · intro p n
      simp only [List.nil_append]
      rw [hft]
      have hd : (takeTop s nb).1.dv = s.dv := rfl
      have hb : (takeTop s nb).1.bins = s.bins := rfl
      rw [hd, hb, isFree_iff hi, hi.bins]; simp
    · have hd : (takeTop s nb).1.dv = s.dv := rfl
      have hd2 : (takeTop s nb).1.dvsize = s.dvsize := rfl
      simp only [List.nil_append]
      rw [hd, hd2, hft, isFree_iff hi]
      rcases hi.dv with h | h
      · exact Or.inl h
      · exact Or.inr (Or.inl h)
  · have := blk_new (L1 := []) (L2 := L2) (g := g) (xs := body) (mid := [⟨s.topsize, .top⟩]) (mid' := [⟨nb, .used⟩, ⟨s.topsize - nb, .top⟩]) (ys := []) (D := D) (p := s.top) (n := nb)
      (by simp; omega) hu (by intro q k; simp [ht])
    simpa using this
  · have := not_blk (L1 := []) (L2 := L2) (g := g) (xs := body) (mid := [⟨s.topsize, .top⟩]) (ys := []) (p := s.top) (n := nb) (by simpa using hi) hu (by omega) (by simp; omega)
    simpa using this
  · have := kept_interior (s' := (takeTop s nb).1) (L1 := []) (L2 := L2) (g := g) (xs := body) (mid := [⟨s.topsize, .top⟩]) (mid' := [⟨nb, .used⟩, ⟨s.topsize - nb, .top⟩]) (ys := []) (by simpa using hi) ?_
      (by simp only [sz_cons, sz_nil]; omega) (by simp; omega) rfl (Or.inl (by simp)) (by simp; omega) (Or.inl (by simp; omega))
    · simpa using this
    · intro x hx; simp only [sz_cons, sz_nil] at hx; exact hme x (by omega) (by omega)

/-- Using the designated victim. -/
theorem takeVictim_ok {cf : Conf} {s : Heap} {L : Lay} {D : List (Nat × Nat)} {env : Nat → Bool} (hi : Inv cf s L D env) {nb : Nat} (hnb16 : nb % 16 = 0) (hnb32 : 32 ≤ nb) (hnb : nb ≤ s.dvsize) :
    Alloced cf s L D env nb (takeVictim s nb).1 (takeVictim s nb).2 := by
  have hdv : (s.dv, (⟨s.dvsize, .free⟩ : Ck)) ∈ flat L := by
    rcases hi.dv with ⟨-, h⟩ | h
    · omega
    · exact h
  have hf : IsFree s s.dv s.dvsize := (isFree_iff hi _ _).mpr hdv
  have hpos := addr_pos hi hdv
  simp only at hpos
  have hbn : ∀ k, (s.dv, k) ∉ s.bins := fun k h => ((hi.bins _ _).mp h).2 rfl
  have hb0 : ∀ k, (0, k) ∉ s.bins := fun k h => absurd (addr_pos hi ((hi.bins _ _).mp h).1).1 (by simp)
  unfold takeVictim
  split
  · refine take_split hi hf ⟨rfl, rfl, rfl, rfl, rfl, rfl⟩ ⟨rfl, rfl⟩ (by omega) hnb16 hnb32 ?_ ?_ ?_ ?_ ?_ hi.bnd ?_
    · intro x h1 h2 h3
      simp only [setFree]
      rw [put_other _ _ h1, put_other _ _ (by omega), put_other _ _ h2]
    · simp only [put_same]
    · simp only [setFree]
      rw [put_other _ _ (by omega), put_other _ _ (by omega), put_same]
    · simp only [setFree]
      rw [put_other _ _ (by omega), show s.dv + s.dvsize = s.dv + nb + (s.dvsize - nb) by omega, put_same]
    · intro q k
      simp only [IsFree]
      constructor
      · intro h
        refine ⟨Or.inl ⟨Or.inl h, fun e => hbn k (e ▸ h)⟩, ?_⟩
        intro e
        have hq := ((hi.bins _ _).mp h).1
        have hqp := addr_pos hi hq
        rcases flat_unique hi hq hdv with h' | h' | h'
        · simp only [Prod.mk.injEq] at h'; omega
        · simp only at h' hqp; omega
        · simp only at h' hqp; omega
      · rintro ⟨⟨h | h, h'⟩ | h, h2⟩
        · exact h
        · exact absurd h.1 h'
        · exact absurd h.1 h2
    · exact Or.inr (Or.inr ⟨rfl, rfl⟩)
  · refine take_whole (s' := { s with dvsize := 0, dv := 0, mem := setInuse s.mem s.dv s.dvsize }) hi hf ⟨rfl, rfl, rfl, rfl, rfl, rfl⟩ ⟨rfl, rfl⟩ rfl ?_ hi.bnd (Or.inl ⟨rfl, rfl⟩) hnb
    intro q k
    simp only [IsFree]
    constructor
    · intro h
      exact ⟨Or.inl h, fun e => hbn k (e ▸ h), fun e => hb0 k (e ▸ h)⟩
    · rintro ⟨h | h, h'⟩
      · exact h
      · exact absurd h.1 h'.1

/-- Membership in the bins after removing a chunk. -/
theorem mem_erase_bins {cf : Conf} {s : Heap} {L : Lay} {D : List (Nat × Nat)} {env : Nat → Bool} (hi : Inv cf s L D env) {c : Nat × Nat} (hc : c ∈ s.bins) (q k : Nat) :
    (q, k) ∈ s.bins.erase c ↔ (q, k) ∈ s.bins ∧ q ≠ c.1 := by
  rw [hi.bnd.mem_erase_iff]
  constructor
  · rintro ⟨h1, h2⟩
    refine ⟨h2, fun e => h1 ?_⟩
    have hq := ((hi.bins _ _).mp h2).1
    have hc' := ((hi.bins c.1 c.2).mp hc).1
    have := addr_pos hi hq
    have := addr_pos hi hc'
    rcases flat_unique hi hq hc' with h' | h' | h'
    · simp only [Prod.mk.injEq, Ck.mk.injEq, and_true] at h'; exact Prod.ext h'.1 h'.2
    · simp only at *; omega
    · simp only at *; omega
  · rintro ⟨h1, h2⟩
    exact ⟨fun e => h2 (by rw [← e]), h1⟩

/-- No free chunk starts inside another. -/
theorem free_inside {cf : Conf} {s : Heap} {L : Lay} {D : List (Nat × Nat)} {env : Nat → Bool} (hi : Inv cf s L D env) {p n q k : Nat} (hp : IsFree s p n) (hq : IsFree s q k) (h : p < q) : p + n ≤ q := by
  rw [isFree_iff hi] at hp hq
  have h1 := addr_pos hi hp
  have h2 := addr_pos hi hq
  rcases flat_unique hi hp hq with h' | h' | h'
  · simp only [Prod.mk.injEq] at h'; omega
  · exact h'
  · simp only at *; omega

/-- An exact fit. -/
theorem takeExact_ok {cf : Conf} {s : Heap} {L : Lay} {D : List (Nat × Nat)} {env : Nat → Bool} (hi : Inv cf s L D env) {c : Nat × Nat} (hc : c ∈ s.bins) {nb : Nat} (hnb : nb ≤ c.2) :
    Alloced cf s L D env nb { s with bins := s.bins.erase c, mem := setInuse s.mem c.1 c.2 } (c.1 + 16) := by
  have hcd := ((hi.bins c.1 c.2).mp hc).2
  refine take_whole (s' := { s with bins := s.bins.erase c, mem := setInuse s.mem c.1 c.2 }) hi (p := c.1) (n := c.2) (Or.inl hc) ⟨rfl, rfl, rfl, rfl, rfl, rfl⟩ ⟨rfl, rfl⟩ rfl ?_ (hi.bnd.erase c) ?_ hnb
  · intro q k
    simp only [IsFree]
    rw [mem_erase_bins hi hc]
    constructor
    · rintro ⟨h, h'⟩; exact ⟨Or.inl h, h', ((hi.bins _ _).mp h).2⟩
    · rintro ⟨h | h, h', h2⟩
      · exact ⟨h, h'⟩
      · exact absurd h.1 h2
  · simp only
    rw [isFree_iff hi]
    rcases hi.dv with h | h
    · exact Or.inl h
    · exact Or.inr ⟨h, Ne.symm hcd⟩

/-- The memory after a split that sets the head first. -/
theorem split_mem (m : Nat → Nat) {p n nb : Nat} (h1 : nb + 32 ≤ n) (h2 : 32 ≤ nb) :
    (∀ x, x ≠ p + 8 → x ≠ p + nb + 8 → x ≠ p + n → setFree (put m (p + 8) (nb + 3)) (p + nb) (n - nb) x = m x) ∧ setFree (put m (p + 8) (nb + 3)) (p + nb) (n - nb) (p + 8) = nb + 3 ∧
    setFree (put m (p + 8) (nb + 3)) (p + nb) (n - nb) (p + nb + 8) = n - nb + 1 ∧ setFree (put m (p + 8) (nb + 3)) (p + nb) (n - nb) (p + n) = n - nb := by
  unfold setFree
  refine ⟨?_, ?_, ?_, ?_⟩
  · intro x h1 h2 h3
    rw [put_other _ _ (by omega), put_other _ _ h2, put_other _ _ h1]
  · rw [put_other _ _ (by omega), put_other _ _ (by omega), put_same]
  · rw [put_other _ _ (by omega), put_same]
  · rw [show p + n = p + nb + (n - nb) by omega, put_same]

theorem takeBin_ok {cf : Conf} {s : Heap} {L : Lay} {D : List (Nat × Nat)} {env : Nat → Bool} (hi : Inv cf s L D env) {c : Nat × Nat} (hc : c ∈ s.bins) {nb : Nat} (hnb16 : nb % 16 = 0) (hnb32 : 32 ≤ nb)
    (hnb : nb ≤ c.2) : Alloced cf s L D env nb (takeBin s c nb).1 (takeBin s c nb).2 := by
  unfold takeBin
  simp only
  split
  · exact takeExact_ok hi hc hnb
  · rename_i hlt
    have hcd := ((hi.bins c.1 c.2).mp hc).2
    have hcf : IsFree s c.1 c.2 := Or.inl hc
    obtain ⟨hm0, hm1, hm2, hm3⟩ := split_mem s.mem (p := c.1) (n := c.2) (nb := nb) (by omega) hnb32
    have hins : ∀ q k, IsFree s q k → q ≠ c.1 + nb := fun q k h e => by have := free_inside hi hcf h (by omega); omega
    refine take_split hi hcf ⟨rfl, rfl, rfl, rfl, rfl, rfl⟩ ⟨rfl, rfl⟩ (by omega) hnb16 hnb32 hm0 hm1 hm2 hm3 ?_ ?_ ?_
    · intro q k
      simp only [insertChunk, List.mem_cons, mem_erase_bins hi hc, Prod.mk.injEq]
      constructor
      · rintro (⟨h1, h2⟩ | ⟨h1, h2⟩)
        · refine ⟨Or.inr ⟨h1, h2⟩, fun e => ?_⟩
          rcases hi.dv with h | h
          · omega
          · exact hins _ _ ((isFree_iff hi _ _).mpr h) (by omega)
        · exact ⟨Or.inl ⟨Or.inl h1, h2⟩, ((hi.bins _ _).mp h1).2⟩
      · rintro ⟨⟨h | h, h'⟩ | h, h2⟩
        · exact Or.inr ⟨h, h'⟩
        · exact absurd h.1 h2
        · exact Or.inl h
    · simp only [insertChunk]
      refine List.nodup_cons.mpr ⟨fun h => ?_, hi.bnd.erase c⟩
      exact hins _ _ (Or.inl (List.mem_of_mem_erase h)) rfl
    · simp only [insertChunk]
      rcases hi.dv with h | h
      · exact Or.inl h
      · exact Or.inr (Or.inl ⟨(isFree_iff hi _ _).mpr h, Ne.symm hcd⟩)

theorem takeDv_ok {cf : Conf} {s : Heap} {L : Lay} {D : List (Nat × Nat)} {env : Nat → Bool} (hi : Inv cf s L D env) {c : Nat × Nat} (hc : c ∈ s.bins) {nb : Nat} (hnb16 : nb % 16 = 0) (hnb32 : 32 ≤ nb)
    (hnb : nb ≤ c.2) : Alloced cf s L D env nb (takeDv s c nb).1 (takeDv s c nb).2 := by
  unfold takeDv
  simp only
  split
  · exact takeExact_ok hi hc hnb
  · rename_i hlt
    have hcd := ((hi.bins c.1 c.2).mp hc).2
    have hcf : IsFree s c.1 c.2 := Or.inl hc
    obtain ⟨hm0, hm1, hm2, hm3⟩ := split_mem s.mem (p := c.1) (n := c.2) (nb := nb) (by omega) hnb32
    have hins : ∀ q k, IsFree s q k → q ≠ c.1 + nb := fun q k h e => by have := free_inside hi hcf h (by omega); omega
    simp only [replaceDv]
    by_cases hd0 : s.dvsize = 0
    · have hdv0 : s.dv = 0 := by
        rcases hi.dv with h | h
        · exact h.1
        · have := (addr_pos hi h).2.1; simp only at this; omega
      rw [if_neg (by simpa using hd0)]
      refine take_split hi hcf ⟨rfl, rfl, rfl, rfl, rfl, rfl⟩ ⟨rfl, rfl⟩ (by omega) hnb16 hnb32 hm0 hm1 hm2 hm3 ?_ (hi.bnd.erase c) (Or.inr (Or.inr ⟨rfl, rfl⟩))
      intro q k
      simp only [mem_erase_bins hi hc]
      constructor
      · rintro ⟨h1, h2⟩; exact ⟨Or.inl ⟨Or.inl h1, h2⟩, hins _ _ (Or.inl h1)⟩
      · rintro ⟨⟨h | h, h'⟩ | h, h2⟩
        · exact ⟨h, h'⟩
        · exact absurd hdv0 h.2.2
        · exact absurd h.1 h2
    · rw [if_pos (by simpa using hd0)]
      have hdf : (s.dv, (⟨s.dvsize, .free⟩ : Ck)) ∈ flat L := by
        rcases hi.dv with h | h
        · exact absurd h.2 hd0
        · exact h
      have hdF := (isFree_iff hi _ _).mpr hdf
      have hdp := (addr_pos hi hdf).1
      simp only at hdp
      refine take_split hi hcf ⟨rfl, rfl, rfl, rfl, rfl, rfl⟩ ⟨rfl, rfl⟩ (by omega) hnb16 hnb32 hm0 hm1 hm2 hm3 ?_ ?_ (Or.inr (Or.inr ⟨rfl, rfl⟩))
      · intro q k
        simp only [insertChunk, List.mem_cons, mem_erase_bins hi hc, Prod.mk.injEq]
        constructor
        · rintro (⟨rfl, rfl⟩ | ⟨h1, h2⟩)
          · exact ⟨Or.inl ⟨hdF, Ne.symm hcd⟩, hins _ _ hdF⟩
          · exact ⟨Or.inl ⟨Or.inl h1, h2⟩, hins _ _ (Or.inl h1)⟩
        · rintro ⟨⟨h | h, h'⟩ | h, h2⟩
          · exact Or.inr ⟨h, h'⟩
          · exact Or.inl ⟨h.1, h.2.1⟩
          · exact absurd h.1 h2
      · simp only [insertChunk]
        refine List.nodup_cons.mpr ⟨fun h => ?_, hi.bnd.erase c⟩
        exact ((hi.bins _ _).mp (List.mem_of_mem_erase h)).2 rfl

end Arax.Dl
