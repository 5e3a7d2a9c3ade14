import Verif.Dl.Chain
import Verif.Bitmap.Inv
/-!
# The invariant of the allocator
-/
namespace Arax.Dl
open Arax.Bitmap (bit Bmp)

/-- The layout: every segment with the chunks that tile it. -/
abbrev Lay := List (Seg × List Ck)

/-- All chunks, with addresses. -/
def flat (L : Lay) : List (Nat × Ck) := L.flatMap fun x => addrs x.1.base x.2

/-- All regions of pages the allocator has: segments and directly mapped blocks, as (address, size). -/
def regs (L : Lay) (D : List (Nat × Nat)) : List (Nat × Nat) := L.map (fun x => (x.1.base, x.1.size)) ++ D

/-- Two regions do not overlap. -/
def Apart (r q : Nat × Nat) : Prop := r.1 + r.2 ≤ q.1 ∨ q.1 + q.2 ≤ r.1

/-- Sum of the sizes of regions. -/
def total (l : List (Nat × Nat)) : Nat := (l.map Prod.snd).sum

/-- A segment: its chunks tile it up to its end record; the first segment of the list (whose record is `m->seg`) ends in the top chunk, the others in the chunk that holds their record. -/
structure SegOK (m : Nat → Nat) (hrec top topsize : Nat) (g : Seg) (cs : List Ck) : Prop where
  base : g.base % 4096 = 0
  size : g.size % 4096 = 0
  chain : Chain m g.base true cs
  body : ∃ body, cs = body ++ [if g.link = hrec then ⟨topsize, .top⟩ else ⟨48, .link⟩] ∧ ∀ c ∈ body, c.k = .used ∨ c.k = .free
  lim : if g.link = hrec then sz cs + 80 = g.size ∧ g.base + sz cs = top + topsize else g.base + sz cs = g.link + 32 ∧ g.link + 64 ≤ g.base + g.size ∧ m (g.link + 40) = 11 ∧ g.base + g.size ≤ g.link + 80

/-- The bitmap is consistent. -/
structure BOK (b : Bmp) : Prop where
  freeP : b.freeP ≤ b.endc
  small : 64 * b.endc < 2 ^ 64
  used : (List.range (64 * b.endc)).countP (bit b) = b.used

/-- Page `i` is in region `r`. -/
def InReg (cf : Conf) (r : Nat × Nat) (i : Nat) : Prop := r.1 ≤ cf.start + 4096 * i ∧ cf.start + 4096 * i < r.1 + r.2

/-- The invariant. `D`: the directly mapped blocks; `env`: the pages others have. -/
structure Inv (cf : Conf) (s : Heap) (L : Lay) (D : List (Nat × Nat)) (env : Nat → Bool) : Prop where
  segs : s.segs = L.map Prod.fst
  ok : ∀ x ∈ L, SegOK s.mem s.hrec s.top s.topsize x.1 x.2
  hd : ∃ x T, L = x :: T ∧ x.1.link = s.hrec ∧ ∀ y ∈ T, y.1.link ≠ s.hrec
  bins : ∀ p n, (p, n) ∈ s.bins ↔ (p, (⟨n, .free⟩ : Ck)) ∈ flat L ∧ p ≠ s.dv
  bnd : s.bins.Nodup
  dv : (s.dv = 0 ∧ s.dvsize = 0) ∨ (s.dv, (⟨s.dvsize, .free⟩ : Ck)) ∈ flat L
  mst : (s.mst, (⟨mstSize, .used⟩ : Ck)) ∈ flat L
  dir : ∀ r ∈ D, s.mem r.1 = 0 ∧ s.mem (r.1 + 8) + 32 = r.2 ∧ r.1 % 4096 = 0 ∧ r.2 % 4096 = 0 ∧ 0 < r.2
  disj : (regs L D).Pairwise Apart
  low : ∀ r ∈ regs L D, cf.start ≤ r.1 ∧ s.least ≤ r.1 ∧ r.1 + r.2 ≤ cf.start + 4096 * (64 * s.bmp.endc)
  pages : ∀ r ∈ regs L D, ∀ i, InReg cf r i → bit s.bmp i = true ∧ env i = false
  envb : ∀ i, env i = true → bit s.bmp i = true
  only : cf.mremap = false → ∀ i, i < 64 * s.bmp.endc → bit s.bmp i = true → env i = true ∨ ∃ r ∈ regs L D, InReg cf r i
  bmp : BOK s.bmp
  foot : s.foot = total (regs L D)
  start : cf.start % 4096 = 0 ∧ 0 < cf.start
  top64 : cf.start + 4096 * (64 * s.bmp.endc) < W ∧ s.bmp.endc = cf.groups
  lpos : 0 < s.least
  trim : 2097152 ≤ s.trim

theorem flat_append (L1 L2 : Lay) : flat (L1 ++ L2) = flat L1 ++ flat L2 := List.flatMap_append
theorem flat_cons (x : Seg × List Ck) (L : Lay) : flat (x :: L) = addrs x.1.base x.2 ++ flat L := List.flatMap_cons

theorem apart_symm {r q : Nat × Nat} (h : Apart r q) : Apart q r := h.symm

/-- The end of the chunks of a segment is before the end of the segment. -/
theorem SegOK.fits {m : Nat → Nat} {hrec top topsize : Nat} {g : Seg} {cs : List Ck} (h : SegOK m hrec top topsize g cs) : g.base + sz cs + 32 ≤ g.base + g.size ∧ 16 ≤ sz cs := by
  have hl := h.lim
  obtain ⟨body, hb, -⟩ := h.body
  have hc := h.chain
  rw [hb, chain_append] at hc
  have h16 := hc.2.1.pos
  have : sz cs = sz body + (if g.link = hrec then (⟨topsize, .top⟩ : Ck) else ⟨48, .link⟩).n := by rw [hb]; simp
  split at hl <;> constructor <;> omega

/-- Everything around a stretch of chunks in a segment. -/
def around (L1 : Lay) (g : Seg) (xs mid ys : List Ck) (L2 : Lay) : List (Nat × Ck) :=
  flat L1 ++ addrs g.base xs ++ addrs (g.base + sz xs + sz mid) ys ++ flat L2

theorem mem_focus (L1 : Lay) (g : Seg) (xs mid ys : List Ck) (L2 : Lay) (y : Nat × Ck) :
    y ∈ flat (L1 ++ (g, xs ++ mid ++ ys) :: L2) ↔ y ∈ around L1 g xs mid ys L2 ∨ y ∈ addrs (g.base + sz xs) mid := by
  simp only [around, flat_append, flat_cons, addrs_append, List.mem_append, sz_append, Nat.add_assoc]
  grind

/-- Chunks around a stretch do not overlap it, and stay clear of the fenceposts. -/
theorem around_apart {cf : Conf} {s : Heap} {D : List (Nat × Nat)} {env : Nat → Bool} {L1 L2 : Lay} {g : Seg} {xs mid ys : List Ck}
    (hi : Inv cf s (L1 ++ (g, xs ++ mid ++ ys) :: L2) D env) {y : Nat × Ck} (hy : y ∈ around L1 g xs mid ys L2) :
    y.1 + y.2.n ≤ g.base + sz xs ∨ g.base + sz xs + sz mid ≤ y.1 := by
  have hg : ∀ z : Seg × List Ck, z ∈ L1 ∨ z ∈ L2 → y ∈ addrs z.1.base z.2 → y.1 + y.2.n ≤ g.base + sz xs ∨ g.base + sz xs + sz mid ≤ y.1 := by
    intro z hz hyz
    have hap : Apart (z.1.base, z.1.size) (g.base, g.size) := by
      have hd := hi.disj
      unfold regs at hd
      rw [List.pairwise_append] at hd
      have hd := hd.1
      rw [List.map_append, List.map_cons, List.pairwise_append] at hd
      rcases hz with hz | hz
      · exact hd.2.2 _ (List.mem_map_of_mem hz) _ (List.mem_cons_self)
      · exact apart_symm ((List.pairwise_cons.mp hd.2.1).1 _ (List.mem_map_of_mem hz))
    have hzok := (hi.ok z (by rcases hz with h | h <;> simp [h])).fits
    have hgok := (hi.ok (g, xs ++ mid ++ ys) (by simp)).fits
    have hb := addrs_bounds hyz
    simp only [sz_append] at hgok
    rcases hap with h | h <;> simp only at h <;> omega
  simp only [around, List.mem_append] at hy
  rcases hy with ((hy | hy) | hy) | hy
  · obtain ⟨z, hz, hyz⟩ := List.mem_flatMap.mp hy
    exact hg z (Or.inl hz) hyz
  · have := addrs_bounds hy; omega
  · have := addrs_bounds hy; omega
  · obtain ⟨z, hz, hyz⟩ := List.mem_flatMap.mp hy
    exact hg z (Or.inr hz) hyz

/-- Every chunk of the layout is described by memory. -/
theorem flat_ok {cf : Conf} {s : Heap} {L : Lay} {D : List (Nat × Nat)} {env : Nat → Bool} (hi : Inv cf s L D env) {y : Nat × Ck} (hy : y ∈ flat L) : ∃ q, CkOK s.mem y.1 q y.2 := by
  obtain ⟨z, hz, hyz⟩ := List.mem_flatMap.mp hy
  exact chain_mem (hi.ok z hz).chain hyz

theorem flat_split {L : Lay} {y : Nat × Ck} (hy : y ∈ flat L) : ∃ L1 g xs ys L2, L = L1 ++ (g, xs ++ y.2 :: ys) :: L2 ∧ y.1 = g.base + sz xs := by
  obtain ⟨z, hz, hyz⟩ := List.mem_flatMap.mp hy
  obtain ⟨L1, L2, rfl⟩ := List.append_of_mem hz
  obtain ⟨xs, ys, hcs, ha⟩ := addrs_split hyz
  exact ⟨L1, z.1, xs, ys, L2, by rw [← hcs], ha⟩

/-- The flat layout has no overlapping chunks: same address, same chunk. -/
theorem flat_unique {cf : Conf} {s : Heap} {L : Lay} {D : List (Nat × Nat)} {env : Nat → Bool} (hi : Inv cf s L D env) {y z : Nat × Ck} (hy : y ∈ flat L) (hz : z ∈ flat L) :
    y = z ∨ y.1 + y.2.n ≤ z.1 ∨ z.1 + z.2.n ≤ y.1 := by
  obtain ⟨L1, g, xs, ys, L2, rfl, ha⟩ := flat_split hy
  have e : xs ++ y.2 :: ys = xs ++ [y.2] ++ ys := by simp
  rw [e] at hi hz
  rcases (mem_focus ..).mp hz with h | h
  · have := around_apart hi h
    simp only [sz_cons, sz_nil] at this
    omega
  · simp only [addrs_cons, addrs_nil, List.mem_singleton] at h
    left; rw [h, ← ha]

/-- A free or used chunk is followed by a chunk. -/
theorem has_next {cf : Conf} {s : Heap} {D : List (Nat × Nat)} {env : Nat → Bool} {L1 L2 : Lay} {g : Seg} {xs ys : List Ck} {c : Ck}
    (hi : Inv cf s (L1 ++ (g, xs ++ c :: ys) :: L2) D env) (hk : c.k = .used ∨ c.k = .free) : ∃ c0 ys', ys = c0 :: ys' := by
  cases ys with
  | cons c0 ys' => exact ⟨c0, ys', rfl⟩
  | nil =>
    exfalso
    obtain ⟨body, hb, -⟩ := (hi.ok (g, xs ++ [c]) (by simp)).body
    have := (List.append_inj' hb rfl).2
    simp only [List.cons.injEq, and_true] at this
    rw [this] at hk
    split at hk <;> simp at hk

end Arax.Dl
