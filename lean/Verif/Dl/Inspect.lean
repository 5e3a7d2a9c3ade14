import Verif.Dl.Stats2
/-!
# C75: what `arch_alloc_stats` and `arch_alloc_inspect` tell
-/
namespace Arax.Dl
open Arax.Bitmap (bit Bmp)

/-- The bytes an allocator could still hand out without new pages, with the 80 bytes it keeps at the end of the first segment: top, designated victim and bins. malloc.c:2629-2653. -/
def Sys.unused (σ : Sys) (i : Nat) : Nat := (σ.heap i).topsize + 80 + (σ.heap i).dvsize + ((σ.heap i).bins.map Prod.snd).sum

/-- The bytes of the directly mapped blocks of an allocator. (No code of its own.) -/
def Sys.mapped (σ : Sys) (i : Nat) : Nat := ((directs σ.mem (σ.live i)).map Prod.snd).sum

/-- The number of bytes behind the bookkeeping: an upper bound for every segment. -/
def Seat.span (g : Seat) : Nat := 4096 * (64 * ((g.pages + 63) / 64))

theorem seg_span {g : Seat} {mremap : Bool} {σ : Sys} {L : Nat → Lay} {D : Nat → List (Nat × Nat)} (hi : SInv (g.conf mremap) σ L D) {i : Nat} (hu : σ.up i = true) {z : Seg × List Ck} (hz : z ∈ L i) :
    z.1.size ≤ g.span := by
  have hl := (hi.one i hu).inv.low (z.1.base, z.1.size) (by unfold regs; exact List.mem_append_left _ (List.mem_map.mpr ⟨z, hz, rfl⟩))
  have hroom : σ.bmp.endc = (g.pages + 63) / 64 := hi.room.2
  have h2 : z.1.base + z.1.size ≤ (g.conf mremap).start + 4096 * (64 * σ.bmp.endc) := hl.2.2
  have h1 : (g.conf mremap).start ≤ z.1.base := hl.1
  rw [hroom] at h2
  unfold Seat.span
  omega

/-- Regions that are apart, in an interval, have no more bytes than the interval. -/
theorem total_fits : ∀ (k : Nat) (l : List (Nat × Nat)) (lo hi : Nat), l.length ≤ k → l.Pairwise Apart → (∀ r ∈ l, 0 < r.2 ∧ lo ≤ r.1 ∧ r.1 + r.2 ≤ hi) → total l ≤ hi - lo
  | _, [], lo, hi, _, _, _ => Nat.zero_le _
  | 0, a :: l, lo, hi, hk, _, _ => by simp at hk
  | k + 1, a :: l, lo, hi, hk, hp, hb => by
    rw [List.pairwise_cons] at hp
    have ha := hb a (by simp)
    have hlen : l.length ≤ k := by simpa using hk
    let p : Nat × Nat → Bool := fun r => decide (r.1 < a.1)
    have h1 := total_fits k (l.filter p) lo a.1 (Nat.le_trans (List.length_filter_le _ _) hlen) (hp.2.sublist List.filter_sublist) (by
      intro r hr
      rw [List.mem_filter] at hr
      have h2 := hp.1 r hr.1
      have h3 := hb r (by simp [hr.1])
      have h4 : r.1 < a.1 := of_decide_eq_true hr.2
      simp only [Apart] at h2; omega)
    have h2 := total_fits k (l.filter (fun r => !p r)) (a.1 + a.2) hi (Nat.le_trans (List.length_filter_le _ _) hlen) (hp.2.sublist List.filter_sublist) (by
      intro r hr
      rw [List.mem_filter] at hr
      have h2 := hp.1 r hr.1
      have h3 := hb r (by simp [hr.1])
      have h4 : ¬ r.1 < a.1 := by have := hr.2; simp only [p, Bool.not_eq_true', decide_eq_false_iff_not] at this; exact this
      simp only [Apart] at h2; omega)
    have h3 : total l = total (l.filter p) + total (l.filter (fun r => !p r)) := by
      have := ((List.filter_append_perm p l).map Prod.snd).sum_nat
      rw [List.map_append, List.sum_append] at this
      exact this.symm
    have h4 : total (a :: l) = a.2 + total l := rfl
    omega

theorem foot_le {cf : Conf} {s : Heap} {L : Lay} {D : List (Nat × Nat)} {env : Nat → Bool} (hi : Inv cf s L D env) : s.foot ≤ 4096 * (64 * s.bmp.endc) := by
  rw [hi.foot]
  have hr := hi.regs
  have := total_fits _ (regs L D) cf.start (cf.start + 4096 * (64 * s.bmp.endc)) (Nat.le_refl _) hi.disj (fun r h => ⟨(hr.al r h).2.2, (hi.low r h).1, (hi.low r h).2.2⟩)
  omega

theorem foot_parts {cf : Conf} {σ : Sys} {L : Nat → Lay} {D : Nat → List (Nat × Nat)} (hi : SInv cf σ L D) {i : Nat} (hu : σ.up i = true) :
    σ.footprint i = ((σ.heap i).segs.map Seg.size).sum + total (D i) ∧ total (D i) = σ.mapped i := by
  have hw := hi.one i hu
  have hs : (σ.heap i).segs = (L i).map Prod.fst := hw.inv.segs
  have hf : (σ.heap i).foot = total (regs (L i) (D i)) := hw.inv.foot
  have hDD := (List.pairwise_append.mp hw.inv.disj).2.1
  have hpos : ∀ r ∈ D i, 0 < r.2 := fun r hr => (hw.inv.dir r hr).2.2.2.2
  have hmem : ∀ r, r ∈ directs σ.mem (σ.live i) ↔ r ∈ D i := directs_iff hw
  have ht : total (directs σ.mem (σ.live i)) = total (D i) := total_congr (directs_nodup hw) (apart_nodup hDD hpos) hmem
  refine ⟨?_, ht.symm⟩
  unfold Sys.footprint
  rw [hf, hs]
  unfold total regs
  rw [List.map_append, List.sum_append, List.map_map, List.map_map]
  rfl

/-- **C75** (partial: see `C75_stats_violated`.) `arch_alloc_stats` always comes to an end, in at most as many steps per segment as there are bytes, and reports, modulo 2^32: as total, the footprint without the
directly mapped blocks and without 32 to 48 bytes for each segment but the first; as used, the footprint without the unused bytes. And the used bytes cover all blocks, with 8 bytes for each, and the 944
bytes of the `malloc_state`. (Missing: that total is not less than used, and that neither is reduced modulo 2^32.) -/
theorem C75_stats_partial {g : Seat} {mremap : Bool} {σ : Sys} (h : Reached g mremap σ) {i : Nat} (hu : σ.up i = true) {n : Nat} (hn : g.span < n) :
    ∃ spare, σ.stats i n = some ⟨(σ.footprint i - σ.mapped i - spare) % 2 ^ 32, (σ.footprint i - σ.unused i) % 2 ^ 32⟩ ∧
      σ.mapped i + spare + σ.unused i ≤ σ.footprint i ∧ 32 * ((σ.heap i).segs.length - 1) ≤ spare ∧ spare ≤ 48 * ((σ.heap i).segs.length - 1) ∧
      944 + ((σ.live i).map (fun c => c.2 + 8)).sum + σ.unused i ≤ σ.footprint i := by
  obtain ⟨L, D, hi⟩ := reached_inv h
  have hw := hi.one i hu
  have hinv := hw.inv
  have hs : (σ.heap i).segs = (L i).map Prod.fst := hinv.segs
  have hc := count_segs hinv (L i) (fun z hz => ⟨hz, Nat.lt_of_le_of_lt (seg_span hi hu hz) hn⟩)
  have hc : countSegs σ.mem (σ.heap i).top n ((L i).map Prod.fst) = some (((flat (L i)).filter notTop).map (seen σ.mem)) := hc
  obtain ⟨h1, h2, h3⟩ := sums (m := σ.mem) (flat (L i)) (fun y hy => flat_ok hinv hy)
  have h4 := segs_bytes hinv
  have h4' : (σ.heap i).topsize + 80 + bytesOf ((flat (L i)).filter notTop) + ((σ.heap i).segs.tail.map Seg.spare).sum = ((σ.heap i).segs.map Seg.size).sum := h4.1
  have h5 : ∀ g ∈ (σ.heap i).segs.tail, 32 ≤ g.spare ∧ g.spare ≤ 48 := h4.2
  have h6 : total (kindOf .free (flat (L i))) = (σ.heap i).dvsize + ((σ.heap i).bins.map Prod.snd).sum := by
    have h := free_bytes hinv; exact h
  have h7 : mstSize + ((σ.live i).map (fun c => c.2 + 8)).sum ≤ total (kindOf .used (flat (L i))) + total (D i) := live_bytes hw
  obtain ⟨h8, h9⟩ := foot_parts hi hu
  have h10 : ∀ l : List Seg, (∀ g ∈ l, 32 ≤ g.spare ∧ g.spare ≤ 48) → 32 * l.length ≤ (l.map Seg.spare).sum ∧ (l.map Seg.spare).sum ≤ 48 * l.length := by
    intro l
    induction l with
    | nil => intro _; exact ⟨Nat.le_refl _, Nat.le_refl _⟩
    | cons a l ih =>
      intro h
      have := ih (fun g hg => h g (by simp [hg]))
      have := h a (by simp)
      simp only [List.map_cons, List.sum_cons, List.length_cons]; omega
  have h11 := h10 _ h5
  rw [List.length_tail] at h11
  have hfw : σ.footprint i < W := by
    have hfp : (σ.heap i).foot ≤ 4096 * (64 * σ.bmp.endc) := foot_le hinv
    have := hi.room.1
    unfold Sys.footprint
    omega
  refine ⟨((σ.heap i).segs.tail.map Seg.spare).sum, ?_, ?_, h11.1, h11.2, ?_⟩
  · unfold Sys.stats
    simp only
    rw [hs, hc]
    simp only [Option.map_some]
    rw [h1, h2, ← hs, show topFoot = 80 from rfl]
    unfold Sys.unused
    unfold Sys.footprint at *
    have e1 : ((σ.heap i).topsize + 80 + bytesOf ((flat (L i)).filter notTop)) % W = (σ.heap i).foot - σ.mapped i - ((σ.heap i).segs.tail.map Seg.spare).sum := by
      rw [Nat.mod_eq_of_lt (by omega)]; omega
    have e2 : (W + (σ.heap i).foot - ((σ.heap i).topsize + 80 + total (kindOf .free (flat (L i)))) % W) % W = (σ.heap i).foot - ((σ.heap i).topsize + 80 + (σ.heap i).dvsize + ((σ.heap i).bins.map Prod.snd).sum) := by
      rw [Nat.mod_eq_of_lt (a := (σ.heap i).topsize + 80 + total (kindOf .free (flat (L i)))) (by omega)]
      rw [show W + (σ.heap i).foot - ((σ.heap i).topsize + 80 + total (kindOf .free (flat (L i)))) = W + ((σ.heap i).foot - ((σ.heap i).topsize + 80 + total (kindOf .free (flat (L i))))) by omega, Nat.add_mod_left,
        Nat.mod_eq_of_lt (by omega)]
      omega
    rw [e1, e2]
  · unfold Sys.unused; omega
  · unfold Sys.unused; unfold mstSize at h7; omega

/-- **C75** (partial: see `C75_stats_violated`.) While an allocator has one segment and no directly mapped block, and fewer than 4 GiB, the numbers are what alloc.h says: total is everything it has, used is all
that is in use, and the difference is what it can still hand out. -/
theorem C75_plain_partial {g : Seat} {mremap : Bool} {σ : Sys} (h : Reached g mremap σ) {i : Nat} (hu : σ.up i = true) {n : Nat} (hn : g.span < n) (h1 : (σ.heap i).segs.length = 1) (h2 : σ.mapped i = 0)
    (h3 : σ.footprint i < 2 ^ 32) :
    ∃ st, σ.stats i n = some st ∧ st.total = ((σ.regions i).map Prod.snd).sum ∧ st.used + σ.unused i = st.total ∧ 944 + ((σ.live i).map (fun c => c.2 + 8)).sum ≤ st.used := by
  obtain ⟨spare, e, h4, h5, h6, h7⟩ := C75_stats_partial h hu hn
  have h8 := (C74_footprint h hu).1
  rw [h1] at h6
  refine ⟨_, e, ?_, ?_, ?_⟩
  · simp only; rw [← h8, Nat.mod_eq_of_lt (by omega)]; omega
  · simp only; rw [Nat.mod_eq_of_lt (by omega), Nat.mod_eq_of_lt (by omega)]; omega
  · simp only; rw [Nat.mod_eq_of_lt (by omega)]; omega

/-! ## Inspecting -/

theorem regs_two {cf : Conf} {σ : Sys} {L : Nat → Lay} {D : Nat → List (Nat × Nat)} (hi : SInv cf σ L D) {i j : Nat} (hu : σ.up i = true) (hu' : σ.up j = true) (hij : i ≠ j) {r r' : Nat × Nat}
    (hr : r ∈ regs (L i) (D i)) (hr' : r' ∈ regs (L j) (D j)) : Apart r r' := by
  have hal := (hi.one i hu).inv.regs.al r hr
  have hal' := (hi.one j hu').inv.regs.al r' hr'
  have hl := (hi.one i hu).inv.low r hr
  have hl' := (hi.one j hu').inv.low r' hr'
  have hst := hi.start.1
  by_cases hlt : r.1 + r.2 ≤ r'.1 ∨ r'.1 + r'.2 ≤ r.1
  · exact hlt
  · exfalso
    have hx : ∀ q : Nat, InReg cf r q → ¬ InReg cf r' q := by
      intro q h3 h4
      have h5 := hi.two i j hu hu' hij q (covers_iff.mpr ⟨r, hr, h3⟩)
      rw [covers_iff.mpr ⟨r', hr', h4⟩] at h5; cases h5
    have := hx ((max r.1 r'.1 - cf.start) / 4096)
    unfold InReg at this
    exact this (by omega) (by omega)

/-- What is reported for a chunk. -/
theorem report_chunk {m : Nat → Nat} {y : Nat × Ck} {q : Bool} (h : CkOK m y.1 q y.2) :
    (y.2.k.live = true → reportOf (seen m y) = some ⟨y.1 + 16, y.1 + y.2.n, y.2.n - 8⟩) ∧
    (y.2.k.live = false → ∀ r, reportOf (seen m y) = some r → r.used = 0 ∧ y.1 + 32 ≤ r.start ∧ r.start < r.fin ∧ r.fin = y.1 + y.2.n) := by
  have hc : csize (m (y.1 + 8)) = y.2.n := by rw [h.head]; exact csize_enc _ _ h.mul
  have hu : isInuse (m (y.1 + 8)) = !(!y.2.k.live && q) := by rw [h.head]; exact isInuse_enc _ _ h.mul
  have ha := h.adj
  have hp := h.pos
  have hm := h.min
  obtain ⟨a, n, k⟩ := y
  simp only at hc hu ha hp hm
  unfold reportOf seen
  simp only [hc, hu]
  constructor
  · intro hl
    have : k ≠ .top := by rintro rfl; simp [Kind.live] at hl
    have := hm this
    simp only [hl]
    simp; omega
  · intro hl r hr
    have hq : q = true := by cases q with | true => rfl | false => rw [ha rfl] at hl; cases hl
    simp only [hl, hq] at hr
    by_cases e : n < 256
    · simp [e] at hr
      obtain ⟨h1, rfl⟩ := hr; exact ⟨rfl, by simp only; omega, by simp only; omega, rfl⟩
    · simp [e] at hr
      obtain ⟨h1, rfl⟩ := hr; exact ⟨rfl, by simp only; omega, by simp only; omega, rfl⟩

/-- **C75** (partial: see `C75_inspect_violated`.) `arch_alloc_inspect` always comes to an end. It reports ranges that do not overlap, none of them empty. Every block that is not directly mapped is reported, with
its address as start, with at least the requested bytes as used, and with an end 8 bytes before the last usable byte's. Every range with used bytes is a block, or the `malloc_state`, or the record of a segment.
A range without used bytes has no byte of any block of any allocator. (Missing: the directly mapped blocks.) -/
theorem C75_inspect_partial {g : Seat} {mremap : Bool} {σ : Sys} (h : Reached g mremap σ) {i : Nat} (hu : σ.up i = true) {n : Nat} (hn : g.span < n) :
    ∃ rs, σ.inspect i n = some rs ∧ (∀ r ∈ rs, r.start < r.fin) ∧ rs.Pairwise (fun r q => r.fin ≤ q.start ∨ q.fin ≤ r.start) ∧
      (∀ c ∈ σ.live i, isMmapped (σ.mem (c.1 - 8)) = false → ∃ r ∈ rs, r.start = c.1 ∧ c.2 ≤ r.used ∧ r.fin + 8 = r.start + r.used) ∧
      (∀ r ∈ rs, r.used ≠ 0 → (∃ c ∈ σ.live i, c.1 = r.start) ∨ r.start = (σ.heap i).mst + 16 ∨ ∃ s ∈ (σ.heap i).segs, r.start = s.link) ∧
      (∀ r ∈ rs, r.used = 0 → ∀ j, ∀ c ∈ σ.live j, c.1 + c.2 ≤ r.start ∨ r.fin ≤ c.1) := by
  obtain ⟨L, D, hi⟩ := reached_inv h
  have hw := hi.one i hu
  have hinv := hw.inv
  have hs : (σ.heap i).segs = (L i).map Prod.fst := hinv.segs
  have hc := visit_segs hinv (L i) (fun z hz => ⟨hz, Nat.lt_of_le_of_lt (seg_span hi hu hz) hn⟩)
  have hc : visitSegs σ.mem (σ.heap i).top n ((L i).map Prod.fst) = some ((flat (L i)).map (seen σ.mem)) := hc
  have hok : ∀ y ∈ flat (L i), ∃ q, CkOK σ.mem y.1 q y.2 := fun y hy => flat_ok hinv hy
  have hrep : ∀ r, r ∈ ((flat (L i)).map (seen σ.mem)).filterMap reportOf ↔ ∃ y ∈ flat (L i), reportOf (seen σ.mem y) = some r := by
    intro r; rw [List.mem_filterMap]; simp only [List.mem_map]
    constructor
    · rintro ⟨a, ⟨y, hy, rfl⟩, e⟩; exact ⟨y, hy, e⟩
    · rintro ⟨y, hy, e⟩; exact ⟨_, ⟨y, hy, rfl⟩, e⟩
  have hin : ∀ y ∈ flat (L i), ∀ r, reportOf (seen σ.mem y) = some r → y.1 + 16 ≤ r.start ∧ r.start < r.fin ∧ r.fin = y.1 + y.2.n := by
    intro y hy r e
    obtain ⟨q, hq⟩ := hok y hy
    obtain ⟨h1, h2⟩ := report_chunk hq
    cases hl : y.2.k.live with
    | true =>
      rw [h1 hl, Option.some.injEq] at e
      have hmn := hq.min (by intro e; rw [e] at hl; cases hl)
      subst e; exact ⟨Nat.le_refl _, by simp only; omega, rfl⟩
    | false => have := h2 hl r e; omega
  refine ⟨((flat (L i)).map (seen σ.mem)).filterMap reportOf, ?_, ?_, ?_, ?_, ?_, ?_⟩
  · unfold Sys.inspect; rw [hs, hc]; rfl
  · intro r hr
    obtain ⟨y, hy, e⟩ := (hrep r).mp hr
    exact (hin y hy r e).2.1
  · rw [List.pairwise_filterMap, List.pairwise_map]
    refine (flat_apart hinv).imp_of_mem ?_
    intro x y hx hy hxy r hr q hq
    have h1 := hin x hx r hr
    have h2 := hin y hy q hq
    omega
  · intro c hcl hmm
    obtain ⟨p, k, e, hb, hk, -⟩ := hw.fwd c hcl
    have hp := blk_pos hinv hb
    rw [show c.1 - 8 = p + 8 by omega] at hmm
    rcases hb with hb | hb
    · obtain ⟨q, hq⟩ := hok _ hb
      have h1 := (report_chunk hq).1 rfl
      refine ⟨_, (hrep _).mpr ⟨_, hb, h1⟩, ?_, ?_, ?_⟩ <;> simp only <;> omega
    · exfalso
      have hd := hinv.dir _ hb
      have hd2 : σ.mem (p + 8) + 32 = k + 40 := hd.2.1
      have hd3 : (k + 40) % 4096 = 0 := hd.2.2.2.1
      unfold isMmapped at hmm; simp only [beq_eq_false_iff_ne] at hmm; omega
  · intro r hr hne
    obtain ⟨y, hy, e⟩ := (hrep r).mp hr
    obtain ⟨q, hq⟩ := hok y hy
    obtain ⟨h1, h2⟩ := report_chunk hq
    cases hl : y.2.k.live with
    | false => exact absurd (h2 hl r e).1 hne
    | true =>
      rw [h1 hl, Option.some.injEq] at e
      subst e
      obtain ⟨p, m, k⟩ := y
      cases k with
      | free => cases hl
      | top => cases hl
      | used =>
        rcases hw.back p m (Or.inl hy) with h3 | ⟨b, h3⟩
        · right; left; simp only; rw [h3]; rfl
        · left; exact ⟨_, h3, rfl⟩
      | link =>
        right; right
        obtain ⟨z, hz, hyz⟩ := List.mem_flatMap.mp hy
        have hk := hinv.ok z hz
        obtain ⟨body, hbd, hkind⟩ := hk.body
        have hlim := hk.lim
        refine ⟨z.1, by rw [hs]; exact List.mem_map_of_mem hz, ?_⟩
        rw [hbd, addrs_append, List.mem_append] at hyz
        rcases hyz with h3 | h3
        · have := hkind _ (addrs_kind h3); simp at this
        · simp only [addrs_cons, addrs_nil, List.mem_singleton, Prod.mk.injEq] at h3
          by_cases e : z.1.link = (σ.view i (others (g.conf mremap) σ.bmp (regs (L i) (D i)))).heap.hrec
          · rw [if_pos e] at h3; simp at h3
          · rw [if_neg e] at hlim hbd
            have : sz z.2 = sz body + 48 := by rw [hbd]; simp
            simp only; omega
  · intro r hr h0 j c hcl
    obtain ⟨y, hy, e⟩ := (hrep r).mp hr
    obtain ⟨q, hq⟩ := hok y hy
    obtain ⟨h1, h2⟩ := report_chunk hq
    have hl : y.2.k.live = false := by
      cases hl : y.2.k.live with
      | false => rfl
      | true =>
        rw [h1 hl, Option.some.injEq] at e
        have hmn := hq.min (by intro e; rw [e] at hl; cases hl)
        subst e; simp only at h0; omega
    have h3 := h2 hl r e
    have huj := live_up hi hcl
    obtain ⟨p, k, e', hb, hk, -⟩ := (hi.one j huj).fwd c hcl
    have hp := blk_pos (hi.one j huj).inv hb
    obtain ⟨z, hz, hyz⟩ := List.mem_flatMap.mp hy
    have hbd := addrs_bounds hyz
    have hfit := (hinv.ok z hz).fits
    have hzr : (z.1.base, z.1.size) ∈ regs (L i) (D i) := by unfold regs; exact List.mem_append_left _ (List.mem_map.mpr ⟨z, hz, rfl⟩)
    by_cases hij : i = j
    · subst hij
      rcases hb with hb | hb
      · rcases flat_unique hinv hy hb with h4 | h4 | h4
        · rw [h4] at hl; cases hl
        · right; simp only at h4; omega
        · left; simp only at h4; omega
      · have := dir_apart hinv hz hb
        simp only [Apart] at this; omega
    · obtain ⟨r', hr', h5, h6⟩ := blk_reg (hi.one j huj).inv hb
      have := regs_two hi hu huj hij hzr hr'
      simp only [Apart] at this; omega

/-! ## Cases -/

/-- **C75 is violated**: "total" is to be the bytes "available for user data AND allocator metadata", "used" those used (alloc.h:85-86), and vdf shows the difference as "Free" (vdf/Views/Allocations.cpp:54-56). With
one block of 300000 bytes, which is directly mapped, 304048 bytes are used of a total of 65536, and the difference is negative, so that as `size_t` it is 18446744073709313104. -/
theorem C75_stats_violated : ∃ σ, Reached seat256 false σ ∧ σ.up 0 = true ∧ σ.live 0 = [(77840, 300000)] ∧ σ.stats 0 (seat256.span + 1) = some ⟨65536, 304048⟩ := by
  obtain ⟨σ, h1, h2⟩ := ask_reached (mremap := false) (acts := [.create 0, .alloc 0 300000 0])
    (q := fun σ => decide (σ.up 0 = true ∧ σ.live 0 = [(77840, 300000)] ∧ σ.stats 0 (seat256.span + 1) = some ⟨65536, 304048⟩)) seat256_ok (by decide +kernel)
  exact ⟨σ, h1, of_decide_eq_true h2⟩

/-- **C75 is violated**: a directly mapped block is not reported. Here there is one block, of 300000 bytes at 77840, and what is reported is the `malloc_state` and the free rest of the segment. -/
theorem C75_inspect_violated : ∃ σ, Reached seat256 false σ ∧ σ.up 0 = true ∧ σ.live 0 = [(77840, 300000)] ∧ σ.inspect 0 (seat256.span + 1) = some [⟨12304, 13232, 936⟩, ⟨13296, 77744, 0⟩] := by
  obtain ⟨σ, h1, h2⟩ := ask_reached (mremap := false) (acts := [.create 0, .alloc 0 300000 0])
    (q := fun σ => decide (σ.up 0 = true ∧ σ.live 0 = [(77840, 300000)] ∧ σ.inspect 0 (seat256.span + 1) = some [⟨12304, 13232, 936⟩, ⟨13296, 77744, 0⟩])) seat256_ok (by decide +kernel)
  exact ⟨σ, h1, of_decide_eq_true h2⟩

/-- The hypotheses of `C75_plain_partial`, with three blocks. -/
example : ask seat256 false [.create 0, .alloc 0 100 0, .alloc 0 1000 0, .alloc 0 10 0] (fun σ => decide (σ.up 0 = true ∧ (σ.heap 0).segs.length = 1 ∧ σ.mapped 0 = 0 ∧ σ.footprint 0 < 2 ^ 32 ∧
    σ.stats 0 (seat256.span + 1) = some ⟨65536, 2096⟩ ∧ σ.live 0 = [(14368, 10), (13360, 1000), (13248, 100)])) = true := by decide +kernel

/-- Two segments, four blocks, a freed one: what is reported. The total is 32 bytes less than the footprint. -/
example : ask seat256 false [.create 0, .alloc 0 100 0, .alloc 0 1000 0, .alloc 0 10 0, .create 1, .alloc 0 100000 0, .free 0 13360] (fun σ => decide (σ.footprint 0 = 196608 ∧ σ.stats 0 (seat256.span + 1) = some ⟨196576, 101184⟩ ∧
    σ.inspect 0 (seat256.span + 1) = some [⟨143376, 243376, 100008⟩, ⟨243440, 274352, 0⟩, ⟨12304, 13232, 936⟩, ⟨13248, 13344, 104⟩, ⟨13408, 14352, 0⟩, ⟨14368, 14384, 24⟩, ⟨14448, 77744, 0⟩, ⟨77760, 77792, 40⟩])) = true := by
  decide +kernel

end Arax.Dl
