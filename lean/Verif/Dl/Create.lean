import Verif.Dl.Free2
/-!
# A new heap, and what others may do to memory and bitmap
-/
namespace Arax.Dl
open Arax.Bitmap (bit Bmp Took Released)

/-- Where an allocator lives: a bitmap in use (by others), and memory that does not wrap around the address space. (No code of its own.) -/
structure Setting (cf : Conf) (b : Bmp) : Prop where
  reach : ∃ mem0 size others, Bitmap.Reach mem0 size b others ∧ size + 63 < 2 ^ 64
  start : cf.start % 4096 = 0 ∧ 0 < cf.start
  room : cf.start + 4096 * (64 * b.endc) < W ∧ b.endc = cf.groups

theorem Setting.bok {cf : Conf} {b : Bmp} (h : Setting cf b) : BOK b := by
  obtain ⟨mem0, size, others, hr, hsz⟩ := h.reach
  have hinv := Bitmap.inv_of_reach mem0 size hsz b others hr
  refine ⟨hinv.freeP, ?_, ?_⟩
  · rw [hinv.endc]; omega
  · have := hinv.count; unfold Bitmap.usedBits at this; exact this

theorem create_core {cf : Conf} {b : Bmp} (mem0 : Nat → Nat) (hbok : BOK b) (hst : cf.start % 4096 = 0 ∧ 0 < cf.start) (hroom : cf.start + 4096 * (64 * b.endc) < W ∧ b.endc = cf.groups) :
    (create cf mem0 b = .noMem ∧ (Bitmap.alloc b 16).2 = none) ∨
    ∃ s L, create cf mem0 b = .ok s ∧ Inv cf s L [] (bit b) ∧ (∀ q k, Blk L [] q k ↔ q = s.mst ∧ k = mstSize) ∧ Frame cf (bit b) mem0 s.mem := by
  have hr0 : Regs cf b W 0 [] (bit b) := by
    refine ⟨by simp, List.Pairwise.nil, by simp, by simp, fun i hi => hi, fun _ i _ hb => Or.inl hb, hbok, by simp [total], hst, hroom, by unfold W; omega⟩
  unfold create
  rcases mmap_ok (s := { mem := mem0, bmp := b, segs := [], bins := [], dv := 0, dvsize := 0, top := 0, topsize := 0, least := 0, trim := 0, checks := 0, foot := 0, maxFoot := 0, mst := 0 }) hr0 (n := 65536) (by omega) (by omega) with
    ⟨h1, h2⟩ | ⟨b', a, h1, h2, h3, h4⟩
  · left; rw [h1]; exact ⟨rfl, h2⟩
  · right
    have hlo := (h4 1 (by omega) (by unfold W; omega) (by omega)).low (a, 65536) List.mem_cons_self
    have htop := (h4 1 (by omega) (by unfold W; omega) (by omega)).top64
    simp only at hlo
    have hreg := h4 a (by omega) (by omega) (Nat.le_refl _)
    rw [h1]
    simp only [Out.bind_ok]
    have e1 : alignOff (a + 16) = 0 := alignOff_zero (by omega)
    simp only [e1, Nat.add_zero]
    have e2 : alignOff (a + mstSize + 16) = 0 := alignOff_zero (by unfold mstSize; omega)
    simp only [initTop, e2, Nat.add_zero, Nat.sub_zero]
    have e3 : a + 65536 - (a + mstSize) - topFoot = 64512 := by unfold mstSize topFoot; omega
    rw [e3]
    refine ⟨_, [(⟨a, 65536, a + 16 + 888⟩, [⟨944, .used⟩, ⟨64512, .top⟩])], rfl, ?_, ?_, ?_⟩
    · generalize hm : put (put (put mem0 (a + 8) (mstSize + 3)) (a + mstSize + 8) (64512 + 1)) (a + mstSize + 64512 + 8) topFoot = m
      have m1 : m (a + 8) = 947 := by rw [← hm, put_other _ _ (by unfold mstSize; omega), put_other _ _ (by unfold mstSize; omega), put_same]; rfl
      have m2 : m (a + 944 + 8) = 64513 := by
        have e : a + 944 + 8 = a + mstSize + 8 := rfl
        rw [← hm, e, put_other _ _ (by omega), put_same]
      have hrr : regs [((⟨a, 65536, a + 16 + 888⟩ : Seg), [(⟨944, .used⟩ : Ck), ⟨64512, .top⟩])] [] = [(a, 65536)] := by simp [regs]
      refine ⟨rfl, ?_, ⟨_, _, rfl, rfl, by simp⟩, ?_, List.nodup_nil, Or.inl ⟨rfl, rfl⟩, ?_, by simp, ?_, ?_, ?_, ?_, ?_, hreg.bmp, ?_, hst, htop, ?_, Nat.le_refl _⟩
      · intro x hx
        simp only [List.mem_singleton] at hx
        subst hx
        refine ⟨h3, by simp only, ⟨⟨?_, by simp, by simp, by simp, by simp, by simp⟩, ⟨?_, by simp, by simp, by simp, by simp, by simp [Ck.pin]⟩, trivial⟩, ?_, ?_⟩
        · simp only; rw [m1]; simp [enc, Kind.live]
        · simp only; rw [m2]; simp [enc, Kind.live, Ck.pin]
        · simp only [Heap.hrec]; rw [if_pos trivial]; exact ⟨[⟨944, .used⟩], rfl, by simp⟩
        · simp only [Heap.hrec]
          rw [if_pos trivial]
          refine ⟨rfl, ?_⟩
          show a + (944 + (64512 + 0)) = a + 944 + 64512
          omega
      · intro p n; simp [flat]
      · simp [flat, mstSize]
      · rw [hrr]; exact hreg.disj
      · rw [hrr]; exact hreg.low
      · rw [hrr]; exact hreg.pages
      · exact hreg.envb
      · rw [hrr]; exact hreg.only
      · rw [hrr]; simp [total]
      · simp only; omega
    · intro q k
      simp [Blk, flat, mstSize]
    · intro x h1 h2
      have := hreg.not_env List.mem_cons_self h1 h2
      simp only at this
      simp only
      rw [put_other _ _ (by unfold mstSize; omega), put_other _ _ (by unfold mstSize; omega), put_other _ _ (by omega)]

theorem create_ok {cf : Conf} {b : Bmp} (mem0 : Nat → Nat) (h : Setting cf b) :
    (create cf mem0 b = .noMem ∧ (Bitmap.alloc b 16).2 = none) ∨
    ∃ s L, create cf mem0 b = .ok s ∧ Inv cf s L [] (bit b) ∧ (∀ q k, Blk L [] q k ↔ q = s.mst ∧ k = mstSize) ∧ Frame cf (bit b) mem0 s.mem := create_core mem0 h.bok h.start h.room

/-- Where the fencepost after the record of a segment is. -/
theorem fence_at {cf : Conf} {s : Heap} {L : Lay} {D : List (Nat × Nat)} {env : Nat → Bool} (hi : Inv cf s L D env) {z : Seg × List Ck} (hz : z ∈ L) (hl : z.1.link ≠ s.hrec) :
    z.1.base + sz z.2 + 8 = z.1.link + 40 ∧ z.1.link + 64 ≤ z.1.base + z.1.size ∧ s.mem (z.1.link + 40) = 11 ∧ ∀ y ∈ flat L, y.1 + y.2.n + 8 ≤ z.1.link + 40 ∨ z.1.link + 64 ≤ y.1 := by
  have h := (hi.ok z hz).lim
  rw [if_neg hl] at h
  refine ⟨by omega, h.2.1, h.2.2.1, ?_⟩
  intro y hy
  obtain ⟨z', hz', hyz⟩ := List.mem_flatMap.mp hy
  have hb := addrs_bounds hyz
  have hf := (hi.ok z' hz').fits
  have hf' := (hi.ok z hz).fits
  obtain ⟨L1, L2, rfl⟩ := List.append_of_mem hz
  by_cases e : z' = z
  · subst e; omega
  · have hap := seg_apart hi (z := z') (by simp only [List.mem_append, List.mem_cons] at hz'; rcases hz' with h | h | h; exact Or.inl h; exact absurd h e; exact Or.inr h)
    simp only [Apart] at hap
    omega

/-- Words that are not boundary tags may change. -/
theorem inv_poke {cf : Conf} {s : Heap} {L : Lay} {D : List (Nat × Nat)} {env : Nat → Bool} (hi : Inv cf s L D env) {m : Nat → Nat}
    (h1 : ∀ y ∈ flat L, m (y.1 + 8) = s.mem (y.1 + 8) ∧ (y.2.k = .free → m (y.1 + y.2.n) = s.mem (y.1 + y.2.n)))
    (h2 : ∀ r ∈ D, m r.1 = s.mem r.1 ∧ m (r.1 + 8) = s.mem (r.1 + 8))
    (h3 : ∀ z ∈ L, z.1.link ≠ s.hrec → m (z.1.link + 40) = s.mem (z.1.link + 40)) : Inv cf { s with mem := m } L D env := by
  refine ⟨hi.segs, ?_, hi.hd, hi.bins, hi.bnd, hi.dv, hi.mst, ?_, hi.disj, hi.low, hi.pages, hi.envb, hi.only, hi.bmp, hi.foot, hi.start, hi.top64, hi.lpos, hi.trim⟩
  · intro x hx
    have hk := hi.ok x hx
    refine ⟨hk.base, hk.size, ?_, hk.body, ?_⟩
    rotate_left
    · have hl := hk.lim
      by_cases e : x.1.link = s.hrec
      · rw [if_pos e] at hl; rw [if_pos (by exact e)]; exact hl
      · rw [if_neg e] at hl; rw [if_neg (by exact e)]; exact ⟨hl.1, hl.2.1, by simp only; rw [h3 x hx e]; exact hl.2.2⟩
    have : ∀ (cs : List Ck) (a : Nat) (pin : Bool), (∀ y ∈ addrs a cs, y ∈ flat L) → Chain s.mem a pin cs → Chain m a pin cs := by
      intro cs
      induction cs with
      | nil => intros; trivial
      | cons c cs ih =>
        intro a pin hsub hc
        have hy := h1 (a, c) (hsub _ (by simp))
        exact ⟨⟨by rw [hy.1]; exact hc.1.head, fun hf => by rw [hy.2 hf]; exact hc.1.foot hf, hc.1.mul, hc.1.pos, hc.1.min, hc.1.adj⟩, ih _ _ (fun y hy => hsub y (by simp [hy])) hc.2⟩
    exact this _ _ _ (fun y hy => List.mem_flatMap.mpr ⟨x, hx, hy⟩) hk.chain
  · intro r hr
    obtain ⟨d1, d2, d3⟩ := hi.dir r hr
    obtain ⟨e1, e2⟩ := h2 r hr
    exact ⟨by simp only; rw [e1]; exact d1, by simp only; rw [e2]; exact d2, d3⟩

/-- A word inside a chunk (of no free chunk its footer) is no tag. -/
theorem poke_chunk {cf : Conf} {s : Heap} {L : Lay} {D : List (Nat × Nat)} {env : Nat → Bool} (hi : Inv cf s L D env) {y : Nat × Ck} (hy : y ∈ flat L) {x v : Nat} (hx : y.1 + 16 ≤ x)
    (hx' : x < y.1 + y.2.n + 8) (hf : y.2.k = .free → x < y.1 + y.2.n) : Inv cf { s with mem := put s.mem x v } L D env := by
  refine inv_poke hi ?_ ?_ ?_
  · intro z hz
    have hpz := addr_pos hi hz
    have hpy := addr_pos hi hy
    have hne : z.1 + 8 ≠ x ∧ (z.2.k = .free → z.1 + z.2.n ≠ x) := by
      rcases flat_unique hi hz hy with h | h | h
      · subst h; exact ⟨by omega, fun h => by have := hf h; omega⟩
      · omega
      · refine ⟨by omega, fun _ => by omega⟩
    exact ⟨put_other _ _ hne.1, fun h => put_other _ _ (hne.2 h)⟩
  · intro r hr
    obtain ⟨z, hz, hyz⟩ := List.mem_flatMap.mp hy
    have hb := addrs_bounds hyz
    have hfit := (hi.ok z hz).fits
    have hap := dir_apart hi hz hr
    have hd := hi.dir r hr
    simp only [Apart] at hap
    refine ⟨put_other _ _ ?_, put_other _ _ ?_⟩ <;> omega
  · intro z hz hl
    obtain ⟨-, -, -, h⟩ := fence_at hi hz hl
    have := h y hy
    exact put_other _ _ (by omega)

/-- A word of a directly mapped block is no tag. -/
theorem poke_direct {cf : Conf} {s : Heap} {L : Lay} {D : List (Nat × Nat)} {env : Nat → Bool} (hi : Inv cf s L D env) {r : Nat × Nat} (hr : r ∈ D) {x v : Nat} (hx : r.1 + 16 ≤ x)
    (hx' : x < r.1 + r.2) : Inv cf { s with mem := put s.mem x v } L D env := by
  refine inv_poke hi ?_ ?_ ?_
  · intro y hy
    obtain ⟨z, hz, hyz⟩ := List.mem_flatMap.mp hy
    have hb := addrs_bounds hyz
    have hfit := (hi.ok z hz).fits
    have hap := dir_apart hi hz hr
    have hp := addr_pos hi hy
    simp only [Apart] at hap
    refine ⟨put_other _ _ ?_, fun _ => put_other _ _ ?_⟩ <;> omega
  · intro q hq
    have hd := hi.dir q hq
    have hd2 := hi.dir r hr
    have hdj := hi.disj
    unfold regs at hdj
    rw [List.pairwise_append] at hdj
    have hne : q.1 ≠ x ∧ q.1 + 8 ≠ x := by
      by_cases e : q = r
      · subst e; omega
      · have : Apart q r := by
          have hp := hdj.2.1
          have : ∀ l : List (Nat × Nat), l.Pairwise Apart → q ∈ l → r ∈ l → Apart q r := by
            intro l
            induction l with
            | nil => intro _ h; cases h
            | cons a l ih =>
              intro hp hq hr
              rw [List.pairwise_cons] at hp
              rcases List.mem_cons.mp hq with h1 | hq
              · rcases List.mem_cons.mp hr with h2 | hr
                · exact absurd (h1.trans h2.symm) e
                · rw [h1]; exact hp.1 _ hr
              · rcases List.mem_cons.mp hr with h2 | hr
                · rw [h2]; exact apart_symm (hp.1 _ hq)
                · exact ih hp.2 hq hr
          exact this D hp hq hr
        simp only [Apart] at this
        omega
    exact ⟨put_other _ _ hne.1, put_other _ _ hne.2⟩
  · intro z hz hl
    obtain ⟨h1, h2, -, -⟩ := fence_at hi hz hl
    have hf := (hi.ok z hz).fits
    have hap := dir_apart hi hz hr
    simp only [Apart] at hap
    exact put_other _ _ (by omega)

/-- A word outside all regions is no tag. -/
theorem poke_env {cf : Conf} {s : Heap} {L : Lay} {D : List (Nat × Nat)} {env : Nat → Bool} (hi : Inv cf s L D env) {x v : Nat} (hx : ∀ r ∈ regs L D, ¬ (r.1 ≤ x ∧ x < r.1 + r.2)) :
    Inv cf { s with mem := put s.mem x v } L D env := by
  refine inv_poke hi ?_ ?_ ?_
  · intro y hy
    obtain ⟨z, hz, hyz⟩ := List.mem_flatMap.mp hy
    have hb := addrs_bounds hyz
    have hfit := (hi.ok z hz).fits
    have := hx (z.1.base, z.1.size) (List.mem_append_left _ (List.mem_map_of_mem hz))
    have hp := addr_pos hi hy
    simp only at this
    refine ⟨put_other _ _ ?_, fun _ => put_other _ _ ?_⟩ <;> omega
  · intro r hr
    have := hx r (List.mem_append_right _ hr)
    have hd := hi.dir r hr
    refine ⟨put_other _ _ ?_, put_other _ _ ?_⟩ <;> omega
  · intro z hz hl
    obtain ⟨h1, h2, -, -⟩ := fence_at hi hz hl
    have hf := (hi.ok z hz).fits
    have := hx (z.1.base, z.1.size) (List.mem_append_left _ (List.mem_map_of_mem hz))
    simp only at this
    exact put_other _ _ (by omega)

/-- Others take pages. -/
theorem inv_envAlloc {cf : Conf} {s : Heap} {L : Lay} {D : List (Nat × Nat)} {env : Nat → Bool} (hi : Inv cf s L D env) {b' : Bmp} {off n : Nat} (ha : Bitmap.alloc s.bmp n = (b', some off)) :
    Inv cf { s with bmp := b' } L D (fun i => env i || decide (off ≤ i ∧ i < off + n)) := by
  obtain ⟨ht, -, -, hend, hf⟩ := Bitmap.alloc_some _ _ _ _ hi.bmp.freeP ha
  refine ⟨hi.segs, hi.ok, hi.hd, hi.bins, hi.bnd, hi.dv, hi.mst, hi.dir, hi.disj, ?_, ?_, ?_, ?_, ⟨?_, ?_, ?_⟩, hi.foot, hi.start, ?_, hi.lpos, hi.trim⟩
  · intro r hr; simp only [ht.endc]; exact hi.low r hr
  · intro r hr i hri
    have := hi.pages r hr i hri
    simp only
    rw [ht.now, this.1, this.2]
    refine ⟨by simp, ?_⟩
    simp only [Bool.false_or, decide_eq_false_iff_not]
    rintro ⟨h1, h2⟩
    rw [ht.was_free i h1 h2] at this; cases this.1
  · intro i h
    simp only
    rw [ht.now]
    rw [Bool.or_eq_true] at h ⊢
    rcases h with h | h
    · exact Or.inl (hi.envb i h)
    · exact Or.inr h
  · intro hm i hlt hb
    simp only at hlt hb
    rw [ht.endc] at hlt
    rw [ht.now, Bool.or_eq_true] at hb
    rcases hb with hb | hb
    · rcases hi.only hm i hlt hb with h | h
      · left; rw [h]; rfl
      · exact Or.inr h
    · left; rw [hb, Bool.or_true]
  · simp only [hf, ht.endc]; omega
  · simp only [ht.endc]; exact hi.bmp.small
  · simp only
    rw [ht.endc, Bitmap.count_took (bit s.bmp) (bit b') off n _ hend ht.was_free ht.now, hi.bmp.used, ht.used]
  · simp only [ht.endc]; exact hi.top64

/-- Others find no pages. -/
theorem inv_envFail {cf : Conf} {s : Heap} {L : Lay} {D : List (Nat × Nat)} {env : Nat → Bool} (hi : Inv cf s L D env) {b' : Bmp} {n : Nat} (ha : Bitmap.alloc s.bmp n = (b', none)) :
    Inv cf { s with bmp := b' } L D env := by
  obtain ⟨h1, h2, h3, h4, h5⟩ := Bitmap.alloc_none_unchanged _ _ _ ha
  have hb : bit b' = bit s.bmp := by funext i; rw [Bitmap.bit_of_mem, Bitmap.bit_of_mem, h1]
  refine ⟨hi.segs, hi.ok, hi.hd, hi.bins, hi.bnd, hi.dv, hi.mst, hi.dir, hi.disj, ?_, ?_, ?_, ?_, ⟨?_, ?_, ?_⟩, hi.foot, hi.start, ?_, hi.lpos, hi.trim⟩
  · simp only [h4]; exact hi.low
  · simp only [hb]; exact hi.pages
  · simp only [hb]; exact hi.envb
  · simp only [hb, h4]; exact hi.only
  · have := hi.bmp.freeP; simp only [h4]; rcases h5 with h | h <;> omega
  · simp only [h4]; exact hi.bmp.small
  · simp only [hb, h4, h2]; exact hi.bmp.used
  · simp only [h4]; exact hi.top64

/-- Others give pages back. -/
theorem inv_envFree {cf : Conf} {s : Heap} {L : Lay} {D : List (Nat × Nat)} {env : Nat → Bool} (hi : Inv cf s L D env) {off n : Nat} (hn : 0 < n) (hend : off + n ≤ 64 * s.bmp.endc)
    (he : ∀ i, off ≤ i → i < off + n → env i = true) :
    ∃ b', Bitmap.free s.bmp off n = .ok b' ∧ Inv cf { s with bmp := b' } L D (fun i => env i && !decide (off ≤ i ∧ i < off + n)) := by
  have hset : ∀ i, off ≤ i → i < off + n → bit s.bmp i = true := fun i h1 h2 => hi.envb i (he i h1 h2)
  have hcnt := Bitmap.count_took (fun i => bit s.bmp i && !decide (off ≤ i ∧ i < off + n)) (bit s.bmp) off n (64 * s.bmp.endc) hend
    (by intro i h1 h2; simp [h1, h2]) (by
      intro i
      by_cases e : off ≤ i ∧ i < off + n
      · simp [e, hset i e.1 e.2]
      · simp [e])
  have hle := Bitmap.countP_range_le (bit s.bmp) (64 * s.bmp.endc)
  have hu := hi.bmp.used
  have hsm := hi.bmp.small
  obtain ⟨b', hb', hrel⟩ := Bitmap.free_legal s.bmp off n hn hend hi.bmp.small (by omega) (by omega) hset
  refine ⟨b', hb', hi.segs, hi.ok, hi.hd, hi.bins, hi.bnd, hi.dv, hi.mst, hi.dir, hi.disj, ?_, ?_, ?_, ?_, ⟨?_, ?_, ?_⟩, hi.foot, hi.start, ?_, hi.lpos, hi.trim⟩
  · simp only [hrel.endc]; exact hi.low
  · intro r hr i hri
    have := hi.pages r hr i hri
    simp only
    rw [hrel.now, this.1, this.2]
    refine ⟨?_, rfl⟩
    simp only [Bool.true_and, Bool.not_eq_true', decide_eq_false_iff_not]
    rintro ⟨h1, h2⟩
    rw [he i h1 h2] at this; cases this.2
  · intro i h
    simp only [Bool.and_eq_true] at h ⊢
    rw [hrel.now, hi.envb i h.1, h.2]; rfl
  · intro hm i hlt hb
    simp only at hlt hb
    rw [hrel.endc] at hlt
    rw [hrel.now, Bool.and_eq_true] at hb
    rcases hi.only hm i hlt hb.1 with h | h
    · left; rw [h, hb.2]; rfl
    · exact Or.inr h
  · simp only [hrel.endc, hrel.freeP]; exact hi.bmp.freeP
  · simp only [hrel.endc]; exact hi.bmp.small
  · simp only
    have : (List.range (64 * s.bmp.endc)).countP (bit b') = (List.range (64 * s.bmp.endc)).countP (fun i => bit s.bmp i && !decide (off ≤ i ∧ i < off + n)) := by
      congr 1; funext i; rw [hrel.now]
    rw [hrel.endc, this, hrel.used]; omega
  · simp only [hrel.endc]; exact hi.top64

end Arax.Dl
