import Verif.Dl.Inspect
/-!
# C76: memory that was freed is used again
-/
namespace Arax.Dl
open Arax.Bitmap (bit Bmp)

theorem lastResort_fit {cf : Conf} {s : Heap} {nb : Nat} (h : nb ≤ s.dvsize ∨ nb < s.topsize) : ∃ s' a, lastResort cf s nb = .ok (s', a) ∧ a ≠ 0 ∧ s'.bmp = s.bmp ∧ s'.foot = s.foot := by
  unfold lastResort
  by_cases e : nb ≤ s.dvsize
  · rw [if_pos e]
    unfold takeVictim
    split
    · exact ⟨_, _, rfl, by omega, rfl, rfl⟩
    · exact ⟨_, _, rfl, by omega, rfl, rfl⟩
  · rw [if_neg e, if_pos (by omega)]
    exact ⟨_, _, rfl, by omega, rfl, rfl⟩

theorem takeDv_bmp (s : Heap) (c : Nat × Nat) (nb : Nat) : ((takeDv s c nb).1.bmp = s.bmp ∧ (takeDv s c nb).1.foot = s.foot) ∧ (takeDv s c nb).2 ≠ 0 := by
  unfold takeDv
  simp only
  split
  · exact ⟨⟨rfl, rfl⟩, by simp⟩
  · refine ⟨?_, by simp⟩
    unfold replaceDv; simp only; split <;> exact ⟨rfl, rfl⟩

theorem takeBin_bmp (s : Heap) (c : Nat × Nat) (nb : Nat) : ((takeBin s c nb).1.bmp = s.bmp ∧ (takeBin s c nb).1.foot = s.foot) ∧ (takeBin s c nb).2 ≠ 0 := by
  unfold takeBin
  simp only
  split
  · exact ⟨⟨rfl, rfl⟩, by simp⟩
  · exact ⟨⟨rfl, rfl⟩, by simp⟩

/-- A request that fits takes no page. -/
theorem malloc_fit {cf : Conf} {s : Heap} {L : Lay} {D : List (Nat × Nat)} {env : Nat → Bool} (hi : Inv cf s L D env) {bytes : Nat} (pick : Nat) (hlt : bytes < maxRequest)
    (hf : (∃ p n, IsFree s p n ∧ chunkFor bytes ≤ n) ∨ chunkFor bytes < s.topsize) : ∃ s' a, malloc cf s bytes pick = .ok (s', a) ∧ a ≠ 0 ∧ s'.bmp = s.bmp ∧ s'.foot = s.foot := by
  have hmul : ∀ p n, (p, n) ∈ s.bins → n % 16 = 0 ∧ n < W := by
    intro p n h
    have hfl := ((hi.bins p n).mp h).1
    obtain ⟨q, hq⟩ := flat_ok hi hfl
    refine ⟨hq.mul, ?_⟩
    obtain ⟨z, hz, hyz⟩ := List.mem_flatMap.mp hfl
    have h1 := addrs_bounds hyz
    have h2 := (hi.ok z hz).fits
    have h3 := hi.low (z.1.base, z.1.size) (by unfold regs; exact List.mem_append_left _ (List.mem_map.mpr ⟨z, hz, rfl⟩))
    have h4 := hi.top64.1
    simp only at h1 h3; omega
  have h16 : chunkFor bytes % 16 = 0 := by unfold chunkFor padReq; split <;> omega
  have hlast : (∀ p n, (p, n) ∈ s.bins → n < chunkFor bytes) → ∃ s' a, lastResort cf s (chunkFor bytes) = .ok (s', a) ∧ a ≠ 0 ∧ s'.bmp = s.bmp ∧ s'.foot = s.foot := by
    intro hb
    refine lastResort_fit ?_
    rcases hf with ⟨p, n, h1 | h1, h2⟩ | h
    · have := hb p n h1; omega
    · left; omega
    · exact Or.inr h
  unfold malloc
  by_cases hsm : bytes ≤ 232
  · rw [if_pos hsm]
    have hnb : (if bytes < 23 then 32 else padReq bytes) = chunkFor bytes := rfl
    simp only [hnb]
    cases hx : exactFit s (chunkFor bytes) with
    | some c => exact ⟨_, _, rfl, by omega, rfl, rfl⟩
    | none =>
      have hno : ∀ p n, (p, n) ∈ s.bins → n ≠ chunkFor bytes := by
        intro p n h e
        unfold exactFit at hx
        cases hy : s.bins.find? (fun c => c.2 == chunkFor bytes) with
        | some c => rw [hy] at hx; cases hx
        | none => have := List.find?_eq_none.mp hy _ h; simp [e] at this
      simp only
      by_cases hd : chunkFor bytes > s.dvsize
      · rw [if_pos hd]
        cases hb : best (s.bins.filter (fun c => chunkFor bytes < c.2 && c.2 < 256)) 0 with
        | some c => exact ⟨_, _, rfl, (takeDv_bmp s c _).2, (takeDv_bmp s c _).1⟩
        | none =>
          simp only
          cases hb2 : best (s.bins.filter (fun c => 256 ≤ c.2)) pick with
          | some c => exact ⟨_, _, rfl, (takeDv_bmp s c _).2, (takeDv_bmp s c _).1⟩
          | none =>
            simp only
            refine hlast ?_
            intro p n h
            have h1 := List.filter_eq_nil_iff.mp (best_none hb) _ h
            have h2 := List.filter_eq_nil_iff.mp (best_none hb2) _ h
            have h3 := hno p n h
            simp at h1 h2; omega
      · rw [if_neg hd]; exact lastResort_fit (Or.inl (by omega))
  · rw [if_neg hsm, if_neg (by omega)]
    have hnb : padReq bytes = chunkFor bytes := by unfold chunkFor; rw [if_neg (by omega)]
    simp only [hnb]
    have hbig : 240 ≤ chunkFor bytes := by rw [← hnb]; unfold padReq; omega
    cases hb : best (s.bins.filter (fun c => 256 ≤ c.2 && chunkFor bytes ≤ c.2)) pick with
    | none =>
      refine hlast ?_
      intro p n h
      have h1 := List.filter_eq_nil_iff.mp (best_none hb) _ h
      have h2 := hmul p n h
      have h256 : 256 ≤ chunkFor bytes := by rw [← hnb]; unfold padReq; omega
      simp at h1; omega
    | some c =>
      simp only
      split
      · exact ⟨_, _, rfl, (takeBin_bmp s c _).2, (takeBin_bmp s c _).1⟩
      · rename_i hle
        by_cases hd : chunkFor bytes ≤ s.dvsize
        · exact lastResort_fit (Or.inl hd)
        · exfalso; apply hle
          have hc := (best_mem hb).1
          rw [List.mem_filter] at hc
          have h1 := hmul c.1 c.2 hc.1
          have h2 := hc.2
          simp at h2
          have hW : chunkFor bytes < W := by rw [← hnb]; unfold padReq maxRequest W at *; omega
          rw [Nat.mod_eq_of_lt (by omega)]
          omega

theorem top_is {cf : Conf} {s : Heap} {L : Lay} {D : List (Nat × Nat)} {env : Nat → Bool} (hi : Inv cf s L D env) {y : Nat × Ck} (hy : y ∈ flat L) (hk : y.2.k = .top) : y.2.n = s.topsize := by
  have hx := (top_at hi hy).mpr hk
  obtain ⟨x, T, rfl, hl, hT⟩ := hi.hd
  have hxo := hi.ok x (by simp)
  have hlim := hxo.lim
  obtain ⟨body, hb, -⟩ := hxo.body
  rw [if_pos hl] at hb hlim
  have htop : (s.top, (⟨s.topsize, .top⟩ : Ck)) ∈ flat (x :: T) := by
    rw [flat_cons, List.mem_append]; left
    rw [hb, addrs_append]
    have : sz x.2 = sz body + s.topsize := by rw [hb]; simp
    simp; omega
  have h1 := addr_pos hi hy
  have h2 := addr_pos hi htop
  rcases flat_unique hi hy htop with h | h | h
  · rw [h]
  · simp only at *; omega
  · simp only at *; omega

/-- **C76** Whenever `arch_alloc_inspect` reports an unused range of at least as many bytes as are requested, the request is met, and no page is taken for it: it neither aborts nor grows. -/
theorem C76_reuse {g : Seat} {mremap : Bool} {σ : Sys} (h : Reached g mremap σ) {i : Nat} (hu : σ.up i = true) {n : Nat} (hn : g.span < n) {rs : List Report} (hr : σ.inspect i n = some rs) {r : Report}
    (hrs : r ∈ rs) (h0 : r.used = 0) {bytes : Nat} (hb : r.start + bytes ≤ r.fin) (pick : Nat) :
    ∃ σ' m, sstep (g.conf mremap) σ (.alloc i bytes pick) = .ok σ' ∧ m ≠ 0 ∧ σ'.live i = (m, bytes) :: σ.live i ∧ σ'.bmp = σ.bmp ∧ σ'.footprint i = σ.footprint i := by
  obtain ⟨L, D, hi⟩ := reached_inv h
  have hw := hi.one i hu
  have hinv := hw.inv
  have hs : (σ.heap i).segs = (L i).map Prod.fst := hinv.segs
  have hc := visit_segs hinv (L i) (fun z hz => ⟨hz, Nat.lt_of_le_of_lt (seg_span hi hu hz) hn⟩)
  have hc : visitSegs σ.mem (σ.heap i).top n ((L i).map Prod.fst) = some ((flat (L i)).map (seen σ.mem)) := hc
  unfold Sys.inspect at hr
  rw [hs, hc] at hr
  simp only [Option.map_some, Option.some.injEq] at hr
  rw [← hr, List.mem_filterMap] at hrs
  obtain ⟨a, ha, e⟩ := hrs
  obtain ⟨y, hy, rfl⟩ := List.mem_map.mp ha
  obtain ⟨q, hq⟩ := flat_ok hinv hy
  have hq : CkOK σ.mem y.1 q y.2 := hq
  obtain ⟨h1, h2⟩ := report_chunk hq
  have hl : y.2.k.live = false := by
    cases hl : y.2.k.live with
    | false => rfl
    | true =>
      rw [h1 hl, Option.some.injEq] at e
      have hmn := hq.min (by intro e; rw [e] at hl; cases hl)
      subst e; simp only at h0; omega
  have h3 := h2 hl r e
  have hmul := hq.mul
  have hpos := hq.pos
  have hfits : (∃ p k, IsFree (σ.view i (fun _ => false)).heap p k ∧ chunkFor bytes ≤ k) ∨ chunkFor bytes < (σ.view i (fun _ => false)).heap.topsize := by
    have hcf : chunkFor bytes + 9 ≤ y.2.n ∨ (chunkFor bytes = 32 ∧ 32 < y.2.n) := by unfold chunkFor padReq; split <;> omega
    obtain ⟨p, k, kk⟩ := y
    cases kk with
    | used => cases hl
    | link => cases hl
    | free => left; exact ⟨p, k, (isFree_iff hinv p k).mpr hy, by simp only at hcf; omega⟩
    | top =>
      right
      have h5 : k = (σ.heap i).topsize := top_is hinv hy rfl
      simp only at hcf
      show chunkFor bytes < (σ.heap i).topsize
      omega
  have hmax : bytes < maxRequest := by
    obtain ⟨z, hz, hyz⟩ := List.mem_flatMap.mp hy
    have h5 := addrs_bounds hyz
    have h6 := (hinv.ok z hz).fits
    have h7 := hinv.low (z.1.base, z.1.size) (by unfold regs; exact List.mem_append_left _ (List.mem_map.mpr ⟨z, hz, rfl⟩))
    have h8 := hinv.top64.1
    have h9 := hinv.regs.al (z.1.base, z.1.size) (by unfold regs; exact List.mem_append_left _ (List.mem_map.mpr ⟨z, hz, rfl⟩))
    have h10 := hinv.start
    simp only at h7 h9
    unfold maxRequest W at *; omega
  obtain ⟨s', a, h4, h5, h6, h7⟩ := malloc_fit (cf := g.conf mremap) (s := (σ.view i (fun _ => false)).heap) hinv pick hmax hfits
  refine ⟨σ.after i ⟨s', (a, bytes) :: σ.live i, fun _ => false⟩, a, ?_, h5, ?_, h6, ?_⟩
  · simp only [sstep, Sys.at, hu, if_true, step]
    rw [h4]
    simp only [Out.bind_ok, if_neg h5]
    rfl
  · simp [Sys.after]
  · simp only [Sys.footprint, Sys.after, if_true]; exact h7

theorem apart_or_eq {l : List (Nat × Nat)} (h : l.Pairwise Apart) {r q : Nat × Nat} (hr : r ∈ l) (hq : q ∈ l) : r = q ∨ Apart r q := by
  induction l with
  | nil => cases hr
  | cons a l ih =>
    rw [List.pairwise_cons] at h
    rcases List.mem_cons.mp hr with e1 | hr
    · rcases List.mem_cons.mp hq with e2 | hq
      · left; rw [e1, e2]
      · right; rw [e1]; exact h.1 q hq
    · rcases List.mem_cons.mp hq with e2 | hq
      · right; rw [e2]; exact apart_symm (h.1 r hr)
      · exact ih h.2 hr hq

theorem seg_unique {cf : Conf} {s : Heap} {L : Lay} {D : List (Nat × Nat)} {env : Nat → Bool} (hi : Inv cf s L D env) {z w : Seg × List Ck} (hz : z ∈ L) (hw : w ∈ L) :
    z = w ∨ Apart (z.1.base, z.1.size) (w.1.base, w.1.size) := by
  obtain ⟨L1, L2, rfl⟩ := List.append_of_mem hw
  rw [List.mem_append, List.mem_cons] at hz
  rcases hz with h | h | h
  · exact Or.inr (seg_apart hi (Or.inl h))
  · exact Or.inl h
  · exact Or.inr (seg_apart hi (Or.inr h))

/-- **C76** Memory that is free side by side is one range: between two unused ranges of one region there is always something in use. -/
theorem C76_merged {g : Seat} {mremap : Bool} {σ : Sys} (h : Reached g mremap σ) {i : Nat} (hu : σ.up i = true) {n : Nat} (hn : g.span < n) {rs : List Report} (hr : σ.inspect i n = some rs) {r q : Report}
    (hr1 : r ∈ rs) (hr2 : q ∈ rs) (h0 : r.used = 0) (h0' : q.used = 0) (hlt : r.fin ≤ q.start) {R : Nat × Nat} (hR : R ∈ σ.regions i) (hin : R.1 ≤ r.start ∧ q.fin ≤ R.1 + R.2) :
    ∃ u ∈ rs, u.used ≠ 0 ∧ r.fin ≤ u.start ∧ u.fin ≤ q.start := by
  obtain ⟨L, D, hi⟩ := reached_inv h
  have hw := hi.one i hu
  have hinv := hw.inv
  have hs : (σ.heap i).segs = (L i).map Prod.fst := hinv.segs
  have hc := visit_segs hinv (L i) (fun z hz => ⟨hz, Nat.lt_of_le_of_lt (seg_span hi hu hz) hn⟩)
  have hc : visitSegs σ.mem (σ.heap i).top n ((L i).map Prod.fst) = some ((flat (L i)).map (seen σ.mem)) := hc
  unfold Sys.inspect at hr
  rw [hs, hc] at hr
  simp only [Option.map_some, Option.some.injEq] at hr
  have hget : ∀ r ∈ rs, r.used = 0 → ∃ y ∈ flat (L i), y.2.k.live = false ∧ y.1 + 32 ≤ r.start ∧ r.start < r.fin ∧ r.fin = y.1 + y.2.n := by
    intro r hrs h0
    rw [← hr, List.mem_filterMap] at hrs
    obtain ⟨a, ha, e⟩ := hrs
    obtain ⟨y, hy, rfl⟩ := List.mem_map.mp ha
    obtain ⟨b, hq⟩ := flat_ok hinv hy
    have hq : CkOK σ.mem y.1 b y.2 := hq
    obtain ⟨h1, h2⟩ := report_chunk hq
    have hl : y.2.k.live = false := by
      cases hl : y.2.k.live with
      | false => rfl
      | true =>
        rw [h1 hl, Option.some.injEq] at e
        have hmn := hq.min (by intro e; rw [e] at hl; cases hl)
        subst e; simp only at h0; omega
    exact ⟨y, hy, hl, (h2 hl r e).2⟩
  obtain ⟨y, hy, hl, hy1, hy2, hy3⟩ := hget r hr1 h0
  obtain ⟨y', hy', hl', hy1', hy2', hy3'⟩ := hget q hr2 h0'
  obtain ⟨z, hz, hyz⟩ := List.mem_flatMap.mp hy
  obtain ⟨z', hz', hyz'⟩ := List.mem_flatMap.mp hy'
  have hb := addrs_bounds hyz
  have hb' := addrs_bounds hyz'
  have hf := (hinv.ok z hz).fits
  have hf' := (hinv.ok z' hz').fits
  have hRr := (regions_iff hi hu R).mp hR
  have hzr : ∀ z ∈ L i, (z.1.base, z.1.size) ∈ regs (L i) (D i) := fun z hz => by unfold regs; exact List.mem_append_left _ (List.mem_map.mpr ⟨z, hz, rfl⟩)
  have hzz : z' = z := by
    rcases seg_unique hinv hz' hz with h1 | h1
    · exact h1
    · exfalso
      simp only [Apart] at h1
      rcases apart_or_eq hinv.disj hRr (hzr z hz) with h2 | h2
      · rw [h2] at hin; simp only at hin; omega
      · simp only [Apart] at h2; omega
  subst hzz
  obtain ⟨xs, ys, hcs, ha⟩ := addrs_split hyz
  have hch := (hinv.ok z' hz).chain
  have hch : Chain σ.mem z'.1.base true z'.2 := hch
  have hk0 : y.2.k = .free := by
    cases hk : y.2.k with
    | free => rfl
    | used => rw [hk] at hl; cases hl
    | link => rw [hk] at hl; cases hl
    | top =>
      exfalso
      obtain ⟨x, T, hLx, hlx, hT⟩ := hinv.hd
      have hty := (top_at hinv hy).mpr hk
      have hlen := top_is hinv hy hk
      have hlim := (hinv.ok z' hz).lim
      by_cases e : z'.1.link = (σ.view i (others (g.conf mremap) σ.bmp (regs (L i) (D i)))).heap.hrec
      · rw [if_pos e] at hlim; omega
      · rw [if_neg e] at hlim
        obtain ⟨body, hbd, hkind⟩ := (hinv.ok z' hz).body
        rw [if_neg e] at hbd
        have := addrs_kind hyz
        rw [hbd, List.mem_append] at this
        rcases this with h | h
        · have := hkind _ h; rw [hk] at this; simp at this
        · simp only [List.mem_singleton] at h; rw [h] at hk; cases hk
  rw [hcs, addrs_append, addrs_cons, List.mem_append, List.mem_cons] at hyz'
  have hyy : y' ∈ addrs (y.1 + y.2.n) ys := by
    rcases hyz' with h1 | h1 | h1
    · have := addrs_bounds h1; omega
    · exfalso; rw [h1] at hy3'; simp only at hy3'; omega
    · rw [ha]; exact h1
  rw [hcs, chain_append] at hch
  have hch2 := hch.2.2
  cases ys with
  | nil => cases hyy
  | cons d ds =>
    have hd := hch2.1
    have hdl : d.k.live = true := hd.adj (by simp [Ck.pin, hk0])
    rw [← ha] at hd
    have hdm : (y.1 + y.2.n, d) ∈ flat (L i) := by
      refine List.mem_flatMap.mpr ⟨z', hz, ?_⟩
      rw [hcs, addrs_append, addrs_cons, addrs_cons, ← ha]; simp
    have hrep := (report_chunk (y := (y.1 + y.2.n, d)) hd).1 hdl
    have hmn := hd.min (by intro e; rw [e] at hdl; cases hdl)
    refine ⟨⟨y.1 + y.2.n + 16, y.1 + y.2.n + d.n, d.n - 8⟩, ?_, ?_, ?_, ?_⟩
    · rw [← hr, List.mem_filterMap]
      exact ⟨_, List.mem_map_of_mem hdm, hrep⟩
    · simp only; omega
    · simp only; omega
    · simp only
      rw [addrs_cons, List.mem_cons] at hyy
      rcases hyy with h1 | h1
      · exfalso; rw [h1] at hl'; simp only at hl'; rw [hdl] at hl'; cases hl'
      · have := addrs_bounds h1; omega

/-! ## Cases -/

/-- Three blocks side by side, the first two freed: one range of 1104 bytes, in which 1040 bytes find place without a new page. Here a free 96 bytes and a free 1008 bytes were joined. -/
example : ask seat256 false [.create 0, .alloc 0 100 0, .alloc 0 1000 0, .alloc 0 10 0, .free 0 13248, .free 0 13360] (fun σ => decide (σ.up 0 = true ∧
    σ.inspect 0 (seat256.span + 1) = some [⟨12304, 13232, 936⟩, ⟨13296, 14352, 0⟩, ⟨14368, 14384, 24⟩, ⟨14448, 77744, 0⟩]) &&
    match sstep (seat256.conf false) σ (.alloc 0 1040 0) with | .ok τ => decide (τ.live 0 = [(13248, 1040), (14368, 10)] ∧ Bitmap.usedBits τ.bmp = Bitmap.usedBits σ.bmp) | _ => false) = true := by decide +kernel

end Arax.Dl
