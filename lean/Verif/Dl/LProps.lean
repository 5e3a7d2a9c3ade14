import Verif.Dl.SimSys
import Verif.Dl.Fit
/-!
# C77: the bins of the allocators

The allocators with their small bins, tree bins and bit maps (`Verif.Dl.LSys`), in any history, in segments of up to 1 TiB.
-/
namespace Arax.Dl
open Arax.Bitmap (bit Bmp)

theorem Seat.small {g : Seat} {mremap : Bool} (h : g.span ≤ 2 ^ 40) : Small (g.conf mremap) := h

theorem lrun_sim {cf : Conf} (hc : Small cf) : ∀ (acts : List LAct) {σ : Sys} {L : Nat → Lay} {D : Nat → List (Nat × Nat)} {κ : LSys}, SInv cf σ L D → RelS σ κ →
    ∃ picks, Sim RelS (srun cf (plan acts picks) σ) (lrun cf acts κ)
  | [], σ, L, D, κ, _, hr => ⟨[], Sim.ok hr⟩
  | a :: t, σ, L, D, κ, hi, hr => by
    obtain ⟨pick, h1⟩ := lstep_sim hc hi hr a
    cases hs : srun cf (a.as pick) σ with
    | corrupt => exact ⟨[pick], by simp only [plan, List.headD_cons, srun_append, hs]; exact trivial⟩
    | noMem =>
      rw [hs] at h1
      have h1 : lstep cf κ a = .noMem := h1
      exact ⟨[pick], by simp only [plan, List.headD_cons, srun_append, hs, lrun, h1]; rfl⟩
    | ok σ1 =>
      rw [hs] at h1
      obtain ⟨κ1, e, h2⟩ := h1
      obtain ⟨L1, D1, hi1⟩ := srun_inv _ _ _ _ hi _ hs
      obtain ⟨ps, h3⟩ := lrun_sim hc t hi1 h2
      exact ⟨pick :: ps, by simp only [plan, List.headD_cons, List.tail_cons, srun_append, hs, lrun, e, Out.bind_ok]; exact h3⟩

theorem srun_not_corrupt {cf : Conf} : ∀ (acts : List SAct) {σ : Sys} {L : Nat → Lay} {D : Nat → List (Nat × Nat)}, SInv cf σ L D → srun cf acts σ ≠ .corrupt
  | [], σ, L, D, _ => by simp [srun]
  | a :: t, σ, L, D, hi => by
    simp only [srun]
    have hd := sstep_did hi a
    cases hs : sstep cf σ a with
    | corrupt => rw [hs] at hd; cases hd
    | noMem => simp [Out.bind]
    | ok σ1 =>
      rw [hs] at hd
      cases hd with
      | next _ L1 D1 h1 _ _ _ => exact srun_not_corrupt t h1

theorem rel_fresh (mem0 : Nat → Nat) (bmem : Nat → BitVec 64) (size : Nat) (links0 : Nat → Links) : RelS (fresh mem0 bmem size) ⟨fresh mem0 bmem size, links0⟩ :=
  ⟨rfl, fun i hi => by simp [fresh] at hi⟩

/-- **C77** (refinement) Whatever the memory contains at first: every history of the allocators with real bins is a history of the allocators with lists of free chunks (C73 to C76), in which the same events
happen - each request served from one of the chunks that may serve it - and it has the same outcome: it runs out of pages, or memory, bitmap, blocks, segments, footprints and all else are the same. -/
theorem C77_refines {g : Seat} (hg : g.Ok) (hs : g.span ≤ 2 ^ 40) (mremap : Bool) (mem0 : Nat → Nat) (bmem : Nat → BitVec 64) (links0 : Nat → Links) (acts : List LAct) :
    ∃ picks, match srun (g.conf mremap) (plan acts picks) (fresh mem0 bmem g.pages) with
      | .ok σ => ∃ links, lrun (g.conf mremap) acts ⟨fresh mem0 bmem g.pages, links0⟩ = .ok ⟨{ σ with heap := fun i => { σ.heap i with bins := [] } }, links⟩
      | .noMem => lrun (g.conf mremap) acts ⟨fresh mem0 bmem g.pages, links0⟩ = .noMem
      | .corrupt => False := by
  have hi := g.fresh_inv hg mremap mem0 bmem
  obtain ⟨picks, h⟩ := lrun_sim (Seat.small (mremap := mremap) hs) acts hi (rel_fresh mem0 bmem g.pages links0)
  refine ⟨picks, ?_⟩
  revert h
  cases e : srun (g.conf mremap) (plan acts picks) (fresh mem0 bmem g.pages) with
  | corrupt => exact absurd e (srun_not_corrupt _ hi)
  | noMem => exact id
  | ok σ =>
    rintro ⟨κ, h1, h2, -⟩
    refine ⟨κ.links, ?_⟩
    rw [h1, show κ = ⟨κ.sys, κ.links⟩ from rfl, h2]
    rfl

theorem lreached {g : Seat} {mremap : Bool} {κ : LSys} (h : LReached g mremap κ) (hs : g.span ≤ 2 ^ 40) : ∃ σ, Reached g mremap σ ∧ RelS σ κ := by
  obtain ⟨hg, mem0, bmem, links0, acts, e⟩ := h
  have hi := g.fresh_inv hg mremap mem0 bmem
  obtain ⟨picks, h⟩ := lrun_sim (Seat.small (mremap := mremap) hs) acts hi (rel_fresh mem0 bmem g.pages links0)
  cases hr : srun (g.conf mremap) (plan acts picks) (fresh mem0 bmem g.pages) with
  | corrupt => exact absurd hr (srun_not_corrupt _ hi)
  | noMem => rw [hr] at h; have h : lrun _ _ _ = .noMem := h; rw [e] at h; cases h
  | ok σ =>
    rw [hr] at h
    obtain ⟨κ', h1, h2⟩ := h
    rw [e] at h1
    simp only [Out.ok.injEq] at h1
    subst h1
    exact ⟨σ, ⟨hg, mem0, bmem, _, hr⟩, h2⟩

theorem lrun_append {cf : Conf} : ∀ (a b : List LAct) (κ : LSys), lrun cf (a ++ b) κ = (lrun cf a κ).bind (lrun cf b)
  | [], b, κ => rfl
  | x :: a, b, κ => by
    simp only [List.cons_append, lrun]
    cases lstep cf κ x with
    | ok κ1 => simp only [Out.bind_ok]; exact lrun_append a b κ1
    | corrupt => rfl
    | noMem => rfl

theorem LReached.run {g : Seat} {mremap : Bool} {κ κ' : LSys} (h : LReached g mremap κ) {acts : List LAct} (e : lrun (g.conf mremap) acts κ = .ok κ') : LReached g mremap κ' := by
  obtain ⟨hg, mem0, bmem, links0, as, e1⟩ := h
  exact ⟨hg, mem0, bmem, links0, as ++ acts, by rw [lrun_append, e1]; exact e⟩

/-- **C77** No operation on the bins goes wrong: no check fires (dlmalloc would call `abort`), no loop runs on for more than 70 rounds, no field of what is not a free chunk is used - whatever the words that are not
fields of free chunks contain. -/
theorem C77_never_corrupt {g : Seat} {mremap : Bool} {κ : LSys} (h : LReached g mremap κ) (hs : g.span ≤ 2 ^ 40) (a : LAct) : lstep (g.conf mremap) κ a ≠ .corrupt := by
  obtain ⟨σ, hr, hrel⟩ := lreached h hs
  obtain ⟨L, D, hi⟩ := reached_inv hr
  obtain ⟨pick, h1⟩ := lstep_sim (Seat.small (mremap := mremap) hs) hi hrel a
  cases e : srun (g.conf mremap) (a.as pick) σ with
  | corrupt => exact absurd e (srun_not_corrupt _ hi)
  | noMem => rw [e] at h1; have h1 : lstep _ _ _ = .noMem := h1; rw [h1]; simp
  | ok σ' => rw [e] at h1; obtain ⟨κ', h2, -⟩ := h1; rw [h2]; simp

/-- **C77** Blocks do not overlap, whichever allocators they are of. -/
theorem C77_disjoint {g : Seat} {mremap : Bool} {κ : LSys} (h : LReached g mremap κ) (hs : g.span ≤ 2 ^ 40) {i j : Nat} {c d : Nat × Nat} (hc : c ∈ κ.sys.live i) (hd : d ∈ κ.sys.live j) (hne : i ≠ j ∨ c ≠ d) :
    c.1 ≠ d.1 ∧ (c.1 + c.2 ≤ d.1 ∨ d.1 + d.2 ≤ c.1) := by
  obtain ⟨σ, hr, hrel⟩ := lreached h hs
  have e : κ.sys.live = σ.live := by rw [hrel.1]; rfl
  rw [e] at hc hd
  exact C73_disjoint hr hc hd hne

/-- **C77** A block that is neither freed nor its allocator destroyed stays, with its contents. -/
theorem C77_contents {g : Seat} {mremap : Bool} {κ κ' : LSys} (h : LReached g mremap κ) (hs : g.span ≤ 2 ^ 40) {i : Nat} {c : Nat × Nat} {x : Nat} (h1 : c.1 ≤ x) (h2 : x < c.1 + c.2) (hc : c ∈ κ.sys.live i)
    {acts : List LAct} (hk : ∀ a ∈ acts, a ≠ .free i c.1 ∧ a ≠ .destroy i) (e : lrun (g.conf mremap) acts κ = .ok κ') :
    c ∈ κ'.sys.live i ∧ ((∀ a ∈ acts, ∀ j v, a ≠ .write j x v) → κ'.sys.mem x = κ.sys.mem x) := by
  obtain ⟨σ, hr, hrel⟩ := lreached h hs
  obtain ⟨L, D, hi⟩ := reached_inv hr
  obtain ⟨picks, hsim⟩ := lrun_sim (Seat.small (mremap := mremap) hs) acts hi hrel
  cases hrun : srun (g.conf mremap) (plan acts picks) σ with
  | corrupt => exact absurd hrun (srun_not_corrupt _ hi)
  | noMem => rw [hrun] at hsim; have hsim : lrun _ _ _ = .noMem := hsim; rw [e] at hsim; cases hsim
  | ok σ' =>
    rw [hrun] at hsim
    obtain ⟨κ1, h3, h4⟩ := hsim
    rw [e] at h3
    simp only [Out.ok.injEq] at h3
    subst h3
    have e1 : κ.sys.live = σ.live := by rw [hrel.1]; rfl
    have e2 : κ'.sys.live = σ'.live := by rw [h4.1]; rfl
    have e3 : κ.sys.mem = σ.mem := by rw [hrel.1]; rfl
    have e4 : κ'.sys.mem = σ'.mem := by rw [h4.1]; rfl
    rw [e1] at hc
    rw [e2, e3, e4]
    have hall : ∀ (P : SAct → Bool) (as : List LAct) (ps : List Nat), (∀ a ∈ as, ∀ k, (a.as k).all P = true) → (plan as ps).all P = true := by
      intro P as
      induction as with
      | nil => intro ps _; rfl
      | cons a t ih =>
        intro ps hp
        simp only [plan, List.all_append, Bool.and_eq_true]
        exact ⟨hp a (by simp) _, ih _ (fun b hb => hp b (by simp [hb]))⟩
    obtain ⟨h5, h6⟩ := C73_contents h1 h2 (plan acts picks) hr hc (hall _ acts picks (fun a ha k => by
      obtain ⟨k1, k2⟩ := hk a ha
      cases a <;> simp only [LAct.as, List.all_cons, List.all_nil, Bool.and_true, ends, Bool.not_eq_true', decide_eq_false_iff_not, Bool.not_false]
      · rintro ⟨rfl, rfl⟩; exact k1 rfl
      · rintro rfl; exact k2 rfl)) hrun
    refine ⟨h5, fun hw => h6 (hall _ acts picks (fun a ha k => ?_))⟩
    have := hw a ha
    cases a <;> simp only [LAct.as, List.all_cons, List.all_nil, Bool.and_true, writes, Bool.not_eq_true', decide_eq_false_iff_not, Bool.not_false]
    rintro rfl; exact this _ _ rfl

/-- The chunks of allocator `i` but its top chunk, as (address, size, free?), by walking its segments. malloc.c:3580-3595. -/
def LSys.chunks (κ : LSys) (g : Seat) (i : Nat) : List (Nat × Nat × Bool) :=
  ((countSegs κ.sys.mem (κ.sys.heap i).top (g.span + 1) (κ.sys.heap i).segs).getD []).map fun c => (c.1, csize c.2, !isInuse c.2)

theorem chunks_free {g : Seat} {mremap : Bool} {σ : Sys} {L : Nat → Lay} {D : Nat → List (Nat × Nat)} (hi : SInv (g.conf mremap) σ L D) {κ : LSys} (hr : RelS σ κ) {i : Nat} (hu : σ.up i = true) (p n : Nat) :
    (p, n, true) ∈ κ.chunks g i ↔ IsFree (σ.heap i) p n := by
  have hinv := (hi.one i hu).inv
  have hs : (σ.heap i).segs = (L i).map Prod.fst := hinv.segs
  have hc := count_segs (n := g.span + 1) hinv (L i) (fun z hz => ⟨hz, Nat.lt_of_le_of_lt (seg_span hi hu hz) (by omega)⟩)
  have hc : countSegs σ.mem (σ.heap i).top (g.span + 1) ((L i).map Prod.fst) = some (((flat (L i)).filter notTop).map (seen σ.mem)) := hc
  have hk : κ.chunks g i = (((flat (L i)).filter notTop).map (seen σ.mem)).map fun c => (c.1, csize c.2, !isInuse c.2) := by
    unfold LSys.chunks
    rw [hr.1]
    show ((countSegs σ.mem (σ.heap i).top (g.span + 1) (σ.heap i).segs).getD []).map _ = _
    rw [hs, hc]
    rfl
  have h0 : IsFree (σ.heap i) p n ↔ (p, (⟨n, .free⟩ : Ck)) ∈ flat (L i) := isFree_iff hinv p n
  rw [hk, h0]
  simp only [List.mem_map, List.mem_filter]
  constructor
  · rintro ⟨_, ⟨y, ⟨hy, hn⟩, rfl⟩, e⟩
    obtain ⟨q, hq⟩ := flat_ok hinv hy
    have hh : σ.mem (y.1 + 8) = enc y.2 q := hq.head
    have h1 := csize_enc y.2 q hq.mul
    have hm := hq.mul
    simp only [seen, hh, h1, Prod.mk.injEq, Bool.not_eq_true'] at e
    obtain ⟨e1, e2, e3⟩ := e
    obtain ⟨a, k, kk⟩ := y
    simp only at e1 e2 hm
    subst e1; subst e2
    cases kk with
    | free => exact hy
    | used => simp [isInuse, enc, Kind.live] at e3; cases q <;> simp at e3 <;> omega
    | link => simp [isInuse, enc, Kind.live] at e3; cases q <;> simp at e3 <;> omega
    | top => simp [notTop] at hn
  · intro hy
    obtain ⟨q, hq⟩ := flat_ok hinv hy
    have hh : σ.mem (p + 8) = enc ⟨n, .free⟩ q := hq.head
    have h1 := csize_enc ⟨n, .free⟩ q hq.mul
    have hm := hq.mul
    simp only at hm
    refine ⟨_, ⟨(p, ⟨n, .free⟩), ⟨hy, rfl⟩, rfl⟩, ?_⟩
    simp only [seen, hh, h1, Prod.mk.injEq, true_and, Bool.not_eq_true']
    cases q with
    | false => have := hq.adj rfl; cases this
    | true => simp [isInuse, enc, Kind.live]; omega

/-- A request for which there is a free chunk. -/
theorem alloc_place {g : Seat} {mremap : Bool} {κ : LSys} (h : LReached g mremap κ) (hs : g.span ≤ 2 ^ 40) {i : Nat} (hu : κ.sys.up i = true) {bytes : Nat} (hf : ∃ p n, (p, n, true) ∈ κ.chunks g i ∧ bytes + 8 ≤ n) :
    ∃ κ' d n σ, Reached g mremap σ ∧ RelS σ κ ∧ lstep (g.conf mremap) κ (.alloc i bytes) = .ok κ' ∧ κ'.sys.live i = (d + 16, bytes) :: κ.sys.live i ∧ κ'.sys.bmp = κ.sys.bmp ∧
      Place (σ.heap i) bytes (chunkFor bytes) d n ∧ ∀ p n, (p, n, true) ∈ κ.chunks g i → (IsFree (σ.heap i) p n ∧ n % 16 = 0 ∧ 32 ≤ n) := by
  obtain ⟨σ, hr, hrel⟩ := lreached h hs
  obtain ⟨L, D, hi⟩ := reached_inv hr
  have eup : κ.sys.up = σ.up := by rw [hrel.1]; rfl
  rw [eup] at hu
  have hinv := (hi.one i hu).inv
  have hch : ∀ p n, (p, n, true) ∈ κ.chunks g i → (IsFree (σ.heap i) p n ∧ n % 16 = 0 ∧ 32 ≤ n ∧ n < W - 128) := by
    intro p n hp
    have h1 := (chunks_free hi hrel hu p n).mp hp
    have h2 : (p, (⟨n, .free⟩ : Ck)) ∈ flat (L i) := (isFree_iff hinv p n).mp h1
    obtain ⟨q, hq⟩ := flat_ok hinv h2
    obtain ⟨z, hz, hyz⟩ := List.mem_flatMap.mp h2
    have h5 := addrs_bounds hyz
    have h6 := (hinv.ok z hz).fits
    have h7 := seg_span hi hu hz
    refine ⟨h1, hq.mul, hq.min (by simp), ?_⟩
    simp only at h5
    unfold W; omega
  obtain ⟨p, n, hp, hb⟩ := hf
  have h1 := hch p n hp
  have hmax : bytes < maxRequest := by unfold maxRequest W at *; omega
  have hfit : ∃ p n, IsFree (σ.view i (fun _ => false)).heap p n ∧ chunkFor bytes ≤ n := ⟨p, n, h1.1, by unfold chunkFor padReq; split <;> omega⟩
  obtain ⟨pick, hsim⟩ := malloc_sim (Seat.small (mremap := mremap) hs) (s := (σ.view i (fun _ => false)).heap) hinv (l := κ.links i) (hrel.2 i hu) bytes
  obtain ⟨s', d, n', e1, e2, e3⟩ := malloc_place (cf := g.conf mremap) (s := (σ.view i (fun _ => false)).heap) hinv pick hmax hfit
  rw [e1] at hsim
  obtain ⟨⟨b, m⟩, e4, ⟨e5, e6⟩, e7⟩ := hsim
  simp only at e5 e6 e7
  have elive : κ.sys.live = σ.live := by rw [hrel.1]; rfl
  have ebmp : κ.sys.bmp = σ.bmp := by rw [hrel.1]; rfl
  refine ⟨κ.after i b ((d + 16, bytes) :: κ.sys.live i), d, n', σ, hr, hrel, ?_, ?_, ?_, ?_, fun p n hp => ⟨(hch p n hp).1, (hch p n hp).2.1, (hch p n hp).2.2.1⟩⟩
  · simp only [lstep]
    rw [eup, if_pos hu, lheap_bare hrel i (fun _ => false), e4]
    simp only [Out.bind_ok]
    rw [e7, if_neg (by omega)]
  · simp [LSys.after, Sys.after]
  · simp only [LSys.after, Sys.after]
    rw [e5, ebmp]
    exact e2
  · exact ⟨e3.free, e3.fits, e3.large, e3.small⟩

/-- **C77** (best fit) If any free chunk - found by walking the memory - can take a request of more than 232 bytes, then the request is served, no page is taken, and the chunk that serves it is the smallest of
those that can. -/
theorem C77_best_fit {g : Seat} {mremap : Bool} {κ : LSys} (h : LReached g mremap κ) (hs : g.span ≤ 2 ^ 40) {i : Nat} (hu : κ.sys.up i = true) {bytes : Nat} (hb : 232 < bytes)
    (hf : ∃ p n, (p, n, true) ∈ κ.chunks g i ∧ bytes + 8 ≤ n) :
    ∃ κ' d n, lstep (g.conf mremap) κ (.alloc i bytes) = .ok κ' ∧ κ'.sys.live i = (d + 16, bytes) :: κ.sys.live i ∧ κ'.sys.bmp = κ.sys.bmp ∧
      (d, n, true) ∈ κ.chunks g i ∧ bytes + 8 ≤ n ∧ ∀ q k, (q, k, true) ∈ κ.chunks g i → bytes + 8 ≤ k → n ≤ k := by
  obtain ⟨κ', d, n, σ, hr, hrel, h1, h2, h3, h4, h5⟩ := alloc_place h hs hu hf
  obtain ⟨L, D, hi⟩ := reached_inv hr
  have eup : κ.sys.up = σ.up := by rw [hrel.1]; rfl
  rw [eup] at hu
  have hge := chunkFor_ge bytes
  refine ⟨κ', d, n, h1, h2, h3, (chunks_free hi hrel hu d n).mpr h4.free, by have := h4.fits; omega, fun q k hq hk => ?_⟩
  have h6 := h5 q k hq
  exact h4.large hb q k h6.1 (by unfold chunkFor padReq; split <;> omega)

/-- **C77** (small requests) If any free chunk can take a request of up to 232 bytes, then the request is served, no page is taken, and the chunk is one of them. One chunk (the designated victim, the remainder of an
earlier request) is special: other than it, a chunk of the very size that is needed is taken if there is one; else the victim if it can serve; else the smallest that can. -/
theorem C77_small_fit {g : Seat} {mremap : Bool} {κ : LSys} (h : LReached g mremap κ) (hs : g.span ≤ 2 ^ 40) {i : Nat} (hu : κ.sys.up i = true) {bytes : Nat} (hb : bytes ≤ 232)
    (hf : ∃ p n, (p, n, true) ∈ κ.chunks g i ∧ bytes + 8 ≤ n) :
    ∃ κ' d n, lstep (g.conf mremap) κ (.alloc i bytes) = .ok κ' ∧ κ'.sys.live i = (d + 16, bytes) :: κ.sys.live i ∧ κ'.sys.bmp = κ.sys.bmp ∧ (d, n, true) ∈ κ.chunks g i ∧ bytes + 8 ≤ n ∧
      (d ≠ (κ.sys.heap i).dv → ∀ q k, (q, k, true) ∈ κ.chunks g i → q ≠ (κ.sys.heap i).dv → bytes + 8 ≤ k → n ≤ k) ∧
      (d = (κ.sys.heap i).dv → ∀ q k, (q, k, true) ∈ κ.chunks g i → q ≠ (κ.sys.heap i).dv → bytes + 8 ≤ k → bytes + 24 ≤ k ∧ 48 ≤ k) ∧
      (d ≠ (κ.sys.heap i).dv → ∀ k, ((κ.sys.heap i).dv, k, true) ∈ κ.chunks g i → bytes + 8 ≤ k → n < bytes + 24 ∨ n = 32) := by
  obtain ⟨κ', d, n, σ, hr, hrel, h1, h2, h3, h4, h5⟩ := alloc_place h hs hu hf
  obtain ⟨L, D, hi⟩ := reached_inv hr
  have eup : κ.sys.up = σ.up := by rw [hrel.1]; rfl
  have edv : (κ.sys.heap i).dv = (σ.heap i).dv := by rw [hrel.1]; rfl
  rw [eup] at hu
  rw [edv]
  have hge := chunkFor_ge bytes
  have hin := (chunks_free hi hrel hu d n).mpr h4.free
  have hcf : ∀ k, k % 16 = 0 → 32 ≤ k → bytes + 8 ≤ k → chunkFor bytes ≤ k := by intro k e1 e2 e3; unfold chunkFor padReq; split <;> omega
  refine ⟨κ', d, n, h1, h2, h3, hin, by have := h4.fits; omega, ?_, ?_, ?_⟩
  · intro hd q k hq hne hk
    have h6 := h5 q k hq
    rcases h4.small hb with ⟨-, h7, -⟩ | ⟨e, -⟩
    · refine h7 q k ?_ (hcf k h6.2.1 h6.2.2 hk)
      rcases h6.1 with h8 | h8
      · exact h8
      · exact absurd h8.1 hne
    · exact absurd e hd
  · intro hd q k hq hne hk
    have h6 := h5 q k hq
    rcases h4.small hb with ⟨h7, -⟩ | ⟨-, h7⟩
    · exact absurd hd h7
    · have h8 : (q, k) ∈ (σ.heap i).bins := by
        rcases h6.1 with h8 | h8
        · exact h8
        · exact absurd h8.1 hne
      have h9 : k ≠ chunkFor bytes := fun e => h7 q (e ▸ h8)
      have h10 := hcf k h6.2.1 h6.2.2 hk
      have h11 : chunkFor bytes % 16 = 0 := by unfold chunkFor padReq; split <;> omega
      have h12 : 32 ≤ chunkFor bytes := by unfold chunkFor padReq; split <;> omega
      omega
  · intro hd k hk hb2
    have h6 := h5 _ k hk
    rcases h4.small hb with ⟨-, -, h7⟩ | ⟨e, -⟩
    · have h8 : k = (σ.heap i).dvsize := by
        rcases h6.1 with h8 | h8
        · exact absurd rfl ((hi.one i hu).inv.bins _ _ |>.mp h8).2
        · exact h8.2.1
      have h10 := hcf k h6.2.1 h6.2.2 hb2
      rcases h7 with h7 | h7
      · rw [h7]; unfold chunkFor padReq; split <;> omega
      · omega
    · exact absurd e hd

/-! ## Cases -/

/-- Link fields full of garbage. -/
def garbage : Links := ⟨fun _ => 5, fun _ => 6, fun _ _ => 7, fun _ => 8, fun _ => 9, 77, 78, fun _ => 4⟩

/-- Running a history and asking about the result. (No code of its own.) -/
def lask (g : Seat) (acts : List LAct) (q : LSys → Bool) : Bool := match lrun (g.conf false) acts ⟨fresh (fun _ => 0) (fun _ => 0) g.pages, fun _ => garbage⟩ with | .ok κ => q κ | _ => false

theorem lask_reached {g : Seat} {acts : List LAct} {q : LSys → Bool} (hg : g.Ok) (h : lask g acts q = true) : ∃ κ, LReached g false κ ∧ q κ = true := by
  unfold lask at h
  split at h
  · rename_i κ e; exact ⟨κ, ⟨hg, _, _, _, acts, e⟩, h⟩
  · cases h

/-- Free chunks of 512, 320, 416, 112 and 416 bytes; the words of a chunk in use are garbage. -/
def holes : List LAct := [.create 0, .alloc 0 500, .alloc 0 16, .alloc 0 300, .alloc 0 16, .alloc 0 400, .alloc 0 16, .alloc 0 100, .alloc 0 16, .alloc 0 400, .alloc 0 16, .free 0 13248, .free 0 14144, .free 0 13792,
  .free 0 14592, .free 0 14736, .write 0 13760 4711, .junk 0 13744 ⟨1, 2, 3, 4, 5, 6⟩]

/-- The premises of `C77_best_fit`, `C77_small_fit` and the others are met: a request of 380 bytes takes one of the two chunks of 416 bytes - the one that was freed first, which is the node of the tree, has the other
in its ring and is left in place - although others were freed later; and a request of 90 bytes takes the chunk of 112 bytes. -/
example : ∃ κ, LReached seat256 false κ ∧ seat256.span ≤ 2 ^ 40 ∧ κ.sys.up 0 = true ∧ (14128, 416, true) ∈ κ.chunks seat256 0 ∧ (13232, 512, true) ∈ κ.chunks seat256 0 ∧ (14576, 112, true) ∈ κ.chunks seat256 0 := by
  obtain ⟨κ, h1, h2⟩ := lask_reached (acts := holes)
    (q := fun κ => decide (κ.sys.up 0 = true ∧ (14128, 416, true) ∈ κ.chunks seat256 0 ∧ (13232, 512, true) ∈ κ.chunks seat256 0 ∧ (14576, 112, true) ∈ κ.chunks seat256 0)) seat256_ok (by decide +kernel)
  exact ⟨κ, h1, by decide, of_decide_eq_true h2⟩

example : lask seat256 (holes ++ [.alloc 0 380, .alloc 0 90]) (fun κ => ((κ.sys.live 0).take 2).reverse == [(14144, 380), (14592, 90)]) = true := by decide +kernel

/-- The limit of 1 TiB is needed: `compute_tree_index` has room for 32 bits of the size over 256. A chunk of 2^40 + 256 bytes is put in the tree of the chunks of 256 to 383 bytes, and is what a request for a chunk
of 304 bytes finds, although there is one of 512 bytes. -/
theorem C77_huge_violated : ∃ (c : Ctx) (l1 l2 : Links), c.sz 4096 = 2 ^ 40 + 256 ∧ c.sz 8192 = 512 ∧ (Links.init garbage c).insert c 4096 (2 ^ 40 + 256) = .ok l1 ∧ l1.insert c 8192 512 = .ok l2 ∧
    l2.searchLarge c 304 = .ok (4096, 2 ^ 40 - 48) := by
  have h : let c : Ctx := ⟨fun p => if p = 4096 then 2 ^ 40 + 256 else 512, 1, 16⟩
      (match (Links.init garbage c).insert c 4096 (2 ^ 40 + 256) with
        | .ok l1 => (match l1.insert c 8192 512 with | .ok l2 => (match l2.searchLarge c 304 with | .ok r => r == (4096, 2 ^ 40 - 48) | _ => false) | _ => false)
        | _ => false) = true := by decide +kernel
  simp only at h
  split at h
  · rename_i l1 e1
    split at h
    · rename_i l2 e2
      split at h
      · rename_i r e3
        exact ⟨_, l1, l2, rfl, rfl, e1, e2, by rw [e3]; simpa using h⟩
      · cases h
    · cases h
  · cases h

end Arax.Dl
