import Verif.Dl.System2
/-!
# C73: what the users of the shared-memory allocator rely on

The segment is placed at an address, the bitmap and the pages are laid out in it, and any number of allocators (the root and sub allocators) are created, used and destroyed, in any order.
-/
namespace Arax.Dl
open Arax.Bitmap (bit Bmp)

/-- A shared segment: its address, the size of `struct arch_alloc_inner_s` (alloc.c:12-18; it depends on `ALLOC_STATS`), its number of bytes. alloc.c:27-31. -/
structure Seat where
  addr : Nat
  hdr : Nat
  bytes : Nat

/-- `alligned_start`. alloc.c:31-34. -/
def Seat.aligned (g : Seat) : Nat := (g.addr + g.hdr + 4095) / 4096 * 4096

/-- `bitmap_pages`. alloc.c:36-40. -/
def Seat.mapPages (g : Seat) : Nat := ((g.bytes - (g.aligned - g.addr)) / 4096 + 32767) / 32768

/-- Where the pages start. alloc.c:42, 48. -/
def Seat.start (g : Seat) : Nat := g.aligned + 4096 * g.mapPages

/-- The number of pages. alloc.c:38, 44. -/
def Seat.pages (g : Seat) : Nat := (g.bytes - (g.aligned - g.addr)) / 4096 - g.mapPages

/-- The configuration `arch_alloc_init_once` sets up. alloc.c:46-50. -/
def Seat.conf (g : Seat) (mremap : Bool) : Conf := ⟨g.start, mremap, (g.pages + 63) / 64⟩

/-- The segment is not at NULL, has room for the bookkeeping, and does not wrap around the address space. -/
structure Seat.Ok (g : Seat) : Prop where
  addr : 0 < g.addr
  fits : g.aligned ≤ g.addr + g.bytes
  high : g.addr + g.bytes + 64 * 4096 < 2 ^ 64

/-- The states that histories reach, from any contents of the memory. -/
def Reached (g : Seat) (mremap : Bool) (σ : Sys) : Prop := g.Ok ∧ ∃ mem0 bmem acts, srun (g.conf mremap) acts (fresh mem0 bmem g.pages) = .ok σ

/-- Everything the segment is used for stays where it belongs: the header, then the words of the bitmap, then the pages, and the last page ends in the segment. -/
theorem Seat.layout {g : Seat} (h : g.Ok) : g.addr + g.hdr + 8 * ((g.pages + 63) / 64) ≤ g.start ∧ g.start % 4096 = 0 ∧ g.start + 4096 * g.pages ≤ g.addr + g.bytes := by
  have h1 := h.fits
  have h0 := h.addr
  unfold Seat.pages Seat.start Seat.mapPages at *
  have h3 : g.addr + g.hdr ≤ g.aligned := by unfold Seat.aligned; omega
  have h4 : g.aligned % 4096 = 0 := by unfold Seat.aligned; omega
  generalize g.aligned = A at *
  generalize hn : (g.bytes - (A - g.addr)) / 4096 = n at *
  refine ⟨?_, ?_, ?_⟩ <;> omega

/-- **C73 (nothing is wasted).** The pages go on up to less than one page from the end of the segment; and the bitmap takes no more pages than are needed for a bit for each page. -/
theorem C73_whole_segment {g : Seat} (h : g.Ok) : g.addr + g.bytes < g.start + 4096 * (g.pages + 1) ∧ (g.mapPages - 1) * 32768 ≤ g.pages + g.mapPages := by
  have h1 := h.fits
  have h0 := h.addr
  unfold Seat.pages Seat.start Seat.mapPages at *
  have h3 : g.addr + g.hdr ≤ g.aligned := by unfold Seat.aligned; omega
  generalize g.aligned = A at *
  generalize hn : (g.bytes - (A - g.addr)) / 4096 = n at *
  refine ⟨?_, ?_⟩ <;> omega

theorem Seat.fresh_inv {g : Seat} (h : g.Ok) (mremap : Bool) (mem0 : Nat → Nat) (bmem : Nat → BitVec 64) : SInv (g.conf mremap) (fresh mem0 bmem g.pages) (fun _ => []) (fun _ => []) := by
  have hl := g.layout h
  have h2 := h.high
  have h0 := h.addr
  refine Dl.fresh_inv mem0 bmem g.pages (by omega) ⟨hl.2.1, ?_⟩ ⟨?_, rfl⟩
  · have := hl.1; simp only [Seat.conf]; omega
  · have := hl.2.2
    simp only [Seat.conf, Bitmap.init, W]
    omega

theorem srun_inv {cf : Conf} : ∀ (acts : List SAct) (σ : Sys) (L : Nat → Lay) (D : Nat → List (Nat × Nat)), SInv cf σ L D → ∀ σ', srun cf acts σ = .ok σ' → ∃ L' D', SInv cf σ' L' D'
  | [], σ, L, D, h, σ', e => by simp only [srun, Out.ok.injEq] at e; subst e; exact ⟨L, D, h⟩
  | a :: t, σ, L, D, h, σ', e => by
    simp only [srun] at e
    have hd := sstep_did h a
    cases hs : sstep cf σ a with
    | corrupt => rw [hs] at e; cases e
    | noMem => rw [hs] at e; cases e
    | ok σ1 =>
      rw [hs] at e hd
      cases hd with
      | next _ L1 D1 h1 _ _ _ => exact srun_inv t σ1 L1 D1 h1 σ' e

theorem reached_inv {g : Seat} {mremap : Bool} {σ : Sys} (h : Reached g mremap σ) : ∃ L D, SInv (g.conf mremap) σ L D := by
  obtain ⟨hg, mem0, bmem, acts, e⟩ := h
  exact srun_inv acts _ _ _ (g.fresh_inv hg mremap mem0 bmem) σ e

theorem srun_append {cf : Conf} : ∀ (a b : List SAct) (σ : Sys), srun cf (a ++ b) σ = (srun cf a σ).bind (srun cf b)
  | [], b, σ => rfl
  | x :: a, b, σ => by
    simp only [List.cons_append, srun]
    cases sstep cf σ x with
    | corrupt => rfl
    | noMem => rfl
    | ok σ' => simp only [Out.bind_ok]; exact srun_append a b σ'

theorem Reached.step {g : Seat} {mremap : Bool} {σ σ' : Sys} (h : Reached g mremap σ) {a : SAct} (e : sstep (g.conf mremap) σ a = .ok σ') : Reached g mremap σ' := by
  obtain ⟨hg, mem0, bmem, acts, e0⟩ := h
  refine ⟨hg, mem0, bmem, acts ++ [a], ?_⟩
  rw [srun_append, e0]; simp only [Out.bind_ok, srun, e]

/-! ## The property -/

/-- **C73** No history makes an allocator fail a consistency check (and abort) or hand a bad range to the bitmap. -/
theorem C73_never_corrupt {g : Seat} {mremap : Bool} {σ : Sys} (h : Reached g mremap σ) (a : SAct) : sstep (g.conf mremap) σ a ≠ .corrupt := by
  obtain ⟨L, D, hi⟩ := reached_inv h
  intro e
  have := sstep_did hi a
  rw [e] at this
  cases this

theorem live_up {cf : Conf} {σ : Sys} {L : Nat → Lay} {D : Nat → List (Nat × Nat)} (h : SInv cf σ L D) {i : Nat} {c : Nat × Nat} (hc : c ∈ σ.live i) : σ.up i = true := by
  cases hj : σ.up i with
  | true => rfl
  | false => rw [h.down i hj] at hc; cases hc

/-- Where blocks are. -/
theorem SInv.blocks {g : Seat} {mremap : Bool} {σ : Sys} {L : Nat → Lay} {D : Nat → List (Nat × Nat)} (hg0 : g.Ok) (hi : SInv (g.conf mremap) σ L D) {i : Nat} {c : Nat × Nat} (hc : c ∈ σ.live i) :
    c.1 % 16 = 0 ∧ g.addr + g.hdr + 8 * ((g.pages + 63) / 64) ≤ c.1 ∧ (g.pages % 64 = 0 → c.1 + c.2 ≤ g.addr + g.bytes) ∧ c.1 + c.2 ≤ g.start + 4096 * (64 * ((g.pages + 63) / 64)) ∧
    ∀ x, c.1 ≤ x → x < c.1 + c.2 → g.start ≤ x ∧ bit σ.bmp ((x - g.start) / 4096) = true := by
  have hu := live_up hi hc
  have hw := hi.one i hu
  obtain ⟨p, n, e, hb, hn, -⟩ := hw.fwd c hc
  obtain ⟨r, hr, h1, h2⟩ := blk_reg hw.inv hb
  have hl := hw.inv.low r hr
  have hp := blk_pos hw.inv hb
  have hg := g.layout hg0
  have hroom : σ.bmp.endc = (g.pages + 63) / 64 := hi.room.2
  have hl2 : r.1 + r.2 ≤ g.start + 4096 * (64 * ((g.pages + 63) / 64)) := by rw [← hroom]; exact hl.2.2
  have hl1 : g.start ≤ r.1 := hl.1
  refine ⟨by omega, by omega, fun h64 => by omega, by omega, fun x hx hx' => ⟨by omega, ?_⟩⟩
  have hst := hi.start.1
  have hal := hw.inv.regs.al r hr
  have hst : g.start % 4096 = 0 := hst
  refine (hw.inv.pages r hr ((x - g.start) / 4096) ⟨?_, ?_⟩).1 <;> simp only [Seat.conf] <;> omega

/-- Blocks are apart. -/
theorem SInv.disjoint {cf : Conf} {σ : Sys} {L : Nat → Lay} {D : Nat → List (Nat × Nat)} (hi : SInv cf σ L D) {i j : Nat} {c d : Nat × Nat} (hc : c ∈ σ.live i) (hd : d ∈ σ.live j) (hne : i ≠ j ∨ c ≠ d) :
    c.1 ≠ d.1 ∧ (c.1 + c.2 ≤ d.1 ∨ d.1 + d.2 ≤ c.1) := by
  have hwi := hi.one i (live_up hi hc)
  have hwj := hi.one j (live_up hi hd)
  obtain ⟨p, n, e, hb, hn, -⟩ := hwi.fwd c hc
  obtain ⟨q, k, e', hb', hn', -⟩ := hwj.fwd d hd
  by_cases hij : i = j
  · subst hij
    have hcd : c ≠ d := by rcases hne with h | h; exact absurd rfl h; exact h
    have h1 : c.1 ≠ d.1 := by
      intro ee
      have hnd := hwi.nodup
      apply hcd
      have key : ∀ l : List (Nat × Nat), (l.map Prod.fst).Nodup → c ∈ l → d ∈ l → c = d := by
        intro l
        induction l with
        | nil => intro _ h; cases h
        | cons a l ih =>
          intro hp h1 h2
          rw [List.map_cons, List.nodup_cons] at hp
          rcases List.mem_cons.mp h1 with e1 | h1
          · rcases List.mem_cons.mp h2 with e2 | h2
            · rw [e1, e2]
            · exfalso; apply hp.1; rw [← e1, ee]; exact List.mem_map_of_mem h2
          · rcases List.mem_cons.mp h2 with e2 | h2
            · exfalso; apply hp.1; rw [← e2, ← ee]; exact List.mem_map_of_mem h1
            · exact ih hp.2 h1 h2
      exact key _ hnd hc hd
    refine ⟨h1, ?_⟩
    rcases blk_apart hwi.inv hb hb' with h2 | h2 | h2 <;> omega
  · obtain ⟨r, hr, h1, h2⟩ := blk_reg hwi.inv hb
    obtain ⟨r', hr', h1', h2'⟩ := blk_reg hwj.inv hb'
    have hp := blk_pos hwi.inv hb
    have hp' := blk_pos hwj.inv hb'
    have hal := hwi.inv.regs.al r hr
    have hal' := hwj.inv.regs.al r' hr'
    have hl := hwi.inv.low r hr
    have hl' := hwj.inv.low r' hr'
    have hst := hi.start.1
    have key : r.1 + r.2 ≤ r'.1 ∨ r'.1 + r'.2 ≤ r.1 := by
      by_cases hlt : r.1 + r.2 ≤ r'.1 ∨ r'.1 + r'.2 ≤ r.1
      · exact hlt
      · exfalso
        have hx : ∀ q : Nat, InReg cf r q → ¬ InReg cf r' q := by
          intro q h3 h4
          have h5 := hi.two i j (live_up hi hc) (live_up hi hd) hij q (covers_iff.mpr ⟨r, hr, h3⟩)
          rw [covers_iff.mpr ⟨r', hr', h4⟩] at h5; cases h5
        have := hx ((max r.1 r'.1 - cf.start) / 4096)
        unfold InReg at this
        exact this (by omega) (by omega)
    omega

/-- **C73** Every block is aligned to 16 bytes, lies after the bookkeeping of the segment and only in pages that are marked as taken. It ends in the segment if the number of pages is a multiple of 64.
(Missing: the other numbers of pages, for which it is false, see `C73_past_end_violated`; there it ends at most 63 pages late.) -/
theorem C73_blocks_partial {g : Seat} {mremap : Bool} {σ : Sys} (h : Reached g mremap σ) {i : Nat} {c : Nat × Nat} (hc : c ∈ σ.live i) :
    c.1 % 16 = 0 ∧ g.addr + g.hdr + 8 * ((g.pages + 63) / 64) ≤ c.1 ∧ (g.pages % 64 = 0 → c.1 + c.2 ≤ g.addr + g.bytes) ∧ c.1 + c.2 ≤ g.start + 4096 * (64 * ((g.pages + 63) / 64)) ∧
    ∀ x, c.1 ≤ x → x < c.1 + c.2 → g.start ≤ x ∧ bit σ.bmp ((x - g.start) / 4096) = true := by
  obtain ⟨L, D, hi⟩ := reached_inv h
  exact hi.blocks h.1 hc

/-- **C73** No two blocks overlap, in one allocator or in two. -/
theorem C73_disjoint {g : Seat} {mremap : Bool} {σ : Sys} (h : Reached g mremap σ) {i j : Nat} {c d : Nat × Nat} (hc : c ∈ σ.live i) (hd : d ∈ σ.live j) (hne : i ≠ j ∨ c ≠ d) :
    c.1 ≠ d.1 ∧ (c.1 + c.2 ≤ d.1 ∨ d.1 + d.2 ≤ c.1) := by
  obtain ⟨L, D, hi⟩ := reached_inv h
  exact hi.disjoint hc hd hne

/-- Does the event end block `c` of allocator `i`? -/
def ends (i : Nat) (c : Nat × Nat) : SAct → Bool
  | .free j a => decide (j = i ∧ a = c.1)
  | .destroy j => decide (j = i)
  | _ => false

/-- Is the event a write at `x` by a user? -/
def writes (x : Nat) : SAct → Bool
  | .write _ y _ => decide (y = x)
  | _ => false

theorem contents_step {cf : Conf} {σ σ' : Sys} {L : Nat → Lay} {D : Nat → List (Nat × Nat)} (hi : SInv cf σ L D) {a : SAct} (e : sstep cf σ a = .ok σ') {i : Nat} {c : Nat × Nat} (hc : c ∈ σ.live i)
    (h1 : ends i c a = false) : c ∈ σ'.live i ∧ ∀ x, c.1 ≤ x → x < c.1 + c.2 → writes x a = false → σ'.mem x = σ.mem x := by
  have := sstep_did hi a
  rw [e] at this
  cases this with
  | next _ L' D' _ hk _ _ =>
    have h2 := hk i c hc (by intro ee; subst ee; simp [ends] at h1) (by intro ee; subst ee; simp [ends] at h1)
    refine ⟨h2.1, fun x hx hx' hw => h2.2 x hx hx' ?_⟩
    intro j v ee; subst ee; simp [writes] at hw

/-- **C73** A block that is neither freed nor its allocator destroyed stays, and every byte of it that no user writes keeps its value, whatever happens to all other blocks and allocators. -/
theorem C73_contents {g : Seat} {mremap : Bool} {i : Nat} {c : Nat × Nat} {x : Nat} (h1 : c.1 ≤ x) (h2 : x < c.1 + c.2) : ∀ (acts : List SAct) {σ σ' : Sys}, Reached g mremap σ → c ∈ σ.live i →
    acts.all (fun a => !ends i c a) = true → srun (g.conf mremap) acts σ = .ok σ' → c ∈ σ'.live i ∧ (acts.all (fun a => !writes x a) = true → σ'.mem x = σ.mem x)
  | [], σ, σ', _, hc, _, e => by simp only [srun, Out.ok.injEq] at e; subst e; exact ⟨hc, fun _ => rfl⟩
  | a :: t, σ, σ', hr, hc, he, e => by
    simp only [List.all_cons, Bool.and_eq_true, Bool.not_eq_true'] at he
    simp only [srun] at e
    obtain ⟨L, D, hi⟩ := reached_inv hr
    cases hs : sstep (g.conf mremap) σ a with
    | corrupt => rw [hs] at e; cases e
    | noMem => rw [hs] at e; cases e
    | ok σ1 =>
      rw [hs] at e
      obtain ⟨h3, h4⟩ := contents_step hi hs hc he.1
      obtain ⟨h5, h6⟩ := C73_contents h1 h2 t (hr.step hs) h3 he.2 e
      refine ⟨h5, fun hw => ?_⟩
      simp only [List.all_cons, Bool.and_eq_true, Bool.not_eq_true'] at hw
      rw [h6 (by simpa using hw.2), h4 x h1 h2 hw.1]

/-- **C73** What a user writes to a block is there. -/
theorem C73_write {g : Seat} {mremap : Bool} {σ : Sys} (h : Reached g mremap σ) {i : Nat} {c : Nat × Nat} {x : Nat} (v : Nat) (hc : c ∈ σ.live i) (h1 : c.1 ≤ x) (h2 : x < c.1 + c.2) :
    ∃ σ', sstep (g.conf mremap) σ (.write i x v) = .ok σ' ∧ σ'.mem x = v ∧ (∀ y, y ≠ x → σ'.mem y = σ.mem y) ∧ σ'.live = σ.live := by
  obtain ⟨L, D, hi⟩ := reached_inv h
  have hu := live_up hi hc
  have hh : holdsByte (σ.live i) x = true := by
    unfold holdsByte; rw [List.any_eq_true]; exact ⟨c, hc, by simp [h1, h2]⟩
  refine ⟨σ.after i ⟨{ σ.heap i with mem := put σ.mem x v, bmp := σ.bmp }, σ.live i, fun _ => false⟩, ?_, ?_, ?_, ?_⟩
  · simp only [sstep, Sys.at, hu, if_true, step, Sys.view, hh, Out.bind_ok]
  · simp only [Sys.after, put, if_true]
  · intro y hy; simp only [Sys.after, put, if_neg hy]
  · simp only [Sys.after]; exact live_self

/-- **C73** Allocating gives a new block of the requested size, at an address that is not NULL; or NULL, only if the request is within 65664 bytes of the size of the address space, and then nothing changes;
or it aborts, only if there is no run of free pages for a number of bytes at most 65664 bytes (17 pages) over the request. -/
theorem C73_alloc {g : Seat} {mremap : Bool} {σ : Sys} (h : Reached g mremap σ) {i : Nat} (hu : σ.up i = true) (bytes pick : Nat) :
    (∃ σ' m, sstep (g.conf mremap) σ (.alloc i bytes pick) = .ok σ' ∧ m ≠ 0 ∧ (∀ j, ∀ d ∈ σ.live j, d.1 ≠ m) ∧ σ'.live i = (m, bytes) :: σ.live i ∧ ∀ j, j ≠ i → σ'.live j = σ.live j) ∨
    (∃ σ', sstep (g.conf mremap) σ (.alloc i bytes pick) = .ok σ' ∧ σ'.live = σ.live ∧ σ'.mem = σ.mem ∧ σ'.bmp = σ.bmp ∧ 2 ^ 64 ≤ bytes + 65664) ∨
    (sstep (g.conf mremap) σ (.alloc i bytes pick) = .noMem ∧ ∃ k, (Bitmap.alloc σ.bmp k).2 = none ∧ bytes < 4096 * k ∧ 4096 * k ≤ bytes + 65664) := by
  obtain ⟨L, D, hi⟩ := reached_inv h
  have hd := sstep_did hi (.alloc i bytes pick)
  cases hs : sstep (g.conf mremap) σ (.alloc i bytes pick) with
  | corrupt => rw [hs] at hd; cases hd
  | noMem =>
    rw [hs] at hd
    right; right
    refine ⟨rfl, ?_⟩
    cases hd with
    | full k h1 h2 =>
      rcases h2 with ⟨_, e, _⟩ | ⟨_, _, _, e, h3, h4⟩
      · cases e
      · cases e; exact ⟨k, h1, h3, h4⟩
  | ok σ' =>
    rw [hs] at hd
    cases hd with
    | next _ L' D' hi' hk hm _ =>
      rcases hm with ⟨h1, -⟩ | ⟨m, h1, h2, h3, h4⟩ | ⟨h1, -, h2, h3, h4⟩
      · rw [hu] at h1; cases h1
      · left
        have hli : σ'.live i = (m, bytes) :: σ.live i := by rw [h3]; simp
        refine ⟨σ', m, rfl, h1, ?_, hli, fun j hj => by rw [h3]; simp [hj]⟩
        intro j d hdj
        have hr' := h.step hs
        by_cases hji : j = i
        · subst hji; intro e; apply h2; rw [← e]; exact List.mem_map_of_mem hdj
        · have hd' : d ∈ σ'.live j := by rw [h3]; simp only [if_neg hji]; exact hdj
          exact (C73_disjoint hr' hd' (by rw [hli]; exact List.mem_cons_self) (Or.inl hji)).1
      · right; left; exact ⟨σ', rfl, h1, h2, h3, h4⟩

/-- **C73** Freeing a block always works, and ends that block only. -/
theorem C73_free {g : Seat} {mremap : Bool} {σ : Sys} (h : Reached g mremap σ) (i a : Nat) :
    ∃ σ', sstep (g.conf mremap) σ (.free i a) = .ok σ' ∧ σ'.live i = (σ.live i).filter (fun c => c.1 != a) ∧ ∀ j, j ≠ i → σ'.live j = σ.live j := by
  obtain ⟨L, D, hi⟩ := reached_inv h
  have hd := sstep_did hi (.free i a)
  cases hs : sstep (g.conf mremap) σ (.free i a) with
  | corrupt => rw [hs] at hd; cases hd
  | noMem =>
    rw [hs] at hd
    cases hd with
    | full k h1 h2 => rcases h2 with ⟨_, e, _⟩ | ⟨_, _, _, e, h3, h4⟩ <;> cases e
  | ok σ' =>
    rw [hs] at hd
    cases hd with
    | next _ L' D' hi' hk hm _ =>
      refine ⟨σ', rfl, ?_, fun j hj => ?_⟩ <;> rw [hm.1] <;> simp
      simp [hj]

/-! ## Cases -/

/-- Running a history and asking about the result. (No code of its own.) -/
def ask (g : Seat) (mremap : Bool) (acts : List SAct) (q : Sys → Bool) : Bool := match srun (g.conf mremap) acts (fresh (fun _ => 0) (fun _ => 0) g.pages) with | .ok σ => q σ | _ => false

theorem ask_reached {g : Seat} {mremap : Bool} {acts : List SAct} {q : Sys → Bool} (hg : g.Ok) (h : ask g mremap acts q = true) : ∃ σ, Reached g mremap σ ∧ q σ = true := by
  unfold ask at h
  split at h
  · rename_i σ e; exact ⟨σ, ⟨hg, _, _, acts, e⟩, h⟩
  · cases h

/-- A segment with 256 pages. -/
def seat256 : Seat := ⟨4096, 80, 4096 * 258⟩
/-- A segment with 120 pages. -/
def seat120 : Seat := ⟨4096, 80, 4096 * 122⟩

theorem seat256_ok : seat256.Ok := ⟨by decide, by decide, by decide⟩
theorem seat120_ok : seat120.Ok := ⟨by decide, by decide, by decide⟩

/-- **C73 is violated** in a segment with 120 pages: a block reaches past the end of the segment. -/
theorem C73_past_end_violated : ∃ g σ c, Reached g false σ ∧ c ∈ σ.live 0 ∧ g.addr + g.bytes < c.1 + c.2 := by
  obtain ⟨σ, h1, h2⟩ := ask_reached (mremap := false) (acts := [.create 0, .create 1, .create 2, .create 3, .destroy 1, .destroy 3, .alloc 0 298900 0])
    (q := fun σ => decide ((208912, 298900) ∈ σ.live 0)) seat120_ok (by decide +kernel)
  exact ⟨seat120, σ, (208912, 298900), h1, of_decide_eq_true h2, by decide⟩

/-- Two allocators with blocks from a chunk, from the top, and directly mapped; the theorems apply. -/
example : ∃ σ, Reached seat256 false σ ∧ (13248, 24) ∈ σ.live 0 ∧ (13360, 200000) ∈ σ.live 0 ∧ (405520, 300000) ∈ σ.live 1 ∧ σ.mem 405521 = 7 := by
  obtain ⟨σ, h1, h2⟩ := ask_reached (mremap := false)
    (acts := [.create 0, .alloc 0 100 0, .alloc 0 200000 0, .create 1, .alloc 1 300000 0, .free 0 13248, .write 1 405521 7, .alloc 0 24 0])
    (q := fun σ => decide ((13248, 24) ∈ σ.live 0 ∧ (13360, 200000) ∈ σ.live 0 ∧ (405520, 300000) ∈ σ.live 1 ∧ σ.mem 405521 = 7)) seat256_ok (by decide +kernel)
  exact ⟨σ, h1, of_decide_eq_true h2⟩

/-- Each outcome of `C73_alloc` happens: no room, and NULL. -/
example : ask seat120 false [.create 0] (fun σ => match sstep (seat120.conf false) σ (.alloc 0 500000 0) with | .noMem => true | _ => false) = true := by decide +kernel
example : ask seat120 false [.create 0] (fun σ => match sstep (seat120.conf false) σ (.alloc 0 (2 ^ 64 - 129) 0) with | .ok σ' => σ'.live 0 == [] | _ => false) = true := by decide +kernel

end Arax.Dl
