import Verif.Dl.World
/-!
# All allocators of a segment

The allocators (the root and the sub allocators) share the memory and the bitmap. `Sys` has all of them, and their users.
-/
namespace Arax.Dl
open Arax.Bitmap (bit Bmp)

/-- The shared segment: memory, bitmap, and the allocators by name: `up i` if allocator `i` exists, `heap i` its `malloc_state` (its fields `mem` and `bmp` are not used), `live i` the blocks its users hold
as (address, requested bytes). `lost`: pages that no allocator will ever return (a ghost). alloc.c:9-18. -/
structure Sys where
  mem : Nat → Nat
  bmp : Bmp
  heap : Nat → Heap
  live : Nat → List (Nat × Nat)
  up : Nat → Bool
  lost : Nat → Bool

/-- Allocator `i` and its users. (No code of its own.) -/
def Sys.view (σ : Sys) (i : Nat) (env : Nat → Bool) : World := ⟨{ σ.heap i with mem := σ.mem, bmp := σ.bmp }, σ.live i, env⟩

/-- The segment when allocator `i` has become `w`. (No code of its own.) -/
def Sys.after (σ : Sys) (i : Nat) (w : World) : Sys :=
  { σ with mem := w.heap.mem, bmp := w.heap.bmp, heap := fun j => if j = i then w.heap else σ.heap j, live := fun j => if j = i then w.live else σ.live j, up := fun j => if j = i then true else σ.up j }

/-- The regions of the directly mapped blocks of an allocator: from the head of the chunk of each block (malloc.c:2308, 2326-2327 and 5776-5780). -/
def directs (mem : Nat → Nat) (live : List (Nat × Nat)) : List (Nat × Nat) :=
  live.filterMap fun c => if isMmapped (mem (c.1 - 16 + 8)) then some (c.1 - 16, csize (mem (c.1 - 16 + 8)) + 32) else none

/-- Is page `p` in one of the regions? (No code of its own.) -/
def covers (cf : Conf) (R : List (Nat × Nat)) (p : Nat) : Bool := R.any fun r => decide (r.1 ≤ cf.start + 4096 * p) && decide (cf.start + 4096 * p < r.1 + r.2)

/-- The loop of `destroy_mspace`. malloc.c:5618-5627. -/
def destroyLoop (cf : Conf) : List Seg → Heap → Out Heap
  | [], s => .ok s
  | g :: t, s => (munmap cf s g.base g.size).bind (destroyLoop cf t)

/-- Events. `create i`: `create_mspace(0, 1)`, for the root (alloc.c:53) or a sub allocator (alloc.c:167; the block for its own structure is an `alloc` of the parent, alloc.c:165); `alloc`, `free`, `write`,
`links`: as in `Act`; `destroy i`: `arch_alloc_exit` (alloc.c:102-107). -/
inductive SAct where
  | create (i : Nat)
  | alloc (i bytes pick : Nat)
  | free (i a : Nat)
  | write (i x v : Nat)
  | links (i x v : Nat)
  | destroy (i : Nat)

/-- An event at allocator `i`. (No code of its own.) -/
def Sys.at (cf : Conf) (σ : Sys) (i : Nat) (a : Act) : Out Sys :=
  if σ.up i then (step cf (σ.view i (fun _ => false)) a).bind fun w => .ok (σ.after i w) else .ok σ

/-- One event. Allocators that do not exist are not used, and names are not used twice at a time. alloc.c:62-107, 163-170. -/
def sstep (cf : Conf) (σ : Sys) : SAct → Out Sys
  | .create i => if σ.up i then .ok σ else (create cf σ.mem σ.bmp).bind fun s => .ok (σ.after i ⟨s, [], fun _ => false⟩)
  | .alloc i bytes pick => σ.at cf i (.alloc bytes pick)
  | .free i a => σ.at cf i (.free a)
  | .write i x v => σ.at cf i (.write x v)
  | .links i x v => σ.at cf i (.links x v)
  | .destroy i =>
    if σ.up i then
      (destroyLoop cf (σ.heap i).segs { σ.heap i with mem := σ.mem, bmp := σ.bmp }).bind fun s =>
        .ok { σ with bmp := s.bmp, live := fun j => if j = i then [] else σ.live j, up := fun j => if j = i then false else σ.up j,
                     lost := fun p => σ.lost p || covers cf (directs σ.mem (σ.live i)) p }
    else .ok σ

/-- A history. (No code of its own.) -/
def srun (cf : Conf) : List SAct → Sys → Out Sys
  | [], σ => .ok σ
  | a :: t, σ => (sstep cf σ a).bind (srun cf t)

/-- A new segment: the bitmap is cleared, there is no allocator yet. alloc.c:28-51. -/
def fresh (mem0 : Nat → Nat) (bmem : Nat → BitVec 64) (size : Nat) : Sys :=
  { mem := mem0, bmp := Bitmap.init bmem size, heap := fun _ => ⟨mem0, Bitmap.init bmem size, [], [], 0, 0, 0, 0, 0, 0, 0, 0, 0, 0⟩, live := fun _ => [], up := fun _ => false, lost := fun _ => false }

/-! ## The invariant -/

theorem covers_iff {cf : Conf} {R : List (Nat × Nat)} {p : Nat} : covers cf R p = true ↔ ∃ r ∈ R, InReg cf r p := by
  unfold covers InReg
  rw [List.any_eq_true]
  simp only [Bool.and_eq_true, decide_eq_true_eq]

/-- The pages that are taken, but not by these regions. (No code of its own.) -/
def others (cf : Conf) (b : Bmp) (R : List (Nat × Nat)) : Nat → Bool := fun p => bit b p && !covers cf R p

theorem inv_reenv {cf : Conf} {s : Heap} {L : Lay} {D : List (Nat × Nat)} {env : Nat → Bool} (hi : Inv cf s L D env) : Inv cf s L D (others cf s.bmp (regs L D)) := by
  refine ⟨hi.segs, hi.ok, hi.hd, hi.bins, hi.bnd, hi.dv, hi.mst, hi.dir, hi.disj, hi.low, ?_, ?_, ?_, hi.bmp, hi.foot, hi.start, hi.top64, hi.lpos, hi.trim⟩
  · intro r hr p hp
    refine ⟨(hi.pages r hr p hp).1, ?_⟩
    unfold others; rw [covers_iff.mpr ⟨r, hr, hp⟩]; simp
  · intro p hp; unfold others at hp; simp only [Bool.and_eq_true] at hp; exact hp.1
  · intro _ p _ hb
    by_cases hc : covers cf (regs L D) p = true
    · exact Or.inr (covers_iff.mp hc)
    · left; unfold others; simp [hb, hc]

/-- Others change the memory and the bitmap, but not our regions. -/
theorem inv_foreign {cf : Conf} {s : Heap} {L : Lay} {D : List (Nat × Nat)} {env : Nat → Bool} (hi : Inv cf s L D env) {m : Nat → Nat} {b : Bmp}
    (hm : ∀ r ∈ regs L D, ∀ x, r.1 ≤ x → x < r.1 + r.2 → m x = s.mem x) (hb : ∀ r ∈ regs L D, ∀ p, InReg cf r p → bit b p = true) (hbok : BOK b) (he : b.endc = cf.groups) :
    Inv cf { s with mem := m, bmp := b } L D (others cf b (regs L D)) := by
  have h1 : Inv cf { s with mem := m } L D env := by
    refine inv_poke hi ?_ ?_ ?_
    · intro y hy
      obtain ⟨z, hz, hyz⟩ := List.mem_flatMap.mp hy
      have hbd := addrs_bounds hyz
      have hf := (hi.ok z hz).fits
      have hpos := addr_pos hi hy
      have hr : (z.1.base, z.1.size) ∈ regs L D := List.mem_append_left _ (List.mem_map_of_mem hz)
      exact ⟨hm _ hr _ (by simp only; omega) (by simp only; omega), fun _ => hm _ hr _ (by simp only; omega) (by simp only; omega)⟩
    · intro r hr
      have hd := hi.dir r hr
      exact ⟨hm r (List.mem_append_right _ hr) _ (by omega) (by omega), hm r (List.mem_append_right _ hr) _ (by omega) (by omega)⟩
    · intro z hz hl
      obtain ⟨h1, h2, -, -⟩ := fence_at hi hz hl
      have hf := (hi.ok z hz).fits
      exact hm (z.1.base, z.1.size) (List.mem_append_left _ (List.mem_map_of_mem hz)) _ (by simp only; omega) (by simp only; omega)
  have hE : b.endc = s.bmp.endc := by rw [he, hi.top64.2]
  refine ⟨h1.segs, h1.ok, h1.hd, h1.bins, h1.bnd, h1.dv, h1.mst, h1.dir, h1.disj, ?_, ?_, ?_, ?_, hbok, h1.foot, h1.start, ?_, h1.lpos, h1.trim⟩
  · intro r hr; simp only [hE]; exact hi.low r hr
  · intro r hr p hp
    refine ⟨hb r hr p hp, ?_⟩
    unfold others; rw [covers_iff.mpr ⟨r, hr, hp⟩]; simp
  · intro p hp; unfold others at hp; simp only [Bool.and_eq_true] at hp; exact hp.1
  · intro _ p _ hb
    simp only at hb
    by_cases hc : covers cf (regs L D) p = true
    · exact Or.inr (covers_iff.mp hc)
    · left; unfold others; simp [hb, hc]
  · simp only [hE]; exact hi.top64

/-- The invariant of the whole. (No code of its own.) -/
structure SInv (cf : Conf) (σ : Sys) (L : Nat → Lay) (D : Nat → List (Nat × Nat)) : Prop where
  one : ∀ i, σ.up i = true → WInv cf (σ.view i (others cf σ.bmp (regs (L i) (D i)))) (L i) (D i)
  two : ∀ i j, σ.up i = true → σ.up j = true → i ≠ j → ∀ p, covers cf (regs (L i) (D i)) p = true → covers cf (regs (L j) (D j)) p = false
  bok : BOK σ.bmp
  start : cf.start % 4096 = 0 ∧ 0 < cf.start
  room : cf.start + 4096 * (64 * σ.bmp.endc) < W ∧ σ.bmp.endc = cf.groups
  down : ∀ i, σ.up i = false → σ.live i = []
  only : cf.mremap = false → ∀ p, p < 64 * σ.bmp.endc → bit σ.bmp p = true → σ.lost p = true ∨ ∃ i, σ.up i = true ∧ covers cf (regs (L i) (D i)) p = true
  lost : ∀ p, σ.lost p = true → bit σ.bmp p = true ∧ ∀ i, σ.up i = true → covers cf (regs (L i) (D i)) p = false

/-- The pages that are taken, but not by allocator `i`. (No code of its own.) -/
def Sys.foreign (cf : Conf) (σ : Sys) (L : Nat → Lay) (D : Nat → List (Nat × Nat)) (i : Nat) : Nat → Bool :=
  fun p => bit σ.bmp p && !(σ.up i && covers cf (regs (L i) (D i)) p)

/-- The regions of others are in pages that are not ours. -/
theorem SInv.foreign_pages {cf : Conf} {σ : Sys} {L : Nat → Lay} {D : Nat → List (Nat × Nat)} (h : SInv cf σ L D) {i j : Nat} (hj : σ.up j = true) (hne : j ≠ i) {r : Nat × Nat} (hr : r ∈ regs (L j) (D j)) {p : Nat}
    (hp : InReg cf r p) : σ.foreign cf L D i p = true := by
  unfold Sys.foreign
  have h1 := ((h.one j hj).inv.pages r hr p hp).1
  have h1 : bit σ.bmp p = true := h1
  rw [h1]
  cases hi : σ.up i with
  | false => rfl
  | true => rw [h.two j i hj hi hne p (covers_iff.mpr ⟨r, hr, hp⟩)]; rfl

/-- The other allocators, when `i` does something. -/
theorem SInv.other {cf : Conf} {σ : Sys} {L : Nat → Lay} {D : Nat → List (Nat × Nat)} (h : SInv cf σ L D) {i j : Nat} (hj : σ.up j = true) (hne : j ≠ i) {m : Nat → Nat} {b : Bmp}
    (hm : Frame cf (σ.foreign cf L D i) σ.mem m) (hb : ∀ p, σ.foreign cf L D i p = true → bit b p = true) (hbok : BOK b) (he : b.endc = cf.groups) :
    WInv cf ⟨{ σ.heap j with mem := m, bmp := b }, σ.live j, others cf b (regs (L j) (D j))⟩ (L j) (D j) := by
  have hw := h.one j hj
  have hst := h.start
  refine ⟨inv_foreign (s := { σ.heap j with mem := σ.mem, bmp := σ.bmp }) hw.inv ?_ ?_ hbok he, hw.back, hw.fwd, hw.nodup⟩
  · intro r hr x h1 h2
    have hal := hw.inv.regs.al r hr
    have hl := hw.inv.low r hr
    exact hm x (by omega) (h.foreign_pages hj hne hr (p := (x - cf.start) / 4096) (by unfold InReg; omega))
  · intro r hr p hp; exact hb p (h.foreign_pages hj hne hr hp)

/-- Allocator `i` (old or new) becomes `w`. -/
theorem SInv.after {cf : Conf} {σ : Sys} {L : Nat → Lay} {D : Nat → List (Nat × Nat)} (h : SInv cf σ L D) {i : Nat} {w : World} {L' : Lay} {D' : List (Nat × Nat)} (hw : WInv cf w L' D')
    (he : w.env = σ.foreign cf L D i) (hf : Frame cf (σ.foreign cf L D i) σ.mem w.heap.mem) :
    SInv cf (σ.after i w) (fun j => if j = i then L' else L j) (fun j => if j = i then D' else D j) := by
  have henvb := hw.inv.envb
  rw [he] at henvb
  have hpages := hw.inv.pages
  rw [he] at hpages
  have hcov : ∀ p, covers cf (regs L' D') p = true → σ.foreign cf L D i p = false := by
    intro p hp
    obtain ⟨r, hr, hp⟩ := covers_iff.mp hp
    exact (hpages r hr p hp).2
  have hend : w.heap.bmp.endc = σ.bmp.endc := by rw [hw.inv.top64.2, h.room.2]
  have hfor : ∀ j, σ.up j = true → j ≠ i → ∀ p, covers cf (regs (L j) (D j)) p = true → σ.foreign cf L D i p = true := by
    intro j hj hne p hp
    obtain ⟨r, hr, hp⟩ := covers_iff.mp hp
    exact h.foreign_pages hj hne hr hp
  have hup : ∀ j, (σ.after i w).up j = true → j ≠ i → σ.up j = true := by
    intro j hj hne; simp only [Sys.after, if_neg hne] at hj; exact hj
  refine ⟨?_, ?_, hw.inv.bmp, h.start, by simp only [Sys.after, hend]; exact h.room, ?_, ?_, ?_⟩
  · intro j hj
    by_cases hji : j = i
    · subst hji
      simp only [Sys.view, Sys.after, if_true]
      exact ⟨inv_reenv hw.inv, hw.back, hw.fwd, hw.nodup⟩
    · have := h.other (hup j hj hji) hji (m := w.heap.mem) (b := w.heap.bmp) hf henvb hw.inv.bmp hw.inv.top64.2
      simp only [Sys.view, Sys.after, if_neg hji]
      exact this
  · intro j k hj hk hne p hp
    (try simp only at hp ⊢)
    by_cases hji : j = i
    · subst hji
      rw [if_pos rfl, if_pos rfl] at hp
      have hkj : k ≠ j := fun e => hne e.symm
      rw [if_neg hkj, if_neg hkj]
      cases hc : covers cf (regs (L k) (D k)) p with
      | false => rfl
      | true => have h1 := hfor k (hup k hk hkj) hkj p hc; rw [hcov p hp] at h1; cases h1
    · rw [if_neg hji, if_neg hji] at hp
      by_cases hki : k = i
      · subst hki
        rw [if_pos rfl, if_pos rfl]
        cases hc : covers cf (regs L' D') p with
        | false => rfl
        | true => have h1 := hfor j (hup j hj hji) hji p hp; rw [hcov p hc] at h1; cases h1
      · rw [if_neg hki, if_neg hki]
        exact h.two j k (hup j hj hji) (hup k hk hki) hne p hp
  · intro j hj
    by_cases hji : j = i
    · subst hji; simp [Sys.after] at hj
    · simp only [Sys.after, if_neg hji] at hj ⊢; exact h.down j hj
  · intro hmr p hp hb
    simp only [Sys.after] at hp hb ⊢
    rcases hw.inv.only hmr p (by exact hp) hb with h1 | ⟨r, hr, h1⟩
    · rw [he] at h1
      unfold Sys.foreign at h1
      simp only [Bool.and_eq_true, Bool.not_eq_true'] at h1
      rcases h.only hmr p (by rw [← hend]; exact hp) h1.1 with h2 | ⟨k, hk, hc⟩
      · exact Or.inl h2
      · right
        by_cases hki : k = i
        · subst hki; rw [hk, hc] at h1; simp at h1
        · exact ⟨k, by rw [if_neg hki]; exact hk, by rw [if_neg hki, if_neg hki]; exact hc⟩
    · right
      exact ⟨i, by simp, by rw [if_pos rfl, if_pos rfl]; exact covers_iff.mpr ⟨r, hr, h1⟩⟩
  · intro p hp
    have h1 := h.lost p hp
    have h2 : σ.foreign cf L D i p = true := by
      unfold Sys.foreign; rw [h1.1]
      cases hi : σ.up i with
      | false => rfl
      | true => rw [h1.2 i hi]; rfl
    refine ⟨henvb p h2, fun k hk => ?_⟩
    (try simp only)
    by_cases hki : k = i
    · subst hki
      rw [if_pos rfl, if_pos rfl]
      cases hc : covers cf (regs L' D') p with
      | false => rfl
      | true => rw [hcov p hc] at h2; cases h2
    · rw [if_neg hki, if_neg hki]; exact h1.2 k (hup k hk hki)

/-! ## Directly mapped blocks, and the end of an allocator -/

/-- The directly mapped regions, from the heads of the blocks. -/
theorem directs_iff {cf : Conf} {w : World} {L : Lay} {D : List (Nat × Nat)} (h : WInv cf w L D) (r : Nat × Nat) : r ∈ directs w.heap.mem w.live ↔ r ∈ D := by
  unfold directs
  rw [List.mem_filterMap]
  constructor
  · rintro ⟨c, hc, he⟩
    obtain ⟨p, n, e, hb, hn, hne⟩ := h.fwd c hc
    have e1 : c.1 - 16 = p := by omega
    rw [e1] at he
    rcases hb with hb | hb
    · exfalso
      obtain ⟨q, hq⟩ := flat_ok h.inv hb
      have hh := hq.head
      have hm := hq.mul
      simp only [enc, Kind.live, if_true] at hh hm
      rw [if_neg] at he
      · cases he
      · unfold isMmapped; rw [hh]; cases q <;> simp <;> omega
    · have hd := h.inv.dir _ hb
      simp only at hd
      split at he
      · simp only [Option.some.injEq] at he
        rw [← he]
        have : csize (w.heap.mem (p + 8)) + 32 = n + 40 := by unfold csize; omega
        rw [this]; exact hb
      · rename_i hc'
        exfalso; apply hc'; unfold isMmapped; simp; omega
  · intro hr
    have hd := h.inv.dir r hr
    have hr' : (r.1, r.2 - 40 + 40) ∈ D := by rw [show r.2 - 40 + 40 = r.2 by omega]; exact hr
    have hb : Blk L D r.1 (r.2 - 40) := Or.inr hr'
    rcases h.back _ _ hb with e | ⟨b, hb'⟩
    · exfalso
      have hm := mst_blk h.inv
      rcases blk_apart h.inv hb hm with h1 | h1 | h1
      · obtain ⟨z, hz, hyz⟩ := List.mem_flatMap.mp h.inv.mst
        have hbd := addrs_bounds hyz
        have hf := (h.inv.ok z hz).fits
        have := dir_apart h.inv hz hr
        simp only [Apart, mstSize] at this hbd
        omega
      · omega
      · unfold mstSize at h1; omega
    · refine ⟨_, hb', ?_⟩
      simp only [Nat.add_sub_cancel]
      rw [if_pos (by unfold isMmapped; simp; omega)]
      have : csize (w.heap.mem (r.1 + 8)) + 32 = r.2 := by unfold csize; omega
      rw [this]

theorem covers_congr {cf : Conf} {R R' : List (Nat × Nat)} (h : ∀ r, r ∈ R ↔ r ∈ R') (p : Nat) : covers cf R p = covers cf R' p := by
  rw [Bool.eq_iff_iff, covers_iff, covers_iff]; simp only [h]

theorem destroyLoop_ok {cf : Conf} {env : Nat → Bool} {D : List (Nat × Nat)} {least : Nat} : ∀ (L : Lay) (s : Heap) (foot : Nat), Regs cf s.bmp least foot (regs L D) env →
    ∃ b' foot', destroyLoop cf (L.map Prod.fst) s = .ok { s with bmp := b' } ∧ Regs cf b' least foot' D env
  | [], s, foot, h => ⟨s.bmp, foot, rfl, by simpa [regs] using h⟩
  | x :: L, s, foot, h => by
    obtain ⟨b', h1, -, h2⟩ := munmap_ok (s := s) (r := (x.1.base, x.1.size)) (R := regs L D) h
    simp only at h1 h2
    obtain ⟨b'', f'', h3, h4⟩ := destroyLoop_ok L { s with bmp := b' } _ h2
    refine ⟨b'', f'', ?_, h4⟩
    simp only [List.map_cons, destroyLoop, h1, Out.bind_ok, h3]

/-- What one event does. (No code of its own.) -/
inductive SDid (cf : Conf) (σ : Sys) (a : SAct) : Out Sys → Prop where
  | full (k : Nat) : (Bitmap.alloc σ.bmp k).2 = none →
      ((∃ i, a = .create i ∧ k = 16) ∨ ∃ i bytes pick, a = .alloc i bytes pick ∧ bytes < 4096 * k ∧ 4096 * k ≤ bytes + 65664) → SDid cf σ a .noMem
  | next (σ' : Sys) (L : Nat → Lay) (D : Nat → List (Nat × Nat)) : SInv cf σ' L D →
      (∀ j, ∀ c ∈ σ.live j, a ≠ .free j c.1 → a ≠ .destroy j → c ∈ σ'.live j ∧ ∀ x, c.1 ≤ x → x < c.1 + c.2 → (∀ i v, a ≠ .write i x v) → σ'.mem x = σ.mem x) →
      (match a with
        | .create i => σ' = σ ∨ (σ.up i = false ∧ σ'.up = (fun j => if j = i then true else σ.up j) ∧ σ'.live = σ.live)
        | .alloc i bytes _ =>
            (σ.up i = false ∧ σ' = σ) ∨
            (∃ m, m ≠ 0 ∧ m ∉ (σ.live i).map Prod.fst ∧ σ'.live = (fun j => if j = i then (m, bytes) :: σ.live i else σ.live j) ∧ σ'.up = σ.up) ∨
            (σ'.live = σ.live ∧ σ'.up = σ.up ∧ σ'.mem = σ.mem ∧ σ'.bmp = σ.bmp ∧ 2 ^ 64 ≤ bytes + 65664)
        | .free i m => σ'.live = (fun j => if j = i then (σ.live i).filter (·.1 != m) else σ.live j) ∧ σ'.up = σ.up
        | .destroy i => σ'.live = (fun j => if j = i then [] else σ.live j) ∧ σ'.up = (fun j => if j = i then false else σ.up j)
        | _ => σ'.live = σ.live ∧ σ'.up = σ.up) →
      (σ'.lost = match a with | .destroy i => (fun p => σ.lost p || covers cf (directs σ.mem (σ.live i)) p) | _ => σ.lost) → SDid cf σ a (.ok σ')

/-- The event does not look at the pages of others. -/
theorem step_env {cf : Conf} {w : World} {e : Nat → Bool} {a : Act} (ha : (∃ n p, a = .alloc n p) ∨ (∃ m, a = .free m) ∨ (∃ x v, a = .write x v) ∨ ∃ x v, a = .links x v) :
    step cf { w with env := e } a = (step cf w a).bind fun w' => .ok { w' with env := e } := by
  rcases ha with ⟨n, p, rfl⟩ | ⟨m, rfl⟩ | ⟨x, v, rfl⟩ | ⟨x, v, rfl⟩
  · simp only [step]
    cases malloc cf w.heap n p <;> rfl
  · simp only [step]
    split
    · cases free cf w.heap m <;> rfl
    · rfl
  · simp only [step, Out.bind_ok]; split <;> rfl
  · simp only [step, Out.bind_ok]; split <;> rfl

end Arax.Dl
