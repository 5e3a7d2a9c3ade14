import Verif.Dl.Create
/-!
# Histories of one allocator

One `mspace` (the root allocator or a sub allocator, alloc.c:30-57, 163-170), its users, and everybody else who uses the bitmap and the memory.
-/
namespace Arax.Dl
open Arax.Bitmap (bit Bmp)

/-- The heap; the blocks its users hold, as (address, requested bytes); the pages others hold. (No code of its own: `live` and `env` are ghosts.) (The allocator of /repo/src/alloc/dlmalloc/malloc.c and its users.) -/
structure World where
  heap : Heap
  live : List (Nat × Nat)
  env : Nat → Bool

/-- What can happen. `alloc`: `arch_alloc_allocate` (alloc.c:62-81); `free`: `_arch_alloc_free` (alloc.c:83-100); `write`: a user writes a word of a block; `links`: a word of the allocator's own that the
model does not follow changes (the links of the bins, malloc.c:3659-3880, and the `malloc_state`, 2629-2653, and the records of the segments, 2518-2524); `envAlloc`, `envFree`, `envWrite`: others call
`arax_mmap` and `arax_ummap` (alloc.c:143-161) and write to their pages. -/
inductive Act where
  | alloc (bytes pick : Nat)
  | free (a : Nat)
  | write (x v : Nat)
  | links (x v : Nat)
  | envAlloc (n : Nat)
  | envFree (off n : Nat)
  | envWrite (x v : Nat)

/-- Byte `x` is in one of the blocks. (No code of its own.) -/
def holdsByte (live : List (Nat × Nat)) (x : Nat) : Bool := live.any fun c => c.1 ≤ x && x < c.1 + c.2

/-- The words of the allocator that the model does not follow. malloc.c:2231-2237, 2476-2486 (links), 2518-2524, 2629-2653. -/
def book (s : Heap) (x : Nat) : Bool :=
  ((s.dv, s.dvsize) :: s.bins).any (fun c => c.1 + 16 ≤ x && x < c.1 + c.2) || (s.mst + 16 ≤ x && x < s.mst + 952) || s.segs.any (fun g => g.link != s.hrec && g.link ≤ x && x < g.link + 32)

/-- One event. What users may not do (free what they do not hold, write elsewhere) they do not do: such an event changes nothing. (Dispatch only: the lines are at the functions called.) -/
def step (cf : Conf) (w : World) : Act → Out World
  | .alloc bytes pick => (malloc cf w.heap bytes pick).bind fun (s, a) => .ok { w with heap := s, live := if a = 0 then w.live else (a, bytes) :: w.live }
  | .free a =>
    if a = 0 ∨ w.live.any (·.1 == a) then (free cf w.heap a).bind fun s => .ok { w with heap := s, live := w.live.filter (·.1 != a) } else .ok w
  | .write x v => .ok (if holdsByte w.live x then { w with heap := { w.heap with mem := put w.heap.mem x v } } else w)
  | .links x v => .ok (if book w.heap x then { w with heap := { w.heap with mem := put w.heap.mem x v } } else w)
  | .envAlloc n =>
    match Bitmap.alloc w.heap.bmp n with
    | (b, some off) => .ok { w with heap := { w.heap with bmp := b }, env := fun i => w.env i || decide (off ≤ i ∧ i < off + n) }
    | (b, none) => .ok { w with heap := { w.heap with bmp := b } }
  | .envFree off n =>
    if 0 < n ∧ off + n ≤ 64 * w.heap.bmp.endc ∧ (List.range n).all (fun j => w.env (off + j)) then
      match Bitmap.free w.heap.bmp off n with
      | .ok b => .ok { w with heap := { w.heap with bmp := b }, env := fun i => w.env i && !decide (off ≤ i ∧ i < off + n) }
      | _ => .corrupt
    else .ok w
  | .envWrite x v => .ok (if cf.start ≤ x ∧ w.env ((x - cf.start) / 4096) then { w with heap := { w.heap with mem := put w.heap.mem x v } } else w)

/-- A history. (No code of its own.) -/
def run (cf : Conf) : List Act → World → Out World
  | [], w => .ok w
  | a :: t, w => (step cf w a).bind (run cf t)

/-- `create_mspace`, with all pages that are taken held by others. malloc.c:5549-5572; alloc.c:53, 167. -/
def boot (cf : Conf) (mem0 : Nat → Nat) (b : Bmp) : Out World := (create cf mem0 b).bind fun s => .ok ⟨s, [], bit b⟩

/-! ## The invariant of histories -/

/-- Two blocks are one, or apart. -/
theorem blk_apart {cf : Conf} {s : Heap} {L : Lay} {D : List (Nat × Nat)} {env : Nat → Bool} (hi : Inv cf s L D env) {p n q k : Nat} (hp : Blk L D p n) (hq : Blk L D q k) :
    (p = q ∧ n = k) ∨ p + n ≤ q ∨ q + k ≤ p := by
  have hcd : ∀ p n q k, (p, (⟨n, .used⟩ : Ck)) ∈ flat L → (q, k + 40) ∈ D → p + n ≤ q ∨ q + k ≤ p := by
    intro p n q k h1 h2
    obtain ⟨z, hz, hyz⟩ := List.mem_flatMap.mp h1
    have hb := addrs_bounds hyz
    have hf := (hi.ok z hz).fits
    have := dir_apart hi hz h2
    simp only [Apart] at this hb
    omega
  rcases hp with hp | hp <;> rcases hq with hq | hq
  · rcases flat_unique hi hp hq with h | h | h
    · simp only [Prod.mk.injEq, Ck.mk.injEq, and_true] at h; exact Or.inl h
    · exact Or.inr (Or.inl h)
    · exact Or.inr (Or.inr h)
  · exact Or.inr (hcd _ _ _ _ hp hq)
  · exact Or.inr (hcd _ _ _ _ hq hp).symm
  · have hdj := hi.disj
    unfold regs at hdj
    rw [List.pairwise_append] at hdj
    have key : ∀ l : List (Nat × Nat), l.Pairwise Apart → (p, n + 40) ∈ l → (q, k + 40) ∈ l → (p = q ∧ n = k) ∨ p + n ≤ q ∨ q + k ≤ p := by
      intro l
      induction l with
      | nil => intro _ h; cases h
      | cons a l ih =>
        intro hp h1 h2
        rw [List.pairwise_cons] at hp
        rcases List.mem_cons.mp h1 with e1 | h1
        · rcases List.mem_cons.mp h2 with e2 | h2
          · rw [← e2] at e1; simp only [Prod.mk.injEq] at e1; left; omega
          · have := hp.1 _ h2; rw [← e1] at this; simp only [Apart] at this; omega
        · rcases List.mem_cons.mp h2 with e2 | h2
          · have := hp.1 _ h1; rw [← e2] at this; simp only [Apart] at this; omega
          · exact ih hp.2 h1 h2
    exact key D hdj.2.1 hp hq

/-- Blocks are large enough to hold something. -/
theorem blk_pos {cf : Conf} {s : Heap} {L : Lay} {D : List (Nat × Nat)} {env : Nat → Bool} (hi : Inv cf s L D env) {p n : Nat} (hp : Blk L D p n) : 16 ≤ n ∧ p % 16 = 0 ∧ 0 < p := by
  rcases hp with hp | hp
  · have := addr_pos hi hp; simp only at this; omega
  · have h1 := hi.dir _ hp
    have h2 := hi.low _ (List.mem_append_right _ hp)
    have h3 := hi.start
    simp only at h1 h2; omega

/-- The invariant. (No code of its own.) -/
structure WInv (cf : Conf) (w : World) (L : Lay) (D : List (Nat × Nat)) : Prop where
  inv : Inv cf w.heap L D w.env
  back : ∀ p n, Blk L D p n → p = w.heap.mst ∨ ∃ b, (p + 16, b) ∈ w.live
  fwd : ∀ c ∈ w.live, ∃ p n, c.1 = p + 16 ∧ Blk L D p n ∧ c.2 + 8 ≤ n ∧ p ≠ w.heap.mst
  nodup : (w.live.map Prod.fst).Nodup

theorem WInv.poke {cf : Conf} {w : World} {L : Lay} {D : List (Nat × Nat)} (h : WInv cf w L D) {m : Nat → Nat} (hi : Inv cf { w.heap with mem := m } L D w.env) :
    WInv cf { w with heap := { w.heap with mem := m } } L D := ⟨hi, h.back, h.fwd, h.nodup⟩

theorem mst_blk {cf : Conf} {s : Heap} {L : Lay} {D : List (Nat × Nat)} {env : Nat → Bool} (hi : Inv cf s L D env) : Blk L D s.mst mstSize := Or.inl hi.mst

theorem chunkFor_ge (b : Nat) : b + 8 ≤ chunkFor b := by unfold chunkFor padReq; split <;> omega

/-- Words the users hold can be written. -/
theorem poke_live {cf : Conf} {w : World} {L : Lay} {D : List (Nat × Nat)} (h : WInv cf w L D) {x v : Nat} (hx : holdsByte w.live x = true) :
    Inv cf { w.heap with mem := put w.heap.mem x v } L D w.env := by
  unfold holdsByte at hx
  rw [List.any_eq_true] at hx
  obtain ⟨c, hc, hx⟩ := hx
  simp only [Bool.and_eq_true, decide_eq_true_eq] at hx
  obtain ⟨p, n, hcp, hb, hn, -⟩ := h.fwd c hc
  rcases hb with hb | hb
  · exact poke_chunk h.inv hb (by simp only; omega) (by simp only; omega) (by simp)
  · exact poke_direct h.inv hb (by simp only; omega) (by simp only; omega)

/-- The words of the allocator can change, and are in no block of the users. -/
theorem poke_book {cf : Conf} {w : World} {L : Lay} {D : List (Nat × Nat)} (h : WInv cf w L D) {x v : Nat} (hx : book w.heap x = true) :
    Inv cf { w.heap with mem := put w.heap.mem x v } L D w.env ∧ (∀ p n, Blk L D p n → p ≠ w.heap.mst → ¬ (p + 16 ≤ x ∧ x < p + n + 8)) ∧ ∀ y, cf.start ≤ y → w.env ((y - cf.start) / 4096) = true → y ≠ x := by
  have key : ∀ y : Nat × Ck, y ∈ flat L → y.1 + 16 ≤ x → x < y.1 + y.2.n + 8 → (y.2.k = .free → x < y.1 + y.2.n) → (y.2.k = .used → y.1 = w.heap.mst) →
      Inv cf { w.heap with mem := put w.heap.mem x v } L D w.env ∧ (∀ p n, Blk L D p n → p ≠ w.heap.mst → ¬ (p + 16 ≤ x ∧ x < p + n + 8)) ∧ ∀ y, cf.start ≤ y → w.env ((y - cf.start) / 4096) = true → y ≠ x := by
    intro y hy h1 h2 h3 h4
    refine ⟨poke_chunk h.inv hy h1 h2 h3, fun p n hb hne hin => ?_, fun y' h5 h6 e => ?_⟩
    rotate_left
    · obtain ⟨z, hz, hyz⟩ := List.mem_flatMap.mp hy
      have hbd := addrs_bounds hyz
      have hf := (h.inv.ok z hz).fits
      have := seg_not_env h.inv hz h5 h6
      omega
    rcases hb with hb | hb
    · rcases flat_unique h.inv hb hy with e | e | e
      · rw [← e] at h4; exact hne (h4 rfl)
      · simp only at e; omega
      · simp only at e; omega
    · obtain ⟨z, hz, hyz⟩ := List.mem_flatMap.mp hy
      have hbd := addrs_bounds hyz
      have hf := (h.inv.ok z hz).fits
      have := dir_apart h.inv hz hb
      simp only [Apart] at this
      omega
  unfold book at hx
  simp only [Bool.or_eq_true, List.any_eq_true, Bool.and_eq_true, decide_eq_true_eq, bne_iff_ne, ne_eq] at hx
  rcases hx with (⟨c, hc, hx⟩ | hx) | ⟨g, hg, ⟨hgl, hx1⟩, hx2⟩
  · have hf : IsFree w.heap c.1 c.2 := by
      rcases List.mem_cons.mp hc with e | hc
      · refine Or.inr ⟨by rw [e], by rw [e], fun e0 => ?_⟩
        rcases h.inv.dv with h0 | h0
        · rw [e] at hx; simp only at hx; omega
        · have := addr_pos h.inv h0; simp only at this; omega
      · exact Or.inl hc
    have hm := (isFree_iff h.inv _ _).mp hf
    exact key _ hm (by simp only; omega) (by simp only; omega) (fun _ => by simp only; omega) (by simp)
  · exact key _ h.inv.mst (by simp only; omega) (by simp only [mstSize]; omega) (by simp) (fun _ => rfl)
  · rw [h.inv.segs] at hg
    obtain ⟨z, hz, rfl⟩ := List.mem_map.mp hg
    have hk := h.inv.ok z hz
    obtain ⟨bd, hb, -⟩ := hk.body
    have hl := hk.lim
    rw [if_neg hgl] at hb hl
    have hm : (z.1.base + sz bd, (⟨48, .link⟩ : Ck)) ∈ flat L := by
      refine List.mem_flatMap.mpr ⟨z, hz, ?_⟩
      rw [hb, addrs_append]; simp
    rw [hb] at hl
    simp only [sz_append, sz_cons, sz_nil] at hl
    exact key _ hm (by simp only; omega) (by simp only; omega) (by simp) (by simp)

/-- Words in pages of others are in no region. -/
theorem env_out {cf : Conf} {s : Heap} {L : Lay} {D : List (Nat × Nat)} {env : Nat → Bool} (hi : Inv cf s L D env) {x : Nat} (h1 : cf.start ≤ x) (h2 : env ((x - cf.start) / 4096) = true) :
    ∀ r ∈ regs L D, ¬ (r.1 ≤ x ∧ x < r.1 + r.2) := by
  intro r hr hx
  have hal := hi.regs.al r hr
  have hl := hi.low r hr
  have hst := hi.start
  have := (hi.pages r hr ((x - cf.start) / 4096) (by unfold InReg; omega)).2
  rw [h2] at this; cases this

/-- Words of the users are in no page of others. -/
theorem live_not_env {cf : Conf} {w : World} {L : Lay} {D : List (Nat × Nat)} (h : WInv cf w L D) {x : Nat} (hx : holdsByte w.live x = true) {y : Nat} (h1 : cf.start ≤ y)
    (h2 : w.env ((y - cf.start) / 4096) = true) : y ≠ x := by
  intro e
  unfold holdsByte at hx
  rw [List.any_eq_true] at hx
  obtain ⟨c, hc, hx⟩ := hx
  simp only [Bool.and_eq_true, decide_eq_true_eq] at hx
  obtain ⟨p, n, hcp, hb, hn, -⟩ := h.fwd c hc
  obtain ⟨r, hr, h3, h4⟩ := blk_reg h.inv hb
  exact env_out h.inv h1 h2 r hr (by omega)

/-- What one event does. (No code of its own.) -/
inductive Did (cf : Conf) (w : World) (a : Act) : Out World → Prop where
  | full (bytes pick k : Nat) : a = .alloc bytes pick → (Bitmap.alloc w.heap.bmp k).2 = none → bytes < 4096 * k → 4096 * k ≤ bytes + 65664 → Did cf w a .noMem
  | next (w' : World) (L : Lay) (D : List (Nat × Nat)) : WInv cf w' L D → w'.heap.mst = w.heap.mst →
      (∀ c ∈ w.live, (∀ b, a = .free b → b ≠ c.1) → c ∈ w'.live ∧ ∀ x, c.1 ≤ x → x < c.1 + c.2 → (∀ v, a ≠ .write x v) → w'.heap.mem x = w.heap.mem x) →
      (∀ x, cf.start ≤ x → w.env ((x - cf.start) / 4096) = true → (∀ v, a ≠ .envWrite x v) → w'.heap.mem x = w.heap.mem x) →
      (match a with
        | .envAlloc _ => True
        | .envFree _ _ => True
        | _ => w'.env = w.env) →
      (match a with
        | .alloc bytes _ => (∃ m, m ≠ 0 ∧ m ∉ w.live.map Prod.fst ∧ w'.live = (m, bytes) :: w.live) ∨ (w' = w ∧ 2 ^ 64 ≤ bytes + 65664)
        | .free m => w'.live = w.live.filter (·.1 != m)
        | _ => w'.live = w.live) → Did cf w a (.ok w')

theorem step_did {cf : Conf} {w : World} {L : Lay} {D : List (Nat × Nat)} (h : WInv cf w L D) (a : Act) : Did cf w a (step cf w a) := by
  have hself : ∀ a : Act, (match a with | .alloc _ _ => False | .free m => w.live.filter (·.1 != m) = w.live | _ => True) → Did cf w a (.ok w) := by
    intro a ha
    refine Did.next w L D h rfl (fun c hc _ => ⟨hc, fun _ _ _ _ => rfl⟩) (fun _ _ _ _ => rfl) (by cases a <;> trivial) ?_
    cases a <;> simp only at ha ⊢
    · exact ha.symm
  cases a with
  | alloc bytes pick =>
    obtain ⟨m1, m2⟩ := malloc_ok h.inv bytes pick
    simp only [step]
    by_cases hb : bytes < maxRequest
    · rcases m1 hb with ⟨e, k, h1, h2, h3⟩ | ⟨e, hw⟩ | ⟨s', m, e, hm, hA⟩
      · rw [e]
        have := chunkFor_ge bytes
        have h4 : chunkFor bytes ≤ bytes + 32 := by unfold chunkFor padReq; split <;> omega
        exact Did.full bytes pick k rfl h1 (by omega) (by omega)
      · rw [e]
        simp only [Out.bind_ok, if_true]
        have h4 : chunkFor bytes ≤ bytes + 32 := by unfold chunkFor padReq; split <;> omega
        refine Did.next w L D h rfl (fun c hc _ => ⟨hc, fun _ _ _ _ => rfl⟩) (fun _ _ _ _ => rfl) rfl (Or.inr ⟨rfl, ?_⟩)
        unfold W at hw; omega
      · rw [e]
        simp only [Out.bind_ok, if_neg hm]
        obtain ⟨⟨L', D', p, n, hi', rfl, hn, hbl, hnb, hkeep⟩, hmst, hfr⟩ := hA
        have hpn : Blk L' D' p n := (hbl p n).mpr (Or.inr ⟨rfl, rfl⟩)
        have hpm : p ≠ w.heap.mst := by
          intro e
          have hb' := mst_blk hi'
          rw [hmst, ← e] at hb'
          rcases blk_apart hi' hpn hb' with h1 | h1 | h1
          · apply hnb; rw [h1.2, e]; exact mst_blk h.inv
          · have := blk_pos hi' hpn; omega
          · have := blk_pos hi' hpn; unfold mstSize at h1; omega
        have hnl : p + 16 ∉ w.live.map Prod.fst := by
          intro hin
          obtain ⟨c, hc, e⟩ := List.mem_map.mp hin
          obtain ⟨q, k, e2, hbq, -, -⟩ := h.fwd c hc
          have : q = p := by omega
          subst this
          have hq' := (hbl q k).mpr (Or.inl hbq)
          have := blk_pos hi' hq'
          have := blk_pos hi' hpn
          rcases blk_apart hi' hpn hq' with h1 | h1 | h1
          · apply hnb; rw [h1.2]; exact hbq
          · omega
          · omega
        refine Did.next _ L' D' ⟨hi', ?_, ?_, ?_⟩ hmst ?_ (fun x h1 h2 _ => hfr x h1 h2) rfl (Or.inl ⟨p + 16, hm, hnl, rfl⟩)
        · intro q k hq
          rcases (hbl q k).mp hq with hq | ⟨rfl, rfl⟩
          · rcases h.back q k hq with h1 | ⟨b, h1⟩
            · left; simp only; rw [hmst]; exact h1
            · exact Or.inr ⟨b, List.mem_cons_of_mem _ h1⟩
          · exact Or.inr ⟨bytes, List.mem_cons_self⟩
        · intro c hc
          rcases List.mem_cons.mp hc with rfl | hc
          · have := chunkFor_ge bytes
            exact ⟨p, n, rfl, hpn, by simp only; omega, by simp only; rw [hmst]; exact hpm⟩
          · obtain ⟨q, k, e2, hbq, h3, h4⟩ := h.fwd c hc
            exact ⟨q, k, e2, (hbl q k).mpr (Or.inl hbq), h3, by simp only; rw [hmst]; exact h4⟩
        · simp only [List.map_cons]
          exact List.nodup_cons.mpr ⟨hnl, h.nodup⟩
        · intro c hc _
          refine ⟨List.mem_cons_of_mem _ hc, fun x hx hx' _ => ?_⟩
          obtain ⟨q, k, e2, hbq, h3, h4⟩ := h.fwd c hc
          exact hkeep q k hbq ((hbl q k).mpr (Or.inl hbq)) x (by omega) (by omega)
    · rw [m2 (by omega)]
      simp only [Out.bind_ok, if_true]
      refine Did.next w L D h rfl (fun c hc _ => ⟨hc, fun _ _ _ _ => rfl⟩) (fun _ _ _ _ => rfl) rfl (Or.inr ⟨rfl, ?_⟩)
      unfold maxRequest at hb; omega
  | free m =>
    simp only [step]
    by_cases hm0 : m = 0
    · subst hm0
      rw [if_pos (Or.inl rfl)]
      have e : free cf w.heap 0 = .ok w.heap := by unfold free; rw [if_pos rfl]
      rw [e]
      simp only [Out.bind_ok]
      have hf : w.live.filter (·.1 != 0) = w.live := by
        rw [List.filter_eq_self]
        intro c hc
        obtain ⟨p, n, e, -⟩ := h.fwd c hc
        simp; omega
      rw [hf]
      exact hself _ hf
    · by_cases hl : w.live.any (·.1 == m) = true
      · rw [if_pos (Or.inr hl)]
        rw [List.any_eq_true] at hl
        obtain ⟨c, hc, hcm⟩ := hl
        simp only [beq_iff_eq] at hcm
        obtain ⟨p, n, e, hb, hn, hne⟩ := h.fwd c hc
        obtain ⟨s', hs', hF⟩ := free_ok h.inv hb hne
        rw [← hcm, e, hs']
        simp only [Out.bind_ok]
        obtain ⟨⟨L', D', hi', hbl, hkeep⟩, hmst, hfr⟩ := hF
        refine Did.next _ L' D' ⟨hi', ?_, ?_, ?_⟩ hmst ?_ (fun x h1 h2 _ => hfr x h1 h2) rfl rfl
        · intro q k hq
          obtain ⟨hq, hqp⟩ := (hbl q k).mp hq
          rcases h.back q k hq with h1 | ⟨b, h1⟩
          · left; simp only; rw [hmst]; exact h1
          · refine Or.inr ⟨b, ?_⟩
            simp only [List.mem_filter, bne_iff_ne, ne_eq]
            exact ⟨h1, by omega⟩
        · intro c' hc'
          simp only [List.mem_filter, bne_iff_ne, ne_eq] at hc'
          obtain ⟨q, k, e2, hbq, h3, h4⟩ := h.fwd c' hc'.1
          exact ⟨q, k, e2, (hbl q k).mpr ⟨hbq, by omega⟩, h3, by simp only; rw [hmst]; exact h4⟩
        · exact h.nodup.sublist (List.filter_sublist.map _)
        · intro c' hc' hne'
          have := hne' _ rfl
          refine ⟨by simp only [List.mem_filter, bne_iff_ne, ne_eq]; exact ⟨hc', fun e => this e.symm⟩, fun x hx hx' _ => ?_⟩
          obtain ⟨q, k, e2, hbq, h3, h4⟩ := h.fwd c' hc'
          exact hkeep q k hbq ((hbl q k).mpr ⟨hbq, by omega⟩) x (by omega) (by omega)
      · rw [if_neg (by simp only [hm0, hl]; simp)]
        apply hself
        simp only
        rw [List.filter_eq_self]
        intro c hc
        simp only [bne_iff_ne, ne_eq]
        intro e
        exact hl (List.any_eq_true.mpr ⟨c, hc, by simp [e]⟩)
  | write x v =>
    simp only [step]
    split
    · rename_i hx
      refine Did.next _ L D (h.poke (poke_live h hx)) rfl (fun c hc _ => ⟨hc, fun y hy hy' hne => ?_⟩) (fun y h1 h2 _ => ?_) rfl rfl
      · exact put_other _ _ (fun e => hne v (by rw [e]))
      · exact put_other _ _ (fun e => live_not_env h hx h1 h2 e)
    · exact hself _ trivial
  | links x v =>
    simp only [step]
    split
    · rename_i hx
      obtain ⟨hi', hno, hse⟩ := poke_book (v := v) h hx
      refine Did.next _ L D (h.poke hi') rfl (fun c hc _ => ⟨hc, fun y hy hy' _ => ?_⟩) (fun y h1 h2 _ => ?_) rfl rfl
      · obtain ⟨p, n, e, hb, hn, hne⟩ := h.fwd c hc
        exact put_other _ _ (fun e => hno p n hb hne (by omega))
      · exact put_other _ _ (fun e => hse y h1 h2 e)
    · exact hself _ trivial
  | envAlloc n =>
    simp only [step]
    split
    · rename_i b off ha
      exact Did.next _ L D ⟨inv_envAlloc h.inv ha, h.back, h.fwd, h.nodup⟩ rfl (fun c hc _ => ⟨hc, fun _ _ _ _ => rfl⟩) (fun _ _ _ _ => rfl) trivial rfl
    · rename_i b ha
      exact Did.next _ L D ⟨inv_envFail h.inv ha, h.back, h.fwd, h.nodup⟩ rfl (fun c hc _ => ⟨hc, fun _ _ _ _ => rfl⟩) (fun _ _ _ _ => rfl) trivial rfl
  | envFree off n =>
    simp only [step]
    split
    · rename_i hc
      obtain ⟨h1, h2, h3⟩ := hc
      obtain ⟨b', e, hi'⟩ := inv_envFree h.inv h1 h2 (by
        intro i hi1 hi2
        rw [List.all_eq_true] at h3
        have := h3 (i - off) (List.mem_range.mpr (by omega))
        rwa [show off + (i - off) = i by omega] at this)
      rw [e]
      exact Did.next _ L D ⟨hi', h.back, h.fwd, h.nodup⟩ rfl (fun c hc _ => ⟨hc, fun _ _ _ _ => rfl⟩) (fun _ _ _ _ => rfl) trivial rfl
    · exact hself _ trivial
  | envWrite x v =>
    simp only [step]
    split
    · rename_i hx
      have ho := env_out h.inv hx.1 hx.2
      refine Did.next _ L D (h.poke (poke_env h.inv ho)) rfl (fun c hc _ => ⟨hc, fun y hy hy' _ => ?_⟩) (fun y _ _ hne => put_other _ _ (fun e => hne v (by rw [e]))) rfl rfl
      obtain ⟨p, n, e, hb, hn, hne⟩ := h.fwd c hc
      obtain ⟨r, hr, h1, h2⟩ := blk_reg h.inv hb
      exact put_other _ _ (fun e => ho r hr (by omega))
    · exact hself _ trivial

theorem run_inv {cf : Conf} : ∀ (as : List Act) {w w' : World} {L : Lay} {D : List (Nat × Nat)}, WInv cf w L D → run cf as w = .ok w' → ∃ L' D', WInv cf w' L' D'
  | [], w, w', L, D, h, e => by cases e; exact ⟨L, D, h⟩
  | a :: as, w, w', L, D, h, e => by
    unfold run at e
    have hd := step_did h a
    revert hd e
    generalize step cf w a = r
    intro e hd
    cases hd with
    | full => cases e
    | next w1 L1 D1 h1 _ _ _ _ _ => exact run_inv as h1 e

theorem run_not_corrupt {cf : Conf} : ∀ (as : List Act) {w : World} {L : Lay} {D : List (Nat × Nat)}, WInv cf w L D → run cf as w ≠ .corrupt
  | [], w, L, D, h => by unfold run; simp
  | a :: as, w, L, D, h => by
    unfold run
    have hd := step_did h a
    revert hd
    generalize step cf w a = r
    intro hd
    cases hd with
    | full => simp
    | next w1 L1 D1 h1 _ _ _ _ _ => exact run_not_corrupt as h1

theorem boot_inv {cf : Conf} {b : Bmp} (mem0 : Nat → Nat) (h : Setting cf b) : (boot cf mem0 b = .noMem ∧ (Bitmap.alloc b 16).2 = none) ∨ ∃ w L, boot cf mem0 b = .ok w ∧ WInv cf w L [] ∧ w.live = [] := by
  unfold boot
  rcases create_ok mem0 h with ⟨e, h1⟩ | ⟨s, L, e, hi, hb, -⟩
  · left; rw [e]; exact ⟨rfl, h1⟩
  · right; rw [e]
    exact ⟨_, L, rfl, ⟨hi, fun p n hp => Or.inl ((hb p n).mp hp).1, by simp, by simp⟩, rfl⟩

end Arax.Dl
