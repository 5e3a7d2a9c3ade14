import Verif.Dl.World
import Verif.Dl.Bins3
import Verif.Dl.LinkHeap
/-!
# The allocator on its bins does what the allocator on a list does
-/
namespace Arax.Dl

/-- The heap without the list of binned chunks. -/
def bare (s : Heap) : Heap := { s with bins := [] }

/-- The links hold the binned chunks of `s`, for some function that gives their sizes. -/
def Linked (s : Heap) (l : Links) : Prop := ∃ sz, BinsOK ⟨sz, s.least, s.mst + 16⟩ l s.bins

/-- The context of `s`. -/
def Heap.ctx (s : Heap) : Ctx := ⟨fun p => csize (s.hd p), s.least, s.mst + 16⟩

/-- The binned chunks can be in bins. -/
structure Ready (s : Heap) : Prop where
  lpos : 0 < s.least
  nd : (s.bins.map Prod.fst).Nodup
  ok : ∀ x ∈ s.bins, Fits s.ctx x

theorem fit_congr {sz sz' : Nat → Nat} : ∀ {T : Trie} {b h : Nat}, T.Fit sz b h → (∀ q ∈ T.all, sz' q = sz q) → T.Fit sz' b h
  | .leaf, _, _, _, _ => trivial
  | .node p ring lo hi, b, h, hf, hs => by
    obtain ⟨h1, h2, h3, h4, h5⟩ := hf
    have hp : sz' p = sz p := hs p (by simp [Trie.all])
    refine ⟨fun q hq => ?_, by rw [hp]; exact h2, h3, fit_congr h4 fun q hq => hs q (by simp [Trie.all, hq]), fit_congr h5 fun q hq => hs q (by simp [Trie.all, hq])⟩
    rw [hp, hs q (by simp [Trie.all, hq])]; exact h1 q hq

/-- The sizes come from elsewhere, and `least_addr` is lower. -/
theorem bins_congr {c c' : Ctx} {l : Links} {bins : List (Nat × Nat)} (h : BinsOK c l bins) (hs : ∀ x ∈ bins, c'.sz x.1 = x.2) (h0 : 0 < c'.least) (hl : c'.least ≤ c.least) (hm : c'.ms = c.ms) : BinsOK c' l bins := by
  have hsb : ∀ i, c'.sbin i = c.sbin i := fun i => by unfold Ctx.sbin; rw [hm]
  have htb : ∀ i, c'.tbin i = c.tbin i := fun i => by unfold Ctx.tbin; rw [hm]
  refine ⟨h0, h.nd, fun x hx => ?_, fun i hi => ?_, fun i hi => ?_⟩
  · have f := h.ok x hx
    exact ⟨hs x hx, f.min, f.max, f.mul, Nat.le_trans hl f.least, fun i hi => by rw [hsb]; exact f.hdr i hi⟩
  · rw [hsb]; exact h.small i hi
  · obtain ⟨T, t1, t2, t3, t4, t5⟩ := h.tree i hi
    refine ⟨T, by rw [htb]; exact t1, fit_congr t2 fun q hq => ?_, t3, t4, t5⟩
    obtain ⟨n, m1, -⟩ := mem_trees.mp (t3.subset hq)
    rw [hs _ m1, (h.ok _ m1).sz]

theorem Linked.bins {s : Heap} {l : Links} (h : Linked s l) (hr : Ready s) : BinsOK s.ctx l s.bins := by
  obtain ⟨sz, h⟩ := h
  exact bins_congr h (fun x hx => (hr.ok x hx).sz) hr.lpos (Nat.le_refl _) rfl

/-- Everything but the bins and `least_addr` may change. -/
theorem Linked.of {s s' : Heap} {l : Links} (h : Linked s l) (hb : s'.bins = s.bins) (hm : s'.mst = s.mst) (h0 : 0 < s'.least) (hl : s'.least ≤ s.least) : Linked s' l := by
  obtain ⟨sz, h⟩ := h
  refine ⟨sz, ?_⟩
  rw [hb]
  exact bins_congr h (fun x hx => (h.ok x hx).sz) h0 hl (by show s'.mst + 16 = _; rw [hm])

theorem Linked.lpos {s : Heap} {l : Links} (h : Linked s l) : 0 < s.least := by
  obtain ⟨sz, h⟩ := h; exact h.least0

/-- The shared segment is at most 1 TiB. -/
def Small (cf : Conf) : Prop := 4096 * (64 * cf.groups) ≤ 2 ^ 40

theorem bins_size {cf : Conf} (hc : Small cf) {s : Heap} {L : Lay} {D : List (Nat × Nat)} {env : Nat → Bool} (hi : Inv cf s L D env) {y : Nat × Ck} (hy : y ∈ flat L) :
    y.2.n < 2 ^ 40 ∧ s.least ≤ y.1 := by
  obtain ⟨z, hz, hyz⟩ := List.mem_flatMap.mp hy
  have h1 := addrs_bounds hyz
  have h2 := (hi.ok z hz).fits
  have h3 := hi.low (z.1.base, z.1.size) (List.mem_append_left _ (List.mem_map_of_mem hz))
  have h4 := hi.top64
  rw [h4.2] at h3
  unfold Small at hc
  simp only at h3
  omega

theorem ready_of_inv {cf : Conf} (hc : Small cf) {s : Heap} {L : Lay} {D : List (Nat × Nat)} {env : Nat → Bool} (hi : Inv cf s L D env) : Ready s := by
  have hfree : ∀ x ∈ s.bins, (x.1, (⟨x.2, .free⟩ : Ck)) ∈ flat L := fun x hx => ((hi.bins x.1 x.2).mp hx).1
  refine ⟨hi.lpos, ?_, fun x hx => ?_⟩
  · have hnd := hi.bnd
    unfold List.Nodup at hnd ⊢
    rw [List.pairwise_map]
    refine hnd.imp_of_mem ?_
    intro x y hx hy hne e
    have h1 := hfree x hx
    have h2 := hfree y hy
    have p1 := addr_pos hi h1
    have p2 := addr_pos hi h2
    rcases flat_unique hi h1 h2 with h | h | h
    · simp only [Prod.mk.injEq, Ck.mk.injEq, and_true] at h
      exact hne (Prod.ext h.1 h.2)
    · simp only at h p1; omega
    · simp only at h p2; omega
  · have h1 := hfree x hx
    have h2 := bins_size hc hi h1
    obtain ⟨q, hk⟩ := flat_ok hi h1
    have hm := hk.mul
    simp only at h2 hm
    refine ⟨?_, hk.min (by simp), h2.1, by omega, h2.2, ?_⟩
    · show csize (s.mem (x.1 + 8)) = x.2
      rw [hk.head, csize_enc _ _ hk.mul]
    · intro i hi32 e
      have e : x.1 = s.mst + 16 + 72 + 16 * i := e
      have hp := addr_pos hi h1
      rcases flat_unique hi h1 hi.mst with h | h | h
      · simp only [Prod.mk.injEq, Ck.mk.injEq] at h; omega
      · simp only at h hp; omega
      · simp only [mstSize] at h; omega

/-! ## Bins of a heap -/

/-- Unlinking looks at no size. -/
theorem unlink_ctx (l : Links) (sz sz' : Nat → Nat) (least ms p n : Nat) : l.unlink ⟨sz, least, ms⟩ p n = l.unlink ⟨sz', least, ms⟩ p n := rfl

theorem unlinkLarge_ctx (l : Links) (sz sz' : Nat → Nat) (least ms p : Nat) : l.unlinkLarge ⟨sz, least, ms⟩ p = l.unlinkLarge ⟨sz', least, ms⟩ p := rfl

theorem unlink_sim {s : Heap} {l : Links} (h : Linked s l) {p n : Nat} (hin : (p, n) ∈ s.bins) :
    ∃ l', LHeap.unlink ⟨bare s, l⟩ p n = .ok ⟨bare s, l'⟩ ∧ Linked { s with bins := s.bins.erase (p, n) } l' := by
  obtain ⟨sz, h⟩ := h
  obtain ⟨as, bs, -, e1, e2⟩ := List.exists_erase_eq hin
  rw [e1] at h
  obtain ⟨l', h1, h2⟩ := unlink_bins h
  refine ⟨l', ?_, ⟨sz, by simp only [e2]; exact h2⟩⟩
  unfold LHeap.unlink
  have : l.unlink (LHeap.ctx ⟨bare s, l⟩) p n = .ok l' := by rw [← h1]; rfl
  rw [this]; rfl

theorem unlinkLarge_eq (b : LHeap) (p : Nat) {n : Nat} (h : 256 ≤ n) : b.unlinkLarge p = b.unlink p n := by
  unfold LHeap.unlinkLarge LHeap.unlink Links.unlink
  rw [if_neg (by omega)]

theorem insert_sim {s : Heap} {l : Links} (h : Linked s l) {p n : Nat} (hr : Ready (insertChunk s p n)) :
    ∃ l', LHeap.insert ⟨bare s, l⟩ p n = .ok ⟨bare s, l'⟩ ∧ Linked (insertChunk s p n) l' := by
  have hsub : ∀ x ∈ s.bins, x ∈ (insertChunk s p n).bins := fun x hx => List.mem_cons_of_mem _ hx
  have hnd : p ∉ s.bins.map Prod.fst := by
    have := hr.nd
    simp only [insertChunk, List.map_cons, List.nodup_cons] at this
    exact this.1
  obtain ⟨sz, h⟩ := h
  have hB : BinsOK (LHeap.ctx ⟨bare s, l⟩) l s.bins := bins_congr h (fun x hx => (hr.ok x (hsub x hx)).sz) hr.lpos (Nat.le_refl _) rfl
  obtain ⟨l', h1, h2⟩ := insert_bins hB hnd (hr.ok (p, n) List.mem_cons_self)
  refine ⟨l', ?_, ⟨_, h2⟩⟩
  unfold LHeap.insert
  rw [h1]; rfl

theorem insertSmall_eq (b : LHeap) (p : Nat) {n : Nat} (h : n < 256) : b.insertSmall p n = b.insert p n := by
  unfold LHeap.insertSmall LHeap.insert Links.insert
  rw [if_pos (by omega)]

theorem insertLarge_eq (b : LHeap) (p : Nat) {n : Nat} (h : 256 ≤ n) : b.insertLarge p n = b.insert p n := by
  unfold LHeap.insertLarge LHeap.insert Links.insert
  rw [if_neg (by omega)]

/-! ## Simulation -/

/-- Where the list does something, the links do it. -/
def Sim {α β : Type} (rel : α → β → Prop) (x : Out α) (y : Out β) : Prop :=
  match x with
  | .ok a => ∃ b, y = .ok b ∧ rel a b
  | .noMem => y = .noMem
  | .corrupt => True

theorem Sim.bind {α β γ δ : Type} {rel : α → β → Prop} {rel' : γ → δ → Prop} {x : Out α} {y : Out β} {f : α → Out γ} {g : β → Out δ} (h : Sim rel x y)
    (hf : ∀ a b, x = .ok a → rel a b → Sim rel' (f a) (g b)) : Sim rel' (x.bind f) (y.bind g) := by
  cases x with
  | ok a => obtain ⟨b, rfl, hr⟩ := h; exact hf a b rfl hr
  | noMem => cases h; rfl
  | corrupt => trivial

/-- The heaps are the same but for the bins, and the links hold the bins. -/
def Rel (s : Heap) (b : LHeap) : Prop := b.h = bare s ∧ Linked s b.l
/-- The same, with a result. -/
def RelP (r : Heap × Nat) (r' : LHeap × Nat) : Prop := Rel r.1 r'.1 ∧ r'.2 = r.2

theorem Sim.ok {α β : Type} {rel : α → β → Prop} {a : α} {b : β} (h : rel a b) : Sim rel (.ok a) (.ok b) := ⟨b, rfl, h⟩

theorem rel_mk {s : Heap} {l : Links} (h : Linked s l) : Rel s ⟨bare s, l⟩ := ⟨rfl, h⟩

theorem mmap_bare (cf : Conf) (s : Heap) (n : Nat) : mmap cf (bare s) n = (mmap cf s n).bind fun r => .ok (bare r.1, r.2) := by
  unfold mmap
  show (if n % 4096 ≠ 0 then Out.corrupt else match Bitmap.alloc s.bmp (n / 4096) with
    | (_, none) => .noMem
    | (b, some off) => .ok ({ bare s with bmp := b }, cf.start + off * 4096)) = _
  split
  · rfl
  · cases Bitmap.alloc s.bmp (n / 4096) with
    | mk b o => cases o <;> rfl

theorem munmap_bare (cf : Conf) (s : Heap) (a n : Nat) : munmap cf (bare s) a n = (munmap cf s a n).bind fun t => .ok (bare t) := by
  unfold munmap
  show (match Bitmap.free s.bmp ((a - cf.start) / 4096) (n / 4096) with
    | .ok b => Out.ok { bare s with bmp := b }
    | _ => .corrupt) = _
  cases Bitmap.free s.bmp ((a - cf.start) / 4096) (n / 4096) <;> rfl

theorem mmap_keeps {cf : Conf} {s t : Heap} {n a : Nat} (h : mmap cf s n = .ok (t, a)) : t.bins = s.bins ∧ t.mst = s.mst ∧ t.least = s.least := by
  unfold mmap at h
  split at h
  · cases h
  · split at h <;> cases h
    exact ⟨rfl, rfl, rfl⟩

theorem munmap_keeps {cf : Conf} {s t : Heap} {a n : Nat} (h : munmap cf s a n = .ok t) : t.bins = s.bins ∧ t.mst = s.mst ∧ t.least = s.least ∧ t.segs = s.segs := by
  unfold munmap at h
  split at h <;> cases h
  exact ⟨rfl, rfl, rfl, rfl⟩

end Arax.Dl
