import Verif.Dl.Pages
/-!
# Looking at an allocator: `arch_alloc_stats` and `arch_alloc_inspect`

alloc.c:109-141 over malloc.c:3569-3609 and 5242-5278. Both walk the chunks of every segment by their boundary tags.
-/
namespace Arax.Dl
open Arax.Bitmap (bit Bmp)

/-- The chunks `internal_mallinfo` counts in segment `g` from `q` on, as (address, head), in at most `n` steps (`none`: it is still walking). malloc.c:3582-3593. -/
def countChunks (m : Nat → Nat) (g : Seg) (top : Nat) : Nat → Nat → Option (List (Nat × Nat))
  | 0, _ => none
  | n + 1, q =>
    if g.holds q && q != top && m (q + 8) != 11 then (countChunks m g top n (q + csize (m (q + 8)))).map ((q, m (q + 8)) :: ·)
    else some []

/-- The outer loop of `internal_mallinfo`. malloc.c:3580-3595. -/
def countSegs (m : Nat → Nat) (top n : Nat) : List Seg → Option (List (Nat × Nat))
  | [] => some []
  | g :: t => (countChunks m g top n (g.base + alignOff (g.base + 16))).bind fun l => (countSegs m top n t).map (l ++ ·)

/-- What `arch_alloc_stats` reports (alloc.h:83-93), without `ALLOC_STATS`. -/
structure Stats where
  total : Nat
  used : Nat
  deriving DecidableEq

/-- `arch_alloc_stats` with `internal_mallinfo`, in at most `n` steps per segment. The fields of `struct mallinfo` are converted to `int`, and back to `unsigned int`: what remains is modulo 2^32.
alloc.c:109-122, malloc.c:3569-3609. -/
def Sys.stats (σ : Sys) (i n : Nat) : Option Stats :=
  let s := σ.heap i
  (countSegs σ.mem s.top n s.segs).map fun l =>
    let mfree := s.topsize + topFoot + ((l.filter (fun c => !isInuse c.2)).map (fun c => csize c.2)).sum
    let sum := s.topsize + topFoot + (l.map (fun c => csize c.2)).sum
    ⟨sum % W % 2 ^ 32, (W + s.foot - mfree % W) % W % 2 ^ 32⟩

/-- The chunks `internal_inspect_all` visits in segment `g` from `q` on. malloc.c:5253-5274. -/
def visitChunks (m : Nat → Nat) (g : Seg) (top : Nat) : Nat → Nat → Option (List (Nat × Nat))
  | 0, _ => none
  | n + 1, q =>
    if g.holds q && m (q + 8) != 11 then
      if q = top then some [(q, m (q + 8))] else (visitChunks m g top n (q + csize (m (q + 8)))).map ((q, m (q + 8)) :: ·)
    else some []

/-- The outer loop of `internal_inspect_all`. malloc.c:5251-5276. -/
def visitSegs (m : Nat → Nat) (top n : Nat) : List Seg → Option (List (Nat × Nat))
  | [] => some []
  | g :: t => (visitChunks m g top n (g.base + alignOff (g.base + 16))).bind fun l => (visitSegs m top n t).map (l ++ ·)

/-- One call of the inspector: `start`, `end`, `used_bytes`. malloc.c:5245-5248. -/
structure Report where
  start : Nat
  fin : Nat
  used : Nat
  deriving DecidableEq

/-- What is reported for the chunk at `q` with head `h`; nothing if all of it is bookkeeping. `sizeof(struct malloc_chunk)` is 32, `sizeof(struct malloc_tree_chunk)` is 64. malloc.c:5256-5270, 2882. -/
def reportOf (c : Nat × Nat) : Option Report :=
  let sz := csize c.2
  let used := if isInuse c.2 then sz - 8 else 0
  let start := if isInuse c.2 then c.1 + 16 else if sz < 256 then c.1 + 32 else c.1 + 64
  if start < c.1 + sz then some ⟨start, c.1 + sz, used⟩ else none

/-- `arch_alloc_inspect`, in at most `n` steps per segment. alloc.c:135-141. -/
def Sys.inspect (σ : Sys) (i n : Nat) : Option (List Report) := (visitSegs σ.mem (σ.heap i).top n (σ.heap i).segs).map fun l => l.filterMap reportOf

/-! ## The walks -/

theorem head_ne {m : Nat → Nat} {a : Nat} {p : Bool} {c : Ck} (h : CkOK m a p c) : m (a + 8) ≠ 11 := by
  have h1 := h.head
  have h2 := h.mul
  have h3 := h.pos
  rw [h1]; unfold enc; split <;> split <;> omega

/-- Address and head of a chunk. (No code of its own.) -/
def seen (m : Nat → Nat) (x : Nat × Ck) : Nat × Nat := (x.1, m (x.1 + 8))

theorem count_chain {m : Nat → Nat} {g : Seg} {top : Nat} : ∀ {cs : List Ck} {a : Nat} {p : Bool} {n : Nat}, Chain m a p cs → g.base ≤ a → a + sz cs ≤ g.base + g.size → (∀ x ∈ addrs a cs, x.1 ≠ top) →
    (a + sz cs = top ∨ m (a + sz cs + 8) = 11) → cs.length < n → countChunks m g top n a = some ((addrs a cs).map (seen m))
  | [], a, p, n, _, _, _, _, hs, hn => by
    obtain ⟨k, rfl⟩ : ∃ k, n = k + 1 := ⟨n - 1, by simp at hn; omega⟩
    simp only [sz_nil, Nat.add_zero] at hs
    unfold countChunks
    rw [if_neg]
    · rfl
    · rcases hs with h | h <;> simp [h]
  | c :: cs, a, p, n, hc, hb, he, ht, hs, hn => by
    obtain ⟨k, rfl⟩ : ∃ k, n = k + 1 := ⟨n - 1, by simp at hn; omega⟩
    have h1 := head_ne hc.1
    have h2 : a ≠ top := ht (a, c) (by simp)
    have hp := hc.1.pos
    simp only [sz_cons] at he hs
    have h3 : csize (m (a + 8)) = c.n := by rw [hc.1.head]; exact csize_enc c p hc.1.mul
    have ih := count_chain (g := g) (top := top) (n := k) hc.2 (by omega) (by omega) (fun x hx => ht x (by simp [hx])) (by rw [Nat.add_assoc a c.n]; exact hs) (by simp at hn; omega)
    unfold countChunks
    rw [if_pos (by simp only [Seg.holds, Bool.and_eq_true, bne_iff_ne, ne_eq, decide_eq_true_eq]; exact ⟨⟨⟨hb, by omega⟩, h2⟩, h1⟩), h3, ih]
    rfl

theorem visit_chain {m : Nat → Nat} {g : Seg} {top : Nat} : ∀ {cs : List Ck} {a : Nat} {p : Bool} {n : Nat}, Chain m a p cs → g.base ≤ a → a + sz cs ≤ g.base + g.size →
    (∀ x ∈ addrs a cs, x.1 = top → x.1 + x.2.n = a + sz cs) → ((∃ x ∈ addrs a cs, x.1 = top) ∨ m (a + sz cs + 8) = 11) → cs.length < n → visitChunks m g top n a = some ((addrs a cs).map (seen m))
  | [], a, p, n, _, _, _, _, hs, hn => by
    obtain ⟨k, rfl⟩ : ∃ k, n = k + 1 := ⟨n - 1, by simp at hn; omega⟩
    simp only [sz_nil, Nat.add_zero] at hs
    unfold visitChunks
    rw [if_neg]
    · rfl
    · rcases hs with ⟨x, h, _⟩ | h
      · cases h
      · simp [h]
  | c :: cs, a, p, n, hc, hb, he, ht, hs, hn => by
    obtain ⟨k, rfl⟩ : ∃ k, n = k + 1 := ⟨n - 1, by simp at hn; omega⟩
    have h1 := head_ne hc.1
    have hp := hc.1.pos
    simp only [sz_cons] at he hs ht
    have h3 : csize (m (a + 8)) = c.n := by rw [hc.1.head]; exact csize_enc c p hc.1.mul
    unfold visitChunks
    rw [if_pos (by simp only [Seg.holds, Bool.and_eq_true, bne_iff_ne, ne_eq, decide_eq_true_eq]; exact ⟨⟨hb, by omega⟩, h1⟩)]
    by_cases e : a = top
    · rw [if_pos e]
      have h4 := ht (a, c) (by simp) e
      simp only at h4
      have h5 : cs = [] := by
        cases cs with
        | nil => rfl
        | cons d ds => have := hc.2.1.pos; simp only [sz_cons] at h4; omega
      subst h5; rfl
    · rw [if_neg e, h3]
      have ih := visit_chain (g := g) (top := top) (n := k) hc.2 (by omega) (by omega) (fun x hx h => by rw [Nat.add_assoc a c.n]; exact ht x (by simp [hx]) h)
        (by
          rw [Nat.add_assoc a c.n]
          rcases hs with ⟨x, hx, h⟩ | h
          · rw [addrs_cons, List.mem_cons] at hx
            rcases hx with rfl | hx
            · exact absurd h e
            · exact Or.inl ⟨x, hx, h⟩
          · exact Or.inr h) (by simp at hn; omega)
      rw [ih]; rfl

theorem chain_len {m : Nat → Nat} : ∀ {cs : List Ck} {a : Nat} {p : Bool}, Chain m a p cs → cs.length ≤ sz cs
  | [], _, _, _ => Nat.le_refl _
  | c :: cs, a, p, h => by have := chain_len h.2; have := h.1.pos; simp; omega

/-- Not the top chunk. (No code of its own.) -/
def notTop (x : Nat × Ck) : Bool := decide (x.2.k ≠ .top)

theorem addrs_kind {cs : List Ck} {a : Nat} {x : Nat × Ck} (h : x ∈ addrs a cs) : x.2 ∈ cs := by
  obtain ⟨xs, ys, rfl, -⟩ := addrs_split h
  simp

/-- The top chunk is the last of the first segment. -/
theorem top_at {cf : Conf} {s : Heap} {L : Lay} {D : List (Nat × Nat)} {env : Nat → Bool} (hi : Inv cf s L D env) {y : Nat × Ck} (hy : y ∈ flat L) : y.1 = s.top ↔ y.2.k = .top := by
  obtain ⟨x, T, rfl, hl, hT⟩ := hi.hd
  have hx := hi.ok x (by simp)
  have hlim := hx.lim
  obtain ⟨body, hb, hk⟩ := hx.body
  rw [if_pos hl] at hb hlim
  have htop : (s.top, (⟨s.topsize, .top⟩ : Ck)) ∈ flat (x :: T) := by
    rw [flat_cons, List.mem_append]; left
    rw [hb, addrs_append]
    have : sz x.2 = sz body + s.topsize := by rw [hb]; simp
    simp; omega
  constructor
  · intro e
    have := addr_pos hi hy
    have := addr_pos hi htop
    rcases flat_unique hi hy htop with h | h | h
    · rw [h]
    · simp only at *; omega
    · simp only at *; omega
  · intro e
    rw [flat_cons, List.mem_append] at hy
    rcases hy with hy | hy
    · rw [hb, addrs_append, List.mem_append] at hy
      rcases hy with hy | hy
      · have := hk _ (addrs_kind hy); rw [e] at this; simp at this
      · have : sz x.2 = sz body + s.topsize := by rw [hb]; simp
        simp at hy; rw [hy]; simp; omega
    · obtain ⟨z, hz, hyz⟩ := List.mem_flatMap.mp hy
      obtain ⟨b, h1, h2⟩ := (hi.ok z (by simp [hz])).body
      rw [if_neg (hT z hz)] at h1
      have := addrs_kind hyz
      rw [h1, List.mem_append] at this
      rcases this with h | h
      · have := h2 _ h; rw [e] at this; simp at this
      · simp only [List.mem_singleton] at h; rw [h] at e; cases e

/-- Counting the chunks of one segment. -/
theorem count_seg {cf : Conf} {s : Heap} {L : Lay} {D : List (Nat × Nat)} {env : Nat → Bool} (hi : Inv cf s L D env) {z : Seg × List Ck} (hz : z ∈ L) {n : Nat} (hn : z.1.size < n) :
    countChunks s.mem z.1 s.top n (z.1.base + alignOff (z.1.base + 16)) = some (((addrs z.1.base z.2).filter notTop).map (seen s.mem)) := by
  have hk := hi.ok z hz
  have hf := hk.fits
  have hb := hk.base
  have hlen := chain_len hk.chain
  have hin : ∀ y ∈ addrs z.1.base z.2, y ∈ flat L := fun y hy => List.mem_flatMap.mpr ⟨z, hz, hy⟩
  rw [alignOff_zero (by omega), Nat.add_zero]
  have hlim := hk.lim
  obtain ⟨body, hbd, hkind⟩ := hk.body
  by_cases e : z.1.link = s.hrec
  · rw [if_pos e] at hbd hlim
    have hch := hk.chain
    have hsz : sz z.2 = sz body + s.topsize := by rw [hbd]; simp
    have hl : z.2.length = body.length + 1 := by rw [hbd]; simp
    rw [hbd, chain_append] at hch
    have h0 : (addrs z.1.base z.2).filter notTop = addrs z.1.base body := by
      rw [hbd, addrs_append, List.filter_append, List.filter_eq_self.mpr]
      · simp [notTop]
      · intro x hx; have := hkind _ (addrs_kind hx); simp only [notTop]; rcases this with h | h <;> simp [h]
    rw [h0]
    refine count_chain hch.1 (Nat.le_refl _) (by omega) ?_ (Or.inl (by omega)) (by omega)
    intro x hx h
    have h1 := (top_at hi (hin x (by rw [hbd, addrs_append]; simp [hx]))).mp h
    have := hkind _ (addrs_kind hx)
    rw [h1] at this; simp at this
  · rw [if_neg e] at hbd hlim
    have hnt : ∀ x ∈ addrs z.1.base z.2, x.2.k ≠ .top := by
      intro x hx h1
      have := addrs_kind hx
      rw [hbd, List.mem_append] at this
      rcases this with h | h
      · have := hkind _ h; rw [h1] at this; simp at this
      · simp only [List.mem_singleton] at h; rw [h] at h1; cases h1
    have h0 : (addrs z.1.base z.2).filter notTop = addrs z.1.base z.2 := List.filter_eq_self.mpr fun x hx => by simp only [notTop]; simp [hnt x hx]
    rw [h0]
    refine count_chain hk.chain (Nat.le_refl _) (by omega) ?_ (Or.inr ?_) (by omega)
    · intro x hx h; exact hnt x hx ((top_at hi (hin x hx)).mp h)
    · rw [show z.1.base + sz z.2 + 8 = z.1.link + 40 by omega]; exact hlim.2.2.1

/-- Visiting the chunks of one segment. -/
theorem visit_seg {cf : Conf} {s : Heap} {L : Lay} {D : List (Nat × Nat)} {env : Nat → Bool} (hi : Inv cf s L D env) {z : Seg × List Ck} (hz : z ∈ L) {n : Nat} (hn : z.1.size < n) :
    visitChunks s.mem z.1 s.top n (z.1.base + alignOff (z.1.base + 16)) = some ((addrs z.1.base z.2).map (seen s.mem)) := by
  have hk := hi.ok z hz
  have hf := hk.fits
  have hb := hk.base
  have hlen := chain_len hk.chain
  have hin : ∀ y ∈ addrs z.1.base z.2, y ∈ flat L := fun y hy => List.mem_flatMap.mpr ⟨z, hz, hy⟩
  rw [alignOff_zero (by omega), Nat.add_zero]
  have hlim := hk.lim
  obtain ⟨body, hbd, hkind⟩ := hk.body
  refine visit_chain hk.chain (Nat.le_refl _) (by omega) ?_ ?_ (by omega)
  · intro x hx h
    have h1 := (top_at hi (hin x hx)).mp h
    rw [hbd, addrs_append, List.mem_append] at hx
    rcases hx with hx | hx
    · have := hkind _ (addrs_kind hx); rw [h1] at this; simp at this
    · rw [hbd]; simp only [addrs_cons, addrs_nil, List.mem_singleton] at hx; rw [hx]; simp; omega
  · by_cases e : z.1.link = s.hrec
    · rw [if_pos e] at hbd hlim
      left
      have hsz : sz z.2 = sz body + s.topsize := by rw [hbd]; simp
      refine ⟨(z.1.base + sz body, ⟨s.topsize, .top⟩), by rw [hbd, addrs_append]; simp, by simp only; omega⟩
    · rw [if_neg e] at hlim
      right
      rw [show z.1.base + sz z.2 + 8 = z.1.link + 40 by omega]; exact hlim.2.2.1

theorem count_segs {cf : Conf} {s : Heap} {L : Lay} {D : List (Nat × Nat)} {env : Nat → Bool} (hi : Inv cf s L D env) {n : Nat} : ∀ (M : Lay), (∀ z ∈ M, z ∈ L ∧ z.1.size < n) →
    countSegs s.mem s.top n (M.map Prod.fst) = some (((flat M).filter notTop).map (seen s.mem))
  | [], _ => rfl
  | z :: M, h => by
    simp only [List.map_cons, countSegs]
    rw [count_seg hi (h z (by simp)).1 (h z (by simp)).2, count_segs hi M (fun z hz => h z (by simp [hz])), flat_cons, List.filter_append, List.map_append]
    rfl

theorem visit_segs {cf : Conf} {s : Heap} {L : Lay} {D : List (Nat × Nat)} {env : Nat → Bool} (hi : Inv cf s L D env) {n : Nat} : ∀ (M : Lay), (∀ z ∈ M, z ∈ L ∧ z.1.size < n) →
    visitSegs s.mem s.top n (M.map Prod.fst) = some ((flat M).map (seen s.mem))
  | [], _ => rfl
  | z :: M, h => by
    simp only [List.map_cons, visitSegs]
    rw [visit_seg hi (h z (by simp)).1 (h z (by simp)).2, visit_segs hi M (fun z hz => h z (by simp [hz])), flat_cons, List.map_append]
    rfl

end Arax.Dl
