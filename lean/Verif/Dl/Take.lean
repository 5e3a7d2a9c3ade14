import Verif.Dl.Surgery
/-!
# Taking a free chunk
-/
namespace Arax.Dl
open Arax.Bitmap (bit Bmp)

/-- A block of the allocator: a chunk in use or a directly mapped region. Its user has the bytes from `p + 16` to `p + n + 8`. (No code of its own.) -/
def Blk (L : Lay) (D : List (Nat × Nat)) (p n : Nat) : Prop := (p, (⟨n, .used⟩ : Ck)) ∈ flat L ∨ (p, n + 40) ∈ D

/-- The bytes of the blocks that are there before and after are the same. (No code of its own.) -/
def Kept (L : Lay) (D : List (Nat × Nat)) (m : Nat → Nat) (L' : Lay) (D' : List (Nat × Nat)) (m' : Nat → Nat) : Prop :=
  ∀ p n, Blk L D p n → Blk L' D' p n → ∀ x, p + 16 ≤ x → x < p + n + 8 → m' x = m x

theorem Kept.trans {L L' L'' : Lay} {D D' D'' : List (Nat × Nat)} {m m' m'' : Nat → Nat} (h1 : Kept L D m L' D' m') (h2 : Kept L' D' m' L'' D'' m'')
    (hb : ∀ p n, Blk L D p n → Blk L'' D'' p n → Blk L' D' p n) : Kept L D m L'' D'' m'' := by
  intro p n h h' x hx hx'
  rw [h2 p n (hb p n h h') h' x hx hx', h1 p n h (hb p n h h') x hx hx']

/-- The words in pages of others are the same. (No code of its own.) -/
def Frame (cf : Conf) (env : Nat → Bool) (m m' : Nat → Nat) : Prop := ∀ x, cf.start ≤ x → env ((x - cf.start) / 4096) = true → m' x = m x

theorem Frame.trans {cf : Conf} {env : Nat → Bool} {m m' m'' : Nat → Nat} (h1 : Frame cf env m m') (h2 : Frame cf env m' m'') : Frame cf env m m'' :=
  fun x h h' => by rw [h2 x h h', h1 x h h']

/-- Pages of others are in no region of ours. -/
theorem reg_not_env {cf : Conf} {env : Nat → Bool} {r : Nat × Nat} (hst : cf.start % 4096 = 0) (hlo : cf.start ≤ r.1) (hal : r.1 % 4096 = 0 ∧ r.2 % 4096 = 0)
    (hp : ∀ i, InReg cf r i → env i = false) {x : Nat} (h1 : cf.start ≤ x) (h2 : env ((x - cf.start) / 4096) = true) : x < r.1 ∨ r.1 + r.2 ≤ x := by
  by_cases hx : r.1 ≤ x ∧ x < r.1 + r.2
  · have := hp ((x - cf.start) / 4096) (by unfold InReg; omega)
    rw [h2] at this; cases this
  · omega

theorem seg_not_env {cf : Conf} {s : Heap} {L : Lay} {D : List (Nat × Nat)} {env : Nat → Bool} (hi : Inv cf s L D env) {z : Seg × List Ck} (hz : z ∈ L) {x : Nat} (h1 : cf.start ≤ x)
    (h2 : env ((x - cf.start) / 4096) = true) : x < z.1.base ∨ z.1.base + z.1.size ≤ x := by
  have hr : (z.1.base, z.1.size) ∈ regs L D := List.mem_append_left _ (List.mem_map_of_mem hz)
  exact reg_not_env (r := (z.1.base, z.1.size)) hi.start.1 (hi.low _ hr).1 ⟨(hi.ok z hz).base, (hi.ok z hz).size⟩ (fun i h => (hi.pages _ hr i h).2) h1 h2

theorem addr_pos {cf : Conf} {s : Heap} {L : Lay} {D : List (Nat × Nat)} {env : Nat → Bool} (hi : Inv cf s L D env) {y : Nat × Ck} (hy : y ∈ flat L) : 0 < y.1 ∧ 16 ≤ y.2.n ∧ y.1 % 16 = 0 ∧ s.least ≤ y.1 := by
  obtain ⟨L1, g, xs, ys, L2, rfl, ha⟩ := flat_split hy
  have hl := hi.low (g.base, g.size) (by simp [regs])
  have hk := hi.ok _ (show (g, xs ++ y.2 :: ys) ∈ _ by simp)
  have hb := hk.base
  have hs := hi.start
  have hc := hk.chain
  rw [chain_append] at hc
  have hm : ∀ (m : Nat → Nat) (a : Nat) (p : Bool) (l : List Ck), Chain m a p l → sz l % 16 = 0 := by
    intro m a p l
    induction l generalizing a p with
    | nil => simp
    | cons c l ih => intro h; have := ih _ _ h.2; have := h.1.mul; simp; omega
  have := hm _ _ _ _ hc.1
  have := hc.2.1.pos
  simp only at hl hb
  omega

/-- The free chunks around a stretch. -/
theorem around_free {cf : Conf} {s : Heap} {D : List (Nat × Nat)} {env : Nat → Bool} {L1 L2 : Lay} {g : Seg} {xs mid ys : List Ck}
    (hi : Inv cf s (L1 ++ (g, xs ++ mid ++ ys) :: L2) D env) (p n : Nat) :
    (p, (⟨n, .free⟩ : Ck)) ∈ around L1 g xs mid ys L2 ↔
      ((p, n) ∈ s.bins ∨ (p = s.dv ∧ n = s.dvsize ∧ s.dv ≠ 0)) ∧ ¬ (g.base + sz xs ≤ p ∧ p < g.base + sz xs + sz mid) := by
  constructor
  · intro h
    have hf : (p, (⟨n, .free⟩ : Ck)) ∈ flat (L1 ++ (g, xs ++ mid ++ ys) :: L2) := (mem_focus ..).mpr (Or.inl h)
    have hp := addr_pos hi hf
    have ha := around_apart hi h
    simp only at hp ha
    refine ⟨?_, by omega⟩
    by_cases e : p = s.dv
    · right
      rcases hi.dv with ⟨h0, -⟩ | hd
      · omega
      · rcases flat_unique hi hf hd with h' | h' | h'
        · simp only [Prod.mk.injEq, Ck.mk.injEq, and_true] at h'; omega
        · simp only at h'; omega
        · have := (addr_pos hi hd).2.1; simp only at h' this; omega
    · left; exact (hi.bins p n).mpr ⟨hf, e⟩
  · rintro ⟨h, ho⟩
    have hf : (p, (⟨n, .free⟩ : Ck)) ∈ flat (L1 ++ (g, xs ++ mid ++ ys) :: L2) := by
      rcases h with h | ⟨rfl, rfl, h0⟩
      · exact ((hi.bins p n).mp h).1
      · rcases hi.dv with ⟨h0', -⟩ | hd
        · exact absurd h0' h0
        · exact hd
    rcases (mem_focus ..).mp hf with h | h
    · exact h
    · have := addrs_bounds h
      have := (addr_pos hi hf).2.1
      simp only at *; omega

/-- The free chunks around one chunk. -/
theorem around_free1 {cf : Conf} {s : Heap} {D : List (Nat × Nat)} {env : Nat → Bool} {L1 L2 : Lay} {g : Seg} {xs ys : List Ck} {c : Ck}
    (hi : Inv cf s (L1 ++ (g, xs ++ [c] ++ ys) :: L2) D env) (p n : Nat) :
    (p, (⟨n, .free⟩ : Ck)) ∈ around L1 g xs [c] ys L2 ↔ ((p, n) ∈ s.bins ∨ (p = s.dv ∧ n = s.dvsize ∧ s.dv ≠ 0)) ∧ p ≠ g.base + sz xs := by
  rw [around_free hi]
  have hc : (g.base + sz xs, c) ∈ flat (L1 ++ (g, xs ++ [c] ++ ys) :: L2) := (mem_focus ..).mpr (Or.inr (by simp))
  have hp := (addr_pos hi hc).2.1
  simp only [sz_cons, sz_nil, Nat.add_zero] at hp ⊢
  constructor
  · rintro ⟨h, h2⟩; exact ⟨h, by omega⟩
  · rintro ⟨h, h2⟩
    refine ⟨h, ?_⟩
    have hf : (p, (⟨n, .free⟩ : Ck)) ∈ flat (L1 ++ (g, xs ++ [c] ++ ys) :: L2) := by
      rcases h with h | ⟨rfl, rfl, h0⟩
      · exact ((hi.bins p n).mp h).1
      · rcases hi.dv with ⟨h0', -⟩ | hd
        · exact absurd h0' h0
        · exact hd
    have hpf := (addr_pos hi hf).2.1
    rcases flat_unique hi hf hc with h' | h' | h'
    · simp only [Prod.mk.injEq] at h'; exact absurd h'.1 h2
    · simp only at h' hpf; omega
    · simp only at h'; omega

/-- The used chunks after a stretch with no used chunk has been replaced. -/
theorem kept_interior {cf : Conf} {s s' : Heap} {D : List (Nat × Nat)} {env : Nat → Bool} {L1 L2 : Lay} {g : Seg} {xs mid mid' ys : List Ck} {cs' : List Ck}
    (hi : Inv cf s (L1 ++ (g, xs ++ mid ++ ys) :: L2) D env)
    (hm : ∀ x, (x < g.base + sz xs + 8 ∨ g.base + sz xs + sz mid + 16 ≤ x) → s'.mem x = s.mem x) (hin : g.base + sz xs + sz mid + 16 ≤ g.base + g.size)
    (hsz : sz mid' ≤ sz mid) (hcs : cs' = xs ++ mid' ++ ys)
    (hu : (∀ c ∈ mid, c.k ≠ .used) ∨ (∀ c ∈ mid', c.k ≠ .used)) (hpos : ∀ c ∈ mid, 16 ≤ c.n) (hend : sz mid' = sz mid ∨ ys = []) :
    Kept (L1 ++ (g, xs ++ mid ++ ys) :: L2) D s.mem (L1 ++ (g, cs') :: L2) D s'.mem := by
  intro p n h h' x hx hx'
  apply hm
  rcases h with h | h
  · rcases (mem_focus ..).mp h with ha | ha
    · have := around_apart hi ha; simp only at this; omega
    · exfalso
      have ha0 := addrs_bounds ha
      obtain ⟨as, bs, e, -⟩ := addrs_split ha
      have hn := hpos ⟨n, .used⟩ (by rw [e]; simp)
      rcases hu with hu | hu
      · exact hu ⟨n, .used⟩ (by rw [e]; simp) rfl
      · subst hcs
        rcases h' with h' | h'
        · rcases (mem_focus ..).mp h' with hb | hb
          · have hb' : (p, (⟨n, .used⟩ : Ck)) ∈ around L1 g xs mid ys L2 := by
              rcases hend with he | rfl
              · unfold around at hb ⊢; rw [he] at hb; exact hb
              · unfold around at hb ⊢; simpa using hb
            have := around_apart hi hb'; simp only at this ha0 hn; omega
          · obtain ⟨as, bs, e, -⟩ := addrs_split hb
            exact hu ⟨n, .used⟩ (by rw [e]; simp) rfl
        · have hap := dir_apart hi (x := (g, xs ++ mid ++ ys)) (by simp) h'
          simp only [Apart] at hap ha0 hn; omega
  · have hap := dir_apart hi (x := (g, xs ++ mid ++ ys)) (by simp) h
    simp only [Apart] at hap; omega

end Arax.Dl
