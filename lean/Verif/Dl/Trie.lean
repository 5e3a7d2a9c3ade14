import Verif.Dl.Rings
/-!
# Tries of chunks
-/
namespace Arax.Dl

/-- A tree of a tree bin: a chunk, the other chunks of its size in the order of `fd`, and the two subtrees. (`malloc_tree_chunk` of /repo/src/alloc/dlmalloc/malloc.c:2441-2453.) -/
inductive Trie where
  | leaf
  | node (p : Nat) (ring : List Nat) (lo hi : Trie)
  deriving DecidableEq

/-- All chunks of a tree. (No code of its own.) -/
def Trie.all : Trie → List Nat
  | .leaf => []
  | .node p ring lo hi => p :: ring ++ (lo.all ++ hi.all)

/-- The tree is at `a`, below `par`. (No code of its own.) -/
def Trie.At (l : Links) : Nat → Nat → Trie → Prop
  | _, a, .leaf => a = 0
  | par, a, .node p ring lo hi =>
    a = p ∧ p ≠ 0 ∧ l.parent p = par ∧ Ring l.fd l.bk p ring ∧ (∀ q ∈ ring, l.parent q = 0 ∧ ∀ b, l.child q b = 0) ∧ lo.At l p (l.child p false) ∧ hi.At l p (l.child p true)

/-- The sizes: all sizes of the tree agree with `h` from bit `b` on, and the next bit says which subtree they are in. (No code of its own.) -/
def Trie.Fit (sz : Nat → Nat) : Nat → Nat → Trie → Prop
  | _, _, .leaf => True
  | b, h, .node p ring lo hi =>
    (∀ q ∈ ring, sz q = sz p) ∧ sz p / 2 ^ b = h ∧ (b = 0 → lo = .leaf ∧ hi = .leaf) ∧ lo.Fit sz (b - 1) (2 * h) ∧ hi.Fit sz (b - 1) (2 * h + 1)

/-- The link fields of the chunks in `P` are the same. (No code of its own.) -/
structure SameL (l l' : Links) (P : Nat → Prop) : Prop where
  fd : ∀ x, P x → l'.fd x = l.fd x
  bk : ∀ x, P x → l'.bk x = l.bk x
  child : ∀ x, P x → l'.child x = l.child x
  parent : ∀ x, P x → l'.parent x = l.parent x

/-- The fields the trees do not use are the same. (No code of its own.) -/
structure Rest (l l' : Links) : Prop where
  index : l'.index = l.index
  smallmap : l'.smallmap = l.smallmap
  treemap : l'.treemap = l.treemap
  root : l'.root = l.root

theorem SameL.mono {l l' : Links} {P Q : Nat → Prop} (h : SameL l l' P) (hq : ∀ x, Q x → P x) : SameL l l' Q :=
  ⟨fun x hx => h.fd x (hq x hx), fun x hx => h.bk x (hq x hx), fun x hx => h.child x (hq x hx), fun x hx => h.parent x (hq x hx)⟩

theorem SameL.trans {l l' l'' : Links} {P : Nat → Prop} (h : SameL l l' P) (h' : SameL l' l'' P) : SameL l l'' P :=
  ⟨fun x hx => (h'.fd x hx).trans (h.fd x hx), fun x hx => (h'.bk x hx).trans (h.bk x hx), fun x hx => (h'.child x hx).trans (h.child x hx), fun x hx => (h'.parent x hx).trans (h.parent x hx)⟩

theorem Rest.trans {l l' l'' : Links} (h : Rest l l') (h' : Rest l' l'') : Rest l l'' :=
  ⟨h'.index.trans h.index, h'.smallmap.trans h.smallmap, h'.treemap.trans h.treemap, h'.root.trans h.root⟩

theorem at_congr {l l' : Links} : ∀ {T : Trie} {par a : Nat}, T.At l par a → SameL l l' (· ∈ T.all) → T.At l' par a
  | .leaf, _, _, h, _ => h
  | .node p ring lo hi, par, a, h, hs => by
    obtain ⟨h1, h2, h3, h4, h5, h6, h7⟩ := h
    have hm : ∀ q ∈ p :: ring, q ∈ (Trie.node p ring lo hi).all := fun q hq => by simp only [Trie.all, List.mem_append]; exact Or.inl hq
    refine ⟨h1, h2, ?_, ring_congr h4 (fun y hy => hs.fd y (hm y hy)) (fun y hy => hs.bk y (hm y hy)), ?_, ?_, ?_⟩
    · rw [hs.parent p (hm p (by simp))]; exact h3
    · intro q hq
      rw [hs.parent q (hm q (by simp [hq])), hs.child q (hm q (by simp [hq]))]
      exact h5 q hq
    · rw [hs.child p (hm p (by simp))]
      exact at_congr h6 (hs.mono fun x hx => by simp only [Trie.all, List.mem_append]; exact Or.inr (Or.inl hx))
    · rw [hs.child p (hm p (by simp))]
      exact at_congr h7 (hs.mono fun x hx => by simp only [Trie.all, List.mem_append]; exact Or.inr (Or.inr hx))

theorem at_zero {l : Links} {T : Trie} {par a : Nat} (h : T.At l par a) : a = 0 ↔ T = .leaf := by
  cases T with
  | leaf => simp only [Trie.At] at h; simp [h]
  | node p ring lo hi => obtain ⟨rfl, h2, -⟩ := h; simp [h2]

theorem fit_high {sz : Nat → Nat} : ∀ {T : Trie} {b h : Nat}, T.Fit sz b h → ∀ q ∈ T.all, sz q / 2 ^ b = h
  | .leaf, _, _, _, q, hq => by simp [Trie.all] at hq
  | .node p ring lo hi, b, h, hf, q, hq => by
    obtain ⟨h1, h2, h3⟩ := hf
    simp only [Trie.all, List.mem_append, List.mem_cons] at hq
    rcases hq with (e | hq) | hq
    · rw [e]; exact h2
    · rw [h1 q hq]; exact h2
    · cases b with
      | zero =>
        obtain ⟨rfl, rfl⟩ := h3.1 rfl
        simp [Trie.all] at hq
      | succ b =>
        have hd : ∀ q, sz q / 2 ^ (b + 1) = sz q / 2 ^ b / 2 := fun q => by rw [Nat.pow_succ, Nat.div_div_eq_div_mul]
        rw [hd]
        rcases hq with hq | hq
        · have := fit_high h3.2.1 q hq; simp only [Nat.add_sub_cancel] at this; omega
        · have := fit_high h3.2.2 q hq; simp only [Nat.add_sub_cancel] at this; omega

/-- Everything in the left subtree is smaller than everything in the right one. -/
theorem fit_lt {sz : Nat → Nat} {lo hi : Trie} {b h : Nat} (h1 : lo.Fit sz b (2 * h)) (h2 : hi.Fit sz b (2 * h + 1)) {q r : Nat} (hq : q ∈ lo.all) (hr : r ∈ hi.all) : sz q < sz r := by
  have e1 := fit_high h1 q hq
  have e2 := fit_high h2 r hr
  rcases Nat.lt_or_ge (sz q) (sz r) with h | h
  · exact h
  · have := Nat.div_le_div_right (c := 2 ^ b) h; omega

theorem topBit_at {n b k : Nat} (hb : b < 64) (hk : k = n * 2 ^ (64 - (b + 1)) % 2 ^ 64) : topBit k = (n / 2 ^ b % 2 == 1) := by
  subst hk
  unfold topBit
  have h1 : 2 ^ 64 = 2 ^ (64 - (b + 1)) * 2 ^ (b + 1) := by rw [← Nat.pow_add]; congr 1; omega
  have h2 : 2 ^ 63 = 2 ^ (64 - (b + 1)) * 2 ^ b := by rw [← Nat.pow_add]; congr 1; omega
  have hp : 0 < 2 ^ (64 - (b + 1)) := Nat.pow_pos (by decide)
  rw [h1, Nat.mul_comm n, Nat.mul_mod_mul_left, h2, Nat.mul_div_mul_left _ _ hp, Nat.pow_succ, Nat.mod_mul_right_div_self, Nat.mod_mod]

theorem shl1_at {n b k : Nat} (hb : b < 64) (hk : k = n * 2 ^ (64 - (b + 1)) % 2 ^ 64) : shl1 k = n * 2 ^ (64 - b) % 2 ^ 64 := by
  subst hk
  unfold shl1
  have : 2 ^ (64 - b) = 2 * 2 ^ (64 - (b + 1)) := by rw [Nat.mul_comm, ← Nat.pow_succ]; congr 1; omega
  rw [this, Nat.mul_mod, Nat.mod_mod, ← Nat.mul_mod]
  congr 1
  rw [Nat.mul_comm 2, Nat.mul_comm 2, Nat.mul_assoc]

end Arax.Dl
