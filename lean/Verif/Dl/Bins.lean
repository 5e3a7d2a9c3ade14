import Verif.Dl.TrieSearch
import Verif.Dl.BinIndex
/-!
# The bins implement a list of chunks
-/
namespace Arax.Dl

/-- The chunks of small bin `i`, in the order of `fd`: of a list of free chunks, those of `8 * i` bytes, the most recent first. (No code of its own.) -/
def smalls (bins : List (Nat × Nat)) (i : Nat) : List Nat := (bins.filter fun x => decide (x.2 < 256) && decide (x.2 / 8 = i)).map Prod.fst
/-- The chunks of tree bin `i`. (No code of its own.) -/
def trees (bins : List (Nat × Nat)) (i : Nat) : List Nat := (bins.filter fun x => decide (256 ≤ x.2) && decide (treeIndex x.2 = i)).map Prod.fst

/-- A chunk that can be in a bin. (No code of its own.) -/
structure Fits (c : Ctx) (x : Nat × Nat) : Prop where
  sz : c.sz x.1 = x.2
  min : 32 ≤ x.2
  max : x.2 < 2 ^ 40
  mul : x.2 % 8 = 0
  least : c.least ≤ x.1
  hdr : ∀ i < 32, x.1 ≠ c.sbin i

/-- The links hold the free chunks `bins`. (No code of its own.) -/
structure BinsOK (c : Ctx) (l : Links) (bins : List (Nat × Nat)) : Prop where
  least0 : 0 < c.least
  nd : (bins.map Prod.fst).Nodup
  ok : ∀ x ∈ bins, Fits c x
  small : ∀ i < 32, (l.smallmap.getLsbD i = true ↔ smalls bins i ≠ []) ∧ (smalls bins i ≠ [] → Ring l.fd l.bk (c.sbin i) (smalls bins i))
  tree : ∀ i < 32, ∃ T : Trie, T.At l (c.tbin i) (l.root i) ∧ T.Fit c.sz (treeLevel i) (treeHigh i) ∧ T.all.Perm (trees bins i) ∧ (l.treemap.getLsbD i = true ↔ T ≠ .leaf) ∧ ∀ q ∈ T.all, l.index q = i

theorem mem_smalls {bins : List (Nat × Nat)} {i p : Nat} : p ∈ smalls bins i ↔ ∃ n, (p, n) ∈ bins ∧ n < 256 ∧ n / 8 = i := by
  unfold smalls
  simp only [List.mem_map, List.mem_filter, Bool.and_eq_true, decide_eq_true_eq]
  constructor
  · rintro ⟨⟨q, n⟩, h, rfl⟩; exact ⟨n, h⟩
  · rintro ⟨n, h⟩; exact ⟨(p, n), h, rfl⟩

theorem mem_trees {bins : List (Nat × Nat)} {i p : Nat} : p ∈ trees bins i ↔ ∃ n, (p, n) ∈ bins ∧ 256 ≤ n ∧ treeIndex n = i := by
  unfold trees
  simp only [List.mem_map, List.mem_filter, Bool.and_eq_true, decide_eq_true_eq]
  constructor
  · rintro ⟨⟨q, n⟩, h, rfl⟩; exact ⟨n, h⟩
  · rintro ⟨n, h⟩; exact ⟨(p, n), h, rfl⟩

theorem smalls_append (as bs : List (Nat × Nat)) (i : Nat) : smalls (as ++ bs) i = smalls as i ++ smalls bs i := by simp [smalls]
theorem trees_append (as bs : List (Nat × Nat)) (i : Nat) : trees (as ++ bs) i = trees as i ++ trees bs i := by simp [trees]
theorem smalls_cons (x : Nat × Nat) (bs : List (Nat × Nat)) (i : Nat) : smalls (x :: bs) i = if x.2 < 256 ∧ x.2 / 8 = i then x.1 :: smalls bs i else smalls bs i := by
  unfold smalls
  rw [List.filter_cons]
  by_cases h : x.2 < 256 ∧ x.2 / 8 = i
  · simp [h.1, h.2]
  · rw [if_neg h, if_neg]; simpa using h
theorem trees_cons (x : Nat × Nat) (bs : List (Nat × Nat)) (i : Nat) : trees (x :: bs) i = if 256 ≤ x.2 ∧ treeIndex x.2 = i then x.1 :: trees bs i else trees bs i := by
  unfold trees
  rw [List.filter_cons]
  by_cases h : 256 ≤ x.2 ∧ treeIndex x.2 = i
  · simp [h.1, h.2]
  · rw [if_neg h, if_neg]; simpa using h

theorem pair_unique {bins : List (Nat × Nat)} (h : (bins.map Prod.fst).Nodup) {p n m : Nat} (h1 : (p, n) ∈ bins) (h2 : (p, m) ∈ bins) : n = m := by
  induction bins with
  | nil => cases h1
  | cons x bs ih =>
    simp only [List.map_cons, List.nodup_cons] at h
    simp only [List.mem_cons] at h1 h2
    rcases h1 with e1 | h1 <;> rcases h2 with e2 | h2
    · rw [← e2] at e1; exact (Prod.mk.inj e1).2
    · exact absurd (List.mem_map_of_mem (f := Prod.fst) h2) (by rw [← e1] at h; exact h.1)
    · exact absurd (List.mem_map_of_mem (f := Prod.fst) h1) (by rw [← e2] at h; exact h.1)
    · exact ih h.2 h1 h2

/-- Chunks of different bins are different. -/
theorem smalls_trees {bins : List (Nat × Nat)} (h : (bins.map Prod.fst).Nodup) {p i j : Nat} (h1 : p ∈ smalls bins i) (h2 : p ∈ trees bins j) : False := by
  obtain ⟨n, a1, a2, -⟩ := mem_smalls.mp h1
  obtain ⟨m, b1, b2, -⟩ := mem_trees.mp h2
  have := pair_unique h a1 b1
  omega

theorem smalls_smalls {bins : List (Nat × Nat)} (h : (bins.map Prod.fst).Nodup) {p i j : Nat} (h1 : p ∈ smalls bins i) (h2 : p ∈ smalls bins j) : i = j := by
  obtain ⟨n, a1, -, a2⟩ := mem_smalls.mp h1
  obtain ⟨m, b1, -, b2⟩ := mem_smalls.mp h2
  have := pair_unique h a1 b1
  subst this; omega

theorem trees_trees {bins : List (Nat × Nat)} (h : (bins.map Prod.fst).Nodup) {p i j : Nat} (h1 : p ∈ trees bins i) (h2 : p ∈ trees bins j) : i = j := by
  obtain ⟨n, a1, -, a2⟩ := mem_trees.mp h1
  obtain ⟨m, b1, -, b2⟩ := mem_trees.mp h2
  have := pair_unique h a1 b1
  subst this; omega

theorem smalls_mem {bins : List (Nat × Nat)} {p i : Nat} (h : p ∈ smalls bins i) : p ∈ bins.map Prod.fst := by
  obtain ⟨n, a1, -⟩ := mem_smalls.mp h; exact List.mem_map_of_mem (f := Prod.fst) a1
theorem trees_mem {bins : List (Nat × Nat)} {p i : Nat} (h : p ∈ trees bins i) : p ∈ bins.map Prod.fst := by
  obtain ⟨n, a1, -⟩ := mem_trees.mp h; exact List.mem_map_of_mem (f := Prod.fst) a1

theorem sbin_inj {c : Ctx} {i j : Nat} (h : c.sbin i = c.sbin j) : i = j := by unfold Ctx.sbin at h; omega

theorem not_hdr {c : Ctx} {l : Links} {bins : List (Nat × Nat)} (h : BinsOK c l bins) {p i : Nat} (hi : i < 32) (hp : p ∈ bins.map Prod.fst) : p ≠ c.sbin i := by
  obtain ⟨x, hx, rfl⟩ := List.mem_map.mp hp
  exact (h.ok x hx).hdr i hi

/-- A change to the links of small bin `i` and the new chunk leaves the other bins alone. -/
theorem others_small {c : Ctx} {l l' : Links} {bins bins' : List (Nat × Nat)} (h : BinsOK c l bins) {i : Nat} (hi : i < 32) (nd : (bins'.map Prod.fst).Nodup) (ok : ∀ x ∈ bins', Fits c x)
    (P : Nat → Prop) (hP : ∀ y, P y → y = c.sbin i ∨ y ∉ bins.map Prod.fst ∧ (∀ j < 32, y ≠ c.sbin j) ∨ y ∈ smalls bins i)
    (hs : SameL l l' (fun y => ¬ P y)) (hx : l'.index = l.index) (ht : l'.treemap = l.treemap) (hr : l'.root = l.root) (hm : ∀ j, j ≠ i → l'.smallmap.getLsbD j = l.smallmap.getLsbD j)
    (hsm : ∀ j < 32, j ≠ i → smalls bins' j = smalls bins j) (htr : ∀ j < 32, trees bins' j = trees bins j)
    (hnew : (l'.smallmap.getLsbD i = true ↔ smalls bins' i ≠ []) ∧ (smalls bins' i ≠ [] → Ring l'.fd l'.bk (c.sbin i) (smalls bins' i))) : BinsOK c l' bins' := by
  refine ⟨h.least0, nd, ok, fun j hj => ?_, fun j hj => ?_⟩
  · by_cases e : j = i
    · subst e; exact hnew
    · rw [hm j e, hsm j hj e]
      refine ⟨(h.small j hj).1, fun hne => ?_⟩
      have hnP : ∀ y ∈ c.sbin j :: smalls bins j, ¬ P y := by
        intro y hy hPy
        simp only [List.mem_cons] at hy
        rcases hP y hPy with e1 | ⟨h1, h2⟩ | h1
        · rcases hy with e2 | hy
          · exact e (sbin_inj (e2.symm.trans e1))
          · exact not_hdr h hi (smalls_mem hy) e1
        · rcases hy with e2 | hy
          · exact h2 j hj e2
          · exact h1 (smalls_mem hy)
        · rcases hy with e2 | hy
          · exact not_hdr h hj (smalls_mem h1) e2
          · exact e (smalls_smalls h.nd hy h1)
      exact ring_congr ((h.small j hj).2 hne) (fun y hy => hs.fd y (hnP y hy)) (fun y hy => hs.bk y (hnP y hy))
  · obtain ⟨T, t1, t2, t3, t4, t5⟩ := h.tree j hj
    refine ⟨T, ?_, t2, by rw [htr j hj]; exact t3, by rw [ht]; exact t4, by rw [hx]; exact t5⟩
    rw [hr]
    refine at_congr t1 (hs.mono fun y hy hPy => ?_)
    have hy' := t3.mem_iff.mp hy
    rcases hP y hPy with e1 | ⟨h1, -⟩ | h1
    · exact not_hdr h hi (trees_mem hy') e1
    · exact h1 (trees_mem hy')
    · exact smalls_trees h.nd h1 hy'

/-- A change to the links of tree bin `i` and the new chunk leaves the other bins alone. -/
theorem others_tree {c : Ctx} {l l' : Links} {bins bins' : List (Nat × Nat)} (h : BinsOK c l bins) {i : Nat} (nd : (bins'.map Prod.fst).Nodup) (ok : ∀ x ∈ bins', Fits c x)
    (P : Nat → Prop) (hP : ∀ y, P y → y ∉ bins.map Prod.fst ∧ (∀ j < 32, y ≠ c.sbin j) ∨ y ∈ trees bins i)
    (hs : SameL l l' (fun y => ¬ P y)) (hx : ∀ y, ¬ P y → l'.index y = l.index y) (hm : l'.smallmap = l.smallmap) (hr : ∀ j, j ≠ i → l'.root j = l.root j)
    (ht : ∀ j, j ≠ i → l'.treemap.getLsbD j = l.treemap.getLsbD j) (hsm : ∀ j < 32, smalls bins' j = smalls bins j) (htr : ∀ j < 32, j ≠ i → trees bins' j = trees bins j)
    (hnew : ∃ T : Trie, T.At l' (c.tbin i) (l'.root i) ∧ T.Fit c.sz (treeLevel i) (treeHigh i) ∧ T.all.Perm (trees bins' i) ∧ (l'.treemap.getLsbD i = true ↔ T ≠ .leaf) ∧ ∀ q ∈ T.all, l'.index q = i) :
    BinsOK c l' bins' := by
  refine ⟨h.least0, nd, ok, fun j hj => ?_, fun j hj => ?_⟩
  · rw [hm, hsm j hj]
    refine ⟨(h.small j hj).1, fun hne => ?_⟩
    have hnP : ∀ y ∈ c.sbin j :: smalls bins j, ¬ P y := by
      intro y hy hPy
      simp only [List.mem_cons] at hy
      rcases hP y hPy with ⟨h1, h2⟩ | h1
      · rcases hy with e2 | hy
        · exact h2 j hj e2
        · exact h1 (smalls_mem hy)
      · rcases hy with e2 | hy
        · exact not_hdr h hj (trees_mem h1) e2
        · exact smalls_trees h.nd hy h1
    exact ring_congr ((h.small j hj).2 hne) (fun y hy => hs.fd y (hnP y hy)) (fun y hy => hs.bk y (hnP y hy))
  · by_cases e : j = i
    · subst e; exact hnew
    · obtain ⟨T, t1, t2, t3, t4, t5⟩ := h.tree j hj
      have hnP : ∀ y ∈ T.all, ¬ P y := by
        intro y hy hPy
        have hy' := t3.mem_iff.mp hy
        rcases hP y hPy with ⟨h1, -⟩ | h1
        · exact h1 (trees_mem hy')
        · exact e (trees_trees h.nd hy' h1)
      refine ⟨T, ?_, t2, by rw [htr j hj e]; exact t3, by rw [ht j e]; exact t4, fun q hq => by rw [hx q (hnP q hq)]; exact t5 q hq⟩
      rw [hr j e]
      exact at_congr t1 (hs.mono hnP)

/-- `insert_chunk` adds the chunk. -/
theorem insert_bins {c : Ctx} {l : Links} {bins : List (Nat × Nat)} (h : BinsOK c l bins) {p n : Nat} (hp : p ∉ bins.map Prod.fst) (hf : Fits c (p, n)) :
    ∃ l', l.insert c p n = .ok l' ∧ BinsOK c l' ((p, n) :: bins) := by
  have nd' : (((p, n) :: bins).map Prod.fst).Nodup := by simp only [List.map_cons, List.nodup_cons]; exact ⟨hp, h.nd⟩
  have ok' : ∀ x ∈ (p, n) :: bins, Fits c x := by
    intro x hx; simp only [List.mem_cons] at hx
    rcases hx with e | hx
    · rw [e]; exact hf
    · exact h.ok x hx
  have hph : ∀ j < 32, p ≠ c.sbin j := hf.hdr
  unfold Links.insert
  by_cases hsm : n / 8 < 32
  · rw [if_pos hsm]
    have hn256 : n < 256 := by omega
    have e1 : smalls ((p, n) :: bins) (n / 8) = p :: smalls bins (n / 8) := by rw [smalls_cons, if_pos ⟨hn256, rfl⟩]
    have e2 : ∀ j < 32, j ≠ n / 8 → smalls ((p, n) :: bins) j = smalls bins j := fun j _ hj => by rw [smalls_cons, if_neg (fun ⟨_, e⟩ => hj e.symm)]
    have e3 : ∀ j < 32, trees ((p, n) :: bins) j = trees bins j := fun j _ => by rw [trees_cons, if_neg (fun ⟨e, _⟩ => by simp only at e; omega)]
    obtain ⟨s1, s2⟩ := h.small (n / 8) hsm
    have hpb : p ∉ c.sbin (n / 8) :: smalls bins (n / 8) := by
      simp only [List.mem_cons, not_or]
      exact ⟨hph _ hsm, fun hm => hp (smalls_mem hm)⟩
    unfold Links.insertSmall
    simp only
    cases hmk : l.smallmap.getLsbD (n / 8) with
    | false =>
      simp only [Bool.not_false, if_true, Out.bind_ok]
      have hnil : smalls bins (n / 8) = [] := by
        cases hh : smalls bins (n / 8) with
        | nil => rfl
        | cons a t => rw [s1.mpr (by rw [hh]; simp)] at hmk; cases hmk
      refine ⟨_, rfl, others_small h hsm nd' ok' (fun y => y = p ∨ y = c.sbin (n / 8)) ?_ ?_ rfl rfl rfl ?_ e2 e3 ?_⟩
      · rintro y (rfl | rfl)
        · exact Or.inr (Or.inl ⟨hp, hph⟩)
        · exact Or.inl rfl
      · refine ⟨fun y hy => ?_, fun y hy => ?_, fun _ _ => rfl, fun _ _ => rfl⟩ <;> simp only [not_or] at hy
        · show put (put l.fd _ p) p _ y = l.fd y
          rw [put_ne _ _ hy.1, put_ne _ _ hy.2]
        · show put (put l.bk _ p) p _ y = l.bk y
          rw [put_ne _ _ hy.1, put_ne _ _ hy.2]
      · intro j hj
        show (l.smallmap ||| idx2bit (n / 8)).getLsbD j = _
        rw [mark_get hsm]; simp [hj]
      · rw [e1]
        refine ⟨?_, fun _ => ?_⟩
        · show (l.smallmap ||| idx2bit (n / 8)).getLsbD (n / 8) = true ↔ _
          rw [mark_get hsm]; simp
        · rw [hnil]
          have hne : c.sbin (n / 8) ≠ p := fun e => hph _ hsm e.symm
          refine ⟨by simp [hne], ?_, ?_, ?_, ?_⟩
          · show put (put l.fd _ p) p _ _ = p
            rw [put_ne _ _ hne, put_eq]
          · exact put_eq _ _ _
          · exact put_eq _ _ _
          · show put (put l.bk _ p) p _ _ = p
            rw [put_ne _ _ hne, put_eq]
    | true =>
      simp only [Bool.not_true, Bool.false_eq_true, if_false]
      have hne := s1.mp hmk
      have hring := s2 hne
      have hfm := ring_fd hring
      have hfl : l.fd (c.sbin (n / 8)) ∈ smalls bins (n / 8) := by
        cases hh : smalls bins (n / 8) with
        | nil => exact absurd hh hne
        | cons a t => rw [hh] at hring; rw [hring.2.1]; simp
      have hlf : c.least ≤ l.fd (c.sbin (n / 8)) := by
        obtain ⟨x, hx, e⟩ := List.mem_map.mp (smalls_mem hfl)
        rw [← e]; exact (h.ok x hx).least
      rw [if_pos hlf, Out.bind_ok]
      refine ⟨_, rfl, others_small h hsm nd' ok' (fun y => y = p ∨ y ∈ c.sbin (n / 8) :: smalls bins (n / 8)) ?_ ?_ rfl rfl rfl (fun _ _ => rfl) e2 e3 ?_⟩
      · rintro y (rfl | hy)
        · exact Or.inr (Or.inl ⟨hp, hph⟩)
        · simp only [List.mem_cons] at hy
          exact hy.imp id Or.inr
      · refine ⟨fun y hy => ?_, fun y hy => ?_, fun _ _ => rfl, fun _ _ => rfl⟩ <;> simp only [not_or] at hy
        · show put (put l.fd _ p) p _ y = l.fd y
          rw [put_ne _ _ hy.1, put_ne _ _ (fun e => hy.2 (by simp [e]))]
        · show put (put l.bk _ p) p _ y = l.bk y
          rw [put_ne _ _ hy.1, put_ne _ _ (fun e => hy.2 (by rw [e]; exact hfm))]
      · rw [e1]
        exact ⟨by simp [hmk], fun _ => ring_insert hring hpb⟩
  · rw [if_neg hsm]
    have hn256 : 256 ≤ n := by omega
    have hn40 : n < 2 ^ 40 := hf.max
    have hi := treeIndex_lt n
    have e1 : trees ((p, n) :: bins) (treeIndex n) = p :: trees bins (treeIndex n) := by rw [trees_cons, if_pos ⟨hn256, rfl⟩]
    have e2 : ∀ j < 32, j ≠ treeIndex n → trees ((p, n) :: bins) j = trees bins j := fun j _ hj => by rw [trees_cons, if_neg (fun ⟨_, e⟩ => hj e.symm)]
    have e3 : ∀ j < 32, smalls ((p, n) :: bins) j = smalls bins j := fun j _ => by rw [smalls_cons, if_neg (fun ⟨e, _⟩ => by simp only at e; omega)]
    obtain ⟨T, t1, t2, t3, t4, t5⟩ := h.tree (treeIndex n) hi
    have hpT : p ∉ T.all := fun hm => hp (trees_mem (t3.mem_iff.mp hm))
    have hp0 : p ≠ 0 := Nat.ne_of_gt (Nat.lt_of_lt_of_le h.least0 hf.least)
    unfold Links.insertLarge
    simp only
    have hclear : ∀ y, y ≠ p → putC (putC l.child p true 0) p false 0 y = l.child y := fun y hy => by rw [putC_ne _ _ _ hy, putC_ne _ _ _ hy]
    have hzero : ∀ s, putC (putC l.child p true 0) p false 0 p s = 0 := by
      intro s
      cases s
      · exact putC_eq _ _ _ _
      · rw [putC_side _ _ _ (by decide), putC_eq]
    cases hmk : l.treemap.getLsbD (treeIndex n) with
    | false =>
      simp only [Bool.not_false, if_true]
      have hleaf : T = .leaf := by
        by_cases e : T = .leaf
        · exact e
        · rw [t4.mpr e] at hmk; cases hmk
      subst hleaf
      refine ⟨_, rfl, others_tree h nd' ok' (fun y => y = p) (fun y e => Or.inl (by rw [e]; exact ⟨hp, hph⟩)) ?_ (fun y hy => put_ne _ _ hy) rfl (fun j hj => put_ne _ _ hj) ?_ e3 e2
        ⟨.node p [] .leaf .leaf, ⟨put_eq _ _ _, hp0, put_eq _ _ _, ring_single _ _ _, by simp, hzero false, hzero true⟩, ⟨by simp, ?_, fun _ => ⟨rfl, rfl⟩, trivial, trivial⟩, ?_, ?_, ?_⟩⟩
      · exact ⟨fun y hy => put_ne _ _ hy, fun y hy => put_ne _ _ hy, fun y hy => hclear y hy, fun y hy => put_ne _ _ hy⟩
      · intro j hj
        show (l.treemap ||| idx2bit (treeIndex n)).getLsbD j = _
        rw [mark_get hi]; simp [hj]
      · rw [hf.sz]; exact tree_high hn256 hn40
      · rw [e1]
        have : trees bins (treeIndex n) = [] := by have := t3.symm; simpa [Trie.all] using this
        rw [this]; simp [Trie.all]
      · show (l.treemap ||| idx2bit (treeIndex n)).getLsbD (treeIndex n) = true ↔ _
        rw [mark_get hi]; simp
      · intro q hq
        simp only [Trie.all, List.append_nil, List.mem_singleton] at hq
        subst hq; exact put_eq _ _ _
    | true =>
      simp only [Bool.not_true, Bool.false_eq_true, if_false]
      have hne := t4.mp hmk
      have hT : T.At { l with index := put l.index p (treeIndex n), child := putC (putC l.child p true 0) p false 0 } (c.tbin (treeIndex n)) (l.root (treeIndex n)) :=
        at_congr t1 ⟨fun _ _ => rfl, fun _ _ => rfl, fun y hy => hclear y (ne_mem hy hpT), fun _ _ => rfl⟩
      have hleT : ∀ q ∈ T.all, c.least ≤ q := by
        intro q hq
        obtain ⟨x, hx, e⟩ := List.mem_map.mp (trees_mem (t3.mem_iff.mp hq))
        rw [← e]; exact (h.ok x hx).least
      have hndT : T.all.Nodup := t3.nodup_iff.mpr (by
        unfold trees
        exact (List.Sublist.map _ List.filter_sublist).nodup h.nd)
      have hlv := treeLevel_le _ hi
      obtain ⟨l', g1, T', g2, g3, g4, g5, g6⟩ := insertLoop_ok hf.sz hp0 T (treeLevel (treeIndex n)) (treeHigh (treeIndex n)) 70 (sizeBits n (treeIndex n)) _ _ _ hT hne t2 (tree_high hn256 hn40)
        (sizeBits_eq n hi) hlv (by omega) hndT hpT hzero hleT
      refine ⟨l', g1, others_tree h nd' ok' (fun y => y ∈ p :: T.all) ?_ ?_ ?_ ?_ ?_ ?_ e3 e2 ⟨T', by rw [g6.root]; exact g2, g3, ?_, ?_, ?_⟩⟩
      · intro y hy
        simp only [List.mem_cons] at hy
        rcases hy with e | hy
        · rw [e]; exact Or.inl ⟨hp, hph⟩
        · exact Or.inr (t3.mem_iff.mp hy)
      · refine ⟨fun y hy => g5.fd y hy, fun y hy => g5.bk y hy, fun y hy => ?_, fun y hy => g5.parent y hy⟩
        rw [g5.child y hy]
        exact hclear y (fun e => hy (by simp [e]))
      · intro y hy
        rw [g6.index]; exact put_ne _ _ (fun e => hy (by simp [e]))
      · rw [g6.smallmap]
      · intro j _; rw [g6.root]
      · intro j _; rw [g6.treemap]
      · rw [e1]; exact g4.trans (t3.cons p)
      · rw [g6.treemap]
        simp only [hmk, true_iff]
        rintro rfl
        have := g4.length_eq
        simp [Trie.all] at this
      · intro q hq
        have := g4.mem_iff.mp hq
        rw [g6.index]
        simp only [List.mem_cons] at this
        show put l.index p (treeIndex n) q = treeIndex n
        by_cases e : q = p
        · rw [e]; exact put_eq _ _ _
        · rw [put_ne _ _ e]; exact t5 q (this.resolve_left e)

end Arax.Dl
