import Verif.Dl.Bins
/-!
# The bins implement a list of chunks: unlinking
-/
namespace Arax.Dl

/-- `unlink_chunk` takes out the chunk. -/
theorem unlink_bins {c : Ctx} {l : Links} {as bs : List (Nat × Nat)} {p n : Nat} (h : BinsOK c l (as ++ (p, n) :: bs)) : ∃ l', l.unlink c p n = .ok l' ∧ BinsOK c l' (as ++ bs) := by
  have hmem : (p, n) ∈ as ++ (p, n) :: bs := by simp
  have hf := h.ok _ hmem
  have hp1 : p ∈ (as ++ (p, n) :: bs).map Prod.fst := List.mem_map_of_mem (f := Prod.fst) hmem
  have hsub : (as ++ bs).Sublist (as ++ (p, n) :: bs) := List.Sublist.append_left (List.sublist_cons_self _ _) _
  have nd' : ((as ++ bs).map Prod.fst).Nodup := (hsub.map _).nodup h.nd
  have ok' : ∀ x ∈ as ++ bs, Fits c x := fun x hx => h.ok x (hsub.subset hx)
  have hph : ∀ j < 32, p ≠ c.sbin j := hf.hdr
  have hleast : ∀ q ∈ (as ++ (p, n) :: bs).map Prod.fst, c.least ≤ q := by
    intro q hq
    obtain ⟨x, hx, e⟩ := List.mem_map.mp hq
    rw [← e]; exact (h.ok x hx).least
  unfold Links.unlink
  by_cases hsm : n / 8 < 32
  · rw [if_pos hsm]
    have hn256 : n < 256 := by omega
    have e0 : smalls (as ++ (p, n) :: bs) (n / 8) = smalls as (n / 8) ++ p :: smalls bs (n / 8) := by rw [smalls_append, smalls_cons, if_pos ⟨hn256, rfl⟩]
    have e1 : smalls (as ++ bs) (n / 8) = smalls as (n / 8) ++ smalls bs (n / 8) := smalls_append _ _ _
    have e2 : ∀ j < 32, j ≠ n / 8 → smalls (as ++ bs) j = smalls (as ++ (p, n) :: bs) j := fun j _ hj => by rw [smalls_append, smalls_append, smalls_cons, if_neg (fun ⟨_, e⟩ => hj e.symm)]
    have e3 : ∀ j < 32, trees (as ++ bs) j = trees (as ++ (p, n) :: bs) j := fun j _ => by rw [trees_append, trees_append, trees_cons, if_neg (fun ⟨e, _⟩ => by simp only at e; omega)]
    obtain ⟨s1, s2⟩ := h.small (n / 8) hsm
    have hring := s2 (by rw [e0]; simp)
    have hmk := s1.mpr (by rw [e0]; simp)
    have hring0 := hring
    rw [e0] at hring
    obtain ⟨r1, r2, r3, r4, r5⟩ := ring_at hring
    have hfb : l.fd p = c.sbin (n / 8) ∨ l.fd p ∈ smalls (as ++ (p, n) :: bs) (n / 8) := by
      rw [e0]; simp only [List.mem_append, List.mem_cons, List.not_mem_nil, or_false] at r3 ⊢
      rcases r3 with h | h
      · exact Or.inr (Or.inr (Or.inr h))
      · exact Or.inl h
    have hbb : l.bk p = c.sbin (n / 8) ∨ l.bk p ∈ smalls (as ++ (p, n) :: bs) (n / 8) := by
      rw [e0]; simp only [List.mem_append, List.mem_cons] at r4 ⊢
      exact r4.imp id Or.inl
    have c1 : l.fd p = c.sbin (n / 8) ∨ (c.least ≤ l.fd p ∧ l.bk (l.fd p) = p) := hfb.imp id fun hm => ⟨hleast _ (smalls_mem hm), r1⟩
    have c2 : l.bk p = c.sbin (n / 8) ∨ (c.least ≤ l.bk p ∧ l.fd (l.bk p) = p) := hbb.imp id fun hm => ⟨hleast _ (smalls_mem hm), r2⟩
    unfold Links.unlinkSmall
    simp only [if_pos c1, if_pos c2]
    by_cases he : l.bk p = l.fd p
    · rw [if_pos he]
      obtain ⟨n1, n2⟩ := r5.mp he
      refine ⟨_, rfl, others_small h hsm nd' ok' (fun _ => False) (fun y hy => hy.elim) ⟨fun _ _ => rfl, fun _ _ => rfl, fun _ _ => rfl, fun _ _ => rfl⟩ rfl rfl rfl ?_ e2 e3 ?_⟩
      · intro j hj
        show (l.smallmap &&& ~~~idx2bit (n / 8)).getLsbD j = _
        rw [clear_get hsm]; simp [hj]
      · rw [e1, n1, n2]
        refine ⟨?_, fun e => absurd rfl e⟩
        show (l.smallmap &&& ~~~idx2bit (n / 8)).getLsbD (n / 8) = true ↔ _
        rw [clear_get hsm]; simp
    · rw [if_neg he]
      refine ⟨_, rfl, others_small h hsm nd' ok' (fun y => y = l.fd p ∨ y = l.bk p) ?_ ?_ rfl rfl rfl (fun _ _ => rfl) e2 e3 ?_⟩
      · rintro y (rfl | rfl)
        · exact hfb.imp id Or.inr
        · exact hbb.imp id Or.inr
      · refine ⟨fun y hy => ?_, fun y hy => ?_, fun _ _ => rfl, fun _ _ => rfl⟩ <;> simp only [not_or] at hy
        · exact put_ne _ _ hy.2
        · exact put_ne _ _ hy.1
      · rw [e1]
        have hne : smalls as (n / 8) ++ smalls bs (n / 8) ≠ [] := fun e => he (r5.mpr (List.append_eq_nil_iff.mp e))
        exact ⟨iff_of_true hmk hne, fun _ => ring_remove hring⟩
  · rw [if_neg hsm]
    have hn256 : 256 ≤ n := by omega
    have hn40 : n < 2 ^ 40 := hf.max
    have hi := treeIndex_lt n
    have e0 : trees (as ++ (p, n) :: bs) (treeIndex n) = trees as (treeIndex n) ++ p :: trees bs (treeIndex n) := by rw [trees_append, trees_cons, if_pos ⟨hn256, rfl⟩]
    have e1 : trees (as ++ bs) (treeIndex n) = trees as (treeIndex n) ++ trees bs (treeIndex n) := trees_append _ _ _
    have e2 : ∀ j < 32, j ≠ treeIndex n → trees (as ++ bs) j = trees (as ++ (p, n) :: bs) j := fun j _ hj => by rw [trees_append, trees_append, trees_cons, if_neg (fun ⟨_, e⟩ => hj e.symm)]
    have e3 : ∀ j < 32, smalls (as ++ bs) j = smalls (as ++ (p, n) :: bs) j := fun j _ => by rw [smalls_append, smalls_append, smalls_cons, if_neg (fun ⟨e, _⟩ => by simp only at e; omega)]
    obtain ⟨T, t1, t2, t3, t4, t5⟩ := h.tree (treeIndex n) hi
    have hpT : p ∈ T.all := t3.mem_iff.mpr (by rw [e0]; simp)
    have hidx : l.index p = treeIndex n := t5 p hpT
    have hleT : ∀ q ∈ T.all, c.least ≤ q := fun q hq => hleast q (trees_mem (t3.mem_iff.mp hq))
    have hndT : T.all.Nodup := t3.nodup_iff.mpr (by
      unfold trees
      exact (List.Sublist.map _ List.filter_sublist).nodup h.nd)
    have hlv := treeLevel_le _ hi
    -- from a tree without `p`
    have hfin : ∀ {T' : Trie}, T.all.Perm (p :: T'.all) → T'.all.Perm (trees (as ++ bs) (treeIndex n)) := by
      intro T' hp
      have h2 := hp.symm.trans t3
      rw [e0] at h2
      rw [e1]
      exact (List.perm_cons p).mp (h2.trans List.perm_middle)
    have hP : ∀ y, y ∈ T.all → y ∉ (as ++ (p, n) :: bs).map Prod.fst ∧ (∀ j < 32, y ≠ c.sbin j) ∨ y ∈ trees (as ++ (p, n) :: bs) (treeIndex n) := fun y hy => Or.inr (t3.mem_iff.mp hy)
    by_cases hroot : p = l.root (treeIndex n)
    · obtain ⟨ring, lo, hi', hT⟩ : ∃ ring lo hi, T = .node p ring lo hi := by
        cases T with
        | leaf => simp [Trie.all] at hpT
        | node q r1 l1 h1 => exact ⟨r1, l1, h1, by rw [hroot, t1.1]⟩
      subst hT
      rw [← hroot] at t1
      obtain ⟨l1, r, k1, k2, k3, k4, k5⟩ := replacement_ok t1 t2 (by omega) hndT hleT h.least0
      have hpx : l.parent p = c.tbin (treeIndex n) := t1.2.2.1
      have ht0 : c.tbin (treeIndex n) ≠ 0 := by unfold Ctx.tbin; omega
      have hrl : l1.relinkParent c p (c.tbin (treeIndex n)) r =
          .ok { l1 with root := put l1.root (treeIndex n) r, treemap := if r = 0 then l1.treemap &&& ~~~idx2bit (treeIndex n) else l1.treemap } := by
        unfold Links.relinkParent
        rw [k3.index, hidx, k3.root, if_pos hroot]
      obtain ⟨l', j1, j2, j3, j4⟩ := finish (l2 := { l1 with root := put l1.root (treeIndex n) r, treemap := if r = 0 then l1.treemap &&& ~~~idx2bit (treeIndex n) else l1.treemap })
        (par := c.tbin (treeIndex n)) hndT hleT k5 ⟨fun _ _ => rfl, fun _ _ => rfl, fun _ _ => rfl, fun _ _ => rfl⟩ k2
      have hun : l.unlinkLarge c p = .ok l' := by
        unfold Links.unlinkLarge
        simp only [k1, Out.bind_ok]
        rw [if_pos (by rw [hpx]; exact ht0), hpx, hrl, Out.bind_ok, j1]
      obtain ⟨T', u1, u2, u3⟩ := j2
      have hj_index : l'.index = l.index := j4.index.trans k3.index
      have hj_root : l'.root = put l.root (treeIndex n) r := j4.root.trans (by rw [← k3.root])
      have hj_tree : l'.treemap = if r = 0 then l.treemap &&& ~~~idx2bit (treeIndex n) else l.treemap := j4.treemap.trans (by rw [← k3.treemap])
      have hmk : l.treemap.getLsbD (treeIndex n) = true := t4.mpr (by simp)
      refine ⟨l', hun, others_tree h nd' ok' (fun y => y ∈ (Trie.node p ring lo hi').all) hP ?_ (fun y _ => by rw [hj_index]) (j4.smallmap.trans k3.smallmap) ?_ ?_ e3 e2 ⟨T', ?_, u2, hfin u3, ?_, ?_⟩⟩
      · exact k2.trans ⟨j3.fd, j3.bk, j3.child, j3.parent⟩
      · intro j hj; rw [hj_root, put_ne _ _ hj]
      · intro j hj
        rw [hj_tree]
        split
        · rw [clear_get hi]; simp [hj]
        · rfl
      · rw [hj_root, put_eq]; exact u1
      · rw [hj_tree]
        have hz := at_zero u1
        split
        · rename_i e
          rw [clear_get hi]
          simp [hz.mp e]
        · rename_i e
          exact iff_of_true hmk (fun e' => e (hz.mpr e'))
      · intro q hq
        rw [hj_index]
        exact t5 q (u3.mem_iff.mpr (by simp [hq]))
    · obtain ⟨l', j1, ⟨T', u1, u2, u3⟩, j3, j4⟩ := unlink_inner h.least0 T _ _ _ _ l t1 t2 (by omega) hndT hleT hpT hroot (by rw [hidx]; exact hroot)
      refine ⟨l', j1, others_tree h nd' ok' (fun y => y ∈ T.all) hP j3 (fun y _ => by rw [j4.index]) j4.smallmap (fun j _ => by rw [j4.root]) (fun j _ => by rw [j4.treemap]) e3 e2
        ⟨T', by rw [j4.root]; exact u1, u2, hfin u3, ?_, ?_⟩⟩
      · rw [j4.treemap]
        refine iff_of_true (t4.mpr (by rintro rfl; simp [Trie.all] at hpT)) ?_
        rintro rfl
        have h0 : l.root (treeIndex n) = 0 := u1
        have hTl := (at_zero t1).mp h0
        subst hTl; simp [Trie.all] at hpT
      · intro q hq
        rw [j4.index]
        exact t5 q (u3.mem_iff.mpr (by simp [hq]))

/-- `unlink_first_small_chunk` takes out the first chunk of the bin. -/
theorem unlinkFirst_eq {c : Ctx} {l : Links} {bins : List (Nat × Nat)} (h : BinsOK c l bins) {i : Nat} (hi : i < 32) (hb : l.smallmap.getLsbD i = true) :
    ∃ n, (l.fd (c.sbin i), n) ∈ bins ∧ n / 8 = i ∧ n < 256 ∧ l.unlinkFirst c (c.sbin i) (l.fd (c.sbin i)) i = l.unlink c (l.fd (c.sbin i)) n := by
  obtain ⟨s1, s2⟩ := h.small i hi
  have hring := s2 (s1.mp hb)
  cases hs : smalls bins i with
  | nil => exact absurd hs (s1.mp hb)
  | cons q qs =>
    rw [hs] at hring
    have hfd : l.fd (c.sbin i) = q := hring.2.1
    have hbk : l.bk q = c.sbin i := hring.2.2.1
    obtain ⟨n, m1, m2, m3⟩ := mem_smalls.mp (by rw [hs]; simp : q ∈ smalls bins i)
    rw [hfd]
    refine ⟨n, m1, m3, m2, ?_⟩
    obtain ⟨r1, r2, r3, r4, r5⟩ := ring_at (xs := []) (p := q) (ys := qs) hring
    have hfq : l.fd q = c.sbin i ∨ (c.least ≤ l.fd q ∧ l.bk (l.fd q) = q) := by
      simp only [List.mem_append, List.mem_singleton] at r3
      rcases r3 with hm | e
      · refine Or.inr ⟨?_, r1⟩
        obtain ⟨x, hx, e⟩ := List.mem_map.mp (smalls_mem (by rw [hs]; simp [hm] : l.fd q ∈ smalls bins i))
        rw [← e]; exact (h.ok x hx).least
      · exact Or.inl e
    unfold Links.unlinkFirst Links.unlink Links.unlinkSmall
    simp only [m3, hbk, if_pos hfq, if_pos hi]
    by_cases e : c.sbin i = l.fd q
    · rw [if_pos e, if_pos e]
    · have h2 := hfq.resolve_left (fun e' => e e'.symm)
      simp [e, h2]
end Arax.Dl
