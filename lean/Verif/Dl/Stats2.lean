import Verif.Dl.Stats
/-!
# C75: what the statistics say
-/
namespace Arax.Dl
open Arax.Bitmap (bit Bmp)

/-- Total size of chunks. (No code of its own.) -/
def bytesOf (l : List (Nat × Ck)) : Nat := (l.map (fun x => x.2.n)).sum

theorem bytesOf_append (l l' : List (Nat × Ck)) : bytesOf (l ++ l') = bytesOf l + bytesOf l' := by simp [bytesOf]

theorem bytesOf_addrs (cs : List Ck) (a : Nat) : bytesOf (addrs a cs) = sz cs := by
  induction cs generalizing a with
  | nil => rfl
  | cons c cs ih => have := ih (a + c.n); simp only [bytesOf, addrs_cons, List.map_cons, List.sum_cons, sz_cons] at this ⊢; omega

/-- The bytes at the end of a segment, after the chunk with its record: the fenceposts. malloc.c:4113-4127. -/
def Seg.spare (g : Seg) : Nat := g.base + g.size - (g.link + 32)

theorem seg_bytes {m : Nat → Nat} {hrec top topsize : Nat} {g : Seg} {cs : List Ck} (h : SegOK m hrec top topsize g cs) :
    bytesOf ((addrs g.base cs).filter notTop) + (if g.link = hrec then topsize + 80 else g.spare) = g.size ∧ (g.link ≠ hrec → 32 ≤ g.spare ∧ g.spare ≤ 48) := by
  have hlim := h.lim
  obtain ⟨body, hbd, hkind⟩ := h.body
  have hbody : ∀ a, (addrs a body).filter notTop = addrs a body := fun a => List.filter_eq_self.mpr fun x hx => by
    have := hkind _ (addrs_kind hx); simp only [notTop]; rcases this with h | h <;> simp [h]
  by_cases e : g.link = hrec
  · rw [if_pos e] at hbd hlim ⊢
    have hsz : sz cs = sz body + topsize := by rw [hbd]; simp
    have h0 : (addrs g.base cs).filter notTop = addrs g.base body := by rw [hbd, addrs_append, List.filter_append, hbody]; simp [notTop]
    rw [h0, bytesOf_addrs]
    exact ⟨by omega, fun h => absurd e h⟩
  · rw [if_neg e] at hbd hlim ⊢
    have h0 : (addrs g.base cs).filter notTop = addrs g.base cs := by rw [hbd, addrs_append, List.filter_append, hbody]; simp [notTop]
    rw [h0, bytesOf_addrs]
    unfold Seg.spare
    exact ⟨by omega, fun _ => by omega⟩

theorem segs_bytes {cf : Conf} {s : Heap} {L : Lay} {D : List (Nat × Nat)} {env : Nat → Bool} (hi : Inv cf s L D env) :
    s.topsize + 80 + bytesOf ((flat L).filter notTop) + (s.segs.tail.map Seg.spare).sum = (s.segs.map Seg.size).sum ∧ ∀ g ∈ s.segs.tail, 32 ≤ g.spare ∧ g.spare ≤ 48 := by
  have hs := hi.segs
  have hok := hi.ok
  obtain ⟨x, T, rfl, hl, hT⟩ := hi.hd
  rw [hs, List.map_cons, List.tail_cons, List.map_cons, List.sum_cons]
  have h1 := seg_bytes (hok x (by simp))
  rw [if_pos hl] at h1
  have key : ∀ M : Lay, (∀ z ∈ M, SegOK s.mem s.hrec s.top s.topsize z.1 z.2 ∧ z.1.link ≠ s.hrec) →
      bytesOf ((flat M).filter notTop) + ((M.map Prod.fst).map Seg.spare).sum = ((M.map Prod.fst).map Seg.size).sum ∧ ∀ g ∈ M.map Prod.fst, 32 ≤ g.spare ∧ g.spare ≤ 48 := by
    intro M
    induction M with
    | nil => intro _; exact ⟨rfl, fun g h => by cases h⟩
    | cons z M ih =>
      intro h
      have ih := ih (fun z hz => h z (by simp [hz]))
      have h2 := seg_bytes (h z (by simp)).1
      rw [if_neg (h z (by simp)).2] at h2
      rw [flat_cons, List.filter_append, bytesOf_append]
      simp only [List.map_cons, List.sum_cons]
      refine ⟨by omega, fun g hg => ?_⟩
      rcases List.mem_cons.mp hg with rfl | hg
      · exact h2.2 (h z (by simp)).2
      · exact ih.2 g hg
  have h3 := key T (fun z hz => ⟨hok z (by simp [hz]), hT z hz⟩)
  rw [flat_cons, List.filter_append, bytesOf_append]
  exact ⟨by omega, h3.2⟩

/-- The chunks of one kind, as (address, size). (No code of its own.) -/
def kindOf (k : Kind) (l : List (Nat × Ck)) : List (Nat × Nat) := l.filterMap fun x => if x.2.k = k then some (x.1, x.2.n) else none

theorem mem_kindOf {k : Kind} {l : List (Nat × Ck)} {p n : Nat} : (p, n) ∈ kindOf k l ↔ (p, (⟨n, k⟩ : Ck)) ∈ l := by
  unfold kindOf
  rw [List.mem_filterMap]
  constructor
  · rintro ⟨x, hx, he⟩
    split at he
    · rename_i h
      simp only [Option.some.injEq, Prod.mk.injEq] at he
      obtain ⟨a, n', k'⟩ := x
      simp only at h he
      obtain ⟨rfl, rfl⟩ := he
      subst h; exact hx
    · cases he
  · intro h; exact ⟨_, h, by simp⟩

theorem sums {m : Nat → Nat} : ∀ (l : List (Nat × Ck)), (∀ y ∈ l, ∃ q, CkOK m y.1 q y.2) →
    (((l.filter notTop).map (seen m)).map (fun c => csize c.2)).sum = bytesOf (l.filter notTop) ∧
    ((((l.filter notTop).map (seen m)).filter (fun c => !isInuse c.2)).map (fun c => csize c.2)).sum = total (kindOf .free l) ∧
    bytesOf (l.filter notTop) = total (kindOf .free l) + total (kindOf .used l) + total (kindOf .link l)
  | [], _ => ⟨rfl, rfl, rfl⟩
  | y :: l, h => by
    obtain ⟨h1, h2, h3⟩ := sums l (fun y hy => h y (by simp [hy]))
    obtain ⟨q, hq⟩ := h y (by simp)
    have hc : csize (m (y.1 + 8)) = y.2.n := by rw [hq.head]; exact csize_enc _ _ hq.mul
    have hu : isInuse (m (y.1 + 8)) = !(!y.2.k.live && q) := by rw [hq.head]; exact isInuse_enc _ _ hq.mul
    have ha := hq.adj
    obtain ⟨a, n, k⟩ := y
    simp only at hc hu ha
    simp only [kindOf] at h2 h3 ⊢
    cases k <;> cases q <;> simp [Kind.live] at hu ha <;> simp [notTop, seen, bytesOf, total, hc, hu] at h1 h2 h3 ⊢ <;> omega

theorem flat_pairwise {cf : Conf} {s : Heap} {D : List (Nat × Nat)} {env : Nat → Bool} {L0 : Lay} (hi : Inv cf s L0 D env) : ∀ (L : Lay), (∀ z ∈ L, z ∈ L0) →
    (L.map (fun x => (x.1.base, x.1.size))).Pairwise Apart → (flat L).Pairwise (fun x y => x.1 + x.2.n ≤ y.1 ∨ y.1 + y.2.n ≤ x.1)
  | [], _, _ => List.Pairwise.nil
  | z :: L, hs, h => by
    rw [flat_cons, List.pairwise_append]
    rw [List.map_cons, List.pairwise_cons] at h
    refine ⟨(addrs_disj _ _).imp (fun h => Or.inl h), flat_pairwise hi L (fun z hz => hs z (by simp [hz])) h.2, ?_⟩
    intro x hx y hy
    obtain ⟨w, hw, hyw⟩ := List.mem_flatMap.mp hy
    have h1 := h.1 _ (List.mem_map_of_mem hw)
    have h2 := addrs_bounds hx
    have h3 := addrs_bounds hyw
    have h4 := (hi.ok z (hs z (by simp))).fits
    have h5 := (hi.ok w (hs w (by simp [hw]))).fits
    simp only [Apart] at h1
    omega

theorem flat_apart {cf : Conf} {s : Heap} {L : Lay} {D : List (Nat × Nat)} {env : Nat → Bool} (hi : Inv cf s L D env) : (flat L).Pairwise (fun x y => x.1 + x.2.n ≤ y.1 ∨ y.1 + y.2.n ≤ x.1) :=
  flat_pairwise hi L (fun _ h => h) (List.pairwise_append.mp hi.disj).1

theorem kind_apart {cf : Conf} {s : Heap} {L : Lay} {D : List (Nat × Nat)} {env : Nat → Bool} (hi : Inv cf s L D env) (k : Kind) : (kindOf k (flat L)).Pairwise Apart := by
  unfold kindOf
  rw [List.pairwise_filterMap]
  refine (flat_apart hi).imp ?_
  intro x y h b hb c hc
  split at hb
  · split at hc
    · simp only [Option.some.injEq] at hb hc
      subst hb; subst hc; exact h
    · cases hc
  · cases hb

theorem kind_nodup {cf : Conf} {s : Heap} {L : Lay} {D : List (Nat × Nat)} {env : Nat → Bool} (hi : Inv cf s L D env) (k : Kind) : (kindOf k (flat L)).Nodup := by
  refine apart_nodup (kind_apart hi k) ?_
  intro r hr
  have := addr_pos hi (mem_kindOf.mp hr)
  simp only at this; omega

/-- The bytes of the free chunks but the top. -/
theorem free_bytes {cf : Conf} {s : Heap} {L : Lay} {D : List (Nat × Nat)} {env : Nat → Bool} (hi : Inv cf s L D env) : total (kindOf .free (flat L)) = s.dvsize + (s.bins.map Prod.snd).sum := by
  rcases hi.dv with ⟨h0, h1⟩ | h0
  · rw [h1, Nat.zero_add]
    refine total_congr (kind_nodup hi _) hi.bnd ?_
    rintro ⟨p, n⟩
    rw [mem_kindOf, hi.bins]
    refine ⟨fun h => ⟨h, ?_⟩, fun h => h.1⟩
    have := addr_pos hi h; simp only at this; omega
  · have : s.dvsize + (s.bins.map Prod.snd).sum = total ((s.dv, s.dvsize) :: s.bins) := rfl
    rw [this]
    refine total_congr (kind_nodup hi _) ?_ ?_
    · rw [List.nodup_cons]
      exact ⟨fun h => ((hi.bins _ _).mp h).2 rfl, hi.bnd⟩
    · rintro ⟨p, n⟩
      rw [mem_kindOf, List.mem_cons, hi.bins]
      constructor
      · intro h
        by_cases e : p = s.dv
        · left
          have h2 := addr_pos hi h
          have h3 := addr_pos hi h0
          rcases flat_unique hi h h0 with h' | h' | h'
          · simp only [Prod.mk.injEq, Ck.mk.injEq] at h'; rw [h'.1, h'.2.1]
          · simp only at h' h2 h3; omega
          · simp only at h' h2 h3; omega
        · exact Or.inr ⟨h, e⟩
      · rintro (h | h)
        · rw [Prod.mk.injEq] at h; rw [h.1, h.2]; exact h0
        · exact h.1

/-- Sums of lists with no repetitions. -/
theorem total_le : ∀ {l l' : List (Nat × Nat)}, l.Nodup → (∀ r ∈ l, r ∈ l') → total l ≤ total l'
  | [], _, _, _ => Nat.zero_le _
  | a :: l, l', h, hs => by
    rw [List.nodup_cons] at h
    have h1 := (List.perm_cons_erase (hs a (by simp))).map Prod.snd |>.sum_nat
    have h2 := total_le (l := l) (l' := l'.erase a) h.2 (fun r hr => (List.mem_erase_of_ne (by intro e; subst e; exact h.1 hr)).mpr (hs r (by simp [hr])))
    unfold total at h2 ⊢
    simp only [List.map_cons, List.sum_cons] at h1 ⊢
    omega

/-- The blocks the users hold, with 8 bytes each, and the `malloc_state`, fit in what is not free. -/
theorem live_bytes {cf : Conf} {w : World} {L : Lay} {D : List (Nat × Nat)} (h : WInv cf w L D) : mstSize + (w.live.map (fun c => c.2 + 8)).sum ≤ total (kindOf .used (flat L)) + total D := by
  have hi := h.inv
  let f : Nat × Nat → Nat × Nat := fun c => (c.1 - 16, if isMmapped (w.heap.mem (c.1 - 16 + 8)) then csize (w.heap.mem (c.1 - 16 + 8)) + 32 else csize (w.heap.mem (c.1 - 16 + 8)))
  have hf : ∀ c ∈ w.live, 16 < c.1 ∧ c.2 + 8 ≤ (f c).2 ∧ c.1 - 16 ≠ w.heap.mst ∧ f c ∈ kindOf .used (flat L) ++ D := by
    intro c hc
    obtain ⟨p, n, e, hb, hn, hne⟩ := h.fwd c hc
    have hp := blk_pos hi hb
    have e1 : c.1 - 16 = p := by omega
    simp only [f, e1]
    rcases hb with hb | hb
    · obtain ⟨q, hq⟩ := flat_ok hi hb
      have hh := hq.head
      have hcs : csize (w.heap.mem (p + 8)) = n := by simp only at hh; rw [hh]; exact csize_enc _ _ hq.mul
      have hm : isMmapped (w.heap.mem (p + 8)) = false := by simp only at hh; rw [hh]; rw [isMmapped_enc _ _ hq.mul]; rfl
      rw [hm, hcs]
      exact ⟨by omega, by simpa using hn, hne, List.mem_append_left _ (mem_kindOf.mpr hb)⟩
    · have hd := hi.dir _ hb
      simp only at hd
      have hm : isMmapped (w.heap.mem (p + 8)) = true := by unfold isMmapped; simp; omega
      have hcs : csize (w.heap.mem (p + 8)) + 32 = n + 40 := by unfold csize; omega
      rw [hm, if_pos rfl, hcs]
      exact ⟨by omega, by omega, hne, List.mem_append_right _ hb⟩
  have hnd : ((w.heap.mst, mstSize) :: w.live.map f).Nodup := by
    rw [List.nodup_cons]
    constructor
    · intro hm
      obtain ⟨c, hc, e⟩ := List.mem_map.mp hm
      exact (hf c hc).2.2.1 (congrArg Prod.fst e)
    · have := h.nodup
      revert hf this
      generalize w.live = l
      induction l with
      | nil => intro _ _; exact List.nodup_nil
      | cons a l ih =>
        intro hf hn
        rw [List.map_cons, List.nodup_cons] at hn ⊢
        refine ⟨fun hm => ?_, ih (fun c hc => hf c (by simp [hc])) hn.2⟩
        obtain ⟨c, hc, e⟩ := List.mem_map.mp hm
        have h1 := congrArg Prod.fst e
        simp only [f] at h1
        have h2 := (hf a (by simp)).1
        have h3 := (hf c (by simp [hc])).1
        exact hn.1 (List.mem_map.mpr ⟨c, hc, by omega⟩)
  have h1 := total_le (l' := kindOf .used (flat L) ++ D) hnd (by
    intro r hr
    rcases List.mem_cons.mp hr with rfl | hr
    · exact List.mem_append_left _ (mem_kindOf.mpr hi.mst)
    · obtain ⟨c, hc, rfl⟩ := List.mem_map.mp hr
      exact (hf c hc).2.2.2)
  have h2 : (w.live.map (fun c => c.2 + 8)).sum ≤ total (w.live.map f) := by
    have : ∀ c ∈ w.live, c.2 + 8 ≤ (f c).2 := fun c hc => (hf c hc).2.1
    revert this
    generalize w.live = l
    induction l with
    | nil => intro _; exact Nat.le_refl _
    | cons a l ih =>
      intro h
      have := ih (fun c hc => h c (by simp [hc]))
      have := h a (by simp)
      simp only [total, List.map_cons, List.sum_cons] at *; omega
  simp only [total, List.map_append, List.sum_append, List.map_cons, List.sum_cons] at h1 h2 ⊢
  omega

end Arax.Dl
