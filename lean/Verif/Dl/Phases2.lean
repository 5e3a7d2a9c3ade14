import Verif.Dl.Phases
/-!
# Every phase keeps the invariant
-/
namespace Arax.Dl
open Arax.Bitmap (bit Bmp)

/-- A heap that does not trim: with another trim threshold and counter. (No code of its own.) -/
def Heap.quiet (s : Heap) (B c : Nat) : Heap := { s with trim := B, checks := c }

theorem unlinkChunk_quiet (s : Heap) (p n B : Nat) : unlinkChunk (s.quiet B 2) p n = (unlinkChunk s p n).bind fun s => .ok (s.quiet B 2) := by
  unfold unlinkChunk
  by_cases h : (p, n) ∈ s.bins
  · rw [if_pos h, if_pos (show (p, n) ∈ (s.quiet B 2).bins from h)]; rfl
  · rw [if_neg h, if_neg (show (p, n) ∉ (s.quiet B 2).bins from h)]; rfl

theorem binFreed_quiet (cf : Conf) (s : Heap) (p n B : Nat) : ∃ c, binFreed cf (s.quiet B 2) p n = .ok ((binFreedHead s p n).1.quiet B c) := by
  unfold binFreed binFreedHead
  split
  · exact ⟨2, rfl⟩
  · refine ⟨1, ?_⟩
    show (if (2 - 1 : Nat) = 0 then _ else _) = _
    rw [if_neg (show ¬ (2 - 1 : Nat) = 0 by decide)]
    dsimp only
    split <;> rfl

theorem freeFwd_quiet (cf : Conf) (s : Heap) (p psize nx B : Nat) (hB : s.topsize + psize ≤ B) :
    ∃ c, freeFwd cf (s.quiet B 2) p psize nx = (freeFwdHead s p psize nx).bind fun (s', _) => .ok (s'.quiet B c) := by
  unfold freeFwd freeFwdHead
  have e : (s.quiet B 2).hd nx = s.hd nx := rfl
  rw [e]
  split
  · exact ⟨0, rfl⟩
  split
  · obtain ⟨c, h⟩ := binFreed_quiet cf { s with mem := setFreeP s.mem p psize nx } p psize B
    exact ⟨c, h⟩
  by_cases ht : nx = s.top
  · rw [if_pos ht, if_pos (show nx = (s.quiet B 2).top from ht)]
    refine ⟨2, ?_⟩
    dsimp only [Heap.quiet]
    split
    · dsimp only
      rw [if_neg (by omega)]
      split <;> rfl
    · dsimp only
      rw [if_neg (by omega)]
      split <;> rfl
  rw [if_neg ht, if_neg (show ¬ nx = (s.quiet B 2).top from ht)]
  by_cases hd : nx = s.dv
  · rw [if_pos hd, if_pos (show nx = (s.quiet B 2).dv from hd)]
    exact ⟨2, rfl⟩
  rw [if_neg hd, if_neg (show ¬ nx = (s.quiet B 2).dv from hd)]
  dsimp only
  rw [unlinkChunk_quiet]
  cases unlinkChunk s nx (csize (s.hd nx)) with
  | corrupt => exact ⟨0, rfl⟩
  | noMem => exact ⟨0, rfl⟩
  | ok s1 =>
    simp only [Out.bind_ok]
    by_cases hp : p = s1.dv
    · rw [if_pos hp, if_pos (show p = (s1.quiet B 2).dv from hp)]
      exact ⟨2, rfl⟩
    · rw [if_neg hp, if_neg (show ¬ p = (s1.quiet B 2).dv from hp)]
      obtain ⟨c, h⟩ := binFreed_quiet cf { s1 with mem := setFree s1.mem p (psize + csize (s.hd nx)) } p (psize + csize (s.hd nx)) B
      exact ⟨c, h⟩

theorem free_quiet (cf : Conf) (s : Heap) (a B : Nat) (hB : s.topsize + csize (s.hd (a - 16)) + s.mem (a - 16) ≤ B) :
    ∃ c, free cf (s.quiet B 2) a = (freeHead cf s a).bind fun (s', _) => .ok (s'.quiet B c) := by
  unfold free freeHead
  split
  · exact ⟨2, rfl⟩
  dsimp only
  have e : (s.quiet B 2).hd = s.hd := rfl
  have e2 : (s.quiet B 2).mem = s.mem := rfl
  have e3 : (s.quiet B 2).least = s.least := rfl
  have e4 : (s.quiet B 2).dv = s.dv := rfl
  rw [e, e2, e3, e4]
  split
  · exact ⟨0, rfl⟩
  split
  · exact freeFwd_quiet cf s _ _ _ B (by omega)
  split
  · have hu : ∀ x y, munmap cf (s.quiet B 2) x y = (munmap cf s x y).bind fun s => .ok (s.quiet B 2) := by
      intro x y; unfold munmap; dsimp only [Heap.quiet]; split <;> rfl
    rw [hu]
    refine ⟨2, ?_⟩
    cases munmap cf s (a - 16 - s.mem (a - 16)) (csize (s.hd (a - 16)) + s.mem (a - 16) + 32) <;> rfl
  split
  · exact ⟨0, rfl⟩
  split
  · rw [unlinkChunk_quiet]
    cases hs : unlinkChunk s (a - 16 - s.mem (a - 16)) (s.mem (a - 16)) with
    | corrupt => exact ⟨0, rfl⟩
    | noMem => exact ⟨0, rfl⟩
    | ok s1 =>
      simp only [Out.bind_ok]
      have : s1.topsize = s.topsize := by unfold unlinkChunk at hs; split at hs <;> cases hs; rfl
      exact freeFwd_quiet cf s1 _ _ _ B (by omega)
  split
  · exact ⟨2, rfl⟩
  · exact freeFwd_quiet cf s _ _ _ B (by omega)

/-- The trim threshold stays. -/
theorem binFreedHead_trim (s : Heap) (p n : Nat) : (binFreedHead s p n).1.trim = s.trim := by
  unfold binFreedHead; split
  · rfl
  · dsimp only; split <;> rfl

theorem freeFwdHead_trim {s s' : Heap} {p psize nx : Nat} {ph : Phase} (h : freeFwdHead s p psize nx = .ok (s', ph)) : s'.trim = s.trim := by
  unfold freeFwdHead at h
  split at h
  · cases h
  split at h
  · have h1 := binFreedHead_trim { s with mem := setFreeP s.mem p psize nx } p psize
    rw [Out.ok.inj h] at h1; exact h1
  split at h
  · dsimp only at h
    split at h <;> split at h <;> cases h <;> rfl
  split at h
  · cases h; rfl
  dsimp only at h
  cases hu : unlinkChunk s nx (csize (s.hd nx)) with
  | ok s1 =>
    have ht : s1.trim = s.trim := by unfold unlinkChunk at hu; split at hu <;> cases hu; rfl
    rw [hu] at h
    simp only [Out.bind_ok] at h
    split at h
    · cases h; exact ht
    · have h1 := binFreedHead_trim { s1 with mem := setFree s1.mem p (psize + csize (s.hd nx)) } p (psize + csize (s.hd nx))
      rw [Out.ok.inj h] at h1; exact h1.trans ht
  | corrupt => rw [hu] at h; cases h
  | noMem => rw [hu] at h; cases h

theorem freeHead_trim {cf : Conf} {s s' : Heap} {a : Nat} {ph : Phase} (h : freeHead cf s a = .ok (s', ph)) : s'.trim = s.trim := by
  unfold freeHead at h
  split at h
  · cases h; rfl
  dsimp only at h
  split at h
  · cases h
  split at h
  · exact freeFwdHead_trim h
  split at h
  · cases hu : munmap cf s (a - 16 - s.mem (a - 16)) (csize (s.hd (a - 16)) + s.mem (a - 16) + 32) with
    | ok s1 =>
      have ht : s1.trim = s.trim := by unfold munmap at hu; split at hu <;> cases hu; rfl
      rw [hu] at h; cases h; exact ht
    | corrupt => rw [hu] at h; cases h
    | noMem => rw [hu] at h; cases h
  split at h
  · cases h
  split at h
  · cases hu : unlinkChunk s (a - 16 - s.mem (a - 16)) (s.mem (a - 16)) with
    | ok s1 =>
      have ht : s1.trim = s.trim := by unfold unlinkChunk at hu; split at hu <;> cases hu; rfl
      rw [hu] at h; simp only [Out.bind_ok] at h; exact (freeFwdHead_trim h).trans ht
    | corrupt => rw [hu] at h; cases h
    | noMem => rw [hu] at h; cases h
  split at h
  · cases h; rfl
  · exact freeFwdHead_trim h

theorem Inv.uncalm {cf : Conf} {s : Heap} {L : Lay} {D : List (Nat × Nat)} {env : Nat → Bool} {B c : Nat} (hi : Inv cf (s.quiet B c) L D env) (ht : 2097152 ≤ s.trim) : Inv cf s L D env :=
  ⟨hi.segs, hi.ok, hi.hd, hi.bins, hi.bnd, hi.dv, hi.mst, hi.dir, hi.disj, hi.low, hi.pages, hi.envb, hi.only, hi.bmp, hi.foot, hi.start, hi.top64, hi.lpos, ht⟩

theorem Inv.quiet {cf : Conf} {s : Heap} {L : Lay} {D : List (Nat × Nat)} {env : Nat → Bool} {B c : Nat} (hi : Inv cf s L D env) (ht : 2097152 ≤ B) : Inv cf (s.quiet B c) L D env :=
  ⟨hi.segs, hi.ok, hi.hd, hi.bins, hi.bnd, hi.dv, hi.mst, hi.dir, hi.disj, hi.low, hi.pages, hi.envb, hi.only, hi.bmp, hi.foot, hi.start, hi.top64, hi.lpos, ht⟩

/-- The first phase frees the block. -/
theorem freeHead_ok {cf : Conf} {s : Heap} {L : Lay} {D : List (Nat × Nat)} {env : Nat → Bool} (hi : Inv cf s L D env) {p n : Nat} (hp : Blk L D p n) (hm : p ≠ s.mst) :
    ∃ s' ph, freeHead cf s (p + 16) = .ok (s', ph) ∧ Freed cf s L D env p s' ∧ ph.Starts s' := by
  obtain ⟨B, hB⟩ : ∃ B, B = 2097152 + (s.topsize + csize (s.hd (p + 16 - 16)) + s.mem (p + 16 - 16)) := ⟨_, rfl⟩
  obtain ⟨c, hc⟩ := free_quiet cf s (p + 16) B (by omega)
  have hi' : Inv cf (s.quiet B 2) L D env := hi.quiet (by omega)
  obtain ⟨r, h1, h2⟩ := free_ok hi' hp hm
  rw [h1] at hc
  cases hf : freeHead cf s (p + 16) with
  | corrupt => rw [hf] at hc; cases hc
  | noMem => rw [hf] at hc; cases hc
  | ok q =>
    obtain ⟨s', ph⟩ := q
    rw [hf] at hc
    simp only [Out.bind_ok, Out.ok.injEq] at hc
    subst hc
    have ht := freeHead_trim hf
    refine ⟨s', ph, rfl, ⟨?_, h2.mst, h2.frame⟩, freeHead_starts hf⟩
    obtain ⟨L', D', h3, h4, h5⟩ := h2.spec
    exact ⟨L', D', h3.uncalm (by rw [ht]; exact hi.trim), h4, h5⟩

/-- One pass of the loop of `release_unused_segments`. -/
theorem relPass_ok {cf : Conf} {D : List (Nat × Nat)} {env : Nat → Bool} (T : Lay) (x : Seg × List Ck) (done : Lay) (g : Seg) (cs : List Ck) (s : Heap)
    (hi : Inv cf s (x :: done ++ (g, cs) :: T) D env)
    (hcond : (!isInuse (s.hd (g.base + alignOff (g.base + 16))) && decide (g.base + g.size - topFoot ≤ g.base + alignOff (g.base + 16) + csize (s.hd (g.base + alignOff (g.base + 16))))) = true) :
    ∃ s1 s2, (if g.base + alignOff (g.base + 16) = s.dv then Out.ok { s with dv := 0, dvsize := 0 } else unlinkChunk s (g.base + alignOff (g.base + 16)) (csize (s.hd (g.base + alignOff (g.base + 16))))) = .ok s1 ∧
      munmap cf s1 g.base g.size = .ok s2 ∧ s2.segs = s.segs ∧ s2.mem = s.mem ∧ s2.mst = s.mst ∧ s2.trim = s.trim ∧ s2.topsize = s.topsize ∧
      Inv cf { s2 with foot := s2.foot - g.size, segs := (x :: done ++ T).map Prod.fst } (x :: done ++ T) D env ∧
      ∀ q n, Blk (x :: done ++ T) D q n ↔ Blk (x :: done ++ (g, cs) :: T) D q n := by
  have hb := (hi.ok (g, cs) (by simp)).base
  simp only at hb
  rw [alignOff_zero (a := g.base + 16) (by omega)] at hcond ⊢
  simp only [Nat.add_zero] at hcond ⊢
  obtain ⟨c, ys, rfl, hck, hcf⟩ := first_chunk (L1 := x :: done) hi
  have hhd : s.hd g.base = enc c true := hck.head
  simp only [hhd, isInuse_enc _ _ hck.mul, csize_enc _ _ hck.mul] at hcond ⊢
  have hlk : g.link ≠ s.hrec := by
    obtain ⟨y, T', he, h1, h2⟩ := hi.hd
    simp only [List.cons_append, List.cons.injEq] at he
    obtain ⟨rfl, rfl⟩ := he
    exact h2 (g, c :: ys) (by simp)
  simp only [Bool.and_true, Bool.not_not, Bool.and_eq_true, Bool.not_eq_true', decide_eq_true_eq, topFoot] at hcond
  have hk := hi.ok (g, c :: ys) (by simp)
  have hcfree := first_free hk hlk hcond.1
  obtain ⟨k, kk⟩ := c
  simp only at hcfree; subst hcfree
  have hys : ys = [⟨48, .link⟩] := by
    obtain ⟨bd, h1, h2⟩ := hk.body
    have hl := hk.lim
    have e : ¬ g.link = s.hrec := hlk
    rw [if_neg e] at h1 hl
    have hch := hk.chain
    cases bd with
    | nil => simp only [List.nil_append, List.cons.injEq, Ck.mk.injEq] at h1; simp at h1
    | cons b bd =>
      simp only [List.cons_append, List.cons.injEq] at h1
      obtain ⟨-, rfl⟩ := h1
      simp only [sz_cons, sz_append, sz_nil] at hl hcond
      cases bd with
      | nil => rfl
      | cons b2 bd =>
        exfalso
        have := hch.2.1.pos
        have hc2 := of_decide_eq_true hcond.2
        simp only [sz_cons] at hl this hc2
        omega
  subst hys
  have hpos := addr_pos hi hcf
  simp only at hpos
  have hcF : IsFree s g.base k := (isFree_iff hi _ _).mpr hcf
  obtain ⟨s1, hs1, hs1e, hs1b, hs1n, hs1d⟩ : ∃ s1 : Heap, (if g.base = s.dv then Out.ok { s with dv := 0, dvsize := 0 } else unlinkChunk s g.base k) = .ok s1 ∧
      (s1.mem = s.mem ∧ s1.top = s.top ∧ s1.topsize = s.topsize ∧ s1.mst = s.mst ∧ s1.trim = s.trim ∧ s1.bmp = s.bmp ∧ s1.least = s.least ∧ s1.foot = s.foot ∧ s1.segs = s.segs) ∧
      (∀ q n, (q, n) ∈ s1.bins ↔ IsFree s q n ∧ q ≠ g.base ∧ q ≠ s1.dv) ∧ s1.bins.Nodup ∧ ((s1.dv = 0 ∧ s1.dvsize = 0) ∨ (IsFree s s1.dv s1.dvsize ∧ s1.dv ≠ g.base)) := by
    by_cases hd : g.base = s.dv
    · rw [if_pos hd]
      refine ⟨_, rfl, ⟨rfl, rfl, rfl, rfl, rfl, rfl, rfl, rfl, rfl⟩, ?_, hi.bnd, Or.inl ⟨rfl, rfl⟩⟩
      intro q n
      simp only [IsFree]
      constructor
      · intro h
        have := addr_pos hi ((hi.bins _ _).mp h).1
        simp only at this
        exact ⟨Or.inl h, fun e => ((hi.bins _ _).mp h).2 (by rw [e]; exact hd), by omega⟩
      · rintro ⟨h | h, h2, h3⟩
        · exact h
        · exact absurd (h.1.trans hd.symm) h2
    · rw [if_neg hd]
      have hin : (g.base, k) ∈ s.bins := (hi.bins _ _).mpr ⟨hcf, hd⟩
      refine ⟨{ s with bins := s.bins.erase (g.base, k) }, by unfold unlinkChunk; rw [if_pos hin], ⟨rfl, rfl, rfl, rfl, rfl, rfl, rfl, rfl, rfl⟩, ?_, hi.bnd.erase _, ?_⟩
      · intro q n
        have := mem_erase_bins hi hin q n
        simp only at this ⊢
        rw [this]
        constructor
        · rintro ⟨h1, h2⟩; exact ⟨Or.inl h1, h2, ((hi.bins _ _).mp h1).2⟩
        · rintro ⟨h | h, h2, h3⟩
          · exact ⟨h, h2⟩
          · exact absurd h.1 h3
      · rcases hi.dv with h | h
        · exact Or.inl h
        · exact Or.inr ⟨(isFree_iff hi _ _).mpr h, Ne.symm hd⟩
  obtain ⟨f1, f2, f3, f4, f5, f6, f7, f8, f9⟩ := hs1e
  have hr0 := hi.regs.perm (regs_mid (x :: done) T g [⟨k, .free⟩, ⟨48, .link⟩] D)
  rw [← f6] at hr0
  obtain ⟨b', hmu, -, hreg⟩ := munmap_ok (s := s1) hr0
  simp only at hmu
  have hdrop := drop_seg (s' := { s1 with bmp := b', foot := s1.foot - g.size, segs := (x :: done ++ T).map Prod.fst }) hi (by simp only; rw [f7, f8]; exact hreg) ⟨f1, f2, f3, f4, f5⟩ rfl hs1b hs1n hs1d
  exact ⟨s1, _, hs1, hmu, f9, f1, f4, f5, f3, hdrop.1, hdrop.2⟩

/-- The phase is one that a call can be in. (No code of its own.) -/
def Phase.Fine (s : Heap) : Phase → Prop
  | .done => True
  | .trim => 2097152 < s.topsize
  | .rel j _ _ _ => 1 ≤ j

theorem Phase.Starts.fine {s : Heap} {ph : Phase} (h : ph.Starts s) (ht : 2097152 ≤ s.trim) : ph.Fine s := by
  cases ph with
  | done => trivial
  | trim => simp only [Phase.Starts] at h; simp only [Phase.Fine]; omega
  | rel => obtain ⟨rfl, -⟩ := h; exact Nat.le_refl _

/-- How many phases are left, at most. (No code of its own.) -/
def Phase.left (s : Heap) : Phase → Nat
  | .done => 0
  | .trim => s.segs.length + 2
  | .rel j _ _ _ => s.segs.length - j + 1

theorem Tidy.refl {cf : Conf} {s : Heap} {L : Lay} {D : List (Nat × Nat)} {env : Nat → Bool} (hi : Inv cf s L D env) : Tidy cf s L D env s :=
  ⟨⟨L, D, hi, fun _ _ => Iff.rfl, fun _ _ _ _ _ _ _ => rfl⟩, rfl, fun _ _ _ => rfl⟩

theorem trimTop_length {cf : Conf} {s s' : Heap} {r : Nat} (h : trimTop cf s = .ok (s', r)) : s'.segs.length = s.segs.length := by
  unfold trimTop at h
  split at h
  · dsimp only at h
    split at h
    · cases h
    · split at h
      · rename_i g _ _
        cases hx : (if cf.mremap = true then Out.ok s else munmap cf s (g.base + (g.size - ((s.topsize - topFoot + 65535) / 65536 - 1) * 65536)) (((s.topsize - topFoot + 65535) / 65536 - 1) * 65536)) with
        | corrupt => rw [hx] at h; cases h
        | noMem => rw [hx] at h; cases h
        | ok s1 =>
          have h1 : s1.segs = s.segs := by
            split at hx
            · cases hx; rfl
            · exact munmap_segs hx
          rw [hx] at h
          simp only [Out.bind_ok] at h
          split at h
          · cases h; simp [initTop, h1]
          · cases h; rw [h1]
      · cases h; rfl
  · cases h; rfl

/-- Every phase keeps the invariant, and brings the call nearer to its end. -/
theorem phStep_ok {cf : Conf} {s : Heap} {L : Lay} {D : List (Nat × Nat)} {env : Nat → Bool} (hi : Inv cf s L D env) {ph : Phase} (hf : ph.Fine s) :
    ∃ s' ph', phStep cf s ph = .ok (s', ph') ∧ Tidy cf s L D env s' ∧ ph'.Fine s' ∧ (ph ≠ .done → ph'.left s' < ph.left s) := by
  cases ph with
  | done => exact ⟨s, .done, rfl, Tidy.refl hi, trivial, fun h => absurd rfl h⟩
  | trim =>
    obtain ⟨s', r, h1, h2⟩ := trimTop_ok hi hf
    refine ⟨s', .rel 1 0 (r != 0) true, by simp only [phStep, h1, Out.bind_ok], h2, Nat.le_refl _, fun _ => ?_⟩
    simp only [Phase.left, trimTop_length h1]; omega
  | rel j n freed auto =>
    simp only [Phase.Fine] at hf
    simp only [phStep, relStep]
    have hsg := hi.segs
    cases hg : s.segs[j]? with
    | none =>
      refine ⟨_, _, rfl, ⟨⟨L, D, ?_, fun _ _ => Iff.rfl, fun _ _ _ _ _ _ _ => rfl⟩, rfl, fun _ _ _ => rfl⟩, trivial, fun _ => by simp [Phase.left]⟩
      refine hi.misc _ _ _ ?_
      split
      · unfold W; omega
      · exact hi.trim
    | some g =>
      simp only
      have hlt : j < s.segs.length := by
        rcases Nat.lt_or_ge j s.segs.length with h | h
        · exact h
        · rw [List.getElem?_eq_none h] at hg; cases hg
      split
      · rename_i hcond
        rw [hsg, List.getElem?_map] at hg
        cases hL : L[j]? with
        | none => rw [hL] at hg; cases hg
        | some z =>
          rw [hL] at hg
          simp only [Option.map_some, Option.some.injEq] at hg
          obtain ⟨g', cs⟩ := z
          simp only at hg; subst hg
          obtain ⟨x, T0, rfl, -, -⟩ := hi.hd
          obtain ⟨j, rfl⟩ : ∃ j', j = j' + 1 := ⟨j - 1, by omega⟩
          simp only [List.getElem?_cons_succ] at hL
          have hsplit : T0 = T0.take j ++ (g', cs) :: T0.drop (j + 1) := by
            have h1 := List.getElem?_eq_some_iff.mp hL
            obtain ⟨h1, h2⟩ := h1
            rw [← h2, List.getElem_cons_drop, List.take_append_drop]
          have hlen : (T0.take j).length = j := by
            have h1 := (List.getElem?_eq_some_iff.mp hL).1
            rw [List.length_take]; omega
          generalize hA : T0.take j = A at hsplit hlen
          generalize T0.drop (j + 1) = T at hsplit
          subst hsplit
          have hi' : Inv cf s (x :: A ++ (g', cs) :: T) D env := hi
          obtain ⟨s1, s2, h1, h2, h3, h4, h5, h6, h7, h8, h9⟩ := relPass_ok T x A g' cs s hi' hcond
          rw [h1]
          simp only [Out.bind_ok]
          rw [h2]
          simp only [Out.bind_ok]
          have herase : s2.segs.eraseIdx (j + 1) = (x :: A ++ T).map Prod.fst := by
            rw [h3, hsg, List.map_cons, List.eraseIdx_cons_succ, List.map_append, List.map_cons, List.eraseIdx_append_of_length_le (by rw [List.length_map]; omega), List.length_map, hlen]
            simp
          rw [herase]
          refine ⟨_, _, rfl, ⟨⟨x :: A ++ T, D, h8, h9, ?_⟩, h5, fun y _ _ => ?_⟩, by simp only [Phase.Fine]; omega, fun _ => ?_⟩
          · intro p n _ _ y _ _; show s2.mem y = s.mem y; rw [h4]
          · show s2.mem y = s.mem y; rw [h4]
          · have e : s.segs.length = A.length + T.length + 2 := by rw [hsg]; simp; omega
            simp only [Phase.left, List.length_map, List.length_append, List.length_cons]; omega
      · refine ⟨_, _, rfl, Tidy.refl hi, by simp only [Phase.Fine]; omega, fun _ => ?_⟩
        simp only [Phase.left]; omega

/-! ## Without others, the phases are `mspace_free` -/

theorem releaseLoop_foot {cf : Conf} : ∀ {T : List Seg} {s : Heap} {r : List Seg × Heap}, releaseLoop cf T s = .ok r → (∀ g ∈ T, 0 < g.size) → 0 < s.foot →
    r.2.foot ≤ s.foot ∧ (r.1.length < T.length → r.2.foot < s.foot) ∧ (r.1.length = T.length → r.2.foot = s.foot)
  | [], s, r, h, _, _ => by cases h; simp
  | g :: T, s, r, h, hT, hs => by
    unfold releaseLoop at h
    dsimp only at h
    have hg := hT g List.mem_cons_self
    have hT' : ∀ g ∈ T, 0 < g.size := fun g h => hT g (List.mem_cons_of_mem _ h)
    split at h
    · cases hx : (if g.base + alignOff (g.base + 16) = s.dv then Out.ok { s with dv := 0, dvsize := 0 } else unlinkChunk s (g.base + alignOff (g.base + 16)) (csize (s.hd (g.base + alignOff (g.base + 16))))) with
      | corrupt => rw [hx] at h; cases h
      | noMem => rw [hx] at h; cases h
      | ok s1 =>
        have f1 : s1.foot = s.foot := by
          split at hx
          · cases hx; rfl
          · unfold unlinkChunk at hx; split at hx <;> cases hx; rfl
        rw [hx] at h
        simp only [Out.bind_ok] at h
        cases hm : munmap cf s1 g.base g.size with
        | corrupt => rw [hm] at h; cases h
        | noMem => rw [hm] at h; cases h
        | ok s2 =>
          have f2 : s2.foot = s1.foot := by unfold munmap at hm; split at hm <;> cases hm; rfl
          rw [hm] at h
          simp only [Out.bind_ok] at h
          have hlen := relLoop_eq.releaseLoop_length h
          have hle := releaseLoop_foot_le h
          simp only at hle
          simp only [List.length_cons]
          omega
    · cases hr : releaseLoop cf T s with
      | corrupt => rw [hr] at h; cases h
      | noMem => rw [hr] at h; cases h
      | ok r' =>
        rw [hr] at h
        cases h
        have := releaseLoop_foot hr hT' hs
        simp only [List.length_cons]; omega
where
  releaseLoop_foot_le {cf : Conf} : ∀ {T : List Seg} {s : Heap} {r : List Seg × Heap}, releaseLoop cf T s = .ok r → r.2.foot ≤ s.foot
  | [], s, r, h => by cases h; simp
  | g :: T, s, r, h => by
    unfold releaseLoop at h
    dsimp only at h
    split at h
    · cases hx : (if g.base + alignOff (g.base + 16) = s.dv then Out.ok { s with dv := 0, dvsize := 0 } else unlinkChunk s (g.base + alignOff (g.base + 16)) (csize (s.hd (g.base + alignOff (g.base + 16))))) with
      | corrupt => rw [hx] at h; cases h
      | noMem => rw [hx] at h; cases h
      | ok s1 =>
        have f1 : s1.foot = s.foot := by
          split at hx
          · cases hx; rfl
          · unfold unlinkChunk at hx; split at hx <;> cases hx; rfl
        rw [hx] at h
        simp only [Out.bind_ok] at h
        cases hm : munmap cf s1 g.base g.size with
        | corrupt => rw [hm] at h; cases h
        | noMem => rw [hm] at h; cases h
        | ok s2 =>
          have f2 : s2.foot = s1.foot := by unfold munmap at hm; split at hm <;> cases hm; rfl
          rw [hm] at h
          simp only [Out.bind_ok] at h
          have hle := releaseLoop_foot_le h
          simp only at hle
          omega
    · cases hr : releaseLoop cf T s with
      | corrupt => rw [hr] at h; cases h
      | noMem => rw [hr] at h; cases h
      | ok r' =>
        rw [hr] at h
        cases h
        have := releaseLoop_foot_le hr
        exact this

/-- `release_unused_segments`, pass by pass. -/
theorem rel_alone {cf : Conf} {s : Heap} {L : Lay} {D : List (Nat × Nat)} {env : Nat → Bool} (hi : Inv cf s L D env) (f auto : Bool) :
    phRun cf s.segs.length s (.rel 1 0 f auto) =
      (releaseUnused cf s).bind fun s2 => .ok ({ s2 with trim := if auto && !(f || decide (s2.foot ≠ s.foot)) && decide (s2.topsize > s2.trim) then W - 1 else s2.trim }, .done) := by
  obtain ⟨x, T0, rfl, -, -⟩ := hi.hd
  have hsg := hi.segs
  rw [List.map_cons] at hsg
  have hfoot : 0 < s.foot ∧ ∀ g ∈ T0.map Prod.fst, 0 < g.size := by
    have h1 := hi.foot
    have h2 := hi.regs.al
    have h3 : (x.1.base, x.1.size) ∈ regs (x :: T0) D := by unfold regs; simp
    have h4 : x.1.size ≤ total (regs (x :: T0) D) := by unfold regs total; simp
    have h5 := h2 _ h3
    simp only at h5
    refine ⟨by omega, ?_⟩
    intro g hg
    obtain ⟨z, hz, rfl⟩ := List.mem_map.mp hg
    exact (h2 (z.1.base, z.1.size) (by unfold regs; simp only [List.map_cons, List.cons_append, List.mem_cons, List.mem_append, List.mem_map]; exact Or.inr (Or.inl ⟨z, hz, rfl⟩))).2.2
  have key := relLoop_eq cf auto (T0.map Prod.fst) [x.1] s 0 f 1
  have e : ({ s with segs := [x.1] ++ T0.map Prod.fst } : Heap) = s := by
    have : [x.1] ++ T0.map Prod.fst = s.segs := by rw [hsg]; rfl
    rw [this]
  rw [e] at key
  simp only [List.length_cons, List.length_nil, Nat.zero_add] at key
  rw [show s.segs.length = (T0.map Prod.fst).length + 1 by rw [hsg]; simp, key]
  unfold releaseUnused
  rw [hsg]
  dsimp only
  cases hr : releaseLoop cf (T0.map Prod.fst) s with
  | corrupt => rfl
  | noMem => rfl
  | ok r =>
    simp only [Out.bind_ok, phRun, phStep, relStep]
    have h1 : ([x.1] ++ r.1)[1 + r.1.length]? = none := by rw [List.getElem?_eq_none]; simp; omega
    rw [h1]
    simp only [Out.bind_ok]
    have hlen := relLoop_eq.releaseLoop_length hr
    obtain ⟨g1, g2, g3⟩ := releaseLoop_foot hr hfoot.2 hfoot.1
    have h2 : decide (r.1.length < (T0.map Prod.fst).length) = decide (r.2.foot ≠ s.foot) := by
      rw [decide_eq_decide]
      constructor
      · intro h; have := g2 h; omega
      · intro h
        rcases Nat.lt_or_ge r.1.length (T0.map Prod.fst).length with h' | h'
        · exact h'
        · exact absurd (g3 (by omega)) h
    rw [h2]
    simp

/-- **C78** Alone, the phases of a call of `mspace_free` do what the call does. -/
theorem C78_alone {cf : Conf} {s : Heap} {L : Lay} {D : List (Nat × Nat)} {env : Nat → Bool} (hi : Inv cf s L D env) {p n : Nat} (hp : Blk L D p n) (hm : p ≠ s.mst) :
    ∃ k, ((freeHead cf s (p + 16)).bind fun (s, ph) => phRun cf k s ph) = (free cf s (p + 16)).bind fun s => .ok (s, .done) := by
  rw [free_head]
  obtain ⟨s1, ph, h1, h2, h3⟩ := freeHead_ok hi hp hm
  rw [h1]
  simp only [Out.bind_ok]
  obtain ⟨L1, D1, hi1, -, -⟩ := h2.spec
  cases ph with
  | done => exact ⟨0, rfl⟩
  | rel j n f au =>
    obtain ⟨rfl, rfl, rfl, rfl⟩ := h3
    refine ⟨s1.segs.length, ?_⟩
    rw [rel_alone hi1]
    simp only [rest, Bool.false_and, Bool.false_eq_true, if_false]
  | trim =>
    simp only [Phase.Starts] at h3
    have h3' : (Phase.trim).Fine s1 := by simp only [Phase.Fine]; have := hi1.trim; omega
    obtain ⟨s2, r, h4, h5⟩ := trimTop_ok hi1 h3'
    obtain ⟨L2, D2, hi2, -, -⟩ := h5.spec
    refine ⟨s2.segs.length + 1, ?_⟩
    simp only [phRun, phStep, h4, Out.bind_ok, rest, sysTrim]
    rw [rel_alone hi2]
    obtain ⟨s3, h6, -, -, -⟩ := releaseUnused_ok hi2
    rw [h6]
    simp only [Out.bind_ok]
    have : (true && !((r != 0) || decide (s3.foot ≠ s2.foot)) && decide (s3.topsize > s3.trim)) = decide (r = 0 ∧ s3.foot = s2.foot ∧ s3.topsize > s3.trim) := by
      by_cases c1 : r = 0 <;> by_cases c2 : s3.foot = s2.foot <;> by_cases c3 : s3.topsize > s3.trim <;> simp [c1, c2, c3]
    rw [this]
    by_cases hc : r = 0 ∧ s3.foot = s2.foot ∧ s3.topsize > s3.trim
    · simp [hc]
    · simp [hc]

end Arax.Dl
