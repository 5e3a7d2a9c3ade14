import Verif.Dl.Conc
/-!
# The invariant of overlapping calls, and what one part of a call does to it
-/
namespace Arax.Dl
open Arax.Bitmap (bit Bmp)

/-! ## Parts of calls and the invariant of all allocators -/

/-- What is true of the blocks of the users. (No code of its own.) -/
def Keeps (σ σ' : Sys) (gone : Nat → Nat × Nat → Prop) (wr : Nat → Prop) : Prop := ∀ j, ∀ c ∈ σ.live j, ¬ gone j c → c ∈ σ'.live j ∧ ∀ x, c.1 ≤ x → x < c.1 + c.2 → ¬ wr x → σ'.mem x = σ.mem x

/-- A first phase of `mspace_free`. -/
theorem SInv.freed {cf : Conf} {σ : Sys} {L : Nat → Lay} {D : Nat → List (Nat × Nat)} (h : SInv cf σ L D) {i : Nat} (hu : σ.up i = true) {a : Nat} (ha : a ∈ (σ.live i).map Prod.fst) :
    ∃ s ph L' D', freeHead cf { σ.heap i with mem := σ.mem, bmp := σ.bmp } a = .ok (s, ph) ∧ SInv cf (σ.after i ⟨s, (σ.live i).filter (·.1 != a), fun _ => false⟩) L' D' ∧ ph.Fine s ∧
      Keeps σ (σ.after i ⟨s, (σ.live i).filter (·.1 != a), fun _ => false⟩) (fun j c => j = i ∧ c.1 = a) (fun _ => False) := by
  have hw := h.one i hu
  obtain ⟨c, hc, hca⟩ := List.mem_map.mp ha
  obtain ⟨p, n, e, hb, hn, hne⟩ := hw.fwd c hc
  obtain ⟨s, ph, h1, ⟨⟨L', D', hi', hbl, hkeep⟩, hmst, hfr⟩, h3⟩ := freeHead_ok hw.inv hb hne
  have hap : a = p + 16 := by omega
  subst hap
  have hF : Frame cf (σ.foreign cf L D i) σ.mem s.mem := by rw [foreign_up hu]; exact hfr
  have hw' : WInv cf ⟨s, (σ.live i).filter (·.1 != p + 16), σ.foreign cf L D i⟩ L' D' := by
    rw [foreign_up hu]
    refine ⟨hi', ?_, ?_, ?_⟩
    · intro q k hq
      obtain ⟨hq, hqp⟩ := (hbl q k).mp hq
      rcases hw.back q k hq with h1 | ⟨b, h1⟩
      · left; simp only; rw [hmst]; exact h1
      · refine Or.inr ⟨b, ?_⟩
        simp only [List.mem_filter, bne_iff_ne, ne_eq]
        exact ⟨h1, by omega⟩
    · intro c' hc'
      simp only [List.mem_filter, bne_iff_ne, ne_eq] at hc'
      obtain ⟨q, k, e2, hbq, h3, h4⟩ := hw.fwd c' hc'.1
      exact ⟨q, k, e2, (hbl q k).mpr ⟨hbq, by omega⟩, h3, by simp only; rw [hmst]; exact h4⟩
    · exact hw.nodup.sublist (List.filter_sublist.map _)
  have hA := h.after hw' rfl hF
  refine ⟨s, ph, _, _, h1, hA, h3.fine hi'.trim, ?_⟩
  intro j c' hc' hg
  by_cases hji : j = i
  · subst hji
    have hne' : c'.1 ≠ p + 16 := fun e => hg ⟨rfl, e⟩
    refine ⟨by simp only [Sys.after, if_true, List.mem_filter, bne_iff_ne, ne_eq]; exact ⟨hc', hne'⟩, fun x hx hx' _ => ?_⟩
    obtain ⟨q, k, e2, hbq, h3, h4⟩ := hw.fwd c' hc'
    exact hkeep q k hbq ((hbl q k).mpr ⟨hbq, by omega⟩) x (by omega) (by omega)
  · exact ⟨by simp only [Sys.after, if_neg hji]; exact hc', fun x h1 h2 _ => h.other_bytes hji hF hc' h1 h2⟩

/-- A later phase of `mspace_free`. -/
theorem SInv.tidy {cf : Conf} {σ : Sys} {L : Nat → Lay} {D : Nat → List (Nat × Nat)} (h : SInv cf σ L D) {i : Nat} (hu : σ.up i = true) {ph : Phase} (hf : ph.Fine (σ.heap i)) :
    ∃ s ph' L' D', phStep cf { σ.heap i with mem := σ.mem, bmp := σ.bmp } ph = .ok (s, ph') ∧ SInv cf (σ.after i ⟨s, σ.live i, fun _ => false⟩) L' D' ∧ ph'.Fine s ∧
      Keeps σ (σ.after i ⟨s, σ.live i, fun _ => false⟩) (fun _ _ => False) (fun _ => False) ∧ (ph ≠ .done → ph'.left s < ph.left (σ.heap i)) := by
  have hw := h.one i hu
  have hf' : ph.Fine ({ σ.heap i with mem := σ.mem, bmp := σ.bmp } : Heap) := by cases ph <;> exact hf
  obtain ⟨s, ph', h1, ⟨⟨L', D', hi', hbl, hkeep⟩, hmst, hfr⟩, h3, h4⟩ := phStep_ok hw.inv hf'
  have hF : Frame cf (σ.foreign cf L D i) σ.mem s.mem := by rw [foreign_up hu]; exact hfr
  have hw' : WInv cf ⟨s, σ.live i, σ.foreign cf L D i⟩ L' D' := by
    rw [foreign_up hu]
    refine ⟨hi', ?_, ?_, hw.nodup⟩
    · intro q k hq
      rcases hw.back q k ((hbl q k).mp hq) with h1 | ⟨b, h1⟩
      · left; simp only; rw [hmst]; exact h1
      · exact Or.inr ⟨b, h1⟩
    · intro c' hc'
      obtain ⟨q, k, e2, hbq, h3, h4⟩ := hw.fwd c' hc'
      exact ⟨q, k, e2, (hbl q k).mpr hbq, h3, by simp only; rw [hmst]; exact h4⟩
  have hA := h.after hw' rfl hF
  refine ⟨s, ph', _, _, h1, hA, h3, ?_, fun hne => ?_⟩
  · intro j c' hc' _
    by_cases hji : j = i
    · subst hji
      refine ⟨by simp only [Sys.after, if_true]; exact hc', fun x hx hx' _ => ?_⟩
      obtain ⟨q, k, e2, hbq, h3, h4⟩ := hw.fwd c' hc'
      exact hkeep q k hbq ((hbl q k).mpr hbq) x (by omega) (by omega)
    · exact ⟨by simp only [Sys.after, if_neg hji]; exact hc', fun x h1 h2 _ => h.other_bytes hji hF hc' h1 h2⟩
  · have := h4 hne
    cases ph <;> exact this

/-- `mspace_malloc`. -/
theorem SInv.alloced {cf : Conf} {σ : Sys} {L : Nat → Lay} {D : Nat → List (Nat × Nat)} (h : SInv cf σ L D) {i : Nat} (hu : σ.up i = true) (bytes pick : Nat) :
    (malloc cf { σ.heap i with mem := σ.mem, bmp := σ.bmp } bytes pick = .noMem ∧ ∃ k, (Bitmap.alloc σ.bmp k).2 = none ∧ bytes < 4096 * k ∧ 4096 * k ≤ bytes + 65664) ∨
    ∃ s a L' D', malloc cf { σ.heap i with mem := σ.mem, bmp := σ.bmp } bytes pick = .ok (s, a) ∧
      SInv cf (σ.after i ⟨s, if a = 0 then σ.live i else (a, bytes) :: σ.live i, fun _ => false⟩) L' D' ∧
      Keeps σ (σ.after i ⟨s, if a = 0 then σ.live i else (a, bytes) :: σ.live i, fun _ => false⟩) (fun _ _ => False) (fun _ => False) ∧
      (a = 0 → 2 ^ 64 ≤ bytes + 65664) ∧ a ∉ (σ.live i).map Prod.fst := by
  have hd := at_did h hu (a := .alloc bytes pick) (Or.inl ⟨_, _, rfl⟩)
  have hat : σ.at cf i (.alloc bytes pick) = (malloc cf { σ.heap i with mem := σ.mem, bmp := σ.bmp } bytes pick).bind fun (s, a) =>
      .ok (σ.after i ⟨s, if a = 0 then σ.live i else (a, bytes) :: σ.live i, fun _ => false⟩) := by
    unfold Sys.at
    rw [if_pos hu]
    simp only [step, Sys.view]
    cases malloc cf { σ.heap i with mem := σ.mem, bmp := σ.bmp } bytes pick <;> rfl
  rw [hat] at hd
  have h0 : 0 ∉ (σ.live i).map Prod.fst := by
    intro h0
    obtain ⟨c, hc, e⟩ := List.mem_map.mp h0
    obtain ⟨p, n, e2, -⟩ := (h.one i hu).fwd c hc
    omega
  cases hm : malloc cf { σ.heap i with mem := σ.mem, bmp := σ.bmp } bytes pick with
  | corrupt =>
    rw [hm] at hd
    rcases hd with ⟨e, -⟩ | ⟨_, _, _, e, -⟩ <;> cases e
  | noMem =>
    rw [hm] at hd
    rcases hd with ⟨-, b, p, k, e, h1, h2, h3⟩ | ⟨_, _, _, e, -⟩
    · cases e; exact Or.inl ⟨rfl, k, h1, h2, h3⟩
    · cases e
  | ok r =>
    obtain ⟨s, a⟩ := r
    rw [hm] at hd
    simp only [Out.bind_ok] at hd
    rcases hd with ⟨e, -⟩ | ⟨w, L', D', e, hi, hk, hl⟩
    · cases e
    right
    have e := Out.ok.inj e
    have el : (σ.after i w).live i = w.live := by simp [Sys.after]
    have el' : (σ.after i ⟨s, if a = 0 then σ.live i else (a, bytes) :: σ.live i, fun _ => false⟩).live i = if a = 0 then σ.live i else (a, bytes) :: σ.live i := by simp [Sys.after]
    have hlive : w.live = if a = 0 then σ.live i else (a, bytes) :: σ.live i := by rw [← el, ← e, el']
    refine ⟨s, a, L', D', rfl, by rw [e]; exact hi, ?_, ?_, ?_⟩
    · rw [e]
      intro j c hc _
      obtain ⟨h1, h2⟩ := hk j c hc (fun _ b e => by cases e)
      exact ⟨h1, fun x hx hx' _ => h2 x hx hx' (fun v e => by cases e)⟩
    · intro ha
      rcases hl with ⟨m, h1, h2, h3⟩ | ⟨-, -, -, h4⟩
      · rw [hlive, if_pos ha] at h3
        have := congrArg List.length h3
        simp at this
      · exact h4
    · rcases hl with ⟨m, h1, h2, h3⟩ | ⟨h1, -, -, h4⟩
      · by_cases ha : a = 0
        · rw [ha]; exact h0
        · rw [hlive, if_neg ha] at h3
          simp only [List.cons.injEq, Prod.mk.injEq] at h3
          rw [h3.1.1]; exact h2
      · by_cases ha : a = 0
        · rw [ha]; exact h0
        · rw [hlive, if_neg ha] at h1
          have := congrArg List.length h1
          simp at this

/-- A failed search in the bitmap. -/
theorem SInv.cursor {cf : Conf} {σ : Sys} {L : Nat → Lay} {D : Nat → List (Nat × Nat)} (h : SInv cf σ L D) : SInv cf { σ with bmp := Bitmap.resetCursor σ.bmp } L D := by
  have e1 : (Bitmap.resetCursor σ.bmp).endc = σ.bmp.endc := by unfold Bitmap.resetCursor; split <;> rfl
  have e2 : (Bitmap.resetCursor σ.bmp).mem = σ.bmp.mem := by unfold Bitmap.resetCursor; split <;> rfl
  have e3 : (Bitmap.resetCursor σ.bmp).used = σ.bmp.used := by unfold Bitmap.resetCursor; split <;> rfl
  have e4 : (Bitmap.resetCursor σ.bmp).freeP = σ.bmp.freeP ∨ (Bitmap.resetCursor σ.bmp).freeP = 0 := by unfold Bitmap.resetCursor; split <;> simp
  have hb : bit (Bitmap.resetCursor σ.bmp) = bit σ.bmp := by funext i; rw [Bitmap.bit_of_mem, Bitmap.bit_of_mem, e2]
  have hok : BOK (Bitmap.resetCursor σ.bmp) := by
    refine ⟨?_, ?_, ?_⟩
    · have := h.bok.freeP; rw [e1]; rcases e4 with h | h <;> omega
    · rw [e1]; exact h.bok.small
    · rw [hb, e1, e3]; exact h.bok.used
  refine ⟨?_, h.two, hok, h.start, ?_, h.down, ?_, ?_⟩
  · intro i hu
    have hw := h.one i hu
    refine ⟨inv_foreign (s := { σ.heap i with mem := σ.mem, bmp := σ.bmp }) hw.inv (fun _ _ _ _ _ => rfl) ?_ hok ?_, hw.back, hw.fwd, hw.nodup⟩
    · intro r hr p hp; rw [hb]; exact (hw.inv.pages r hr p hp).1
    · rw [e1]; exact h.room.2
  · simp only [e1]; exact h.room
  · simp only [hb, e1]; exact h.only
  · simp only [hb]; exact h.lost

/-- A region no allocator has any more is returned. -/
theorem SInv.giveBack {cf : Conf} {σ : Sys} {L : Nat → Lay} {D : Nat → List (Nat × Nat)} (h : SInv cf σ L D) {r : Nat × Nat} (hal : r.1 % 4096 = 0 ∧ r.2 % 4096 = 0 ∧ 0 < r.2)
    (hlo : cf.start ≤ r.1 ∧ r.1 + r.2 ≤ cf.start + 4096 * (64 * σ.bmp.endc)) (hl : ∀ p, InReg cf r p → σ.lost p = true) (s0 : Heap) :
    ∃ b, munmap cf { s0 with mem := σ.mem, bmp := σ.bmp } r.1 r.2 = .ok { s0 with mem := σ.mem, bmp := b } ∧
      SInv cf { σ with bmp := b, lost := fun p => σ.lost p && !covers cf [r] p } L D := by
  have hc : ∀ p, covers cf [r] p = true ↔ InReg cf r p := by intro p; rw [covers_iff]; simp
  have hst := h.start
  have hR : Regs cf σ.bmp r.1 r.2 (r :: []) (others cf σ.bmp [r]) := by
    refine ⟨by simpa using hal, by simp, ?_, ?_, ?_, ?_, h.bok, by simp [total], h.start, h.room, by omega⟩
    · intro x hx; rw [List.mem_singleton] at hx; subst hx; exact ⟨hlo.1, Nat.le_refl _, hlo.2⟩
    · intro x hx p hp
      rw [List.mem_singleton] at hx; subst hx
      refine ⟨(h.lost p (hl p hp)).1, ?_⟩
      unfold others; rw [(hc p).mpr hp]; simp
    · intro p hp; unfold others at hp; simp only [Bool.and_eq_true] at hp; exact hp.1
    · intro _ p _ hb
      by_cases hcp : covers cf [r] p = true
      · exact Or.inr (covers_iff.mp hcp)
      · left; unfold others; simp [hb, hcp]
  obtain ⟨b, h1, h2, h3⟩ := munmap_ok (s := { s0 with mem := σ.mem, bmp := σ.bmp }) hR
  have h2 : b.endc = σ.bmp.endc := h2
  have hkeep : ∀ p, bit σ.bmp p = true → covers cf [r] p = false → bit b p = true := by
    intro p hp hcp
    exact h3.envb p (by unfold others; rw [hp, hcp]; rfl)
  have hup : ∀ i, σ.up i = true → ∀ p, covers cf (regs (L i) (D i)) p = true → covers cf [r] p = false := by
    intro i hi p hp
    cases hcp : covers cf [r] p with
    | false => rfl
    | true => have := (h.lost p (hl p ((hc p).mp hcp))).2 i hi; rw [hp] at this; cases this
  refine ⟨b, h1, ?_, h.two, h3.bmp, h.start, by simp only [h2]; exact h.room, h.down, ?_, ?_⟩
  · intro i hu
    have hw := h.one i hu
    refine ⟨inv_foreign (s := { σ.heap i with mem := σ.mem, bmp := σ.bmp }) hw.inv (fun _ _ _ _ _ => rfl) ?_ h3.bmp h3.top64.2, hw.back, hw.fwd, hw.nodup⟩
    intro x hx p hp
    exact hkeep p (hw.inv.pages x hx p hp).1 (hup i hu p (covers_iff.mpr ⟨x, hx, hp⟩))
  · intro hmr p hp hb
    simp only at hp hb ⊢
    rcases h3.only hmr p hp hb with h4 | ⟨x, hx, -⟩
    · unfold others at h4
      simp only [Bool.and_eq_true, Bool.not_eq_true'] at h4
      rcases h.only hmr p (by rw [← h2]; exact hp) h4.1 with h5 | h5
      · left; rw [h5, h4.2]; rfl
      · exact Or.inr h5
    · cases hx
  · intro p hp
    simp only [Bool.and_eq_true, Bool.not_eq_true'] at hp
    have h4 := h.lost p hp.1
    exact ⟨hkeep p h4.1 hp.2, h4.2⟩

/-- An allocator is no more, its regions are not yet returned. -/
theorem SInv.retire {cf : Conf} {σ : Sys} {L : Nat → Lay} {D : Nat → List (Nat × Nat)} (h : SInv cf σ L D) {i : Nat} (hu : σ.up i = true) :
    SInv cf { σ with live := fun j => if j = i then [] else σ.live j, up := fun j => if j = i then false else σ.up j, lost := fun p => σ.lost p || covers cf (((σ.heap i).segs.map fun (g : Seg) => (g.base, g.size)) ++ directs σ.mem (σ.live i)) p } L D := by
  have hw := h.one i hu
  have hsg : (σ.heap i).segs = (L i).map Prod.fst := hw.inv.segs
  have hmem : ∀ p, covers cf (((σ.heap i).segs.map fun (g : Seg) => (g.base, g.size)) ++ directs σ.mem (σ.live i)) p = covers cf (regs (L i) (D i)) p := by
    intro p
    apply covers_congr
    intro r
    unfold regs
    rw [hsg, List.map_map, List.mem_append, List.mem_append]
    have := directs_iff hw r
    have e : r ∈ directs σ.mem (σ.live i) ↔ r ∈ D i := this
    rw [e]; rfl
  have hup : ∀ j, (if j = i then false else σ.up j) = true → j ≠ i ∧ σ.up j = true := by
    intro j hj; split at hj
    · cases hj
    · rename_i hn; exact ⟨hn, hj⟩
  refine ⟨?_, ?_, h.bok, h.start, h.room, ?_, ?_, ?_⟩
  · intro j hj
    obtain ⟨hji, hj⟩ := hup j hj
    have := h.one j hj
    simp only [Sys.view, if_neg hji]
    exact this
  · intro j k hj hk hne p hp
    exact h.two j k (hup j hj).2 (hup k hk).2 hne p hp
  · intro j hj
    simp only at hj ⊢
    split
    · rfl
    · rename_i hji; rw [if_neg hji] at hj; exact h.down j hj
  · intro hmr p hp hb
    simp only
    rcases h.only hmr p hp hb with h4 | ⟨k, hk, hc⟩
    · left; rw [h4]; rfl
    · by_cases hki : k = i
      · subst hki; left; rw [hmem, hc]; simp
      · exact Or.inr ⟨k, by simp only [if_neg hki]; exact hk, hc⟩
  · intro p hp
    simp only [Bool.or_eq_true] at hp
    rcases hp with hp | hp
    · have h3 := h.lost p hp
      exact ⟨h3.1, fun k hk => h3.2 k (hup k hk).2⟩
    · rw [hmem] at hp
      obtain ⟨r, hr, hpr⟩ := covers_iff.mp hp
      exact ⟨(hw.inv.pages r hr p hpr).1, fun k hk => h.two i k hu (hup k hk).2 (fun e => (hup k hk).1 e.symm) p hp⟩

end Arax.Dl
