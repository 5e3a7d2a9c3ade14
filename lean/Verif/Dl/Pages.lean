import Verif.Dl.Props
/-!
# C74: which pages the allocators hold
-/
namespace Arax.Dl
open Arax.Bitmap (bit Bmp)

/-- The regions an allocator has: its segments, and its directly mapped blocks. malloc.c:2518-2524, 3921-3952. -/
def Sys.regions (σ : Sys) (i : Nat) : List (Nat × Nat) := (σ.heap i).segs.map (fun g => (g.base, g.size)) ++ directs σ.mem (σ.live i)

/-- `mspace_footprint`. malloc.c:6115-6123. -/
def Sys.footprint (σ : Sys) (i : Nat) : Nat := (σ.heap i).foot

theorem regions_iff {cf : Conf} {σ : Sys} {L : Nat → Lay} {D : Nat → List (Nat × Nat)} (h : SInv cf σ L D) {i : Nat} (hu : σ.up i = true) (r : Nat × Nat) : r ∈ σ.regions i ↔ r ∈ regs (L i) (D i) := by
  have hw := h.one i hu
  have hs : (σ.heap i).segs = (L i).map Prod.fst := hw.inv.segs
  unfold Sys.regions regs
  rw [hs, List.map_map, List.mem_append, List.mem_append]
  exact or_congr Iff.rfl (directs_iff hw r)

theorem regions_covers {cf : Conf} {σ : Sys} {L : Nat → Lay} {D : Nat → List (Nat × Nat)} (h : SInv cf σ L D) {i : Nat} (hu : σ.up i = true) (p : Nat) : covers cf (σ.regions i) p = covers cf (regs (L i) (D i)) p :=
  covers_congr (regions_iff h hu) p

/-- **C74** (partial: for builds where `CALL_MREMAP` is not the system's `mremap`, and with the pages that destroyed allocators leave behind; `C74_destroy_violated` and `C74_trim_violated` are about these.)
A page is taken exactly if it is in a region of an existing allocator, or was left behind; and no page is in regions of two allocators. -/
theorem C74_pages_partial {g : Seat} {σ : Sys} (h : Reached g false σ) {p : Nat} (hp : p < 64 * ((g.pages + 63) / 64)) :
    (bit σ.bmp p = true ↔ σ.lost p = true ∨ ∃ i, σ.up i = true ∧ covers (g.conf false) (σ.regions i) p = true) ∧
    (∀ i j, σ.up i = true → σ.up j = true → covers (g.conf false) (σ.regions i) p = true → covers (g.conf false) (σ.regions j) p = true → i = j) ∧
    (σ.lost p = true → ∀ i, σ.up i = true → covers (g.conf false) (σ.regions i) p = false) := by
  obtain ⟨L, D, hi⟩ := reached_inv h
  have hroom : σ.bmp.endc = (g.pages + 63) / 64 := hi.room.2
  refine ⟨⟨fun hb => ?_, fun hb => ?_⟩, ?_, ?_⟩
  · rcases hi.only rfl p (by rw [hroom]; exact hp) hb with h1 | ⟨i, hu, h1⟩
    · exact Or.inl h1
    · exact Or.inr ⟨i, hu, by rw [regions_covers hi hu]; exact h1⟩
  · rcases hb with h1 | ⟨i, hu, h1⟩
    · exact (hi.lost p h1).1
    · rw [regions_covers hi hu] at h1
      obtain ⟨r, hr, h2⟩ := covers_iff.mp h1
      exact ((hi.one i hu).inv.pages r hr p h2).1
  · intro i j hu hu' h1 h2
    rw [regions_covers hi hu] at h1
    rw [regions_covers hi hu'] at h2
    by_cases hij : i = j
    · exact hij
    · have := hi.two i j hu hu' hij p h1
      rw [this] at h2; cases h2
  · intro h1 i hu
    rw [regions_covers hi hu]
    exact (hi.lost p h1).2 i hu

/-- Sums of lists with the same members. -/
theorem total_congr {l l' : List (Nat × Nat)} (h : l.Nodup) (h' : l'.Nodup) (hm : ∀ r, r ∈ l ↔ r ∈ l') : total l = total l' := by
  unfold total
  exact ((List.perm_ext_iff_of_nodup h h').mpr hm |>.map Prod.snd).sum_nat

theorem apart_nodup {l : List (Nat × Nat)} (h : l.Pairwise Apart) (hp : ∀ r ∈ l, 0 < r.2) : l.Nodup := by
  induction l with
  | nil => exact List.nodup_nil
  | cons a l ih =>
    rw [List.pairwise_cons] at h
    rw [List.nodup_cons]
    refine ⟨fun hm => ?_, ih h.2 (fun r hr => hp r (List.mem_cons_of_mem _ hr))⟩
    have h1 := h.1 a hm
    have h2 := hp a List.mem_cons_self
    unfold Apart at h1; omega

theorem directs_nodup {cf : Conf} {w : World} {L : Lay} {D : List (Nat × Nat)} (h : WInv cf w L D) : (directs w.heap.mem w.live).Nodup := by
  have key : ∀ l : List (Nat × Nat), (l.map Prod.fst).Nodup → (∀ c ∈ l, 16 < c.1) → (directs w.heap.mem l).Nodup := by
    intro l
    induction l with
    | nil => intro _ _; exact List.nodup_nil
    | cons a l ih =>
      intro h1 h2
      rw [List.map_cons, List.nodup_cons] at h1
      have ih := ih h1.2 (fun c hc => h2 c (List.mem_cons_of_mem _ hc))
      unfold directs at ih ⊢
      rw [List.filterMap_cons]
      split
      · exact ih
      · rename_i b hb
        rw [List.nodup_cons]
        refine ⟨fun hm => ?_, ih⟩
        obtain ⟨c, hc, he⟩ := List.mem_filterMap.mp hm
        split at hb
        · split at he
          · simp only [Option.some.injEq] at hb he
            rw [← hb] at he
            simp only [Prod.mk.injEq] at he
            have h3 := h2 c (List.mem_cons_of_mem _ hc)
            have h4 := h2 a List.mem_cons_self
            apply h1.1
            rw [show a.1 = c.1 by omega]
            exact List.mem_map_of_mem hc
          · cases he
        · cases hb
  refine key w.live h.nodup ?_
  intro c hc
  obtain ⟨p, n, e, hb, -, -⟩ := h.fwd c hc
  have := blk_pos h.inv hb
  omega

/-- **C74** The footprint an allocator reports is the size of its regions, and these are whole pages. -/
theorem C74_footprint {g : Seat} {mremap : Bool} {σ : Sys} (h : Reached g mremap σ) {i : Nat} (hu : σ.up i = true) :
    σ.footprint i = ((σ.regions i).map Prod.snd).sum ∧ (∀ r ∈ σ.regions i, r.1 % 4096 = 0 ∧ r.2 % 4096 = 0 ∧ 0 < r.2) ∧ (σ.regions i).Pairwise Apart := by
  obtain ⟨L, D, hi⟩ := reached_inv h
  have hw := hi.one i hu
  have hs : (σ.heap i).segs = (L i).map Prod.fst := hw.inv.segs
  have hf : (σ.heap i).foot = total (regs (L i) (D i)) := hw.inv.foot
  have hD := hw.inv.disj
  have hpos : ∀ r ∈ D i, 0 < r.2 := fun r hr => (hw.inv.dir r hr).2.2.2.2
  have hDD := (List.pairwise_append.mp hD).2.1
  have hmem : ∀ r, r ∈ directs σ.mem (σ.live i) ↔ r ∈ D i := directs_iff hw
  have hnd : (directs σ.mem (σ.live i)).Nodup := directs_nodup hw
  have ht : total (directs σ.mem (σ.live i)) = total (D i) := total_congr hnd (apart_nodup hDD hpos) hmem
  have hmap : (σ.heap i).segs.map (fun g => (g.base, g.size)) = (L i).map (fun x => (x.1.base, x.1.size)) := by rw [hs, List.map_map]; rfl
  refine ⟨?_, ?_, ?_⟩
  · unfold Sys.footprint Sys.regions
    rw [hf, hmap]
    unfold total regs at *
    rw [List.map_append, List.map_append, List.sum_append, List.sum_append, ht]
  · intro r hr
    have hr := (regions_iff hi hu r).mp hr
    have h1 := hw.inv.regs.al r hr
    refine ⟨h1.1, h1.2.1, ?_⟩
    rcases List.mem_append.mp hr with hr | hr
    · obtain ⟨x, hx, rfl⟩ := List.mem_map.mp hr
      have := (hw.inv.ok x hx).fits
      simp only; omega
    · exact hpos r hr
  · unfold Sys.regions
    rw [hmap]
    unfold regs at hD
    rw [List.pairwise_append] at hD ⊢
    refine ⟨hD.1, ?_, fun a ha b hb => hD.2.2 a ha b ((hmem b).mp hb)⟩
    exact (List.Perm.pairwise_iff (fun h => h.symm) ((List.perm_ext_iff_of_nodup hnd (apart_nodup hDD hpos)).mpr hmem)).mpr hDD

/-! ## Giving pages back -/

theorem sstep_lost {cf : Conf} {σ σ' : Sys} {L : Nat → Lay} {D : Nat → List (Nat × Nat)} (hi : SInv cf σ L D) {a : SAct} (e : sstep cf σ a = .ok σ') :
    σ'.lost = match (generalizing := false) a with | .destroy i => (fun p => σ.lost p || covers cf (directs σ.mem (σ.live i)) p) | _ => σ.lost := by
  have := sstep_did hi a
  rw [e] at this
  cases this with
  | next _ _ _ _ _ _ h => exact h

/-- **C74** Pages that were left behind stay taken forever: nothing ever gives them back. -/
theorem C74_lost_forever {g : Seat} {mremap : Bool} : ∀ (acts : List SAct) {σ σ' : Sys}, Reached g mremap σ → srun (g.conf mremap) acts σ = .ok σ' → ∀ p, σ.lost p = true → bit σ'.bmp p = true ∧ σ'.lost p = true
  | [], σ, σ', hr, e, p, hp => by
    simp only [srun, Out.ok.injEq] at e; subst e
    obtain ⟨L, D, hi⟩ := reached_inv hr
    exact ⟨(hi.lost p hp).1, hp⟩
  | a :: t, σ, σ', hr, e, p, hp => by
    simp only [srun] at e
    obtain ⟨L, D, hi⟩ := reached_inv hr
    cases hs : sstep (g.conf mremap) σ a with
    | corrupt => rw [hs] at e; cases e
    | noMem => rw [hs] at e; cases e
    | ok σ1 =>
      rw [hs] at e
      refine C74_lost_forever t (hr.step hs) e p ?_
      rw [sstep_lost hi hs]
      cases a <;> simp [hp]

/-- **C74** (partial, as `C74_pages_partial`) Destroying an allocator gives back every page it has that is not in a directly mapped block, and no other page. -/
theorem C74_destroy_partial {g : Seat} {σ : Sys} (h : Reached g false σ) {i : Nat} (hu : σ.up i = true) :
    ∃ σ', sstep (g.conf false) σ (.destroy i) = .ok σ' ∧ σ'.up i = false ∧
      ∀ p, p < 64 * ((g.pages + 63) / 64) → (bit σ'.bmp p = true ↔ bit σ.bmp p = true ∧ (covers (g.conf false) (σ.regions i) p = true → covers (g.conf false) (directs σ.mem (σ.live i)) p = true)) := by
  obtain ⟨L, D, hi⟩ := reached_inv h
  have hd := sstep_did hi (.destroy i)
  cases hs : sstep (g.conf false) σ (.destroy i) with
  | corrupt => rw [hs] at hd; cases hd
  | noMem =>
    rw [hs] at hd
    cases hd with
    | full k h1 h2 => rcases h2 with ⟨_, e, _⟩ | ⟨_, _, _, e, h3, h4⟩ <;> cases e
  | ok σ' =>
    have hr' := h.step hs
    have hl := sstep_lost hi hs
    rw [hs] at hd
    cases hd with
    | next _ L' D' hi' hk hm _ =>
      refine ⟨σ', rfl, by rw [hm.2]; simp, fun p hp => ?_⟩
      have hsame : ∀ j, j ≠ i → σ'.regions j = σ.regions j := by
        intro j hj
        simp only [sstep, if_pos hu] at hs
        cases hd' : destroyLoop (g.conf false) (σ.heap i).segs { σ.heap i with mem := σ.mem, bmp := σ.bmp } with
        | corrupt => rw [hd'] at hs; cases hs
        | noMem => rw [hd'] at hs; cases hs
        | ok s =>
          rw [hd'] at hs
          simp only [Out.bind_ok, Out.ok.injEq] at hs
          subst hs
          simp only [Sys.regions, if_neg hj]
      have hup : ∀ j, σ'.up j = true ↔ j ≠ i ∧ σ.up j = true := by
        intro j; rw [hm.2]; by_cases hj : j = i <;> simp [hj]
      obtain ⟨h1, h2, h3⟩ := C74_pages_partial h hp
      obtain ⟨h1', -, -⟩ := C74_pages_partial hr' hp
      rw [h1', hl]
      simp only [Bool.or_eq_true]
      constructor
      · rintro ((h4 | h4) | ⟨j, hj, h4⟩)
        · refine ⟨h1.mpr (Or.inl h4), fun h5 => ?_⟩
          rw [h3 h4 i hu] at h5; cases h5
        · refine ⟨h1.mpr (Or.inr ⟨i, hu, ?_⟩), fun _ => h4⟩
          obtain ⟨r, hr, h5⟩ := covers_iff.mp h4
          exact covers_iff.mpr ⟨r, List.mem_append_right _ hr, h5⟩
        · have hj := (hup j).mp hj
          rw [hsame j hj.1] at h4
          refine ⟨h1.mpr (Or.inr ⟨j, hj.2, h4⟩), fun h5 => ?_⟩
          exact absurd (h2 j i hj.2 hu h4 h5) hj.1
      · rintro ⟨h4, h5⟩
        rcases h1.mp h4 with h6 | ⟨j, hj, h6⟩
        · exact Or.inl (Or.inl h6)
        · by_cases hji : j = i
          · subst hji; exact Or.inl (Or.inr (h5 h6))
          · exact Or.inr ⟨j, (hup j).mpr ⟨hji, hj⟩, by rw [hsame j hji]; exact h6⟩

/-- The history destroys an allocator only when it has no directly mapped block. (No code of its own.) -/
def tidy (cf : Conf) : List SAct → Sys → Bool
  | [], _ => true
  | a :: t, σ => (match a with | .destroy i => (directs σ.mem (σ.live i)).isEmpty | _ => true) && (match sstep cf σ a with | .ok σ' => tidy cf t σ' | _ => true)

theorem tidy_lost {g : Seat} {mremap : Bool} : ∀ (acts : List SAct) {σ σ' : Sys}, Reached g mremap σ → tidy (g.conf mremap) acts σ = true → srun (g.conf mremap) acts σ = .ok σ' → σ'.lost = σ.lost
  | [], σ, σ', _, _, e => by simp only [srun, Out.ok.injEq] at e; subst e; rfl
  | a :: t, σ, σ', hr, ht, e => by
    simp only [srun] at e
    obtain ⟨L, D, hi⟩ := reached_inv hr
    cases hs : sstep (g.conf mremap) σ a with
    | corrupt => rw [hs] at e; cases e
    | noMem => rw [hs] at e; cases e
    | ok σ1 =>
      rw [hs] at e
      simp only [tidy, hs, Bool.and_eq_true] at ht
      rw [tidy_lost t (hr.step hs) ht.2 e, sstep_lost hi hs]
      cases a with
      | destroy i =>
        have h1 := List.isEmpty_iff.mp ht.1
        funext p
        simp only [h1]
        simp [covers]
      | _ => rfl

/-- **C74** (partial, as `C74_pages_partial`) If every allocator was destroyed, and none had a directly mapped block then, every page is free again. -/
theorem C74_all_back_partial {g : Seat} (hg : g.Ok) {mem0 : Nat → Nat} {bmem : Nat → BitVec 64} {acts : List SAct} {σ : Sys} (ht : tidy (g.conf false) acts (fresh mem0 bmem g.pages) = true)
    (e : srun (g.conf false) acts (fresh mem0 bmem g.pages) = .ok σ) (hd : ∀ i, σ.up i = false) : Bitmap.usedBits σ.bmp = 0 ∧ ∀ p, p < 64 * ((g.pages + 63) / 64) → bit σ.bmp p = false := by
  have hr0 : Reached g false (fresh mem0 bmem g.pages) := ⟨hg, mem0, bmem, [], rfl⟩
  have hr : Reached g false σ := ⟨hg, mem0, bmem, acts, e⟩
  have hl := tidy_lost acts hr0 ht e
  have h1 : ∀ p, p < 64 * ((g.pages + 63) / 64) → bit σ.bmp p = false := by
    intro p hp
    cases hb : bit σ.bmp p with
    | false => rfl
    | true =>
      rcases (C74_pages_partial hr hp).1.mp hb with h2 | ⟨i, hu, -⟩
      · rw [hl] at h2; cases h2
      · rw [hd i] at hu; cases hu
  refine ⟨?_, h1⟩
  obtain ⟨L, D, hi⟩ := reached_inv hr
  have hroom : σ.bmp.endc = (g.pages + 63) / 64 := hi.room.2
  unfold Bitmap.usedBits
  rw [← hi.bok.used, List.countP_eq_zero]
  intro p hp
  rw [h1 p (by rw [← hroom]; exact List.mem_range.mp hp)]; simp

/-! ## Cases, and where it goes wrong -/

theorem srun_up {g : Seat} {mremap : Bool} : ∀ (acts : List SAct) {σ σ' : Sys}, Reached g mremap σ → srun (g.conf mremap) acts σ = .ok σ' → ∀ i, σ'.up i = true → σ.up i = true ∨ SAct.create i ∈ acts
  | [], σ, σ', _, e, i, hu => by simp only [srun, Out.ok.injEq] at e; subst e; exact Or.inl hu
  | a :: t, σ, σ', hr, e, i, hu => by
    simp only [srun] at e
    obtain ⟨L, D, hi⟩ := reached_inv hr
    have hd := sstep_did hi a
    cases hs : sstep (g.conf mremap) σ a with
    | corrupt => rw [hs] at e; cases e
    | noMem => rw [hs] at e; cases e
    | ok σ1 =>
      rw [hs] at e hd
      rcases srun_up t (hr.step hs) e i hu with h1 | h1
      · cases hd with
        | next _ _ _ _ _ hm _ =>
          cases a with
          | create j =>
            rcases hm with h2 | ⟨-, h2, -⟩
            · rw [h2] at h1; exact Or.inl h1
            · rw [h2] at h1
              by_cases hij : i = j
              · subst hij; exact Or.inr List.mem_cons_self
              · simp only [if_neg hij] at h1; exact Or.inl h1
          | alloc j n pk =>
            rcases hm with ⟨-, h2⟩ | ⟨_, _, _, _, h2⟩ | ⟨_, h2, _⟩ <;> rw [h2] at h1 <;> exact Or.inl h1
          | free j m => rw [hm.2] at h1; exact Or.inl h1
          | write j x v => rw [hm.2] at h1; exact Or.inl h1
          | links j x v => rw [hm.2] at h1; exact Or.inl h1
          | destroy j =>
            rw [hm.2] at h1
            simp only at h1
            split at h1
            · cases h1
            · exact Or.inl h1
      · exact Or.inr (List.mem_cons_of_mem _ h1)

theorem ask_run {g : Seat} {mremap : Bool} {acts : List SAct} {q : Sys → Bool} (h : ask g mremap acts q = true) : ∃ σ, srun (g.conf mremap) acts (fresh (fun _ => 0) (fun _ => 0) g.pages) = .ok σ ∧ q σ = true := by
  unfold ask at h
  split at h
  · rename_i σ e; exact ⟨σ, e, h⟩
  · cases h

/-- A segment with 1024 pages. (No code of its own.) -/
def seat1024 : Seat := ⟨4096, 80, 4096 * 1026⟩
theorem seat1024_ok : seat1024.Ok := ⟨by decide, by decide, by decide⟩

theorem only_zero {g : Seat} (hg : g.Ok) {mremap : Bool} {acts : List SAct} {σ : Sys} (e : srun (g.conf mremap) acts (fresh (fun _ => 0) (fun _ => 0) g.pages) = .ok σ)
    (ha : acts.all (fun a => match a with | .create i => i == 0 | _ => true) = true) (h0 : σ.up 0 = false) (i : Nat) : σ.up i = false := by
  cases hu : σ.up i with
  | false => rfl
  | true =>
    rcases srun_up acts (σ := fresh (fun _ => 0) (fun _ => 0) g.pages) ⟨hg, _, _, [], rfl⟩ e i hu with h1 | h1
    · cases h1
    · have := List.all_eq_true.mp ha _ h1
      simp only [beq_iff_eq] at this
      rw [this, h0] at hu; cases hu

/-- **C74 is violated**: `arch_alloc_exit` is to "release any resources claimed by the instance" (alloc.h:76-81), but a directly mapped block (256 KiB or more) that is not freed before keeps its pages, and
(`C74_lost_forever`) forever: here no allocator is left, and 74 pages are taken. -/
theorem C74_destroy_violated : ∃ σ, Reached seat256 false σ ∧ (∀ i, σ.up i = false) ∧ Bitmap.usedBits σ.bmp = 74 ∧ σ.lost 16 = true := by
  obtain ⟨σ, h1, h2⟩ := ask_run (g := seat256) (mremap := false) (acts := [.create 0, .alloc 0 300000 0, .destroy 0])
    (q := fun σ => decide (Bitmap.usedBits σ.bmp = 74 ∧ σ.lost 16 = true ∧ σ.up 0 = false)) (by decide +kernel)
  have h2 := of_decide_eq_true h2
  exact ⟨σ, ⟨seat256_ok, _, _, _, h1⟩, only_zero seat256_ok h1 (by decide) h2.2.2, h2.1, h2.2.1⟩

/-- Twelve blocks, each below the threshold for direct mapping; then they are freed again, the last first. (No code of its own.) -/
def growShrink : List SAct := [.create 0, .create 1] ++ (List.range 12).map (fun _ => .alloc 0 200000 0) ++ [2343552, 2143536, 1943520, 1743504, 1543488, 1343472, 1143456, 943440, 743424, 543408, 343392, 143376].map (fun a => .free 0 a)

/-- **C74 is violated** where `CALL_MREMAP` is the system's `mremap` (any compiler that defines `linux`): the allocator trims its top with `mremap`, which the bitmap does not learn about. Here page 500 is
taken, and no allocator has it. -/
theorem C74_trim_violated : ∃ σ, Reached seat1024 true σ ∧ Bitmap.usedBits σ.bmp = 672 ∧ bit σ.bmp 500 = true ∧ σ.lost 500 = false ∧ (∀ i, σ.live i = []) ∧
    ∀ i, σ.up i = true → covers (seat1024.conf true) (σ.regions i) 500 = false := by
  obtain ⟨σ, h1, h2⟩ := ask_run (g := seat1024) (mremap := true) (acts := growShrink)
    (q := fun σ => decide (Bitmap.usedBits σ.bmp = 672 ∧ bit σ.bmp 500 = true ∧ σ.lost 500 = false ∧ (σ.live 0 = [] ∧ σ.live 1 = []) ∧ covers (seat1024.conf true) (σ.regions 0) 500 = false ∧
      covers (seat1024.conf true) (σ.regions 1) 500 = false)) (by decide +kernel)
  have h2 := of_decide_eq_true h2
  have hr : Reached seat1024 true σ := ⟨seat1024_ok, _, _, _, h1⟩
  have hup : ∀ i, σ.up i = true → i = 0 ∨ i = 1 := by
    intro i hu
    rcases srun_up growShrink (σ := fresh (fun _ => 0) (fun _ => 0) seat1024.pages) ⟨seat1024_ok, _, _, [], rfl⟩ h1 i hu with h3 | h3
    · cases h3
    · simp only [growShrink, List.mem_append, List.mem_cons, List.mem_map, List.not_mem_nil, or_false, SAct.create.injEq] at h3
      rcases h3 with (h3 | ⟨_, _, h3⟩) | ⟨_, _, h3⟩
      · exact h3
      · cases h3
      · cases h3
  refine ⟨σ, hr, h2.1, h2.2.1, h2.2.2.1, fun i => ?_, fun i hu => ?_⟩
  · obtain ⟨L, D, hi⟩ := reached_inv hr
    cases hu : σ.up i with
    | false => exact hi.down i hu
    | true =>
      rcases hup i hu with rfl | rfl
      · exact h2.2.2.2.1.1
      · exact h2.2.2.2.1.2
  · rcases hup i hu with rfl | rfl
    · exact h2.2.2.2.2.1
    · exact h2.2.2.2.2.2

/-- The same history with the other configuration gives the pages back: 144 are taken. -/
example : ask seat1024 false growShrink (fun σ => Bitmap.usedBits σ.bmp == 144 && σ.regions 0 == [(143360, 458752), (12288, 65536)] && σ.footprint 0 == 524288) = true := by decide +kernel

/-- The hypotheses of `C74_all_back_partial`: two allocators, blocks of every kind, all given back. -/
example : tidy (seat256.conf false) [.create 0, .alloc 0 300000 0, .create 1, .alloc 1 100 0, .free 0 77840, .destroy 1, .destroy 0] (fresh (fun _ => 0) (fun _ => 0) seat256.pages) = true ∧
    ask seat256 false [.create 0, .alloc 0 300000 0, .create 1, .alloc 1 100 0, .free 0 77840, .destroy 1, .destroy 0] (fun σ => !σ.up 0 && !σ.up 1 && Bitmap.usedBits σ.bmp == 0) = true ∧
    ask seat256 false [.create 0, .alloc 0 300000 0] (fun σ => Bitmap.usedBits σ.bmp == 90 && σ.live 0 == [(77840, 300000)]) = true := ⟨by decide +kernel, by decide +kernel, by decide +kernel⟩

/-- **C73 is violated** in one point: `arch_alloc_allocate` is to return "NULL on failure" (alloc.h:57-58), but when there is no room it aborts the process (alloc.c:149). -/
theorem C73_null_violated : ∃ σ, Reached seat120 false σ ∧ σ.up 0 = true ∧ sstep (seat120.conf false) σ (.alloc 0 500000 0) = .noMem := by
  obtain ⟨σ, h1, h2⟩ := ask_reached (mremap := false) (acts := [.create 0])
    (q := fun σ => decide (σ.up 0 = true) && match sstep (seat120.conf false) σ (.alloc 0 500000 0) with | .noMem => true | _ => false) seat120_ok (by decide +kernel)
  simp only [Bool.and_eq_true, decide_eq_true_eq] at h2
  refine ⟨σ, h1, h2.1, ?_⟩
  cases hs : sstep (seat120.conf false) σ (.alloc 0 500000 0) with
  | noMem => rfl
  | ok _ => rw [hs] at h2; cases h2.2
  | corrupt => rw [hs] at h2; cases h2.2

end Arax.Dl
