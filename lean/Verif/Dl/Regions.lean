import Verif.Dl.Alloc
/-!
# Pages: taking regions from the bitmap and giving them back
-/
namespace Arax.Dl
open Arax.Bitmap (bit Bmp Took Released)

/-- The part of the invariant about pages. (No code of its own.) -/
structure Regs (cf : Conf) (b : Bmp) (least foot : Nat) (R : List (Nat × Nat)) (env : Nat → Bool) : Prop where
  al : ∀ r ∈ R, r.1 % 4096 = 0 ∧ r.2 % 4096 = 0 ∧ 0 < r.2
  disj : R.Pairwise Apart
  low : ∀ r ∈ R, cf.start ≤ r.1 ∧ least ≤ r.1 ∧ r.1 + r.2 ≤ cf.start + 4096 * (64 * b.endc)
  pages : ∀ r ∈ R, ∀ i, InReg cf r i → bit b i = true ∧ env i = false
  envb : ∀ i, env i = true → bit b i = true
  only : cf.mremap = false → ∀ i, i < 64 * b.endc → bit b i = true → env i = true ∨ ∃ r ∈ R, InReg cf r i
  bmp : BOK b
  foot : foot = total R
  start : cf.start % 4096 = 0 ∧ 0 < cf.start
  top64 : cf.start + 4096 * (64 * b.endc) < W ∧ b.endc = cf.groups
  lpos : 0 < least

theorem Inv.regs {cf : Conf} {s : Heap} {L : Lay} {D : List (Nat × Nat)} {env : Nat → Bool} (hi : Inv cf s L D env) : Regs cf s.bmp s.least s.foot (regs L D) env := by
  refine ⟨?_, hi.disj, hi.low, hi.pages, hi.envb, hi.only, hi.bmp, hi.foot, hi.start, hi.top64, hi.lpos⟩
  intro r hr
  unfold Dl.regs at hr
  rcases List.mem_append.mp hr with hr | hr
  · obtain ⟨x, hx, rfl⟩ := List.mem_map.mp hr
    have hk := hi.ok x hx
    exact ⟨hk.base, hk.size, by have := hk.fits; simp only; omega⟩
  · obtain ⟨-, -, h1, h2, h3⟩ := hi.dir r hr
    exact ⟨h1, h2, h3⟩

theorem Regs.not_env {cf : Conf} {b : Bmp} {least foot : Nat} {R : List (Nat × Nat)} {env : Nat → Bool} (h : Regs cf b least foot R env) {r : Nat × Nat} (hr : r ∈ R) {x : Nat} (h1 : cf.start ≤ x)
    (h2 : env ((x - cf.start) / 4096) = true) : x < r.1 ∨ r.1 + r.2 ≤ x :=
  reg_not_env h.start.1 (h.low r hr).1 ⟨(h.al r hr).1, (h.al r hr).2.1⟩ (fun i hp => (h.pages r hr i hp).2) h1 h2

theorem total_cons (r : Nat × Nat) (R : List (Nat × Nat)) : total (r :: R) = r.2 + total R := by simp [total]

theorem Regs.perm {cf : Conf} {b : Bmp} {least foot : Nat} {R R' : List (Nat × Nat)} {env : Nat → Bool} (h : Regs cf b least foot R env) (hp : R.Perm R') : Regs cf b least foot R' env := by
  refine ⟨fun r hr => h.al r (hp.mem_iff.mpr hr), ?_, fun r hr => h.low r (hp.mem_iff.mpr hr), fun r hr => h.pages r (hp.mem_iff.mpr hr), h.envb, ?_, h.bmp, ?_, h.start, h.top64, h.lpos⟩
  · exact h.disj.perm hp (fun {_ _} h => apart_symm h)
  · intro hm i hi hb
    rcases h.only hm i hi hb with h | ⟨r, hr, h⟩
    · exact Or.inl h
    · exact Or.inr ⟨r, hp.mem_iff.mp hr, h⟩
  · rw [h.foot]; unfold total; exact (hp.map Prod.snd).sum_nat

/-- A page-aligned region that shares no page with another is apart from it. -/
theorem apart_of_pages {cf : Conf} {r q : Nat × Nat} (h0 : cf.start % 4096 = 0) (hr : cf.start ≤ r.1 ∧ r.1 % 4096 = 0 ∧ r.2 % 4096 = 0 ∧ 0 < r.2)
    (hq : cf.start ≤ q.1 ∧ q.1 % 4096 = 0 ∧ q.2 % 4096 = 0 ∧ 0 < q.2) (h : ∀ i, InReg cf r i → InReg cf q i → False) : Apart r q := by
  unfold Apart
  by_cases h1 : r.1 + r.2 ≤ q.1
  · exact Or.inl h1
  by_cases h2 : q.1 + q.2 ≤ r.1
  · exact Or.inr h2
  exfalso
  by_cases h3 : r.1 ≤ q.1
  · exact h ((q.1 - cf.start) / 4096) ⟨by omega, by omega⟩ ⟨by omega, by omega⟩
  · exact h ((r.1 - cf.start) / 4096) ⟨by omega, by omega⟩ ⟨by omega, by omega⟩

theorem InReg_pages {cf : Conf} {off k i : Nat} : InReg cf (cf.start + off * 4096, k * 4096) i ↔ off ≤ i ∧ i < off + k := by
  unfold InReg; simp only; omega

/-- New pages. -/
theorem Regs.add {cf : Conf} {b b' : Bmp} {least foot : Nat} {R : List (Nat × Nat)} {env : Nat → Bool} (h : Regs cf b least foot R env) {off k least' : Nat} (hk : 0 < k) (ht : Took b b' off k)
    (hf : b'.freeP = off / 64) (hend : off + k ≤ 64 * b.endc) (hl : 0 < least' ∧ least' ≤ least ∧ least' ≤ cf.start + off * 4096) :
    Regs cf b' least' (foot + k * 4096) ((cf.start + off * 4096, k * 4096) :: R) env := by
  have hst := h.start
  have hnot : ∀ r ∈ R, ∀ i, InReg cf r i → InReg cf (cf.start + off * 4096, k * 4096) i → False := by
    intro r hr i h1 h2
    have := (h.pages r hr i h1).1
    rw [InReg_pages] at h2
    rw [ht.was_free i h2.1 h2.2] at this; cases this
  refine ⟨?_, ?_, ?_, ?_, ?_, ?_, ⟨?_, ?_, ?_⟩, ?_, h.start, ?_, hl.1⟩
  · intro r hr
    rcases List.mem_cons.mp hr with rfl | hr
    · simp only; omega
    · exact h.al r hr
  · refine List.pairwise_cons.mpr ⟨fun r hr => ?_, h.disj⟩
    have ha := h.al r hr
    have hlo := h.low r hr
    exact apart_of_pages hst.1 ⟨by simp, by simp only; omega, by simp only; omega, by simp only; omega⟩ ⟨hlo.1, ha⟩ (fun i h1 h2 => hnot r hr i h2 h1)
  · intro r hr
    rw [ht.endc]
    rcases List.mem_cons.mp hr with rfl | hr
    · simp only; omega
    · have := h.low r hr; omega
  · intro r hr i hir
    rw [ht.now]
    rcases List.mem_cons.mp hr with rfl | hr
    · rw [InReg_pages] at hir
      refine ⟨by simp [hir], ?_⟩
      cases he : env i with
      | false => rfl
      | true => have := h.envb i he; rw [ht.was_free i hir.1 hir.2] at this; cases this
    · have := h.pages r hr i hir
      simp [this]
  · intro i hi; rw [ht.now, h.envb i hi]; simp
  · intro hm i hi hb
    rw [ht.endc] at hi
    rw [ht.now, Bool.or_eq_true] at hb
    rcases hb with hb | hb
    · rcases h.only hm i hi hb with h | ⟨r, hr, h⟩
      · exact Or.inl h
      · exact Or.inr ⟨r, List.mem_cons_of_mem _ hr, h⟩
    · right
      exact ⟨_, List.mem_cons_self, InReg_pages.mpr (by simpa using hb)⟩
  · rw [hf, ht.endc]; omega
  · rw [ht.endc]; exact h.bmp.small
  · rw [ht.endc, Bitmap.count_took (bit b) (bit b') off k _ hend ht.was_free ht.now, h.bmp.used, ht.used]
  · rw [total_cons, h.foot]; omega
  · rw [ht.endc]; exact h.top64

/-- Two adjacent regions are one. -/
theorem Regs.merge {cf : Conf} {b : Bmp} {least foot : Nat} {a n1 n2 : Nat} {R : List (Nat × Nat)} {env : Nat → Bool} (h : Regs cf b least foot ((a, n1) :: (a + n1, n2) :: R) env) :
    Regs cf b least foot ((a, n1 + n2) :: R) env := by
  have hd := List.pairwise_cons.mp h.disj
  have hd2 := List.pairwise_cons.mp hd.2
  have hr1 := h.al _ List.mem_cons_self
  have hr2 := h.al _ (List.mem_cons_of_mem _ List.mem_cons_self)
  have hl1 := h.low _ List.mem_cons_self
  have hl2 := h.low _ (List.mem_cons_of_mem _ List.mem_cons_self)
  simp only at hr1 hr2 hl1 hl2
  have hin : ∀ i, InReg cf (a, n1 + n2) i ↔ InReg cf (a, n1) i ∨ InReg cf (a + n1, n2) i := by
    intro i; unfold InReg; simp only; omega
  refine ⟨?_, ?_, ?_, ?_, h.envb, ?_, h.bmp, ?_, h.start, h.top64, h.lpos⟩
  · intro r hr
    rcases List.mem_cons.mp hr with rfl | hr
    · simp only; omega
    · exact h.al r (by simp [hr])
  · refine List.pairwise_cons.mpr ⟨fun r hr => ?_, hd2.2⟩
    have h1 := hd.1 r (by simp [hr])
    have h2 := hd2.1 r hr
    have := h.al r (by simp [hr])
    simp only [Apart] at *; omega
  · intro r hr
    rcases List.mem_cons.mp hr with rfl | hr
    · simp only; omega
    · exact h.low r (by simp [hr])
  · intro r hr i hir
    rcases List.mem_cons.mp hr with rfl | hr
    · rcases (hin i).mp hir with h' | h'
      · exact h.pages _ (by simp) i h'
      · exact h.pages _ (by simp) i h'
    · exact h.pages r (by simp [hr]) i hir
  · intro hm i hi hb
    rcases h.only hm i hi hb with h | ⟨r, hr, h⟩
    · exact Or.inl h
    · right
      simp only [List.mem_cons] at hr
      rcases hr with rfl | rfl | hr
      · exact ⟨_, List.mem_cons_self, (hin i).mpr (Or.inl h)⟩
      · exact ⟨_, List.mem_cons_self, (hin i).mpr (Or.inr h)⟩
      · exact ⟨r, by simp [hr], h⟩
  · rw [h.foot]; simp only [total_cons]; omega

/-- A region cut in two. -/
theorem Regs.cut {cf : Conf} {b : Bmp} {least foot : Nat} {a n1 n2 : Nat} {R : List (Nat × Nat)} {env : Nat → Bool} (h : Regs cf b least foot ((a, n1 + n2) :: R) env)
    (h1 : n1 % 4096 = 0 ∧ 0 < n1) (h2 : n2 % 4096 = 0 ∧ 0 < n2) : Regs cf b least foot ((a, n1) :: (a + n1, n2) :: R) env := by
  have hd := List.pairwise_cons.mp h.disj
  have hr1 := h.al _ List.mem_cons_self
  have hl1 := h.low _ List.mem_cons_self
  simp only at hr1 hl1
  have hin : ∀ i, InReg cf (a, n1 + n2) i ↔ InReg cf (a, n1) i ∨ InReg cf (a + n1, n2) i := by
    intro i; unfold InReg; simp only; omega
  refine ⟨?_, ?_, ?_, ?_, h.envb, ?_, h.bmp, ?_, h.start, h.top64, h.lpos⟩
  · intro r hr
    simp only [List.mem_cons] at hr
    rcases hr with rfl | rfl | hr
    · simp only; omega
    · simp only; omega
    · exact h.al r (by simp [hr])
  · refine List.pairwise_cons.mpr ⟨fun r hr => ?_, List.pairwise_cons.mpr ⟨fun r hr => ?_, hd.2⟩⟩
    · rcases List.mem_cons.mp hr with rfl | hr
      · exact Or.inl (Nat.le_refl _)
      · have h1 := hd.1 r hr
        simp only [Apart] at *; omega
    · have h1 := hd.1 r hr
      simp only [Apart] at *; omega
  · intro r hr
    simp only [List.mem_cons] at hr
    rcases hr with rfl | rfl | hr
    · simp only; omega
    · simp only; omega
    · exact h.low r (by simp [hr])
  · intro r hr i hir
    simp only [List.mem_cons] at hr
    rcases hr with rfl | rfl | hr
    · exact h.pages _ (by simp) i ((hin i).mpr (Or.inl hir))
    · exact h.pages _ (by simp) i ((hin i).mpr (Or.inr hir))
    · exact h.pages r (by simp [hr]) i hir
  · intro hm i hi hb
    rcases h.only hm i hi hb with h | ⟨r, hr, h⟩
    · exact Or.inl h
    · right
      rcases List.mem_cons.mp hr with rfl | hr
      · rcases (hin i).mp h with h | h
        · exact ⟨_, List.mem_cons_self, h⟩
        · exact ⟨_, List.mem_cons_of_mem _ List.mem_cons_self, h⟩
      · exact ⟨r, by simp [hr], h⟩
  · rw [h.foot]; simp only [total_cons]; omega

/-- `least_addr` may be anything lower. -/
theorem Regs.least {cf : Conf} {b : Bmp} {least least' foot : Nat} {R : List (Nat × Nat)} {env : Nat → Bool} (h : Regs cf b least foot R env) (h0 : 0 < least') (hl : least' ≤ least) :
    Regs cf b least' foot R env :=
  ⟨h.al, h.disj, fun r hr => by have := h.low r hr; omega, h.pages, h.envb, h.only, h.bmp, h.foot, h.start, h.top64, h0⟩

/-- Giving a region back. -/
theorem Regs.remove {cf : Conf} {b : Bmp} {least foot : Nat} {r : Nat × Nat} {R : List (Nat × Nat)} {env : Nat → Bool} (h : Regs cf b least foot (r :: R) env) :
    ∃ b', Bitmap.free b ((r.1 - cf.start) / 4096) (r.2 / 4096) = .ok b' ∧ b'.endc = b.endc ∧ Regs cf b' least (foot - r.2) R env := by
  have hr := h.al r List.mem_cons_self
  have hl := h.low r List.mem_cons_self
  have hst := h.start
  have hin : ∀ i, InReg cf r i ↔ (r.1 - cf.start) / 4096 ≤ i ∧ i < (r.1 - cf.start) / 4096 + r.2 / 4096 := by intro i; unfold InReg; omega
  have hset : ∀ i, (r.1 - cf.start) / 4096 ≤ i → i < (r.1 - cf.start) / 4096 + r.2 / 4096 → bit b i = true := fun i h1 h2 => (h.pages r List.mem_cons_self i ((hin i).mpr ⟨h1, h2⟩)).1
  have hbd : (r.1 - cf.start) / 4096 + r.2 / 4096 ≤ 64 * b.endc := by omega
  have hcnt := Bitmap.count_took (fun i => bit b i && !decide ((r.1 - cf.start) / 4096 ≤ i ∧ i < (r.1 - cf.start) / 4096 + r.2 / 4096)) (bit b) ((r.1 - cf.start) / 4096) (r.2 / 4096) (64 * b.endc) hbd
    (by intro i h1 h2; simp [h1, h2]) (by
      intro i
      by_cases e : (r.1 - cf.start) / 4096 ≤ i ∧ i < (r.1 - cf.start) / 4096 + r.2 / 4096
      · simp [e, hset i e.1 e.2]
      · simp [e])
  have hle := Bitmap.countP_range_le (bit b) (64 * b.endc)
  have hu := h.bmp.used
  have hsm := h.bmp.small
  obtain ⟨b', hb', hrel⟩ := Bitmap.free_legal b ((r.1 - cf.start) / 4096) (r.2 / 4096) (by omega) hbd h.bmp.small (by omega) (by omega) hset
  have hd := List.pairwise_cons.mp h.disj
  refine ⟨b', hb', hrel.endc, ?_, hd.2, ?_, ?_, ?_, ?_, ⟨?_, ?_, ?_⟩, ?_, h.start, ?_, h.lpos⟩
  · exact fun q hq => h.al q (by simp [hq])
  · intro q hq; rw [hrel.endc]; exact h.low q (by simp [hq])
  · intro q hq i hiq
    have hp := h.pages q (by simp [hq]) i hiq
    refine ⟨?_, hp.2⟩
    rw [hrel.now, hp.1]
    have hap := hd.1 q hq
    have hal := h.al q (by simp [hq])
    have : ¬ ((r.1 - cf.start) / 4096 ≤ i ∧ i < (r.1 - cf.start) / 4096 + r.2 / 4096) := by
      rw [← hin]; unfold InReg Apart at *; omega
    simp [this]
  · intro i hi
    rw [hrel.now, h.envb i hi]
    have : ¬ ((r.1 - cf.start) / 4096 ≤ i ∧ i < (r.1 - cf.start) / 4096 + r.2 / 4096) := by
      rw [← hin]; intro hri
      have := (h.pages r List.mem_cons_self i hri).2; rw [hi] at this; cases this
    simp [this]
  · intro hm i hi hb
    rw [hrel.endc] at hi
    rw [hrel.now, Bool.and_eq_true] at hb
    rcases h.only hm i hi hb.1 with h | ⟨q, hq, hqi⟩
    · exact Or.inl h
    · right
      rcases List.mem_cons.mp hq with rfl | hq
      · rw [hin] at hqi; simp [hqi] at hb
      · exact ⟨q, hq, hqi⟩
  · rw [hrel.freeP, hrel.endc]; exact h.bmp.freeP
  · rw [hrel.endc]; exact h.bmp.small
  · rw [hrel.endc, hrel.used]
    rw [Bitmap.countP_congr_range (bit b') _ _ (fun i _ => hrel.now i)]; omega
  · rw [h.foot, total_cons]; omega
  · rw [hrel.endc]; exact h.top64

/-- Forgetting a region: its pages stay set in the bitmap. -/
theorem Regs.leak {cf : Conf} {b : Bmp} {least foot : Nat} {r : Nat × Nat} {R : List (Nat × Nat)} {env : Nat → Bool} (h : Regs cf b least foot (r :: R) env) (hm : cf.mremap = true) :
    Regs cf b least (foot - r.2) R env := by
  have hd := List.pairwise_cons.mp h.disj
  refine ⟨fun q hq => h.al q (by simp [hq]), hd.2, fun q hq => h.low q (by simp [hq]), fun q hq => h.pages q (by simp [hq]), h.envb, ?_, h.bmp, ?_, h.start, h.top64, h.lpos⟩
  · intro h; rw [hm] at h; cases h
  · rw [h.foot, total_cons]; omega

/-- `arax_mmap`. -/
theorem mmap_ok {cf : Conf} {s : Heap} {R : List (Nat × Nat)} {env : Nat → Bool} {least foot : Nat} (h : Regs cf s.bmp least foot R env) {n : Nat} (hn : n % 4096 = 0) (hpos : 0 < n) :
    (mmap cf s n = .noMem ∧ (Bitmap.alloc s.bmp (n / 4096)).2 = none) ∨
    ∃ b' a, mmap cf s n = .ok ({ s with bmp := b' }, a) ∧ cf.start ≤ a ∧ a % 4096 = 0 ∧ ∀ least', 0 < least' → least' ≤ least → least' ≤ a → Regs cf b' least' (foot + n) ((a, n) :: R) env := by
  unfold mmap
  rw [if_neg (by omega)]
  cases ha : Bitmap.alloc s.bmp (n / 4096) with
  | mk b' o =>
    cases o with
    | none => left; exact ⟨rfl, rfl⟩
    | some off =>
      right
      obtain ⟨h1, -, -, h4, h5⟩ := Bitmap.alloc_some _ _ _ _ h.bmp.freeP ha
      have hst := h.start
      refine ⟨b', cf.start + off * 4096, rfl, by omega, by omega, ?_⟩
      intro l' hl0 hl1 hl2
      have := h.add (least' := l') (by omega) h1 h5 h4 ⟨hl0, hl1, hl2⟩
      rw [show n / 4096 * 4096 = n by omega] at this
      exact this

/-- `arax_ummap`. -/
theorem munmap_ok {cf : Conf} {s : Heap} {r : Nat × Nat} {R : List (Nat × Nat)} {env : Nat → Bool} {least foot : Nat} (h : Regs cf s.bmp least foot (r :: R) env) :
    ∃ b', munmap cf s r.1 r.2 = .ok { s with bmp := b' } ∧ b'.endc = s.bmp.endc ∧ Regs cf b' least (foot - r.2) R env := by
  obtain ⟨b', h1, he, h2⟩ := h.remove
  exact ⟨b', by unfold munmap; rw [h1], he, h2⟩

end Arax.Dl
