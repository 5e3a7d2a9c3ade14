import Verif.Dl.Conc2
/-!
# Histories of overlapping calls keep the invariant
-/
namespace Arax.Dl
open Arax.Bitmap (bit Bmp)

/-- What is true of a thread. (No code of its own.) -/
structure TOk (cf : Conf) (σ : Sys) (x : TS) : Prop where
  up : ∀ i, x.at = some i → σ.up i = true
  live : ∀ i a, x.gives = some (i, a) → a ∈ (σ.live i).map Prod.fst
  fine : ∀ i ph, x = .mid i ph → ph.Fine (σ.heap i)
  dying : ∀ r ∈ x.dying, (r.1 % 4096 = 0 ∧ r.2 % 4096 = 0 ∧ 0 < r.2) ∧ (cf.start ≤ r.1 ∧ r.1 + r.2 ≤ cf.start + 4096 * (64 * cf.groups)) ∧ ∀ p, InReg cf r p → σ.lost p = true

/-- The invariant. (No code of its own.) -/
structure CInv (cf : Conf) (κ : CSys) (L : Nat → Lay) (D : Nat → List (Nat × Nat)) : Prop where
  sinv : SInv cf κ.sys L D
  idle : ∀ t, κ.n ≤ t → ∃ r, κ.thr t = .out r
  lockd : ∀ i t, κ.lock i = some t ↔ (κ.thr t).inside = some i
  ok : ∀ t, TOk cf κ.sys (κ.thr t)
  once : ∀ t u y, (κ.thr t).gives = some y → (κ.thr u).gives = some y → t = u
  apart : ∀ t, (κ.thr t).dying.Pairwise Apart
  cross : ∀ t u, t ≠ u → ∀ r ∈ (κ.thr t).dying, ∀ r' ∈ (κ.thr u).dying, Apart r r'
  lost : ∀ p, κ.sys.lost p = true ↔ κ.leak p = true ∨ ∃ t, ∃ r ∈ (κ.thr t).dying, InReg cf r p
  leak : ∀ p, κ.leak p = true → ∀ t, ∀ r ∈ (κ.thr t).dying, ¬ InReg cf r p

theorem inside_at {x : TS} {i : Nat} (h : x.inside = some i) : x.at = some i := by cases x <;> simp_all [TS.inside, TS.at]

theorem gives_at {x : TS} {i a : Nat} (h : x.gives = some (i, a)) : x.at = some i := by
  cases x with
  | want j c => cases c <;> simp_all [TS.gives, TS.at]
  | inn j c => cases c <;> simp_all [TS.gives, TS.at]
  | _ => cases h

theorem given_iff {cf : Conf} {κ : CSys} {L : Nat → Lay} {D : Nat → List (Nat × Nat)} (h : CInv cf κ L D) {i a : Nat} : κ.given i a = true ↔ ∃ t, (κ.thr t).gives = some (i, a) := by
  unfold CSys.given
  rw [List.any_eq_true]
  simp only [beq_iff_eq, List.mem_range]
  constructor
  · rintro ⟨t, -, ht⟩; exact ⟨t, ht⟩
  · rintro ⟨t, ht⟩
    refine ⟨t, ?_, ht⟩
    rcases Nat.lt_or_ge t κ.n with h1 | h1
    · exact h1
    · obtain ⟨r, hr⟩ := h.idle t h1
      rw [hr] at ht; cases ht

theorem used_iff {cf : Conf} {κ : CSys} {L : Nat → Lay} {D : Nat → List (Nat × Nat)} (h : CInv cf κ L D) {i : Nat} : κ.used i = true ↔ ∃ t, (κ.thr t).at = some i := by
  unfold CSys.used
  rw [List.any_eq_true]
  simp only [beq_iff_eq, List.mem_range]
  constructor
  · rintro ⟨t, -, ht⟩; exact ⟨t, ht⟩
  · rintro ⟨t, ht⟩
    refine ⟨t, ?_, ht⟩
    rcases Nat.lt_or_ge t κ.n with h1 | h1
    · exact h1
    · obtain ⟨r, hr⟩ := h.idle t h1
      rw [hr] at ht; cases ht

theorem held_iff {cf : Conf} {κ : CSys} {L : Nat → Lay} {D : Nat → List (Nat × Nat)} (h : CInv cf κ L D) {i : Nat} {c : Nat × Nat} :
    c ∈ κ.held i ↔ c ∈ κ.sys.live i ∧ ∀ t, (κ.thr t).gives ≠ some (i, c.1) := by
  unfold CSys.held
  rw [List.mem_filter]
  have : (!κ.given i c.1) = true ↔ ∀ t, (κ.thr t).gives ≠ some (i, c.1) := by
    rw [Bool.not_eq_true', ← Bool.not_eq_true, given_iff h, not_exists]
  rw [this]

/-- Allocator `i` changes, and the thread is not in it. -/
theorem TOk.after {cf : Conf} {σ : Sys} {x : TS} (h : TOk cf σ x) {i : Nat} {w : World} (hi : x.inside ≠ some i) (hl : ∀ a, x.gives = some (i, a) → a ∈ w.live.map Prod.fst) : TOk cf (σ.after i w) x := by
  refine ⟨?_, ?_, ?_, h.dying⟩
  · intro j hj; simp only [Sys.after]; split
    · rfl
    · exact h.up j hj
  · intro j a hj; simp only [Sys.after]; split
    · rename_i e; subst e; exact hl a hj
    · exact h.live j a hj
  · intro j ph hj
    have : j ≠ i := by rintro rfl; subst hj; exact hi rfl
    simp only [Sys.after, if_neg this]; exact h.fine j ph hj

/-- No thread moves. -/
theorem CInv.still {cf : Conf} {κ : CSys} {L L' : Nat → Lay} {D D' : Nat → List (Nat × Nat)} (h : CInv cf κ L D) {σ : Sys} (hs : SInv cf σ L' D') (hlost : σ.lost = κ.sys.lost)
    (ho : ∀ u, TOk cf σ (κ.thr u)) (dead : Nat → Bool) : CInv cf { κ with sys := σ, dead := dead } L' D' :=
  ⟨hs, h.idle, h.lockd, ho, h.once, h.apart, h.cross, by simp only [hlost]; exact h.lost, h.leak⟩

/-- Thread `t` moves, and is not in `destroy_mspace`. -/
theorem CInv.go {cf : Conf} {κ : CSys} {L L' : Nat → Lay} {D D' : Nat → List (Nat × Nat)} (h : CInv cf κ L D) {σ : Sys} {t : Nat} {x : TS} {lock : Nat → Option Nat} (ht : t < κ.n)
    (hd0 : (κ.thr t).dying = []) (hd : x.dying = []) (hs : SInv cf σ L' D') (hlost : σ.lost = κ.sys.lost) (ho : ∀ u, u ≠ t → TOk cf σ (κ.thr u)) (hx : TOk cf σ x)
    (hl1 : ∀ i, lock i = some t ↔ x.inside = some i) (hl2 : ∀ i u, u ≠ t → (lock i = some u ↔ κ.lock i = some u)) (hg : ∀ y, x.gives = some y → ∀ u, u ≠ t → (κ.thr u).gives ≠ some y) :
    CInv cf ({ κ with sys := σ, lock := lock }.move t x) L' D' := by
  have hdy : ∀ u, (({ κ with sys := σ, lock := lock } : CSys).move t x |>.thr u).dying = (κ.thr u).dying := by
    intro u; simp only [CSys.move]; split
    · rename_i e; rw [e, hd, hd0]
    · rfl
  refine ⟨hs, ?_, ?_, ?_, ?_, ?_, ?_, ?_, ?_⟩
  · intro u hu
    have hu : κ.n ≤ u := hu
    have : u ≠ t := by omega
    simp only [CSys.move, if_neg this]; exact h.idle u hu
  · intro i u
    by_cases hu : u = t
    · subst hu; simp only [CSys.move, if_true]; exact hl1 i
    · simp only [CSys.move, if_neg hu]; rw [hl2 i u hu]; exact h.lockd i u
  · intro u
    by_cases hu : u = t
    · subst hu; simp only [CSys.move, if_true]; exact hx
    · simp only [CSys.move, if_neg hu]; exact ho u hu
  · intro u v y hu hv
    simp only [CSys.move] at hu hv
    by_cases e1 : u = t
    · rw [if_pos e1] at hu
      by_cases e2 : v = t
      · rw [e1, e2]
      · rw [if_neg e2] at hv; exact absurd hv (hg y hu v e2)
    · rw [if_neg e1] at hu
      by_cases e2 : v = t
      · rw [if_pos e2] at hv; exact absurd hu (hg y hv u e1)
      · rw [if_neg e2] at hv; exact h.once u v y hu hv
  · intro u; rw [hdy]; exact h.apart u
  · intro u v huv; rw [hdy, hdy]; exact h.cross u v huv
  · intro p
    simp only [hdy]
    show σ.lost p = true ↔ κ.leak p = true ∨ _
    rw [hlost]; exact h.lost p
  · intro p hp u; rw [hdy]; exact h.leak p hp u

/-- Does the event end block `c` of allocator `j`? (No code of its own.) -/
def cends (j : Nat) (c : Nat × Nat) : CAct → Bool
  | .call _ i (.free a) => decide (i = j ∧ a = c.1)
  | .destroy _ i => decide (i = j)
  | _ => false

/-- Is the event a write at `x` by a user? (No code of its own.) -/
def cwrites (x : Nat) : CAct → Bool
  | .write _ y _ => decide (y = x)
  | _ => false

/-- What the users hold stays. (No code of its own.) -/
def CKeeps (κ : CSys) (a : CAct) (κ' : CSys) : Prop :=
  ∀ j, ∀ c ∈ κ.held j, cends j c a = false → c ∈ κ'.held j ∧ ∀ x, c.1 ≤ x → x < c.1 + c.2 → cwrites x a = false → κ'.sys.mem x = κ.sys.mem x

theorem CKeeps.of {cf : Conf} {κ κ' : CSys} {a : CAct} {L L' : Nat → Lay} {D D' : Nat → List (Nat × Nat)} (h : CInv cf κ L D) (h' : CInv cf κ' L' D') {gone : Nat → Nat × Nat → Prop} {wr : Nat → Prop}
    (hk : Keeps κ.sys κ'.sys gone wr) (hgone : ∀ j c, gone j c → cends j c a = true ∨ ∃ t, (κ.thr t).gives = some (j, c.1)) (hwr : ∀ x, wr x → cwrites x a = true)
    (hg : ∀ u j c, (κ'.thr u).gives = some (j, c.1) → cends j c a = true ∨ ∃ t, (κ.thr t).gives = some (j, c.1)) : CKeeps κ a κ' := by
  intro j c hc he
  obtain ⟨h1, h2⟩ := (held_iff h).mp hc
  obtain ⟨h3, h4⟩ := hk j c h1 (fun hh => by
    rcases hgone j c hh with h5 | ⟨t, h5⟩
    · rw [he] at h5; cases h5
    · exact h2 t h5)
  refine ⟨(held_iff h').mpr ⟨h3, fun u hu => ?_⟩, fun x hx hx' hw => h4 x hx hx' (fun hh => by rw [hwr x hh] at hw; cases hw)⟩
  rcases hg u j c hu with h5 | ⟨t, h5⟩
  · rw [he] at h5; cases h5
  · exact h2 t h5

theorem Keeps.refl (σ : Sys) : Keeps σ σ (fun _ _ => False) (fun _ => False) := fun _ _ hc _ => ⟨hc, fun _ _ _ _ => rfl⟩

theorem CKeeps.refl (κ : CSys) (a : CAct) : CKeeps κ a κ := fun _ _ hc _ => ⟨hc, fun _ _ _ _ => rfl⟩

theorem move_gives {κ : CSys} {t : Nat} {x : TS} (hx : x.gives = none ∨ x.gives = (κ.thr t).gives) {u : Nat} {y : Nat × Nat} (h : ((κ.move t x).thr u).gives = some y) : ∃ t, (κ.thr t).gives = some y := by
  simp only [CSys.move] at h
  split at h
  · rcases hx with e | e
    · rw [e] at h; cases h
    · rw [e] at h; exact ⟨t, h⟩
  · exact ⟨u, h⟩

/-- `arax_mmap` aborts the process of a thread. -/
theorem CInv.abort {cf : Conf} {κ : CSys} {L : Nat → Lay} {D : Nat → List (Nat × Nat)} (h : CInv cf κ L D) (t : Nat) : CInv cf (κ.abort t) L D :=
  h.still h.sinv.cursor rfl (fun u => ⟨(h.ok u).up, (h.ok u).live, (h.ok u).fine, (h.ok u).dying⟩) _

theorem abort_keeps {cf : Conf} {κ : CSys} {L : Nat → Lay} {D : Nat → List (Nat × Nat)} (h : CInv cf κ L D) (t : Nat) (a : CAct) : CKeeps κ a (κ.abort t) :=
  CKeeps.of h (h.abort t) (gone := fun _ _ => False) (wr := fun _ => False) (Keeps.refl κ.sys) (by simp) (by simp) (fun u j c hu => Or.inr ⟨u, hu⟩)

/-- What one event does. -/
theorem cinn_did {cf : Conf} {κ : CSys} {L : Nat → Lay} {D : Nat → List (Nat × Nat)} (h : CInv cf κ L D) {t i : Nat} {c : Call} (ht : t < κ.n) (hc : κ.thr t = .inn i c) (a : CAct) :
    ∃ κ' L' D', cinn cf κ t i c = .ok κ' ∧ CInv cf κ' L' D' ∧ CKeeps κ a κ' := by
  have hT := h.ok t
  rw [hc] at hT
  have hu : κ.sys.up i = true := hT.up i rfl
  have hlk : κ.lock i = some t := (h.lockd i t).mpr (by rw [hc]; rfl)
  have hin : ∀ u, u ≠ t → (κ.thr u).inside ≠ some i := by
    intro u hut hu'
    have := (h.lockd i u).mpr hu'
    rw [hlk] at this
    exact hut (Option.some.inj this).symm
  have hd0 : (κ.thr t).dying = [] := by rw [hc]; rfl
  have hl1 : ∀ (x : TS), x.inside = some i → ∀ j, κ.lock j = some t ↔ x.inside = some j := by
    intro x hx j
    rw [h.lockd j t, hc, hx]; rfl
  cases c with
  | stat =>
    have hC := h.go (σ := κ.sys) (t := t) (x := .back i 0) (lock := κ.lock) ht hd0 rfl h.sinv rfl (fun u _ => h.ok u) ⟨fun j hj => by cases hj; exact hu, by simp [TS.gives], by simp, by simp [TS.dying]⟩ (hl1 _ rfl)
      (fun _ _ _ => Iff.rfl) (by simp [TS.gives])
    exact ⟨_, _, _, rfl, hC, CKeeps.of h hC (Keeps.refl κ.sys) (by simp) (by simp) (fun u j c hu => Or.inr (move_gives (Or.inl rfl) hu))⟩
  | alloc bytes pick =>
    rcases h.sinv.alloced hu bytes pick with ⟨e, -⟩ | ⟨s, m, L', D', e, hs, hk, -, -⟩
    · refine ⟨_, L, D, by simp only [cinn, e], h.abort t, abort_keeps h t a⟩
    · have hC := h.go (t := t) (x := .back i m) (lock := κ.lock) ht hd0 rfl hs rfl (fun u hut => (h.ok u).after (hin u hut) (fun b hb => ?_))
        ⟨fun j hj => by cases hj; simp [Sys.after], by simp [TS.gives], by simp, by simp [TS.dying]⟩ (hl1 _ rfl) (fun _ _ _ => Iff.rfl) (by simp [TS.gives])
      · refine ⟨_, _, _, by simp only [cinn, e], hC, CKeeps.of h hC hk (by simp) (by simp) (fun u j c hu => Or.inr (move_gives (Or.inl rfl) hu))⟩
      · have := (h.ok u).live i b hb
        simp only
        split
        · exact this
        · exact List.mem_cons_of_mem _ this
  | free b =>
    have hb : b ∈ (κ.sys.live i).map Prod.fst := hT.live i b rfl
    obtain ⟨s, ph, L', D', e, hs, hf, hk⟩ := h.sinv.freed hu hb
    have hC := h.go (t := t) (x := .mid i ph) (lock := κ.lock) ht hd0 rfl hs rfl (fun u hut => (h.ok u).after (hin u hut) (fun b' hb' => ?_))
        ⟨fun j hj => by cases hj; simp [Sys.after], by simp [TS.gives], fun j q hj => by cases hj; simp only [Sys.after, if_true]; exact hf, by simp [TS.dying]⟩ (hl1 _ rfl) (fun _ _ _ => Iff.rfl) (by simp [TS.gives])
    · refine ⟨_, _, _, by simp only [cinn, e, Out.bind_ok], hC, CKeeps.of h hC hk ?_ (by simp) (fun u j c hu => Or.inr (move_gives (Or.inl rfl) hu))⟩
      rintro j c ⟨rfl, rfl⟩
      exact Or.inr ⟨t, by rw [hc]; rfl⟩
    · have h1 := (h.ok u).live i b' hb'
      have h2 : b' ≠ b := by
        rintro rfl
        exact hut (h.once u t (i, b') hb' (by rw [hc]; rfl))
      obtain ⟨c, hc1, hc2⟩ := List.mem_map.mp h1
      refine List.mem_map.mpr ⟨c, ?_, hc2⟩
      simp only [List.mem_filter, bne_iff_ne, ne_eq]
      exact ⟨hc1, by rw [hc2]; exact h2⟩

theorem cpart_did {cf : Conf} {κ : CSys} {L : Nat → Lay} {D : Nat → List (Nat × Nat)} (h : CInv cf κ L D) {t : Nat} (ht : t < κ.n) (a : CAct) :
    ∃ κ' L' D', cpart cf κ t (κ.thr t) = .ok κ' ∧ CInv cf κ' L' D' ∧ CKeeps κ a κ' := by
  have hT := h.ok t
  have hlkd := h.lockd
  have hcase : ∀ i, (κ.thr t).inside = some i → κ.sys.up i = true ∧ (∀ u, u ≠ t → (κ.thr u).inside ≠ some i) ∧ ∀ (x : TS), x.inside = some i → ∀ j, κ.lock j = some t ↔ x.inside = some j := by
    intro i hi
    have hlk : κ.lock i = some t := (h.lockd i t).mpr hi
    refine ⟨hT.up i (inside_at hi), ?_, ?_⟩
    · intro u hut hu'
      have := (h.lockd i u).mpr hu'
      rw [hlk] at this
      exact hut (Option.some.inj this).symm
    · intro x hx j
      rw [h.lockd j t, hi, hx]
  cases hx : κ.thr t with
  | out r => exact ⟨κ, L, D, rfl, h, CKeeps.refl κ a⟩
  | want i c => exact ⟨κ, L, D, rfl, h, CKeeps.refl κ a⟩
  | inn i c => exact cinn_did h ht hx a
  | mid i ph =>
    obtain ⟨hu, hin, hl1⟩ := hcase i (by rw [hx]; rfl)
    have hd0 : (κ.thr t).dying = [] := by rw [hx]; rfl
    by_cases hdone : ph = .done
    · subst hdone
      have hC := h.go (σ := κ.sys) (t := t) (x := .back i 0) (lock := κ.lock) ht hd0 rfl h.sinv rfl (fun u _ => h.ok u) ⟨fun j hj => by cases hj; exact hu, by simp [TS.gives], by simp, by simp [TS.dying]⟩ (hl1 _ rfl)
        (fun _ _ _ => Iff.rfl) (by simp [TS.gives])
      exact ⟨_, _, _, rfl, hC, CKeeps.of h hC (Keeps.refl κ.sys) (by simp) (by simp) (fun u j c hu => Or.inr (move_gives (Or.inl rfl) hu))⟩
    · obtain ⟨s, ph', L', D', e, hs, hf, hk, -⟩ := h.sinv.tidy hu (hT.fine i ph hx)
      have hC := h.go (t := t) (x := .mid i ph') (lock := κ.lock) ht hd0 rfl hs rfl (fun u hut => (h.ok u).after (hin u hut) (fun b hb => (h.ok u).live i b hb))
        ⟨fun j hj => by cases hj; simp [Sys.after], by simp [TS.gives], fun j q hj => by cases hj; simp only [Sys.after, if_true]; exact hf, by simp [TS.dying]⟩ (hl1 _ rfl) (fun _ _ _ => Iff.rfl) (by simp [TS.gives])
      refine ⟨_, _, _, ?_, hC, CKeeps.of h hC hk (by simp) (by simp) (fun u j c hu => Or.inr (move_gives (Or.inl rfl) hu))⟩
      cases ph with
      | done => exact absurd rfl hdone
      | trim => simp only [cpart, e, Out.bind_ok]
      | rel j n f au => simp only [cpart, e, Out.bind_ok]
  | back i r =>
    obtain ⟨hu, hin, hl1⟩ := hcase i (by rw [hx]; rfl)
    have hd0 : (κ.thr t).dying = [] := by rw [hx]; rfl
    have hlk : κ.lock i = some t := (h.lockd i t).mpr (by rw [hx]; rfl)
    have hC := h.go (σ := κ.sys) (t := t) (x := .out r) (lock := fun j => if j = i then none else κ.lock j) ht hd0 rfl h.sinv rfl (fun u _ => h.ok u)
      ⟨by simp [TS.at], by simp [TS.gives], by simp, by simp [TS.dying]⟩ (fun j => ?_) (fun j u hut => ?_) (by simp [TS.gives])
    · exact ⟨_, _, _, rfl, hC, CKeeps.of h hC (Keeps.refl κ.sys) (by simp) (by simp) (fun u j c hu => Or.inr (move_gives (κ := { κ with lock := fun j => if j = i then none else κ.lock j }) (Or.inl rfl) hu))⟩
    · simp only [TS.inside]
      split
      · simp
      · rename_i hji
        rw [h.lockd j t, hx]
        simp only [TS.inside, Option.some.injEq, reduceCtorEq, iff_false]
        exact fun e => hji e.symm
    · (try simp only)
      split
      · rename_i e; subst e; rw [hlk]; simp only [reduceCtorEq, Option.some.injEq, false_iff]; exact fun e => hut e.symm
      · rfl
  | kill l =>
    have hno : ∀ j, κ.lock j ≠ some t := fun j hj => by have := (h.lockd j t).mp hj; rw [hx] at this; cases this
    cases l with
    | nil =>
      have hC := h.go (σ := κ.sys) (t := t) (x := .out 0) (lock := κ.lock) ht (by rw [hx]; rfl) rfl h.sinv rfl (fun u _ => h.ok u) ⟨by simp [TS.at], by simp [TS.gives], by simp, by simp [TS.dying]⟩
        (fun j => by simp only [hno j]; simp [TS.inside]) (fun _ _ _ => Iff.rfl) (by simp [TS.gives])
      exact ⟨_, _, _, rfl, hC, CKeeps.of h hC (Keeps.refl κ.sys) (by simp) (by simp) (fun u j c hu => Or.inr (move_gives (Or.inl rfl) hu))⟩
    | cons r l =>
      have hdt : (κ.thr t).dying = r :: l := by rw [hx]; rfl
      have hmem : r ∈ (κ.thr t).dying := by rw [hdt]; exact List.mem_cons_self
      obtain ⟨g1, g2, g3⟩ := hT.dying r hmem
      have hend : κ.sys.bmp.endc = cf.groups := h.sinv.room.2
      obtain ⟨b, e, hs⟩ := h.sinv.giveBack g1 (by rw [hend]; exact g2) g3 (κ.sys.heap 0)
      have hap := h.apart t
      rw [hdt, List.pairwise_cons] at hap
      have hcov : ∀ p, covers cf [r] p = true ↔ InReg cf r p := by intro p; rw [covers_iff]; simp
      have hdis : ∀ r' : Nat × Nat, Apart r r' → ∀ p, InReg cf r' p → covers cf [r] p = false := by
        intro r' ha p hp
        cases hcp : covers cf [r] p with
        | false => rfl
        | true => have := (hcov p).mp hcp; unfold InReg at this hp; unfold Apart at ha; omega
      have hdy : ∀ u, (({ κ with sys := { κ.sys with bmp := b, lost := fun p => κ.sys.lost p && !covers cf [r] p } } : CSys).move t (.kill l) |>.thr u).dying = if u = t then l else (κ.thr u).dying := by
        intro u; simp only [CSys.move]; split <;> rfl
      have hnew : ∀ u, ∀ r' ∈ (if u = t then l else (κ.thr u).dying), r' ∈ (κ.thr u).dying ∧ Apart r r' := by
        intro u r' hr'
        split at hr'
        · rename_i e; subst e; rw [hdt]; exact ⟨List.mem_cons_of_mem _ hr', hap.1 r' hr'⟩
        · rename_i hut; exact ⟨hr', h.cross t u (fun e => hut e.symm) r hmem r' hr'⟩
      have hC : CInv cf ({ κ with sys := { κ.sys with bmp := b, lost := fun p => κ.sys.lost p && !covers cf [r] p } }.move t (.kill l)) L D := by
        refine ⟨hs, ?_, ?_, ?_, ?_, ?_, ?_, ?_, ?_⟩
        · intro u hu
          have hu : κ.n ≤ u := hu
          have : u ≠ t := by omega
          simp only [CSys.move, if_neg this]; exact h.idle u hu
        · intro i u
          by_cases hut : u = t
          · subst hut
            simp only [CSys.move, if_true, hno i, TS.inside]; simp
          · simp only [CSys.move, if_neg hut]; exact h.lockd i u
        · intro u
          have hd : ∀ r' ∈ (if u = t then l else (κ.thr u).dying), (r'.1 % 4096 = 0 ∧ r'.2 % 4096 = 0 ∧ 0 < r'.2) ∧ (cf.start ≤ r'.1 ∧ r'.1 + r'.2 ≤ cf.start + 4096 * (64 * cf.groups)) ∧
              ∀ p, InReg cf r' p → (κ.sys.lost p && !covers cf [r] p) = true := by
            intro r' hr'
            obtain ⟨h1, h2⟩ := hnew u r' hr'
            obtain ⟨h3, h4, h5⟩ := (h.ok u).dying r' h1
            exact ⟨h3, h4, fun p hp => by rw [h5 p hp, hdis r' h2 p hp]; rfl⟩
          by_cases hut : u = t
          · subst hut
            simp only [CSys.move, if_true] at hd ⊢
            exact ⟨by simp [TS.at], by simp [TS.gives], by simp, hd⟩
          · simp only [CSys.move, if_neg hut] at hd ⊢
            exact ⟨(h.ok u).up, (h.ok u).live, (h.ok u).fine, hd⟩
        · intro u v y hu hv
          simp only [CSys.move] at hu hv
          split at hu
          · cases hu
          · split at hv
            · cases hv
            · exact h.once u v y hu hv
        · intro u; rw [hdy]; split
          · exact hap.2
          · exact h.apart u
        · intro u v huv r1 h1 r2 h2
          rw [hdy] at h1 h2
          exact h.cross u v huv r1 (hnew u r1 h1).1 r2 (hnew v r2 h2).1
        · intro p
          simp only [hdy]
          show (κ.sys.lost p && !covers cf [r] p) = true ↔ κ.leak p = true ∨ _
          rw [Bool.and_eq_true, h.lost p, Bool.not_eq_true']
          constructor
          · rintro ⟨h1 | ⟨u, r', h1, h2⟩, h3⟩
            · exact Or.inl h1
            · right
              by_cases hut : u = t
              · subst hut
                rw [hdt] at h1
                rcases List.mem_cons.mp h1 with rfl | h1
                · rw [(hcov p).mpr h2] at h3; cases h3
                · exact ⟨u, r', by rw [if_pos rfl]; exact h1, h2⟩
              · exact ⟨u, r', by rw [if_neg hut]; exact h1, h2⟩
          · rintro (h1 | ⟨u, r', h1, h2⟩)
            · refine ⟨Or.inl h1, ?_⟩
              cases hcp : covers cf [r] p with
              | false => rfl
              | true => exact absurd ((hcov p).mp hcp) (h.leak p h1 t r hmem)
            · obtain ⟨h3, h4⟩ := hnew u r' h1
              exact ⟨Or.inr ⟨u, r', h3, h2⟩, hdis r' h4 p h2⟩
        · intro p hp u r' hr'
          rw [hdy] at hr'
          exact h.leak p hp u r' (hnew u r' hr').1
      refine ⟨_, L, D, by simp only [cpart, e, Out.bind_ok], hC, CKeeps.of h hC (gone := fun _ _ => False) (wr := fun _ => False) ?_ (by simp) (by simp) (fun u j c hu => Or.inr (move_gives (κ := { κ with sys := { κ.sys with bmp := b, lost := fun p => κ.sys.lost p && !covers cf [r] p } }) (Or.inl rfl) hu))⟩
      exact fun j c hc _ => ⟨hc, fun _ _ _ _ => rfl⟩

theorem regs_eq {cf : Conf} {σ : Sys} {L : Nat → Lay} {D : Nat → List (Nat × Nat)} (h : SInv cf σ L D) {i : Nat} (hu : σ.up i = true) : regs (L i) (D i) = ((σ.heap i).segs.map fun (g : Seg) => (g.base, g.size)) ++ D i := by
  have hsg : (σ.heap i).segs = (L i).map Prod.fst := (h.one i hu).inv.segs
  unfold regs; rw [hsg, List.map_map]; rfl

theorem destroy_did {cf : Conf} {κ : CSys} {L : Nat → Lay} {D : Nat → List (Nat × Nat)} (h : CInv cf κ L D) {t i : Nat} (ht : t < κ.n) {r0 : Nat} (hx : κ.thr t = .out r0) (hu : κ.sys.up i = true) (hno : κ.used i = false) :
    CInv cf ({ κ with sys := { κ.sys with live := fun j => if j = i then [] else κ.sys.live j, up := fun j => if j = i then false else κ.sys.up j, lost := fun p => κ.sys.lost p || covers cf (((κ.sys.heap i).segs.map fun (g : Seg) => (g.base, g.size)) ++ directs κ.sys.mem (κ.sys.live i)) p }, leak := fun p => κ.leak p || covers cf (directs κ.sys.mem (κ.sys.live i)) p }.move t (.kill ((κ.sys.heap i).segs.map fun (g : Seg) => (g.base, g.size)))) L D := by
  have hs := h.sinv.retire hu
  have hw := h.sinv.one i hu
  have hregs := regs_eq h.sinv hu
  generalize hR : ((κ.sys.heap i).segs.map fun (g : Seg) => (g.base, g.size)) = R at hs hregs ⊢
  have hend : κ.sys.bmp.endc = cf.groups := h.sinv.room.2
  have hdj := hw.inv.disj
  rw [hregs, List.pairwise_append] at hdj
  have hDir : ∀ r, r ∈ directs κ.sys.mem (κ.sys.live i) ↔ r ∈ D i := directs_iff hw
  have hdcov : ∀ p, covers cf (directs κ.sys.mem (κ.sys.live i)) p = true ↔ ∃ r ∈ D i, InReg cf r p := by
    intro p; rw [covers_iff]; constructor
    · rintro ⟨r, h1, h2⟩; exact ⟨r, (hDir r).mp h1, h2⟩
    · rintro ⟨r, h1, h2⟩; exact ⟨r, (hDir r).mpr h1, h2⟩
  have hnat : ∀ u j, (κ.thr u).at = some j → j ≠ i := by
    rintro u j hj rfl
    have := (used_iff h).mpr ⟨u, hj⟩
    rw [hno] at this; cases this
  have hRr : ∀ r ∈ R, r ∈ regs (L i) (D i) := fun r hr => by rw [hregs]; exact List.mem_append_left _ hr
  have hDr : ∀ r ∈ D i, r ∈ regs (L i) (D i) := fun r hr => by rw [hregs]; exact List.mem_append_right _ hr
  -- old dying regions and old leaks are not in the regions of the allocator
  have hold : ∀ r ∈ regs (L i) (D i), ∀ p, InReg cf r p → κ.sys.lost p = false := by
    intro r hr p hp
    cases hl : κ.sys.lost p with
    | false => rfl
    | true => have := (h.sinv.lost p hl).2 i hu; rw [covers_iff.mpr ⟨r, hr, hp⟩] at this; cases this
  have hst := h.sinv.start
  have hapart : ∀ r ∈ R, ∀ u, ∀ r' ∈ (κ.thr u).dying, Apart r r' := by
    intro r hr u r' hr'
    obtain ⟨g1, g2, g3⟩ := (h.ok u).dying r' hr'
    have hal := hw.inv.regs.al r (hRr r hr)
    have hlo := hw.inv.low r (hRr r hr)
    unfold Apart
    by_cases hlt : r.1 + r.2 ≤ r'.1 ∨ r'.1 + r'.2 ≤ r.1
    · exact hlt
    · exfalso
      have h1 := hold r (hRr r hr) ((max r.1 r'.1 - cf.start) / 4096) (by unfold InReg; omega)
      have h2 := g3 ((max r.1 r'.1 - cf.start) / 4096) (by unfold InReg; omega)
      rw [h1] at h2; cases h2
  have hdt : (κ.thr t).dying = [] := by rw [hx]; rfl
  refine ⟨hs, ?_, ?_, ?_, ?_, ?_, ?_, ?_, ?_⟩
  · intro u hun
    have hun : κ.n ≤ u := hun
    have : u ≠ t := by omega
    simp only [CSys.move, if_neg this]; exact h.idle u hun
  · intro j u
    by_cases hut : u = t
    · subst hut
      simp only [CSys.move, if_true, TS.inside]
      have := h.lockd j u
      rw [hx] at this
      exact this
    · simp only [CSys.move, if_neg hut]; exact h.lockd j u
  · intro u
    by_cases hut : u = t
    · subst hut
      simp only [CSys.move, if_true]
      refine ⟨by simp [TS.at], by simp [TS.gives], by simp, ?_⟩
      intro r hr
      have hr : r ∈ R := hr
      have hlo := hw.inv.low r (hRr r hr)
      refine ⟨hw.inv.regs.al r (hRr r hr), ⟨hlo.1, by rw [← hend]; exact hlo.2.2⟩, fun p hp => ?_⟩
      simp only [Bool.or_eq_true]
      exact Or.inr (covers_iff.mpr ⟨r, List.mem_append_left _ hr, hp⟩)
    · simp only [CSys.move, if_neg hut]
      refine ⟨fun j hj => ?_, fun j a hj => ?_, fun j ph hj => ?_, fun r hr => ?_⟩
      · simp only [if_neg (hnat u j hj)]; exact (h.ok u).up j hj
      · simp only [if_neg (hnat u j (gives_at hj))]; exact (h.ok u).live j a hj
      · exact (h.ok u).fine j ph hj
      · obtain ⟨g1, g2, g3⟩ := (h.ok u).dying r hr
        exact ⟨g1, g2, fun p hp => by simp only [g3 p hp, Bool.true_or]⟩
  · intro u v y h1 h2
    simp only [CSys.move] at h1 h2
    split at h1
    · cases h1
    · split at h2
      · cases h2
      · exact h.once u v y h1 h2
  · intro u; simp only [CSys.move]; split
    · exact hdj.1
    · exact h.apart u
  · intro u v huv r1 h1 r2 h2
    simp only [CSys.move] at h1 h2
    split at h1
    · split at h2
      · rename_i e1 e2; exact absurd (e1.trans e2.symm) huv
      · exact hapart r1 h1 v r2 h2
    · split at h2
      · exact (hapart r2 h2 u r1 h1).symm
      · exact h.cross u v huv r1 h1 r2 h2
  · intro p
    show (κ.sys.lost p || covers cf (R ++ directs κ.sys.mem (κ.sys.live i)) p) = true ↔ (κ.leak p || covers cf (directs κ.sys.mem (κ.sys.live i)) p) = true ∨ _
    rw [Bool.or_eq_true, Bool.or_eq_true, h.lost p]
    constructor
    · rintro ((h1 | ⟨u, r, h1, h2⟩) | h1)
      · exact Or.inl (Or.inl h1)
      · right
        have hut : u ≠ t := by rintro rfl; rw [hdt] at h1; cases h1
        exact ⟨u, r, by simp only [CSys.move, if_neg hut]; exact h1, h2⟩
      · obtain ⟨r, h2, h3⟩ := covers_iff.mp h1
        rcases List.mem_append.mp h2 with h2 | h2
        · exact Or.inr ⟨t, r, by simp only [CSys.move, if_true]; exact h2, h3⟩
        · exact Or.inl (Or.inr (covers_iff.mpr ⟨r, h2, h3⟩))
    · rintro ((h1 | h1) | ⟨u, r, h1, h2⟩)
      · exact Or.inl (Or.inl h1)
      · obtain ⟨r, h2, h3⟩ := covers_iff.mp h1
        exact Or.inr (covers_iff.mpr ⟨r, List.mem_append_right _ h2, h3⟩)
      · simp only [CSys.move] at h1
        split at h1
        · exact Or.inr (covers_iff.mpr ⟨r, List.mem_append_left _ h1, h2⟩)
        · exact Or.inl (Or.inr ⟨u, r, h1, h2⟩)
  · intro p hp u r hr hpr
    have hp : (κ.leak p || covers cf (directs κ.sys.mem (κ.sys.live i)) p) = true := hp
    simp only [CSys.move] at hr
    rw [Bool.or_eq_true, hdcov] at hp
    split at hr
    · have hr : r ∈ R := hr
      rcases hp with hp | ⟨r', h1, h2⟩
      · have h3 := hold r (hRr r hr) p hpr
        rw [(h.lost p).mpr (Or.inl hp)] at h3; cases h3
      · have := hdj.2.2 r hr r' h1
        unfold Apart at this; unfold InReg at hpr h2; omega
    · rcases hp with hp | ⟨r', h1, h2⟩
      · exact h.leak p hp u r hr hpr
      · have h3 := hold r' (hDr r' h1) p h2
        rw [((h.ok u).dying r hr).2.2 p hpr] at h3; cases h3

theorem ite_ind {c : Prop} [Decidable c] {A B : World} {P : World → Prop} (a : P A) (b : P B) : P (if c then A else B) := by split <;> assumption

theorem after_heap {σ : Sys} {i : Nat} {w : World} (h : w.heap.segs = (σ.heap i).segs ∧ w.heap.topsize = (σ.heap i).topsize) (j : Nat) :
    ((σ.after i w).heap j).segs = (σ.heap j).segs ∧ ((σ.after i w).heap j).topsize = (σ.heap j).topsize := by
  simp only [Sys.after]
  by_cases hj : j = i
  · subst hj; rw [if_pos rfl]; exact h
  · rw [if_neg hj]; exact ⟨rfl, rfl⟩

/-- What one event does. -/
theorem cstep_did {cf : Conf} {κ : CSys} {L : Nat → Lay} {D : Nat → List (Nat × Nat)} (h : CInv cf κ L D) (a : CAct) : ∃ κ' L' D', cstep cf κ a = .ok κ' ∧ CInv cf κ' L' D' ∧ CKeeps κ a κ' := by
  have hself : ∃ κ' L' D', Out.ok κ = .ok κ' ∧ CInv cf κ' L' D' ∧ CKeeps κ a κ' := ⟨κ, L, D, rfl, h, CKeeps.refl κ a⟩
  have hout : ∀ t, (κ.thr t).idle = true → ∃ r, κ.thr t = .out r := by
    intro t ht
    cases hx : κ.thr t with
    | out r => exact ⟨r, rfl⟩
    | _ => rw [hx] at ht; cases ht
  have halive : ∀ t, κ.alive t = true → t < κ.n := by
    intro t ht; unfold CSys.alive at ht; simp only [Bool.and_eq_true, decide_eq_true_eq] at ht; exact ht.1
  cases a with
  | create t i =>
    simp only [cstep]
    split
    · rename_i hc
      simp only [Bool.and_eq_true, Bool.not_eq_true'] at hc
      have hd := sstep_did h.sinv (.create i)
      have e0 : sstep cf κ.sys (.create i) = (create cf κ.sys.mem κ.sys.bmp).bind fun s => .ok (κ.sys.after i ⟨s, [], fun _ => false⟩) := by
        simp only [sstep, hc.2, Bool.false_eq_true, if_false]
      rw [e0] at hd
      cases hcr : create cf κ.sys.mem κ.sys.bmp with
      | corrupt => rw [hcr] at hd; cases hd
      | noMem => exact ⟨_, L, D, rfl, h.abort t, abort_keeps h t _⟩
      | ok s =>
        rw [hcr] at hd
        simp only [Out.bind_ok] at hd
        cases hd with
        | next _ L' D' hs hk hup hlost =>
          have hC := h.still hs hlost (fun u => (h.ok u).after (w := ⟨s, [], fun _ => false⟩) (fun hin => ?_) (fun b hb => ?_)) κ.dead
          · refine ⟨_, L', D', rfl, hC, CKeeps.of h hC (gone := fun _ _ => False) (wr := fun _ => False) ?_ (by simp) (by simp) (fun u j c hu => Or.inr ⟨u, hu⟩)⟩
            intro j c hcj _
            obtain ⟨h1, h2⟩ := hk j c hcj (by simp) (by simp)
            exact ⟨h1, fun x hx hx' _ => h2 x hx hx' (by simp)⟩
          · have := (h.ok u).up i (inside_at hin); rw [hc.2] at this; cases this
          · have := (h.ok u).up i (gives_at hb); rw [hc.2] at this; cases this
    · exact hself
  | call t i c =>
    simp only [cstep]
    split
    · rename_i hc
      simp only [Bool.and_eq_true] at hc
      obtain ⟨⟨⟨h1, h2⟩, h3⟩, h4⟩ := hc
      obtain ⟨r, hx⟩ := hout t h2
      have hg : ∀ j b, (TS.want i c).gives = some (j, b) → j = i ∧ c = .free b ∧ b ∈ (κ.sys.live i).map Prod.fst ∧ ∀ u, (κ.thr u).gives ≠ some (i, b) := by
        intro j b hb
        cases c with
        | free b' =>
          simp only [TS.gives, Option.some.injEq, Prod.mk.injEq] at hb
          obtain ⟨rfl, rfl⟩ := hb
          simp only [CSys.may, List.any_eq_true, beq_iff_eq] at h4
          obtain ⟨d, hd, rfl⟩ := h4
          obtain ⟨h5, h6⟩ := (held_iff h).mp hd
          exact ⟨rfl, rfl, List.mem_map_of_mem h5, h6⟩
        | _ => cases hb
      have hC := h.go (σ := κ.sys) (t := t) (x := .want i c) (lock := κ.lock) (halive t h1) (by rw [hx]; rfl) rfl h.sinv rfl (fun u _ => h.ok u)
        ⟨fun j hj => by cases hj; exact h3, fun j b hb => by obtain ⟨rfl, -, h5, -⟩ := hg j b hb; exact h5, by simp, by simp [TS.dying]⟩
        (fun j => by rw [h.lockd j t, hx]; simp [TS.inside]) (fun _ _ _ => Iff.rfl) (fun y hy u _ => by obtain ⟨j, b⟩ := y; obtain ⟨rfl, -, -, h5⟩ := hg j b hy; exact h5 u)
      refine ⟨_, L, D, rfl, hC, CKeeps.of h hC (Keeps.refl κ.sys) (by simp) (by simp) ?_⟩
      intro u j d hu
      simp only [CSys.move] at hu
      split at hu
      · obtain ⟨rfl, rfl, -, -⟩ := hg j d.1 hu
        left; simp [cends]
      · exact Or.inr ⟨u, hu⟩
    · exact hself
  | acquire t =>
    simp only [cstep]
    split
    · rename_i i c halv hx
      split
      · rename_i hfree
        have hT := h.ok t
        rw [hx] at hT
        have hC := h.go (σ := κ.sys) (t := t) (x := .inn i c) (lock := fun j => if j = i then some t else κ.lock j) (halive t halv) (by rw [hx]; rfl) rfl h.sinv rfl (fun u _ => h.ok u)
          ⟨fun j hj => hT.up j hj, fun j b hb => hT.live j b (by cases c <;> exact hb), by simp, by simp [TS.dying]⟩ (fun j => ?_) (fun j u hut => ?_)
          (fun y hy u hut hu => hut (h.once u t y hu (by rw [hx]; cases c <;> exact hy)))
        · refine ⟨_, L, D, rfl, hC, CKeeps.of h hC (Keeps.refl κ.sys) (by simp) (by simp) (fun u j d hu => Or.inr (move_gives (κ := { κ with lock := fun j => if j = i then some t else κ.lock j }) (Or.inr ?_) hu))⟩
          show (TS.inn i c).gives = (κ.thr t).gives
          rw [hx]; cases c <;> rfl
        · simp only [TS.inside]
          split
          · rename_i e; subst e; simp
          · rename_i hji
            rw [h.lockd j t, hx]
            simp only [TS.inside, reduceCtorEq, Option.some.injEq, false_iff]
            exact fun e => hji e.symm
        · (try simp only)
          split
          · rename_i e; subst e; rw [hfree]; simp only [Option.some.injEq, reduceCtorEq, iff_false]; exact fun e => hut e.symm
          · rfl
      · exact hself
    · exact hself
  | step t =>
    simp only [cstep]
    split
    · rename_i hal
      exact cpart_did h (halive t hal) _
    · exact hself
  | write i x v =>
    simp only [cstep]
    split
    · rename_i hh
      by_cases hu : κ.sys.up i = true
      · have hd := at_did h.sinv hu (a := .write x v) (Or.inr (Or.inr (Or.inl ⟨_, _, rfl⟩)))
        rcases hd with ⟨-, _, _, _, e, -⟩ | ⟨w, L', D', e, hs, hk, hl⟩
        · cases e
        · rw [e]
          have hheap : ∀ j, ((κ.sys.after i w).heap j).segs = (κ.sys.heap j).segs ∧ ((κ.sys.after i w).heap j).topsize = (κ.sys.heap j).topsize := by
            intro j
            simp only [Sys.at, hu, if_true, step, Sys.view, Out.bind_ok] at e
            have e := Out.ok.inj e; rw [← e]
            exact after_heap (ite_ind (P := fun w => w.heap.segs = (κ.sys.heap i).segs ∧ w.heap.topsize = (κ.sys.heap i).topsize) ⟨rfl, rfl⟩ ⟨rfl, rfl⟩) j
          have hlive : (κ.sys.after i w).live = κ.sys.live := by rw [after_live hl]; exact live_self
          have hC := h.still hs rfl (fun u => ⟨fun j hj => by rw [after_up hu]; exact (h.ok u).up j hj, fun j b hb => by rw [hlive]; exact (h.ok u).live j b hb, fun j ph hj => ?_, (h.ok u).dying⟩) κ.dead
          · refine ⟨_, L', D', rfl, hC, CKeeps.of h hC (gone := fun _ _ => False) (wr := fun y => y = x) ?_ (by simp) (fun y hy => by subst hy; simp [cwrites]) (fun u j c hu => Or.inr ⟨u, hu⟩)⟩
            intro j c hc _
            obtain ⟨h1, h2⟩ := hk j c hc (fun _ b e => by cases e)
            exact ⟨h1, fun y hy hy' hne => h2 y hy hy' (fun v' e => by cases e; exact hne rfl)⟩
          · have := (h.ok u).fine j ph hj
            cases ph with
            | done => trivial
            | trim => simp only [Phase.Fine] at this ⊢; rw [(hheap j).2]; exact this
            | rel => exact this
      · unfold Sys.at; rw [if_neg hu]; exact hself
    · exact hself
  | links i x v =>
    simp only [cstep]
    by_cases hu : κ.sys.up i = true
    · have hd := at_did h.sinv hu (a := .links x v) (Or.inr (Or.inr (Or.inr ⟨_, _, rfl⟩)))
      rcases hd with ⟨-, _, _, _, e, -⟩ | ⟨w, L', D', e, hs, hk, hl⟩
      · cases e
      · rw [e]
        have hheap : ∀ j, ((κ.sys.after i w).heap j).segs = (κ.sys.heap j).segs ∧ ((κ.sys.after i w).heap j).topsize = (κ.sys.heap j).topsize := by
          intro j
          simp only [Sys.at, hu, if_true, step, Sys.view, Out.bind_ok] at e
          have e := Out.ok.inj e; rw [← e]
          exact after_heap (ite_ind (P := fun w => w.heap.segs = (κ.sys.heap i).segs ∧ w.heap.topsize = (κ.sys.heap i).topsize) ⟨rfl, rfl⟩ ⟨rfl, rfl⟩) j
        have hlive : (κ.sys.after i w).live = κ.sys.live := by rw [after_live hl]; exact live_self
        have hC := h.still hs rfl (fun u => ⟨fun j hj => by rw [after_up hu]; exact (h.ok u).up j hj, fun j b hb => by rw [hlive]; exact (h.ok u).live j b hb, fun j ph hj => ?_, (h.ok u).dying⟩) κ.dead
        · refine ⟨_, L', D', rfl, hC, CKeeps.of h hC (gone := fun _ _ => False) (wr := fun _ => False) ?_ (by simp) (by simp) (fun u j c hu => Or.inr ⟨u, hu⟩)⟩
          intro j c hc _
          obtain ⟨h1, h2⟩ := hk j c hc (fun _ b e => by cases e)
          exact ⟨h1, fun y hy hy' _ => h2 y hy hy' (fun v' e => by cases e)⟩
        · have := (h.ok u).fine j ph hj
          cases ph with
          | done => trivial
          | trim => simp only [Phase.Fine] at this ⊢; rw [(hheap j).2]; exact this
          | rel => exact this
    · unfold Sys.at; rw [if_neg hu]; exact hself
  | destroy t i =>
    simp only [cstep]
    split
    · rename_i hc
      simp only [Bool.and_eq_true, Bool.not_eq_true'] at hc
      obtain ⟨⟨⟨h1, h2⟩, h3⟩, h4⟩ := hc
      obtain ⟨r, hx⟩ := hout t h2
      have hC := destroy_did h (halive t h1) hx h3 h4
      refine ⟨_, L, D, rfl, hC, CKeeps.of h hC (gone := fun j _ => j = i) (wr := fun _ => False) ?_ ?_ (by simp) ?_⟩
      · intro j c hcj hj
        exact ⟨by simp only [CSys.move]; rw [if_neg hj]; exact hcj, fun _ _ _ _ => rfl⟩
      · intro j c hj; left; subst hj; simp [cends]
      · intro u j c hu
        simp only [CSys.move] at hu
        split at hu
        · cases hu
        · exact Or.inr ⟨u, hu⟩
    · exact hself
  | die t =>
    simp only [cstep]
    have hC := h.still h.sinv rfl h.ok (fun u => if u = t then true else κ.dead u)
    exact ⟨_, L, D, rfl, hC, CKeeps.of h hC (Keeps.refl κ.sys) (by simp) (by simp) (fun u j c hu => Or.inr ⟨u, hu⟩)⟩

end Arax.Dl
