import Verif.Dl.System
/-!
# Histories of all allocators keep the invariant
-/
namespace Arax.Dl
open Arax.Bitmap (bit Bmp)

theorem foreign_up {cf : Conf} {σ : Sys} {L : Nat → Lay} {D : Nat → List (Nat × Nat)} {i : Nat} (hu : σ.up i = true) : σ.foreign cf L D i = others cf σ.bmp (regs (L i) (D i)) := by
  funext p; unfold Sys.foreign others; rw [hu]; simp

/-- Blocks of the other allocators, when `i` does something. -/
theorem SInv.other_bytes {cf : Conf} {σ : Sys} {L : Nat → Lay} {D : Nat → List (Nat × Nat)} (h : SInv cf σ L D) {i j : Nat} (hne : j ≠ i) {m : Nat → Nat} (hm : Frame cf (σ.foreign cf L D i) σ.mem m)
    {c : Nat × Nat} (hc : c ∈ σ.live j) {x : Nat} (h1 : c.1 ≤ x) (h2 : x < c.1 + c.2) : m x = σ.mem x := by
  have hj : σ.up j = true := by
    cases hj : σ.up j with
    | true => rfl
    | false => rw [h.down j hj] at hc; cases hc
  have hw := h.one j hj
  have hst := h.start
  obtain ⟨p, n, e, hb, hn, -⟩ := hw.fwd c hc
  obtain ⟨r, hr, h3, h4⟩ := blk_reg hw.inv hb
  have hl := hw.inv.low r hr
  have hal := hw.inv.regs.al r hr
  exact hm x (by omega) (h.foreign_pages hj hne hr (p := (x - cf.start) / 4096) (by unfold InReg; omega))

/-- An event at allocator `i`. -/
theorem at_did {cf : Conf} {σ : Sys} {L : Nat → Lay} {D : Nat → List (Nat × Nat)} (h : SInv cf σ L D) {i : Nat} (hu : σ.up i = true) {a : Act}
    (ha : (∃ n p, a = .alloc n p) ∨ (∃ m, a = .free m) ∨ (∃ x v, a = .write x v) ∨ ∃ x v, a = .links x v) :
    (σ.at cf i a = .noMem ∧ ∃ bytes pick k, a = .alloc bytes pick ∧ (Bitmap.alloc σ.bmp k).2 = none ∧ bytes < 4096 * k ∧ 4096 * k ≤ bytes + 65664) ∨
    ∃ w L' D', σ.at cf i a = .ok (σ.after i w) ∧ SInv cf (σ.after i w) L' D' ∧
      (∀ j, ∀ c ∈ σ.live j, (j = i → ∀ b, a = .free b → b ≠ c.1) → c ∈ (σ.after i w).live j ∧ ∀ x, c.1 ≤ x → x < c.1 + c.2 → (∀ v, a ≠ .write x v) → w.heap.mem x = σ.mem x) ∧
      (match a with
        | .alloc bytes _ => (∃ m, m ≠ 0 ∧ m ∉ (σ.live i).map Prod.fst ∧ w.live = (m, bytes) :: σ.live i) ∨ (w.live = σ.live i ∧ w.heap.mem = σ.mem ∧ w.heap.bmp = σ.bmp ∧ 2 ^ 64 ≤ bytes + 65664)
        | .free m => w.live = (σ.live i).filter (·.1 != m)
        | _ => w.live = σ.live i) := by
  have hd := step_did (h.one i hu) a
  have he := step_env (cf := cf) (w := σ.view i (fun _ => false)) (e := others cf σ.bmp (regs (L i) (D i))) ha
  have hv : { σ.view i (fun _ => false) with env := others cf σ.bmp (regs (L i) (D i)) } = σ.view i (others cf σ.bmp (regs (L i) (D i))) := rfl
  rw [hv] at he
  rw [he] at hd
  unfold Sys.at
  rw [if_pos hu]
  cases hs : step cf (σ.view i (fun _ => false)) a with
  | corrupt => rw [hs] at hd; simp only [Out.bind_corrupt] at hd; cases hd
  | noMem =>
    rw [hs] at hd; simp only [Out.bind_noMem] at hd
    cases hd with
    | full bytes pick k h1 h2 h3 h4 => left; exact ⟨rfl, bytes, pick, k, h1, h2, h3, h4⟩
  | ok w =>
    rw [hs] at hd; simp only [Out.bind_ok] at hd
    right
    cases hd with
    | next _ L' D' hw hmst hk hfr henv hl =>
      have hne : ∀ x v, a ≠ .envWrite x v := by
        intro x v e; subst e; rcases ha with ⟨_, _, h⟩ | ⟨_, h⟩ | ⟨_, _, h⟩ | ⟨_, _, h⟩ <;> cases h
      have hF : Frame cf (σ.foreign cf L D i) σ.mem w.heap.mem := by
        rw [foreign_up hu]
        exact fun x h1 h2 => hfr x h1 h2 (hne x)
      have hA := h.after (w := { w with env := others cf σ.bmp (regs (L i) (D i)) }) hw (by rw [foreign_up hu]) hF
      refine ⟨w, _, _, rfl, hA, ?_, ?_⟩
      · intro j c hc hnf
        by_cases hji : j = i
        · subst hji
          obtain ⟨h1, h2⟩ := hk c hc (hnf rfl)
          exact ⟨by simp only [Sys.after, if_true]; exact h1, h2⟩
        · refine ⟨by simp only [Sys.after, if_neg hji]; exact hc, fun x h1 h2 _ => h.other_bytes hji hF hc h1 h2⟩
      · rcases ha with ⟨n, p, rfl⟩ | ⟨m, rfl⟩ | ⟨x, v, rfl⟩ | ⟨x, v, rfl⟩
        · rcases hl with hl | ⟨hl, hl'⟩
          · exact Or.inl hl
          · right
            have h1 := congrArg World.live hl
            have h2 := congrArg (fun w => w.heap.mem) hl
            have h3 := congrArg (fun w => w.heap.bmp) hl
            exact ⟨h1, h2, h3, hl'⟩
        · exact hl
        · exact hl
        · exact hl

theorem after_up {σ : Sys} {i : Nat} {w : World} (hu : σ.up i = true) : (σ.after i w).up = σ.up := by
  funext j; simp only [Sys.after]; split
  · rename_i e; rw [e, hu]
  · rfl

theorem after_live {σ : Sys} {i : Nat} {w : World} {l : List (Nat × Nat)} (hl : w.live = l) : (σ.after i w).live = fun j => if j = i then l else σ.live j := by
  rw [← hl]; rfl

theorem live_self {σ : Sys} {i : Nat} : (fun j => if j = i then σ.live i else σ.live j) = σ.live := by
  funext j; split
  · rename_i e; rw [e]
  · rfl

theorem sstep_did {cf : Conf} {σ : Sys} {L : Nat → Lay} {D : Nat → List (Nat × Nat)} (h : SInv cf σ L D) (a : SAct) : SDid cf σ a (sstep cf σ a) := by
  have hkeep : ∀ j, ∀ c ∈ σ.live j, c ∈ σ.live j ∧ ∀ x, c.1 ≤ x → x < c.1 + c.2 → (∀ i v, a ≠ .write i x v) → σ.mem x = σ.mem x := fun j c hc => ⟨hc, fun _ _ _ _ => rfl⟩
  cases a with
  | create i =>
    simp only [sstep]
    split
    · exact SDid.next σ L D h (fun j c hc _ _ => hkeep j c hc) (Or.inl rfl) rfl
    · rename_i hu
      have hu : σ.up i = false := by simpa using hu
      rcases create_core σ.mem h.bok h.start h.room with ⟨e, h1⟩ | ⟨s, L0, e, hi, hb, hf⟩
      · rw [e]; exact SDid.full 16 h1 (Or.inl ⟨i, rfl, rfl⟩)
      · rw [e]
        simp only [Out.bind_ok]
        have hfo : σ.foreign cf L D i = bit σ.bmp := by funext p; unfold Sys.foreign; rw [hu]; simp
        have hA := h.after (i := i) (w := ⟨s, [], bit σ.bmp⟩) (L' := L0) (D' := []) ⟨hi, fun p n hp => Or.inl ((hb p n).mp hp).1, by simp, by simp⟩ hfo.symm (by rw [hfo]; exact hf)
        have hl : (σ.after i ⟨s, [], fun _ => false⟩).live = σ.live := by
          rw [after_live rfl, ← h.down i hu]; exact live_self
        refine SDid.next _ _ _ hA ?_ (Or.inr ⟨hu, rfl, hl⟩) rfl
        intro j c hc _ _
        refine ⟨by rw [hl]; exact hc, fun x h1 h2 _ => ?_⟩
        by_cases hji : j = i
        · subst hji; rw [h.down j hu] at hc; cases hc
        · exact h.other_bytes hji (by rw [hfo]; exact hf) hc h1 h2
  | alloc i bytes pick =>
    simp only [sstep]
    by_cases hu : σ.up i = true
    · rcases at_did h hu (a := .alloc bytes pick) (Or.inl ⟨_, _, rfl⟩) with ⟨e, b, p, k, e2, h1, h2, h3⟩ | ⟨w, L', D', e, hi, hk, hl⟩
      · cases e2
        rw [e]; exact SDid.full k h1 (Or.inr ⟨i, bytes, pick, rfl, h2, h3⟩)
      · rw [e]
        refine SDid.next _ _ _ hi ?_ ?_ rfl
        · intro j c hc _ _
          obtain ⟨h1, h2⟩ := hk j c hc (fun _ b e => by cases e)
          exact ⟨h1, fun x hx hx' _ => h2 x hx hx' (fun v e => by cases e)⟩
        · rcases hl with ⟨m, h1, h2, h3⟩ | ⟨h1, h2, h3, h4⟩
          · exact Or.inr (Or.inl ⟨m, h1, h2, after_live h3, after_up hu⟩)
          · exact Or.inr (Or.inr ⟨by rw [after_live h1, live_self], after_up hu, h2, h3, h4⟩)
    · unfold Sys.at; rw [if_neg hu]
      exact SDid.next σ L D h (fun j c hc _ _ => hkeep j c hc) (Or.inl ⟨by simpa using hu, rfl⟩) rfl
  | free i m =>
    simp only [sstep]
    by_cases hu : σ.up i = true
    · rcases at_did h hu (a := .free m) (Or.inr (Or.inl ⟨_, rfl⟩)) with ⟨e, b, p, k, e2, h1, h2, h3⟩ | ⟨w, L', D', e, hi, hk, hl⟩
      · cases e2
      · rw [e]
        refine SDid.next _ _ _ hi ?_ ⟨after_live hl, after_up hu⟩ rfl
        intro j c hc hne _
        obtain ⟨h1, h2⟩ := hk j c hc (fun e1 b e => by cases e; intro e2; apply hne; rw [e1, e2])
        exact ⟨h1, fun x hx hx' _ => h2 x hx hx' (fun v e => by cases e)⟩
    · unfold Sys.at; rw [if_neg hu]
      refine SDid.next σ L D h (fun j c hc _ _ => hkeep j c hc) ⟨?_, rfl⟩ rfl
      rw [h.down i (by simpa using hu)]
      simp only [List.filter_nil]
      rw [← h.down i (by simpa using hu)]; exact live_self.symm
  | write i x v =>
    simp only [sstep]
    by_cases hu : σ.up i = true
    · rcases at_did h hu (a := .write x v) (Or.inr (Or.inr (Or.inl ⟨_, _, rfl⟩))) with ⟨e, b, p, k, e2, h1, h2, h3⟩ | ⟨w, L', D', e, hi, hk, hl⟩
      · cases e2
      · rw [e]
        refine SDid.next _ _ _ hi ?_ ⟨by rw [after_live hl, live_self], after_up hu⟩ rfl
        intro j c hc hne _
        obtain ⟨h1, h2⟩ := hk j c hc (fun e1 b e => by cases e)
        exact ⟨h1, fun y hx hx' hn => h2 y hx hx' (fun v' e => by cases e; exact hn i v rfl)⟩
    · unfold Sys.at; rw [if_neg hu]
      exact SDid.next σ L D h (fun j c hc _ _ => hkeep j c hc) ⟨rfl, rfl⟩ rfl
  | links i x v =>
    simp only [sstep]
    by_cases hu : σ.up i = true
    · rcases at_did h hu (a := .links x v) (Or.inr (Or.inr (Or.inr ⟨_, _, rfl⟩))) with ⟨e, b, p, k, e2, h1, h2, h3⟩ | ⟨w, L', D', e, hi, hk, hl⟩
      · cases e2
      · rw [e]
        refine SDid.next _ _ _ hi ?_ ⟨by rw [after_live hl, live_self], after_up hu⟩ rfl
        intro j c hc hne _
        obtain ⟨h1, h2⟩ := hk j c hc (fun e1 b e => by cases e)
        exact ⟨h1, fun y hx hx' _ => h2 y hx hx' (fun v' e => by cases e)⟩
    · unfold Sys.at; rw [if_neg hu]
      exact SDid.next σ L D h (fun j c hc _ _ => hkeep j c hc) ⟨rfl, rfl⟩ rfl
  | destroy i =>
    simp only [sstep]
    by_cases hu : σ.up i = true
    · rw [if_pos hu]
      have hw := h.one i hu
      obtain ⟨b', f', h1, h2⟩ := destroyLoop_ok (L i) { σ.heap i with mem := σ.mem, bmp := σ.bmp } _ hw.inv.regs
      have hsg : (σ.heap i).segs = (L i).map Prod.fst := hw.inv.segs
      rw [← hsg] at h1
      simp only at h1
      rw [h1]
      simp only [Out.bind_ok]
      have henvb : ∀ p, σ.foreign cf L D i p = true → bit b' p = true := by
        rw [foreign_up hu]; exact h2.envb
      have hend : b'.endc = σ.bmp.endc := by rw [h2.top64.2, h.room.2]
      have hdir : ∀ p, covers cf (directs σ.mem (σ.live i)) p = covers cf (D i) p := covers_congr (directs_iff hw)
      have hup : ∀ j, (if j = i then false else σ.up j) = true → j ≠ i ∧ σ.up j = true := by
        intro j hj; split at hj
        · cases hj
        · rename_i hn; exact ⟨hn, hj⟩
      have hDreg : ∀ p, covers cf (D i) p = true → covers cf (regs (L i) (D i)) p = true := by
        intro p hp
        obtain ⟨r, hr, hp⟩ := covers_iff.mp hp
        exact covers_iff.mpr ⟨r, List.mem_append_right _ hr, hp⟩
      refine SDid.next _ L D ⟨?_, ?_, h2.bmp, h.start, by simp only [hend]; exact h.room, ?_, ?_, ?_⟩ ?_ ⟨rfl, rfl⟩ rfl
      · intro j hj
        obtain ⟨hji, hj⟩ := hup j hj
        have := h.other hj hji (m := σ.mem) (b := b') (fun _ _ _ => rfl) henvb h2.bmp h2.top64.2
        simp only [Sys.view, if_neg hji]
        exact this
      · intro j k hj hk hne p hp
        exact h.two j k (hup j hj).2 (hup k hk).2 hne p hp
      · intro j hj
        simp only at hj ⊢
        split
        · rfl
        · rename_i hji; rw [if_neg hji] at hj; exact h.down j hj
      · intro hmr p hp hb
        simp only at hp hb ⊢
        rcases h2.only hmr p hp hb with h3 | ⟨r, hr, h3⟩
        · have h3 : others cf σ.bmp (regs (L i) (D i)) p = true := h3
          unfold others at h3
          simp only [Bool.and_eq_true, Bool.not_eq_true'] at h3
          rcases h.only hmr p (by rw [← hend]; exact hp) h3.1 with h4 | ⟨k, hk, hc⟩
          · left; rw [h4]; rfl
          · right
            by_cases hki : k = i
            · subst hki; rw [hc] at h3; simp at h3
            · exact ⟨k, by rw [if_neg hki]; exact hk, hc⟩
        · left
          rw [hdir, covers_iff.mpr ⟨r, hr, h3⟩]; simp
      · intro p hp
        simp only [Bool.or_eq_true] at hp
        rcases hp with hp | hp
        · have h3 := h.lost p hp
          refine ⟨henvb p ?_, fun k hk => h3.2 k (hup k hk).2⟩
          unfold Sys.foreign; rw [h3.1, h3.2 i hu]; simp
        · rw [hdir] at hp
          obtain ⟨r, hr, hpr⟩ := covers_iff.mp hp
          refine ⟨(h2.pages r hr p hpr).1, fun k hk => ?_⟩
          exact h.two i k hu (hup k hk).2 (fun e => (hup k hk).1 e.symm) p (hDreg p hp)
      · intro j c hc _ hnd
        have hji : j ≠ i := fun e => hnd (by rw [e])
        exact ⟨by simp only [if_neg hji]; exact hc, fun _ _ _ _ => rfl⟩
    · rw [if_neg hu]
      have hu' : σ.up i = false := by simpa using hu
      have hnoD : ∀ p, covers cf (directs σ.mem (σ.live i)) p = false := by intro p; rw [h.down i hu']; rfl
      refine SDid.next σ L D h (fun j c hc _ _ => hkeep j c hc) ⟨?_, ?_⟩ ?_
      · have := h.down i hu'; funext j; split
        · rename_i e; rw [e]; exact this
        · rfl
      · funext j; split
        · rename_i e; rw [e]; exact hu'
        · rfl
      · funext p
        show σ.lost p = (σ.lost p || covers cf (directs σ.mem (σ.live i)) p)
        rw [hnoD]; simp

theorem fresh_inv {cf : Conf} (mem0 : Nat → Nat) (bmem : Nat → BitVec 64) (size : Nat) (hsz : size + 63 < 2 ^ 64) (hst : cf.start % 4096 = 0 ∧ 0 < cf.start)
    (hroom : cf.start + 4096 * (64 * (Bitmap.init bmem size).endc) < W ∧ (Bitmap.init bmem size).endc = cf.groups) : SInv cf (fresh mem0 bmem size) (fun _ => []) (fun _ => []) := by
  have hS : Setting cf (Bitmap.init bmem size) := ⟨⟨bmem, size, [], .init, hsz⟩, hst, hroom⟩
  refine ⟨?_, ?_, hS.bok, hst, hroom, fun _ _ => rfl, ?_, ?_⟩
  · intro i hi; cases hi
  · intro i j hi; cases hi
  · intro _ p hp hb
    exfalso
    have := ((Bitmap.inv_of_reach bmem size hsz (Bitmap.init bmem size) [] .init).bits p hp).mp hb
    simp at this
  · intro p hp; cases hp

end Arax.Dl
