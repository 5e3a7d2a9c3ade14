import Verif.Dl.Conc3
/-!
# C78: overlapping calls of the allocators

Any number of threads of any number of processes use the allocators of a segment at the same time, and any of them may die at any time. -/
namespace Arax.Dl
open Arax.Bitmap (bit Bmp)

theorem cfresh_inv {g : Seat} (h : g.Ok) (mremap : Bool) (mem0 : Nat → Nat) (bmem : Nat → BitVec 64) (n : Nat) : CInv (g.conf mremap) (cfresh mem0 bmem g.pages n) (fun _ => []) (fun _ => []) := by
  refine ⟨g.fresh_inv h mremap mem0 bmem, fun t _ => ⟨0, rfl⟩, ?_, ?_, ?_, ?_, ?_, ?_, ?_⟩
  · intro i t; simp [cfresh, TS.inside]
  · intro t; exact ⟨by simp [cfresh, TS.at], by simp [cfresh, TS.gives], by simp [cfresh], by simp [cfresh, TS.dying]⟩
  · intro t u y h; cases h
  · intro t; simp [cfresh, TS.dying]
  · intro t u _ r hr; cases hr
  · intro p; simp [cfresh, fresh, TS.dying]
  · intro p hp; cases hp

theorem crun_inv {cf : Conf} : ∀ (acts : List CAct) (κ : CSys) (L : Nat → Lay) (D : Nat → List (Nat × Nat)), CInv cf κ L D → ∃ κ' L' D', crun cf acts κ = .ok κ' ∧ CInv cf κ' L' D'
  | [], κ, L, D, h => ⟨κ, L, D, rfl, h⟩
  | a :: t, κ, L, D, h => by
    obtain ⟨κ1, L1, D1, e, h1, -⟩ := cstep_did h a
    simp only [crun, e, Out.bind_ok]
    exact crun_inv t κ1 L1 D1 h1

theorem creached_inv {g : Seat} {mremap : Bool} {κ : CSys} (h : CReached g mremap κ) : ∃ L D, CInv (g.conf mremap) κ L D := by
  obtain ⟨hg, mem0, bmem, n, acts, e⟩ := h
  obtain ⟨κ', L, D, e', hi⟩ := crun_inv acts _ _ _ (cfresh_inv hg mremap mem0 bmem n)
  rw [e] at e'; cases e'
  exact ⟨L, D, hi⟩

theorem crun_append {cf : Conf} : ∀ (a b : List CAct) (κ : CSys), crun cf (a ++ b) κ = (crun cf a κ).bind (crun cf b)
  | [], b, κ => rfl
  | x :: a, b, κ => by
    simp only [List.cons_append, crun]
    cases cstep cf κ x with
    | corrupt => rfl
    | noMem => rfl
    | ok κ' => simp only [Out.bind_ok]; exact crun_append a b κ'

theorem CReached.step {g : Seat} {mremap : Bool} {κ κ' : CSys} (h : CReached g mremap κ) {a : CAct} (e : cstep (g.conf mremap) κ a = .ok κ') : CReached g mremap κ' := by
  obtain ⟨hg, mem0, bmem, n, acts, e0⟩ := h
  refine ⟨hg, mem0, bmem, n, acts ++ [a], ?_⟩
  rw [crun_append, e0]; simp only [Out.bind_ok, crun, e]

/-! ## Safety -/

/-- **C78** However calls overlap and whoever dies: no allocator fails a consistency check, and no bad range reaches the bitmap. -/
theorem C78_never_corrupt {g : Seat} {mremap : Bool} {κ : CSys} (h : CReached g mremap κ) (a : CAct) : ∃ κ', cstep (g.conf mremap) κ a = .ok κ' := by
  obtain ⟨L, D, hi⟩ := creached_inv h
  obtain ⟨κ', L', D', e, -, -⟩ := cstep_did hi a
  exact ⟨κ', e⟩

/-- **C78** At most one thread is in an allocator, and it is the one that has its lock. -/
theorem C78_exclusive {g : Seat} {mremap : Bool} {κ : CSys} (h : CReached g mremap κ) {i t u : Nat} (ht : (κ.thr t).inside = some i) (hu : (κ.thr u).inside = some i) : t = u ∧ κ.lock i = some t := by
  obtain ⟨L, D, hi⟩ := creached_inv h
  have h1 := (hi.lockd i t).mpr ht
  have h2 := (hi.lockd i u).mpr hu
  rw [h1] at h2
  exact ⟨Option.some.inj h2, h1⟩

/-- **C78** No two blocks that the users hold overlap. -/
theorem C78_disjoint {g : Seat} {mremap : Bool} {κ : CSys} (h : CReached g mremap κ) {i j : Nat} {c d : Nat × Nat} (hc : c ∈ κ.held i) (hd : d ∈ κ.held j) (hne : i ≠ j ∨ c ≠ d) :
    c.1 ≠ d.1 ∧ (c.1 + c.2 ≤ d.1 ∨ d.1 + d.2 ≤ c.1) := by
  obtain ⟨L, D, hi⟩ := creached_inv h
  exact hi.sinv.disjoint ((held_iff hi).mp hc).1 ((held_iff hi).mp hd).1 hne

/-- **C78** Blocks are aligned, after the bookkeeping of the segment, in pages that are marked as taken; and in the segment, if the number of pages is a multiple of 64. (Missing: the other numbers of pages,
for which it is false, see `C73_past_end_violated`.) -/
theorem C78_blocks_partial {g : Seat} {mremap : Bool} {κ : CSys} (h : CReached g mremap κ) {i : Nat} {c : Nat × Nat} (hc : c ∈ κ.held i) :
    c.1 % 16 = 0 ∧ g.addr + g.hdr + 8 * ((g.pages + 63) / 64) ≤ c.1 ∧ (g.pages % 64 = 0 → c.1 + c.2 ≤ g.addr + g.bytes) ∧ c.1 + c.2 ≤ g.start + 4096 * (64 * ((g.pages + 63) / 64)) ∧
    ∀ x, c.1 ≤ x → x < c.1 + c.2 → g.start ≤ x ∧ bit κ.sys.bmp ((x - g.start) / 4096) = true := by
  obtain ⟨L, D, hi⟩ := creached_inv h
  exact hi.sinv.blocks h.1 ((held_iff hi).mp hc).1

/-- **C78** A block that nobody hands to `free` and whose allocator nobody destroys stays, and each byte of it that no user writes keeps its value, whatever the other threads do and wherever they die. -/
theorem C78_contents {g : Seat} {mremap : Bool} {i : Nat} {c : Nat × Nat} {x : Nat} (h1 : c.1 ≤ x) (h2 : x < c.1 + c.2) : ∀ (acts : List CAct) {κ κ' : CSys}, CReached g mremap κ → c ∈ κ.held i →
    acts.all (fun a => !cends i c a) = true → crun (g.conf mremap) acts κ = .ok κ' → c ∈ κ'.held i ∧ (acts.all (fun a => !cwrites x a) = true → κ'.sys.mem x = κ.sys.mem x)
  | [], κ, κ', _, hc, _, e => by simp only [crun, Out.ok.injEq] at e; subst e; exact ⟨hc, fun _ => rfl⟩
  | a :: t, κ, κ', hr, hc, he, e => by
    simp only [List.all_cons, Bool.and_eq_true, Bool.not_eq_true'] at he
    simp only [crun] at e
    obtain ⟨L, D, hi⟩ := creached_inv hr
    obtain ⟨κ1, L1, D1, e1, h3, h4⟩ := cstep_did hi a
    rw [e1] at e
    obtain ⟨h5, h6⟩ := h4 i c hc he.1
    obtain ⟨h7, h8⟩ := C78_contents h1 h2 t (hr.step e1) h5 he.2 e
    refine ⟨h7, fun hw => ?_⟩
    simp only [List.all_cons, Bool.and_eq_true, Bool.not_eq_true'] at hw
    rw [h8 (by simpa using hw.2), h6 x h1 h2 hw.1]

/-- **C78** What a user writes to a block it holds is there, and nothing else changes. -/
theorem C78_write {g : Seat} {mremap : Bool} {κ : CSys} (h : CReached g mremap κ) {i : Nat} {c : Nat × Nat} {x : Nat} (v : Nat) (hc : c ∈ κ.held i) (h1 : c.1 ≤ x) (h2 : x < c.1 + c.2) :
    ∃ κ', cstep (g.conf mremap) κ (.write i x v) = .ok κ' ∧ κ'.sys.mem x = v ∧ (∀ y, y ≠ x → κ'.sys.mem y = κ.sys.mem y) ∧ κ'.sys.live = κ.sys.live ∧ κ'.thr = κ.thr := by
  obtain ⟨L, D, hi⟩ := creached_inv h
  have hcl := ((held_iff hi).mp hc).1
  have hu := live_up hi.sinv hcl
  have hh : ∀ l : List (Nat × Nat), c ∈ l → holdsByte l x = true := by
    intro l hl; unfold holdsByte; rw [List.any_eq_true]; exact ⟨c, hl, by simp [h1, h2]⟩
  refine ⟨{ κ with sys := κ.sys.after i ⟨{ κ.sys.heap i with mem := put κ.sys.mem x v, bmp := κ.sys.bmp }, κ.sys.live i, fun _ => false⟩ }, ?_, ?_, ?_, ?_, rfl⟩
  · simp only [cstep, hh _ hc, if_true, Sys.at, hu, step, Sys.view, hh _ hcl, Out.bind_ok]
  · simp only [Sys.after, put, if_true]
  · intro y hy; simp only [Sys.after, put, if_neg hy]
  · simp only [Sys.after]; exact live_self

/-- **C78** A call of `malloc` that has the lock either gives a new block, at an address that is not NULL, apart from all blocks there are at that time; or NULL, only if the request is within 65664 bytes of
the size of the address space; or it aborts its process, only if there is no run of free pages for a number of bytes at most 65664 bytes over the request. -/
theorem C78_alloc {g : Seat} {mremap : Bool} {κ : CSys} (h : CReached g mremap κ) {t i bytes pick : Nat} (hal : κ.alive t = true) (hx : κ.thr t = .inn i (.alloc bytes pick)) :
    ∃ κ', cstep (g.conf mremap) κ (.step t) = .ok κ' ∧
    ((∃ m, m ≠ 0 ∧ κ'.thr t = .back i m ∧ (m, bytes) ∈ κ'.held i ∧ κ'.sys.live = (fun j => if j = i then (m, bytes) :: κ.sys.live i else κ.sys.live j) ∧
        ∀ j, ∀ d ∈ κ.sys.live j, d.1 ≠ m ∧ (m + bytes ≤ d.1 ∨ d.1 + d.2 ≤ m)) ∨
     (κ'.thr t = .back i 0 ∧ κ'.sys.live = κ.sys.live ∧ 2 ^ 64 ≤ bytes + 65664) ∨
     (κ'.dead t = true ∧ κ'.thr t = κ.thr t ∧ κ'.sys.live = κ.sys.live ∧ ∃ k, (Bitmap.alloc κ.sys.bmp k).2 = none ∧ bytes < 4096 * k ∧ 4096 * k ≤ bytes + 65664)) := by
  obtain ⟨L, D, hi⟩ := creached_inv h
  have hT := hi.ok t
  rw [hx] at hT
  have hu : κ.sys.up i = true := hT.up i rfl
  obtain ⟨κ', L', D', e, hi', -⟩ := cstep_did hi (.step t)
  refine ⟨κ', e, ?_⟩
  simp only [cstep, hal, if_true, cpart, hx, cinn] at e
  rcases hi.sinv.alloced hu bytes pick with ⟨em, k, h1, h2, h3⟩ | ⟨s, m, L1, D1, em, hs, hk, h4, h5⟩
  · rw [em] at e
    simp only at e
    cases e
    exact Or.inr (Or.inr ⟨by simp [CSys.abort], rfl, rfl, k, h1, h2, h3⟩)
  · rw [em] at e
    simp only at e
    have e := (Out.ok.inj e)
    by_cases hm : m = 0
    · subst hm
      refine Or.inr (Or.inl ⟨by rw [← e]; simp [CSys.move], by rw [← e]; simp only [CSys.move]; rw [after_live (l := κ.sys.live i) (by simp)]; exact live_self, h4 rfl⟩)
    · left
      have hl : κ'.sys.live = fun j => if j = i then (m, bytes) :: κ.sys.live i else κ.sys.live j := by rw [← e]; simp only [CSys.move]; exact after_live (if_neg hm)
      have hmi : (m, bytes) ∈ κ'.sys.live i := by rw [hl]; simp
      refine ⟨m, hm, by rw [← e]; simp [CSys.move], (held_iff hi').mpr ⟨hmi, ?_⟩, hl, ?_⟩
      · intro u hgu
        rw [← e] at hgu
        have : ((κ.move t (.back i m)).thr u).gives = some (i, m) := hgu
        obtain ⟨u', hu'⟩ := move_gives (Or.inl rfl) this
        exact h5 ((hi.ok u').live i m hu')
      · intro j d hd
        have hd' : d ∈ κ'.sys.live j := by rw [hl]; simp only; split
                                           · rename_i ej; subst ej; exact List.mem_cons_of_mem _ hd
                                           · exact hd
        have hne : j ≠ i ∨ d ≠ (m, bytes) := by
          by_cases hji : j = i
          · right; subst hji; rintro rfl; exact h5 (List.mem_map_of_mem hd)
          · exact Or.inl hji
        have := hi'.sinv.disjoint hd' hmi hne
        simp only at this
        omega

/-- **C78** The part of a call of `free` after it has the lock ends the block it was given, and no other. -/
theorem C78_free {g : Seat} {mremap : Bool} {κ : CSys} (h : CReached g mremap κ) {t i a : Nat} (hal : κ.alive t = true) (hx : κ.thr t = .inn i (.free a)) :
    ∃ κ' ph, cstep (g.conf mremap) κ (.step t) = .ok κ' ∧ κ'.thr t = .mid i ph ∧ κ'.sys.live = (fun j => if j = i then (κ.sys.live i).filter (fun c => c.1 != a) else κ.sys.live j) ∧ ∀ j, κ'.held j = κ.held j := by
  obtain ⟨L, D, hi⟩ := creached_inv h
  have hT := hi.ok t
  rw [hx] at hT
  have hu : κ.sys.up i = true := hT.up i rfl
  have ha : a ∈ (κ.sys.live i).map Prod.fst := hT.live i a rfl
  obtain ⟨κ', L', D', e, hi', -⟩ := cstep_did hi (.step t)
  simp only [cstep, hal, if_true, cpart, hx, cinn] at e ⊢
  obtain ⟨s, ph, L1, D1, ef, hs, hf, hk⟩ := hi.sinv.freed hu ha
  rw [ef] at e ⊢
  simp only [Out.bind_ok] at e ⊢
  have e := Out.ok.inj e
  refine ⟨κ', ph, by rw [e], by rw [← e]; simp [CSys.move], by rw [← e]; simp only [CSys.move]; exact after_live rfl, fun j => ?_⟩
  have hl : κ'.sys.live j = if j = i then (κ.sys.live i).filter (·.1 != a) else κ.sys.live j := by rw [← e]; rfl
  have hg : ∀ b, (j = i → b ≠ a) → κ'.given j b = κ.given j b := by
    intro b hb
    rw [Bool.eq_iff_iff, given_iff hi', given_iff hi]
    constructor
    · rintro ⟨u, hu⟩
      rw [← e] at hu
      have : ((κ.move t (.mid i ph)).thr u).gives = some (j, b) := hu
      exact move_gives (Or.inl rfl) this
    · rintro ⟨u, hu⟩
      refine ⟨u, ?_⟩
      have hut : u ≠ t := by
        rintro rfl; rw [hx] at hu
        simp only [TS.gives, Option.some.injEq, Prod.mk.injEq] at hu
        exact hb hu.1.symm hu.2.symm
      rw [← e]; simp only [CSys.move, if_neg hut]; exact hu
  have hga : κ.given i a = true := (given_iff hi).mpr ⟨t, by rw [hx]; rfl⟩
  unfold CSys.held
  rw [hl]
  split
  · rename_i ej; subst ej
    rw [List.filter_filter]
    apply List.filter_congr
    intro c _
    by_cases hca : c.1 = a
    · rw [hca, hga]; simp
    · rw [hg c.1 (fun _ => hca)]; simp [hca]
  · rename_i hji
    apply List.filter_congr
    intro c _
    rw [hg c.1 (fun e => absurd e hji)]

/-- **C78** (with `mremap` off) A page is taken only by an allocator that exists, or by a directly mapped block of an allocator that was destroyed, or because a thread in `destroy` has yet to return it. -/
theorem C78_pages {g : Seat} {κ : CSys} (h : CReached g false κ) {p : Nat} (hp : p < 64 * ((g.pages + 63) / 64)) :
    bit κ.sys.bmp p = true ↔ κ.leak p = true ∨ (∃ t, covers (g.conf false) (κ.thr t).dying p = true) ∨
      ∃ i, κ.sys.up i = true ∧ covers (g.conf false) (((κ.sys.heap i).segs.map fun (s : Seg) => (s.base, s.size)) ++ directs κ.sys.mem (κ.sys.live i)) p = true := by
  obtain ⟨L, D, hi⟩ := creached_inv h
  have hend : κ.sys.bmp.endc = (g.pages + 63) / 64 := hi.sinv.room.2
  have hlost : κ.sys.lost p = true ↔ κ.leak p = true ∨ ∃ t, covers (g.conf false) (κ.thr t).dying p = true := by
    rw [hi.lost p]; simp only [covers_iff]
  have hcov : ∀ i, κ.sys.up i = true → covers (g.conf false) (((κ.sys.heap i).segs.map fun (s : Seg) => (s.base, s.size)) ++ directs κ.sys.mem (κ.sys.live i)) p = covers (g.conf false) (regs (L i) (D i)) p := by
    intro i hu
    rw [regs_eq hi.sinv hu]
    apply covers_congr
    intro r
    rw [List.mem_append, List.mem_append, show r ∈ directs κ.sys.mem (κ.sys.live i) ↔ r ∈ D i from directs_iff (hi.sinv.one i hu) r]
  constructor
  · intro hb
    rcases hi.sinv.only rfl p (by rw [hend]; exact hp) hb with h1 | ⟨i, hu, h1⟩
    · rcases hlost.mp h1 with h2 | h2
      · exact Or.inl h2
      · exact Or.inr (Or.inl h2)
    · exact Or.inr (Or.inr ⟨i, hu, by rw [hcov i hu]; exact h1⟩)
  · rintro (h1 | h1 | ⟨i, hu, h1⟩)
    · exact (hi.sinv.lost p (hlost.mpr (Or.inl h1))).1
    · exact (hi.sinv.lost p (hlost.mpr (Or.inr h1))).1
    · rw [hcov i hu] at h1
      obtain ⟨r, hr, h2⟩ := covers_iff.mp h1
      exact ((hi.sinv.one i hu).inv.pages r hr p h2).1

/-! ## Calls end -/

theorem binFreedHead_segs (s : Heap) (p n : Nat) : (binFreedHead s p n).1.segs = s.segs := by
  unfold binFreedHead insertChunk
  split
  · rfl
  · dsimp only; split <;> rfl

theorem freeFwdHead_segs {s s' : Heap} {p psize nx : Nat} {ph : Phase} (h : freeFwdHead s p psize nx = .ok (s', ph)) : s'.segs = s.segs := by
  unfold freeFwdHead at h
  split at h
  · cases h
  split at h
  · have h1 := binFreedHead_segs { s with mem := setFreeP s.mem p psize nx } p psize
    rw [Out.ok.inj h] at h1; exact h1
  split at h
  · dsimp only at h
    split at h <;> split at h <;> cases h <;> rfl
  split at h
  · cases h; rfl
  dsimp only at h
  cases hu : unlinkChunk s nx (csize (s.hd nx)) with
  | ok s1 =>
    have h0 := unlinkChunk_segs hu
    rw [hu] at h
    simp only [Out.bind_ok] at h
    split at h
    · cases h; exact h0
    · have h1 := binFreedHead_segs { s1 with mem := setFree s1.mem p (psize + csize (s.hd nx)) } p (psize + csize (s.hd nx))
      rw [Out.ok.inj h] at h1; rw [h1]; exact h0
  | corrupt => rw [hu] at h; cases h
  | noMem => rw [hu] at h; cases h

theorem freeHead_segs {cf : Conf} {s s' : Heap} {a : Nat} {ph : Phase} (h : freeHead cf s a = .ok (s', ph)) : s'.segs = s.segs := by
  unfold freeHead at h
  split at h
  · cases h; rfl
  dsimp only at h
  split at h
  · cases h
  split at h
  · exact freeFwdHead_segs h
  split at h
  · cases hu : munmap cf s (a - 16 - s.mem (a - 16)) (csize (s.hd (a - 16)) + s.mem (a - 16) + 32) with
    | ok s1 => have h0 := munmap_segs hu; rw [hu] at h; cases h; exact h0
    | corrupt => rw [hu] at h; cases h
    | noMem => rw [hu] at h; cases h
  split at h
  · cases h
  split at h
  · cases hu : unlinkChunk s (a - 16 - s.mem (a - 16)) (s.mem (a - 16)) with
    | ok s1 => have h0 := unlinkChunk_segs hu; rw [hu] at h; simp only [Out.bind_ok] at h; rw [freeFwdHead_segs h, h0]
    | corrupt => rw [hu] at h; cases h
    | noMem => rw [hu] at h; cases h
  split at h
  · cases h; rfl
  · exact freeFwdHead_segs h

/-- How many parts the call still has, at most. -/
def rank (κ : CSys) (t : Nat) : Nat :=
  match κ.thr t with
  | .inn i (.free _) => (κ.sys.heap i).segs.length + 5
  | .inn _ _ => 2
  | .mid i ph => ph.left (κ.sys.heap i) + 2
  | .back _ _ => 1
  | _ => 0

/-- A part of a call brings it closer to its end. -/
theorem rank_step {cf : Conf} {κ κ' : CSys} {L : Nat → Lay} {D : Nat → List (Nat × Nat)} (h : CInv cf κ L D) {t i : Nat} (hal : κ.alive t = true) (hin : (κ.thr t).inside = some i) (e : cstep cf κ (.step t) = .ok κ') :
    κ'.dead t = true ∨ (rank κ' t < rank κ t ∧ ((κ'.thr t).inside = some i ∨ ∃ r, κ'.thr t = .out r)) := by
  have hT := h.ok t
  have hu : κ.sys.up i = true := hT.up i (inside_at hin)
  simp only [cstep, hal, if_true] at e
  cases hx : κ.thr t with
  | out r => rw [hx] at hin; cases hin
  | want j c => rw [hx] at hin; cases hin
  | kill l => rw [hx] at hin; cases hin
  | back j r =>
    rw [hx] at hin; cases hin
    simp only [hx, cpart] at e
    cases e
    right
    refine ⟨by simp [rank, hx, CSys.move], Or.inr ⟨r, by simp [CSys.move]⟩⟩
  | mid j ph =>
    rw [hx] at hin; cases hin
    have hf := hT.fine i ph hx
    obtain ⟨s, ph', L', D', e1, hs, hf', hk, hlt⟩ := h.sinv.tidy hu hf
    right
    cases ph with
    | done =>
      simp only [hx, cpart] at e
      cases e
      refine ⟨by simp [rank, hx, CSys.move, Phase.left], Or.inl (by simp [CSys.move, TS.inside])⟩
    | trim =>
      simp only [hx, cpart, e1, Out.bind_ok] at e
      cases e
      have := hlt (by simp)
      refine ⟨by simp [rank, hx, CSys.move, Sys.after]; exact this, Or.inl (by simp [CSys.move, TS.inside])⟩
    | rel j n f au =>
      simp only [hx, cpart, e1, Out.bind_ok] at e
      cases e
      have := hlt (by simp)
      refine ⟨by simp [rank, hx, CSys.move, Sys.after]; exact this, Or.inl (by simp [CSys.move, TS.inside])⟩
  | inn j c =>
    rw [hx] at hin; cases hin
    rw [hx] at hT
    simp only [hx, cpart] at e
    cases c with
    | stat =>
      simp only [cinn] at e
      cases e
      right
      refine ⟨by simp [rank, hx, CSys.move], Or.inl (by simp [CSys.move, TS.inside])⟩
    | alloc bytes pick =>
      simp only [cinn] at e
      split at e
      · cases e
        right
        refine ⟨by simp [rank, hx, CSys.move], Or.inl (by simp [CSys.move, TS.inside])⟩
      · cases e; left; simp [CSys.abort]
      · cases e
    | free a =>
      have ha : a ∈ (κ.sys.live i).map Prod.fst := hT.live i a rfl
      obtain ⟨s, ph, L1, D1, ef, hs, hf, hk⟩ := h.sinv.freed hu ha
      have hsg := freeHead_segs ef
      have hst := freeHead_starts ef
      simp only [cinn, ef, Out.bind_ok] at e
      cases e
      right
      have hleft : ph.left s ≤ (κ.sys.heap i).segs.length + 2 := by
        have hsg : s.segs = (κ.sys.heap i).segs := hsg
        cases ph with
        | done => simp [Phase.left]
        | trim => simp [Phase.left, hsg]
        | rel j n f au => simp only [Phase.left, hsg]; omega
      refine ⟨by simp [rank, hx, CSys.move, Sys.after]; omega, Or.inl (by simp [CSys.move, TS.inside])⟩

/-- A part of a call of thread `u` at most changes that thread and the allocator it is in. -/
theorem cpart_frame {cf : Conf} {κ κ' : CSys} {u : Nat} {x : TS} (e : cpart cf κ u x = .ok κ') : (∀ w, w ≠ u → κ'.thr w = κ.thr w) ∧ (∀ w, κ.dead w = true → κ'.dead w = true) ∧
    ∀ i, x.inside ≠ some i → (κ'.sys.heap i).segs = (κ.sys.heap i).segs := by
  have hmove : ∀ (κ1 : CSys) (y : TS), κ1.thr = κ.thr → ∀ w, w ≠ u → (κ1.move u y).thr w = κ.thr w := by
    intro κ1 y h1 w hw; simp only [CSys.move, if_neg hw]; rw [h1]
  have hafter : ∀ (w : World) j i, some j ≠ some i → ((κ.sys.after j w).heap i).segs = (κ.sys.heap i).segs := by
    intro w j i hj; simp only [Sys.after]; rw [if_neg (fun e => hj (by rw [e]))]
  cases x with
  | out r => cases e; exact ⟨fun _ _ => rfl, fun _ h => h, fun _ _ => rfl⟩
  | want j c => cases e; exact ⟨fun _ _ => rfl, fun _ h => h, fun _ _ => rfl⟩
  | back j r => cases e; exact ⟨hmove _ _ rfl, fun _ h => h, fun _ _ => rfl⟩
  | kill l =>
    cases l with
    | nil => cases e; exact ⟨hmove _ _ rfl, fun _ h => h, fun _ _ => rfl⟩
    | cons r l =>
      simp only [cpart] at e
      cases hm : munmap cf { κ.sys.heap 0 with mem := κ.sys.mem, bmp := κ.sys.bmp } r.1 r.2 with
      | ok s => rw [hm] at e; cases e; exact ⟨hmove _ _ rfl, fun _ h => h, fun _ _ => rfl⟩
      | corrupt => rw [hm] at e; cases e
      | noMem => rw [hm] at e; cases e
  | mid j ph =>
    have hcase : ∀ r, (Out.bind r fun (s, ph) => Out.ok ({ κ with sys := κ.sys.after j ⟨s, κ.sys.live j, fun _ => false⟩ }.move u (.mid j ph))) = .ok κ' →
        (∀ w, w ≠ u → κ'.thr w = κ.thr w) ∧ (∀ w, κ.dead w = true → κ'.dead w = true) ∧ ∀ i, some j ≠ some i → (κ'.sys.heap i).segs = (κ.sys.heap i).segs := by
      intro r e
      cases r with
      | ok r => obtain ⟨s, ph'⟩ := r; cases e; exact ⟨hmove _ _ rfl, fun _ h => h, hafter _ j⟩
      | corrupt => cases e
      | noMem => cases e
    cases ph with
    | done => cases e; exact ⟨hmove _ _ rfl, fun _ h => h, fun _ _ => rfl⟩
    | trim => exact hcase _ e
    | rel => exact hcase _ e
  | inn j c =>
    simp only [cpart] at e
    cases c with
    | stat => cases e; exact ⟨hmove _ _ rfl, fun _ h => h, fun _ _ => rfl⟩
    | alloc bytes pick =>
      simp only [cinn] at e
      split at e
      · cases e; exact ⟨hmove _ _ rfl, fun _ h => h, hafter _ j⟩
      · cases e; exact ⟨fun _ _ => rfl, fun w h => by simp only [CSys.abort]; split <;> simp [h], fun _ _ => rfl⟩
      · cases e
    | free b =>
      simp only [cinn] at e
      cases hf : freeHead cf { κ.sys.heap j with mem := κ.sys.mem, bmp := κ.sys.bmp } b with
      | ok r => rw [hf] at e; obtain ⟨s, ph'⟩ := r; cases e; exact ⟨hmove _ _ rfl, fun _ h => h, hafter _ j⟩
      | corrupt => rw [hf] at e; cases e
      | noMem => rw [hf] at e; cases e

/-- An event other than a part of the call of thread `t`, and other than its start and its taking the lock, does not move `t`; and does not change an allocator somebody else is in. -/
theorem cstep_frame {cf : Conf} {κ κ' : CSys} {a : CAct} (e : cstep cf κ a = .ok κ') : (∀ w, κ.dead w = true → κ'.dead w = true) ∧
    (∀ t, a ≠ .step t → (κ.thr t).idle = false → (∀ i c, κ.thr t = .want i c → κ.lock i ≠ none) → κ'.thr t = κ.thr t) ∧
    ∀ i, κ.sys.up i = true → (∀ u, a = .step u → (κ.thr u).inside ≠ some i) → (κ'.sys.heap i).segs = (κ.sys.heap i).segs := by
  have hsame : κ' = κ → (∀ w, κ.dead w = true → κ'.dead w = true) ∧
      (∀ t, a ≠ .step t → (κ.thr t).idle = false → (∀ i c, κ.thr t = .want i c → κ.lock i ≠ none) → κ'.thr t = κ.thr t) ∧
      ∀ i, κ.sys.up i = true → (∀ u, a = .step u → (κ.thr u).inside ≠ some i) → (κ'.sys.heap i).segs = (κ.sys.heap i).segs := by
    rintro rfl; exact ⟨fun _ h => h, fun _ _ _ _ => rfl, fun _ _ _ => rfl⟩
  cases a with
  | create u j =>
    simp only [cstep] at e
    split at e
    · rename_i hc
      simp only [Bool.and_eq_true, Bool.not_eq_true'] at hc
      split at e <;> cases e
      · refine ⟨fun _ h => h, fun _ _ _ _ => rfl, fun i hi _ => ?_⟩
        have : i ≠ j := by rintro rfl; rw [hi] at hc; exact absurd hc.2 (by simp)
        simp only [Sys.after, if_neg this]
      · exact ⟨fun w h => by simp only [CSys.abort]; split <;> simp [h], fun _ _ _ _ => rfl, fun _ _ _ => rfl⟩
    · exact hsame (Out.ok.inj e).symm
  | call u j c =>
    simp only [cstep] at e
    split at e
    · rename_i hc
      simp only [Bool.and_eq_true] at hc
      cases e
      refine ⟨fun _ h => h, fun t _ hid _ => ?_, fun _ _ _ => rfl⟩
      have : t ≠ u := by rintro rfl; rw [hid] at hc; exact absurd hc.1.1.2 (by simp)
      simp only [CSys.move, if_neg this]
    · exact hsame (Out.ok.inj e).symm
  | acquire u =>
    simp only [cstep] at e
    split at e
    · rename_i j c _ hx
      split at e
      · rename_i hl
        cases e
        refine ⟨fun _ h => h, fun t _ _ hw => ?_, fun _ _ _ => rfl⟩
        have : t ≠ u := by rintro rfl; exact hw j c hx hl
        simp only [CSys.move, if_neg this]
      · exact hsame (Out.ok.inj e).symm
    · exact hsame (Out.ok.inj e).symm
  | step u =>
    simp only [cstep] at e
    split at e
    · obtain ⟨h1, h2, h3⟩ := cpart_frame e
      exact ⟨h2, fun t ht _ _ => h1 t (fun e => ht (by rw [e])), fun i _ hi => h3 i (hi u rfl)⟩
    · exact hsame (Out.ok.inj e).symm
  | write j x v =>
    simp only [cstep] at e
    split at e
    · by_cases hj : κ.sys.up j = true
      · simp only [Sys.at, hj, if_true, step, Sys.view, Out.bind_ok] at e
        have e := Out.ok.inj e
        subst e
        exact ⟨fun _ h => h, fun _ _ _ _ => rfl, fun i _ _ => (after_heap (ite_ind (P := fun w => w.heap.segs = (κ.sys.heap j).segs ∧ w.heap.topsize = (κ.sys.heap j).topsize) ⟨rfl, rfl⟩ ⟨rfl, rfl⟩) i).1⟩
      · simp only [Sys.at, hj] at e; exact hsame (Out.ok.inj e).symm
    · exact hsame (Out.ok.inj e).symm
  | links j x v =>
    simp only [cstep] at e
    by_cases hj : κ.sys.up j = true
    · simp only [Sys.at, hj, if_true, step, Sys.view, Out.bind_ok] at e
      have e := Out.ok.inj e
      subst e
      exact ⟨fun _ h => h, fun _ _ _ _ => rfl, fun i _ _ => (after_heap (ite_ind (P := fun w => w.heap.segs = (κ.sys.heap j).segs ∧ w.heap.topsize = (κ.sys.heap j).topsize) ⟨rfl, rfl⟩ ⟨rfl, rfl⟩) i).1⟩
    · simp only [Sys.at, hj] at e; exact hsame (Out.ok.inj e).symm
  | destroy u j =>
    simp only [cstep] at e
    split at e
    · rename_i hc
      simp only [Bool.and_eq_true] at hc
      cases e
      refine ⟨fun _ h => h, fun t _ hid _ => ?_, fun _ _ _ => rfl⟩
      have : t ≠ u := by rintro rfl; rw [hid] at hc; exact absurd hc.1.1.2 (by simp)
      simp only [CSys.move, if_neg this]
    · exact hsame (Out.ok.inj e).symm
  | die u =>
    simp only [cstep] at e
    cases e
    exact ⟨fun w h => by simp only; split <;> simp [h], fun _ _ _ _ => rfl, fun _ _ _ => rfl⟩

theorem inside_busy {x : TS} {i : Nat} (h : x.inside = some i) : x.idle = false ∧ ∀ j c, x ≠ .want j c := by
  cases x <;> simp_all [TS.inside, TS.idle]

/-- Others do not bring the call of a thread further, nor back. -/
theorem rank_other {cf : Conf} {κ κ' : CSys} {L : Nat → Lay} {D : Nat → List (Nat × Nat)} (h : CInv cf κ L D) {t i : Nat} (hin : (κ.thr t).inside = some i) {a : CAct} (ha : a ≠ .step t)
    (e : cstep cf κ a = .ok κ') : κ'.thr t = κ.thr t ∧ rank κ' t = rank κ t := by
  have hu : κ.sys.up i = true := (h.ok t).up i (inside_at hin)
  obtain ⟨-, h1, h2⟩ := cstep_frame e
  have h1 := h1 t ha (inside_busy hin).1 (fun j c hx => absurd hx ((inside_busy hin).2 j c))
  have h2 := h2 i hu (fun u hau hj => by
    have h3 := (h.lockd i u).mpr hj
    have h4 := (h.lockd i t).mpr hin
    rw [h3] at h4
    exact ha (by rw [hau, Option.some.inj h4]))
  refine ⟨h1, ?_⟩
  unfold rank
  rw [h1]
  cases hx : κ.thr t with
  | out r => rfl
  | want j c => rfl
  | kill l => rfl
  | back j r => rfl
  | mid j ph =>
    rw [hx] at hin; cases hin
    cases ph <;> simp only [Phase.left] <;> rw [h2]
  | inn j c =>
    rw [hx] at hin; cases hin
    cases c <;> simp only [h2]

/-- Is the event a part of the call of thread `t`? -/
def isPart (t : Nat) : CAct → Bool
  | .step u => decide (u = t)
  | _ => false

theorem returns_core {cf : Conf} {t i : Nat} : ∀ (acts : List CAct) {κ κ' : CSys} {L : Nat → Lay} {D : Nat → List (Nat × Nat)}, CInv cf κ L D → (κ.thr t).inside = some i → crun cf acts κ = .ok κ' →
    rank κ t ≤ acts.countP (isPart t) → κ'.dead t = true ∨ ∃ as bs κ1 r, acts = as ++ bs ∧ crun cf as κ = .ok κ1 ∧ κ1.thr t = .out r
  | [], κ, κ', L, D, h, hin, e, hr => by
    exfalso
    simp only [List.countP_nil, Nat.le_zero] at hr
    unfold rank at hr
    cases hx : κ.thr t with
    | inn j c => rw [hx] at hr; cases c <;> simp at hr
    | mid j ph => rw [hx] at hr; simp at hr
    | back j r => rw [hx] at hr; simp at hr
    | _ => rw [hx] at hin; cases hin
  | a :: acts, κ, κ', L, D, h, hin, e, hr => by
    simp only [crun] at e
    obtain ⟨κ1, L1, D1, e1, h1, -⟩ := cstep_did h a
    rw [e1] at e
    simp only [Out.bind_ok] at e
    by_cases hdead : κ1.dead t = true
    · left
      have : ∀ (acts : List CAct) (κ1 : CSys), κ1.dead t = true → crun cf acts κ1 = .ok κ' → κ'.dead t = true := by
        intro acts
        induction acts with
        | nil => intro κ1 hd e; cases e; exact hd
        | cons b acts ih =>
          intro κ1 hd e
          simp only [crun] at e
          cases hb : cstep cf κ1 b with
          | ok κ2 => rw [hb] at e; exact ih κ2 ((cstep_frame hb).1 t hd) e
          | corrupt => rw [hb] at e; cases e
          | noMem => rw [hb] at e; cases e
      exact this acts κ1 hdead e
    have hd0 : κ.dead t = false := by
      cases hd : κ.dead t with
      | false => rfl
      | true => exact absurd ((cstep_frame e1).1 t hd) hdead
    have htn : t < κ.n := by
      rcases Nat.lt_or_ge t κ.n with h2 | h2
      · exact h2
      · obtain ⟨r, hr⟩ := h.idle t h2; rw [hr] at hin; cases hin
    have hnext : (κ1.thr t).inside = some i → rank κ1 t ≤ acts.countP (isPart t) → κ'.dead t = true ∨ ∃ as bs κ1 r, a :: acts = as ++ bs ∧ crun cf as κ = .ok κ1 ∧ κ1.thr t = .out r := by
      intro hin1 hr1
      rcases returns_core acts h1 hin1 e hr1 with h2 | ⟨as, bs, κ2, r, h2, h3, h4⟩
      · exact Or.inl h2
      · exact Or.inr ⟨a :: as, bs, κ2, r, by rw [h2]; rfl, by simp only [crun, e1, Out.bind_ok]; exact h3, h4⟩
    by_cases ha : a = .step t
    · subst ha
      have hal : κ.alive t = true := by unfold CSys.alive; simp [htn, hd0]
      rcases rank_step h hal hin e1 with h2 | ⟨h2, h3 | ⟨r, h3⟩⟩
      · exact absurd h2 hdead
      · refine hnext h3 ?_
        rw [List.countP_cons] at hr
        simp only [isPart, decide_true, if_true] at hr
        omega
      · exact Or.inr ⟨[.step t], acts, κ1, r, rfl, by simp only [crun, e1, Out.bind_ok], h3⟩
    · obtain ⟨h2, h3⟩ := rank_other h hin ha e1
      refine hnext (by rw [h2]; exact hin) ?_
      rw [List.countP_cons, if_neg] at hr
      · rw [h3]; exact hr
      · cases a with
        | step u => simp only [isPart, decide_eq_true_eq]; rintro rfl; exact ha rfl
        | _ => simp [isPart]

theorem rank_le {cf : Conf} {κ : CSys} {L : Nat → Lay} {D : Nat → List (Nat × Nat)} (_h : CInv cf κ L D) {t i : Nat} (hin : (κ.thr t).inside = some i) : rank κ t ≤ (κ.sys.heap i).segs.length + 5 := by
  unfold rank
  cases hx : κ.thr t with
  | inn j c => rw [hx] at hin; cases hin; cases c <;> simp
  | mid j ph => rw [hx] at hin; cases hin; cases ph <;> simp only [Phase.left] <;> omega
  | back j r => simp
  | _ => simp

/-- **C78** A thread that has the lock of an allocator needs at most five parts more than the allocator has segments to return, however the others run meanwhile; unless it dies or aborts. -/
theorem C78_returns {g : Seat} {mremap : Bool} {κ κ' : CSys} (h : CReached g mremap κ) {t i : Nat} (hin : (κ.thr t).inside = some i) {acts : List CAct} (e : crun (g.conf mremap) acts κ = .ok κ')
    (hn : (κ.sys.heap i).segs.length + 5 ≤ acts.countP (isPart t)) : κ'.dead t = true ∨ ∃ as bs κ1 r, acts = as ++ bs ∧ crun (g.conf mremap) as κ = .ok κ1 ∧ κ1.thr t = .out r ∧ κ1.lock i ≠ some t := by
  obtain ⟨L, D, hi⟩ := creached_inv h
  rcases returns_core acts hi hin e (Nat.le_trans (rank_le hi hin) hn) with h1 | ⟨as, bs, κ1, r, h1, h2, h3⟩
  · exact Or.inl h1
  · refine Or.inr ⟨as, bs, κ1, r, h1, h2, h3, fun hl => ?_⟩
    obtain ⟨κ2, L2, D2, e2, hi2⟩ := crun_inv as κ L D hi
    rw [h2] at e2; cases e2
    have := (hi2.lockd i t).mp hl
    rw [h3] at this; cases this

/-- **C78** The call returns what it has found, and the lock is free. -/
theorem C78_result {g : Seat} {mremap : Bool} {κ : CSys} (_h : CReached g mremap κ) {t i r : Nat} (hal : κ.alive t = true) (hx : κ.thr t = .back i r) :
    ∃ κ', cstep (g.conf mremap) κ (.step t) = .ok κ' ∧ κ'.thr t = .out r ∧ κ'.lock i = none ∧ κ'.sys = κ.sys := by
  refine ⟨{ κ with lock := fun j => if j = i then none else κ.lock j }.move t (.out r), by simp only [cstep, hal, if_true, hx, cpart], ?_, ?_, rfl⟩ <;> simp [CSys.move]

/-- **C78** A thread that waits for a lock that is free gets it with its next look. -/
theorem C78_acquire {g : Seat} {mremap : Bool} {κ : CSys} (_h : CReached g mremap κ) {t i : Nat} {c : Call} (hal : κ.alive t = true) (hx : κ.thr t = .want i c) (hl : κ.lock i = none) :
    ∃ κ', cstep (g.conf mremap) κ (.acquire t) = .ok κ' ∧ κ'.thr t = .inn i c ∧ κ'.lock i = some t ∧ κ'.sys = κ.sys := by
  refine ⟨{ κ with lock := fun j => if j = i then some t else κ.lock j }.move t (.inn i c), by simp only [cstep, hal, hx, hl, if_true], ?_, ?_, rfl⟩ <;> simp [CSys.move]

/-! ## Death with the lock -/

theorem stuck_core {cf : Conf} {t u i : Nat} {c : Call} : ∀ (acts : List CAct) {κ κ' : CSys} {L : Nat → Lay} {D : Nat → List (Nat × Nat)}, CInv cf κ L D → κ.dead t = true → (κ.thr t).inside = some i →
    κ.thr u = .want i c → crun cf acts κ = .ok κ' → κ'.thr u = .want i c
  | [], κ, κ', L, D, _, _, _, hu, e => by cases e; exact hu
  | a :: acts, κ, κ', L, D, h, hd, hin, hu, e => by
    simp only [crun] at e
    obtain ⟨κ1, L1, D1, e1, h1, -⟩ := cstep_did h a
    rw [e1] at e
    simp only [Out.bind_ok] at e
    have hlk := (h.lockd i t).mpr hin
    obtain ⟨f1, f2, -⟩ := cstep_frame e1
    have hstep : ∀ w, (κ.alive w = false ∨ ∃ c, κ.thr w = .want i c) → a = .step w → κ1 = κ := by
      intro w hw ha
      subst ha
      simp only [cstep] at e1
      rcases hw with hw | ⟨c, hw⟩
      · rw [hw] at e1; simp only [Bool.false_eq_true, if_false, Out.ok.injEq] at e1; exact e1.symm
      · rw [hw] at e1; simp only [cpart, ite_self, Out.ok.injEq] at e1; exact e1.symm
    have ht1 : κ1.thr t = κ.thr t := by
      by_cases ha : a = .step t
      · rw [hstep t (Or.inl (by simp [CSys.alive, hd])) ha]
      · exact f2 t ha (inside_busy hin).1 (fun j c hx => absurd hx ((inside_busy hin).2 j c))
    have hu1 : κ1.thr u = κ.thr u := by
      by_cases ha : a = .step u
      · rw [hstep u (Or.inr ⟨c, hu⟩) ha]
      · refine f2 u ha (by rw [hu]; rfl) (fun j c' hx => ?_)
        rw [hu] at hx; cases hx; rw [hlk]; simp
    exact stuck_core acts h1 (f1 t hd) (by rw [ht1]; exact hin) (by rw [hu1]; exact hu) e

/-- **C78** Who calls an allocator that a thread died in waits forever: nothing that can happen lets the call go on. -/
theorem C78_stuck {g : Seat} {mremap : Bool} {κ κ' : CSys} (h : CReached g mremap κ) {t u i : Nat} {c : Call} (hd : κ.dead t = true) (hin : (κ.thr t).inside = some i) (hu : κ.thr u = .want i c)
    {acts : List CAct} (e : crun (g.conf mremap) acts κ = .ok κ') : κ'.thr u = .want i c := by
  obtain ⟨L, D, hi⟩ := creached_inv h
  exact stuck_core acts hi hd hin hu e

/-! ## Cases -/

/-- Running a history and asking about the result. (No code of its own.) -/
def cask (g : Seat) (n : Nat) (acts : List CAct) (q : CSys → Bool) : Bool := match crun (g.conf false) acts (cfresh (fun _ => 0) (fun _ => 0) g.pages n) with | .ok κ => q κ | _ => false

theorem cask_reached {g : Seat} {n : Nat} {acts : List CAct} {q : CSys → Bool} (hg : g.Ok) (h : cask g n acts q = true) : ∃ κ, CReached g false κ ∧ q κ = true := by
  unfold cask at h
  split at h
  · rename_i κ e; exact ⟨κ, ⟨hg, _, _, n, acts, e⟩, h⟩
  · cases h

/-- A whole call without others: start, lock, work, return. (No code of its own.) -/
def whole (t i : Nat) (c : Call) : List CAct := [.call t i c, .acquire t, .step t, .step t, .step t]

/-- **C78 is violated** by a death: thread 0 dies in a call of an allocator, and thread 1, which lives and calls the same allocator, never returns. -/
theorem C78_crash_violated : ∃ g κ, CReached g false κ ∧ κ.alive 1 = true ∧ κ.thr 1 = .want 0 (.alloc 10 0) ∧ κ.dead 0 = true ∧ ∀ acts κ', crun (g.conf false) acts κ = .ok κ' → κ'.thr 1 = .want 0 (.alloc 10 0) := by
  obtain ⟨κ, h1, h2⟩ := cask_reached (n := 2) (acts := [.create 0 0, .call 0 0 (.alloc 100 0), .acquire 0, .die 0, .call 1 0 (.alloc 10 0)])
    (q := fun κ => decide (κ.alive 1 = true ∧ κ.thr 1 = .want 0 (.alloc 10 0) ∧ κ.dead 0 = true ∧ (κ.thr 0).inside = some 0)) seat256_ok (by decide +kernel)
  obtain ⟨g1, g2, g3, g4⟩ := of_decide_eq_true h2
  exact ⟨seat256, κ, h1, g1, g2, g3, fun acts κ' e => C78_stuck h1 g3 g4 g2 e⟩

/-- **C78 is violated** without any death from outside: thread 0 asks for more than there is, `arax_mmap` aborts its process with the lock taken, and thread 1 of another process, which asks for ten bytes that
are there, never returns. -/
theorem C78_nomem_violated : ∃ g acts κ, Seat.Ok g ∧ (∀ a ∈ acts, ∀ t, a ≠ CAct.die t) ∧ crun (g.conf false) acts (cfresh (fun _ => 0) (fun _ => 0) g.pages 2) = .ok κ ∧ κ.alive 1 = true ∧
    κ.thr 1 = .want 0 (.alloc 10 0) ∧ ∀ acts κ', crun (g.conf false) acts κ = .ok κ' → κ'.thr 1 = .want 0 (.alloc 10 0) := by
  have h := (show cask seat120 2 [.create 0 0, .call 0 0 (.alloc 500000 0), .acquire 0, .step 0, .call 1 0 (.alloc 10 0)]
    (fun κ => decide (κ.alive 1 = true ∧ κ.thr 1 = .want 0 (.alloc 10 0) ∧ κ.dead 0 = true ∧ (κ.thr 0).inside = some 0)) = true by decide +kernel)
  unfold cask at h
  split at h
  · rename_i κ e
    obtain ⟨g1, g2, g3, g4⟩ := of_decide_eq_true h
    exact ⟨seat120, _, κ, seat120_ok, by simp, e, g1, g2, fun acts κ' e' => C78_stuck ⟨seat120_ok, _, _, 2, _, e⟩ g3 g4 g2 e'⟩
  · cases h

/-- Calls of three threads overlap: two in one allocator (one has the lock, the other waits), one in another; blocks are held and apart. -/
example : ∃ κ, CReached seat256 false κ ∧ (13248, 100) ∈ κ.held 0 ∧ (13360, 200000) ∈ κ.held 0 ∧ κ.thr 0 = .mid 0 .done ∧ κ.thr 1 = .want 0 (.alloc 24 0) ∧ κ.thr 2 = .inn 1 (.alloc 300000 0) := by
  obtain ⟨κ, h1, h2⟩ := cask_reached (n := 3)
    (acts := [.create 0 0] ++ whole 0 0 (.alloc 100 0) ++ whole 1 0 (.alloc 200000 0) ++ whole 0 0 (.alloc 5000 0) ++
      [.create 2 1, .call 0 0 (.free 213376), .call 2 1 (.alloc 300000 0), .acquire 0, .call 1 0 (.alloc 24 0), .acquire 1, .acquire 2, .step 0])
    (q := fun κ => decide ((13248, 100) ∈ κ.held 0 ∧ (13360, 200000) ∈ κ.held 0 ∧ κ.thr 0 = .mid 0 .done ∧ κ.thr 1 = .want 0 (.alloc 24 0) ∧ κ.thr 2 = .inn 1 (.alloc 300000 0))) seat256_ok (by decide +kernel)
  exact ⟨κ, h1, of_decide_eq_true h2⟩

/-- A segment with 1024 pages. -/
def seat1026 : Seat := ⟨4096, 80, 4096 * 1026⟩

theorem seat1026_ok : seat1026.Ok := ⟨by decide, by decide, by decide⟩

/-- Thread 0 allocates ten large blocks, frees seven, and is in the call that frees the eighth, which is about to return memory to the bitmap. (No code of its own.) -/
def tenSeven : List CAct := [.create 0 0] ++ ((List.range 10).flatMap fun _ => whole 0 0 (.alloc 250000 0)) ++ ((List.range 7).flatMap fun k => whole 0 0 (.free (2263392 - 250016 * k))) ++
  [.call 0 0 (.free 513280), .acquire 0, .step 0]

/-- Between the phases of a call of `free`, another thread makes an allocator and uses it; then the call goes on (it returns no pages: the segment has the `malloc_state`, so `has_segment_link` holds, malloc.c:4424); the theorems apply at each of these points. -/
example : ∃ κ, CReached seat1026 false κ ∧ κ.thr 0 = .mid 0 .trim ∧ κ.held 0 = [(263264, 250000), (13248, 250000)] ∧ κ.sys.bmp.used = 656 := by
  obtain ⟨κ, h1, h2⟩ := cask_reached (n := 2) (acts := tenSeven) (q := fun κ => decide (κ.thr 0 = .mid 0 .trim ∧ κ.held 0 = [(263264, 250000), (13248, 250000)] ∧ κ.sys.bmp.used = 656)) seat1026_ok (by decide +kernel)
  exact ⟨κ, h1, of_decide_eq_true h2⟩
example : ∃ κ, CReached seat1026 false κ ∧ κ.thr 0 = .mid 0 (.rel 1 0 false true) ∧ κ.held 1 = [(2700224, 100)] ∧ κ.sys.bmp.used = 672 := by
  obtain ⟨κ, h1, h2⟩ := cask_reached (n := 2) (acts := tenSeven ++ [.create 1 1] ++ whole 1 1 (.alloc 100 0) ++ [.step 0])
    (q := fun κ => decide (κ.thr 0 = .mid 0 (.rel 1 0 false true) ∧ κ.held 1 = [(2700224, 100)] ∧ κ.sys.bmp.used = 672)) seat1026_ok (by decide +kernel)
  exact ⟨κ, h1, of_decide_eq_true h2⟩

/-- While thread 0 destroys an allocator, thread 1 makes another; thread 0 dies before it has returned the region. -/
example : ∃ κ, CReached seat256 false κ ∧ κ.thr 0 = .kill [(12288, 65536)] ∧ κ.dead 0 = true ∧ κ.sys.up 1 = true ∧ κ.leak 16 = true ∧ κ.sys.bmp.used = 106 := by
  obtain ⟨κ, h1, h2⟩ := cask_reached (n := 2) (acts := [.create 0 0] ++ whole 0 0 (.alloc 300000 0) ++ [.destroy 0 0, .create 1 1, .die 0, .step 0])
    (q := fun κ => decide (κ.thr 0 = .kill [(12288, 65536)] ∧ κ.dead 0 = true ∧ κ.sys.up 1 = true ∧ κ.leak 16 = true ∧ κ.sys.bmp.used = 106)) seat256_ok (by decide +kernel)
  exact ⟨κ, h1, of_decide_eq_true h2⟩

end Arax.Dl
