import Verif.Dl.System2
/-!
# `mspace_free` from one bitmap operation to the next

`mspace_free` may give several regions back, each with a `munmap` of its own (malloc.c:4383, 4430, 5770). Between two of them other allocators can use the bitmap. A *phase* is the part of a call with at
most one operation on the bitmap. `mspace_malloc` and `create_mspace` have at most one such operation (`mmap` never returns a failure: alloc.c:149 aborts) and are one phase.
-/
namespace Arax.Dl
open Arax.Bitmap (bit Bmp)

/-- What is left of a call of `mspace_free`. `trim`: `sys_trim` is next (malloc.c:5802). `rel j n freed auto`: the loop of `release_unused_segments` (malloc.c:4365-4398) is at segment `j`, has seen `n`
segments; `freed`: something has been released (`released != 0`, malloc.c:4432, 4463); `auto`: it was called by `sys_trim`. -/
inductive Phase where
  | done
  | trim
  | rel (j n : Nat) (freed auto : Bool)
deriving DecidableEq

/-- `binFreed` up to `release_unused_segments`. malloc.c:5823-5833. -/
def binFreedHead (s : Heap) (p n : Nat) : Heap × Phase :=
  if n < 256 then (insertChunk s p n, .done)
  else
    let s := insertChunk s p n
    let s := { s with checks := s.checks - 1 }
    if s.checks = 0 then (s, .rel 1 0 false false) else (s, .done)

/-- `freeFwd` up to `sys_trim` or `release_unused_segments`. malloc.c:5791-5834. -/
def freeFwdHead (s : Heap) (p psize nx : Nat) : Out (Heap × Phase) :=
  if !(p < nx && pinuse (s.hd nx)) then .corrupt
  else if cinuse (s.hd nx) then .ok (binFreedHead { s with mem := setFreeP s.mem p psize nx } p psize)
  else if nx = s.top then
    let tsize := s.topsize + psize
    let s := { s with topsize := tsize, top := p, mem := put s.mem (p + 8) (tsize + 1) }
    let s := if p = s.dv then { s with dv := 0, dvsize := 0 } else s
    if tsize > s.trim then .ok (s, .trim) else .ok (s, .done)
  else if nx = s.dv then
    .ok ({ s with dvsize := s.dvsize + psize, dv := p, mem := setFree s.mem p (s.dvsize + psize) }, .done)
  else
    let nsize := csize (s.hd nx)
    (unlinkChunk s nx nsize).bind fun s =>
    let s := { s with mem := setFree s.mem p (psize + nsize) }
    if p = s.dv then .ok ({ s with dvsize := psize + nsize }, .done) else .ok (binFreedHead s p (psize + nsize))

/-- The first phase of `mspace_free`. malloc.c:5747-5834. -/
def freeHead (cf : Conf) (s : Heap) (a : Nat) : Out (Heap × Phase) :=
  if a = 0 then .ok (s, .done)
  else
    let p := a - 16
    if !(s.least ≤ p && isInuse (s.hd p)) then .corrupt
    else
      let psize := csize (s.hd p)
      let nx := p + psize
      if pinuse (s.hd p) then freeFwdHead s p psize nx
      else
        let prevsize := s.mem p
        if isMmapped (s.hd p) then
          (munmap cf s (p - prevsize) (psize + prevsize + 32)).bind fun s => .ok ({ s with foot := s.foot - (psize + prevsize + 32) }, .done)
        else
          let prev := p - prevsize
          if !(s.least ≤ prev) then .corrupt
          else if prev ≠ s.dv then (unlinkChunk s prev prevsize).bind fun s => freeFwdHead s prev (psize + prevsize) nx
          else if s.hd nx % 4 = 3 then .ok ({ s with dvsize := psize + prevsize, mem := setFreeP s.mem prev (psize + prevsize) nx }, .done)
          else freeFwdHead s prev (psize + prevsize) nx

/-- One pass through the loop of `release_unused_segments`, or what follows the loop. malloc.c:4365-4402, 4461-4467. -/
def relStep (cf : Conf) (s : Heap) (j n : Nat) (freed auto : Bool) : Out (Heap × Phase) :=
  match s.segs[j]? with
  | none => .ok ({ s with checks := max n 4095, trim := if auto && !freed && decide (s.topsize > s.trim) then W - 1 else s.trim }, .done)
  | some g =>
    let p := g.base + alignOff (g.base + 16)
    let psize := csize (s.hd p)
    if !isInuse (s.hd p) && g.base + g.size - topFoot ≤ p + psize then
      (if p = s.dv then .ok { s with dv := 0, dvsize := 0 } else unlinkChunk s p psize).bind fun s =>
      (munmap cf s g.base g.size).bind fun s =>
      .ok ({ s with foot := s.foot - g.size, segs := s.segs.eraseIdx j }, .rel j (n + 1) true auto)
    else .ok (s, .rel (j + 1) (n + 1) freed auto)

/-- The next phase. malloc.c:4405-4471. -/
def phStep (cf : Conf) (s : Heap) : Phase → Out (Heap × Phase)
  | .done => .ok (s, .done)
  | .trim => (trimTop cf s).bind fun (s, r) => .ok (s, .rel 1 0 (r != 0) true)
  | .rel j n freed auto => relStep cf s j n freed auto

/-- Phases, one after the other. (No code of its own.) -/
def phRun (cf : Conf) : Nat → Heap → Phase → Out (Heap × Phase)
  | 0, s, ph => .ok (s, ph)
  | k + 1, s, ph => (phStep cf s ph).bind fun (s, ph) => phRun cf k s ph

/-! ## Without others, the phases are `mspace_free` -/

/-- What follows the first phase, in one go. (No code of its own.) -/
def rest (cf : Conf) (s : Heap) : Phase → Out Heap
  | .done => .ok s
  | .trim => sysTrim cf s
  | .rel _ _ _ _ => releaseUnused cf s

theorem binFreed_head (cf : Conf) (s : Heap) (p n : Nat) : binFreed cf s p n = rest cf (binFreedHead s p n).1 (binFreedHead s p n).2 := by
  unfold binFreed binFreedHead
  split
  · rfl
  · dsimp only
    split <;> rfl

theorem freeFwd_head (cf : Conf) (s : Heap) (p psize nx : Nat) : freeFwd cf s p psize nx = (freeFwdHead s p psize nx).bind fun (s, ph) => rest cf s ph := by
  unfold freeFwd freeFwdHead
  split
  · rfl
  split
  · simp only [Out.bind_ok]; exact binFreed_head ..
  split
  · dsimp only
    split <;> split <;> rfl
  split
  · rfl
  dsimp only
  cases unlinkChunk s nx (csize (s.hd nx)) with
  | ok s1 =>
    simp only [Out.bind_ok]
    split
    · rfl
    · simp only [Out.bind_ok]; exact binFreed_head ..
  | corrupt => rfl
  | noMem => rfl

theorem free_head (cf : Conf) (s : Heap) (a : Nat) : free cf s a = (freeHead cf s a).bind fun (s, ph) => rest cf s ph := by
  unfold free freeHead
  split
  · rfl
  dsimp only
  split
  · rfl
  split
  · exact freeFwd_head ..
  split
  · cases munmap cf s (a - 16 - s.mem (a - 16)) (csize (s.hd (a - 16)) + s.mem (a - 16) + 32) <;> rfl
  split
  · rfl
  split
  · cases unlinkChunk s (a - 16 - s.mem (a - 16)) (s.mem (a - 16)) with
    | ok s1 => simp only [Out.bind_ok]; exact freeFwd_head ..
    | corrupt => rfl
    | noMem => rfl
  split
  · rfl
  · exact freeFwd_head ..

/-- The phase after the first is one that `mspace_free` really has. (No code of its own.) -/
def Phase.Starts (s : Heap) : Phase → Prop
  | .done => True
  | .trim => s.trim < s.topsize
  | .rel j n freed auto => j = 1 ∧ n = 0 ∧ freed = false ∧ auto = false

theorem binFreedHead_starts (s : Heap) (p n : Nat) : (binFreedHead s p n).2.Starts (binFreedHead s p n).1 := by
  unfold binFreedHead
  split
  · trivial
  · dsimp only; split
    · exact ⟨rfl, rfl, rfl, rfl⟩
    · trivial

theorem freeFwdHead_starts {s s' : Heap} {p psize nx : Nat} {ph : Phase} (h : freeFwdHead s p psize nx = .ok (s', ph)) : ph.Starts s' := by
  unfold freeFwdHead at h
  split at h
  · cases h
  split at h
  · have h1 := binFreedHead_starts { s with mem := setFreeP s.mem p psize nx } p psize
    rw [Out.ok.inj h] at h1; exact h1
  split at h
  · dsimp only at h
    split at h <;> split at h <;> cases h <;> first | trivial | assumption
  split at h
  · cases h; trivial
  dsimp only at h
  cases hu : unlinkChunk s nx (csize (s.hd nx)) with
  | ok s1 =>
    rw [hu] at h
    simp only [Out.bind_ok] at h
    split at h
    · cases h; trivial
    · have h1 := binFreedHead_starts { s1 with mem := setFree s1.mem p (psize + csize (s.hd nx)) } p (psize + csize (s.hd nx))
      rw [Out.ok.inj h] at h1; exact h1
  | corrupt => rw [hu] at h; cases h
  | noMem => rw [hu] at h; cases h

theorem freeHead_starts {cf : Conf} {s s' : Heap} {a : Nat} {ph : Phase} (h : freeHead cf s a = .ok (s', ph)) : ph.Starts s' := by
  unfold freeHead at h
  split at h
  · cases h; trivial
  dsimp only at h
  split at h
  · cases h
  split at h
  · exact freeFwdHead_starts h
  split at h
  · cases hu : munmap cf s (a - 16 - s.mem (a - 16)) (csize (s.hd (a - 16)) + s.mem (a - 16) + 32) with
    | ok s1 => rw [hu] at h; cases h; trivial
    | corrupt => rw [hu] at h; cases h
    | noMem => rw [hu] at h; cases h
  split at h
  · cases h
  split at h
  · cases hu : unlinkChunk s (a - 16 - s.mem (a - 16)) (s.mem (a - 16)) with
    | ok s1 => rw [hu] at h; simp only [Out.bind_ok] at h; exact freeFwdHead_starts h
    | corrupt => rw [hu] at h; cases h
    | noMem => rw [hu] at h; cases h
  split at h
  · cases h; trivial
  · exact freeFwdHead_starts h

theorem unlinkChunk_segs {s s' : Heap} {p n : Nat} (h : unlinkChunk s p n = .ok s') : s'.segs = s.segs := by
  unfold unlinkChunk at h; split at h <;> cases h; rfl

theorem munmap_segs {cf : Conf} {s s' : Heap} {a n : Nat} (h : munmap cf s a n = .ok s') : s'.segs = s.segs := by
  unfold munmap at h; split at h <;> cases h; rfl

/-- Changing the list of segments changes nothing else: `unlink_chunk`. -/
theorem unlinkChunk_with (s : Heap) (p n : Nat) (l : List Seg) : unlinkChunk { s with segs := l } p n = (unlinkChunk s p n).bind fun s => .ok { s with segs := l } := by
  unfold unlinkChunk; dsimp only; split <;> rfl

theorem munmap_with (cf : Conf) (s : Heap) (a n : Nat) (l : List Seg) : munmap cf { s with segs := l } a n = (munmap cf s a n).bind fun s => .ok { s with segs := l } := by
  unfold munmap; dsimp only; split <;> rfl

/-- The loop, pass by pass. -/
theorem relLoop_eq (cf : Conf) (auto : Bool) : ∀ (T A : List Seg) (s : Heap) (n : Nat) (freed : Bool) (k : Nat),
    phRun cf (T.length + k) { s with segs := A ++ T } (.rel A.length n freed auto) =
      (releaseLoop cf T s).bind fun (T', s') => phRun cf k { s' with segs := A ++ T' } (.rel (A.length + T'.length) (n + T.length) (freed || decide (T'.length < T.length)) auto)
  | [], A, s, n, freed, k => by simp [releaseLoop]
  | g :: T, A, s, n, freed, k => by
    have e1 : (g :: T).length + k = (T.length + k) + 1 := by simp only [List.length_cons]; omega
    rw [e1]
    show (relStep cf { s with segs := A ++ g :: T } A.length n freed auto).bind _ = _
    unfold relStep releaseLoop
    have e2 : ({ s with segs := A ++ g :: T } : Heap).segs[A.length]? = some g := by simp
    rw [e2]
    dsimp only
    have e3 : ({ s with segs := A ++ g :: T } : Heap).hd (g.base + alignOff (g.base + 16)) = s.hd (g.base + alignOff (g.base + 16)) := rfl
    rw [e3]
    split
    · rename_i hc
      have key : ∀ s1 : Heap, ((munmap cf { s1 with segs := A ++ g :: T } g.base g.size).bind fun s => .ok ({ s with foot := s.foot - g.size, segs := s.segs.eraseIdx A.length }, Phase.rel A.length (n + 1) true auto)).bind
            (fun (s, ph) => phRun cf (T.length + k) s ph) =
          ((munmap cf s1 g.base g.size).bind fun s => releaseLoop cf T { s with foot := s.foot - g.size }).bind fun (T', s') =>
            phRun cf k { s' with segs := A ++ T' } (.rel (A.length + T'.length) (n + (g :: T).length) (freed || decide (T'.length < (g :: T).length)) auto) := by
        intro s1
        rw [munmap_with]
        cases hm : munmap cf s1 g.base g.size with
        | corrupt => rfl
        | noMem => rfl
        | ok s2 =>
          simp only [Out.bind_ok]
          have e4 : (A ++ g :: T).eraseIdx A.length = A ++ T := by rw [List.eraseIdx_append_of_length_le (Nat.le_refl _)]; simp
          rw [e4]
          have := relLoop_eq cf auto T A { s2 with foot := s2.foot - g.size } (n + 1) true k
          rw [this]
          cases hr : releaseLoop cf T { s2 with foot := s2.foot - g.size } with
          | corrupt => rfl
          | noMem => rfl
          | ok r =>
            simp only [Out.bind_ok]
            have hlen := releaseLoop_length hr
            have e5 : decide (r.1.length < (g :: T).length) = true := by simp only [List.length_cons, decide_eq_true_eq]; omega
            rw [e5]
            simp only [Bool.true_or, Bool.or_true, List.length_cons]
            rw [show n + 1 + T.length = n + (T.length + 1) by omega]
      by_cases hd : g.base + alignOff (g.base + 16) = s.dv
      · rw [if_pos hd, if_pos hd]
        simp only [Out.bind_ok]
        exact key { s with dv := 0, dvsize := 0 }
      · rw [if_neg hd, if_neg hd]
        rw [unlinkChunk_with]
        cases hu : unlinkChunk s (g.base + alignOff (g.base + 16)) (csize (s.hd (g.base + alignOff (g.base + 16)))) with
        | corrupt => rfl
        | noMem => rfl
        | ok s1 =>
          simp only [Out.bind_ok]
          exact key s1
    · simp only [Out.bind_ok]
      have := relLoop_eq cf auto T (A ++ [g]) s (n + 1) freed k
      rw [show A ++ [g] ++ T = A ++ g :: T by simp, show (A ++ [g]).length = A.length + 1 by simp] at this
      rw [this]
      cases hr : releaseLoop cf T s with
      | corrupt => rfl
      | noMem => rfl
      | ok r =>
        simp only [Out.bind_ok, List.length_cons]
        rw [show A ++ [g] ++ r.1 = A ++ g :: r.1 by simp, show n + 1 + T.length = n + (T.length + 1) by omega, show A.length + 1 + r.1.length = A.length + (r.1.length + 1) by omega]
        congr 3
        simp
where
  releaseLoop_length {cf : Conf} : ∀ {T : List Seg} {s : Heap} {r : List Seg × Heap}, releaseLoop cf T s = .ok r → r.1.length ≤ T.length
  | [], s, r, h => by cases h; simp
  | g :: T, s, r, h => by
    unfold releaseLoop at h
    dsimp only at h
    split at h
    · cases hx : (if g.base + alignOff (g.base + 16) = s.dv then Out.ok { s with dv := 0, dvsize := 0 } else unlinkChunk s (g.base + alignOff (g.base + 16)) (csize (s.hd (g.base + alignOff (g.base + 16))))) with
      | corrupt => rw [hx] at h; cases h
      | noMem => rw [hx] at h; cases h
      | ok s1 =>
        rw [hx] at h
        simp only [Out.bind_ok] at h
        cases hm : munmap cf s1 g.base g.size with
        | corrupt => rw [hm] at h; cases h
        | noMem => rw [hm] at h; cases h
        | ok s2 =>
          rw [hm] at h
          simp only [Out.bind_ok] at h
          have := releaseLoop_length h
          simp only [List.length_cons]; omega
    · cases hr : releaseLoop cf T s with
      | corrupt => rw [hr] at h; cases h
      | noMem => rw [hr] at h; cases h
      | ok r' =>
        rw [hr] at h
        cases h
        have := releaseLoop_length hr
        simp only [List.length_cons]; omega

theorem phRun_done (cf : Conf) (s : Heap) : ∀ k, phRun cf k s .done = .ok (s, .done)
  | 0 => rfl
  | k + 1 => by simp only [phRun, phStep, Out.bind_ok]; exact phRun_done cf s k

theorem total_length {R : List (Nat × Nat)} (h : ∀ r ∈ R, 0 < r.2) : R.length ≤ total R := by
  induction R with
  | nil => simp
  | cons r R ih =>
    have h1 := h r List.mem_cons_self
    have h2 := ih fun r hr => h r (List.mem_cons_of_mem _ hr)
    simp only [total, List.map_cons, List.sum_cons, List.length_cons] at *
    omega

end Arax.Dl
