import Verif.Stream.Props

/-!
# C82: what the built-in tasks do on each back-end, and whom a wrong one hurts
-/
namespace Arax.Stream

/-- What the user asks for: the bytes of the data object in the range are replaced, all others stay. `n` bytes from `i` on; `f off`: the new byte at `off`. (Specification; AraxLibUtilsMemOps.h:5-21, arax.h, arax_data.h.) -/
def Replaced (c c' : Nat → Nat → Nat) (d i n : Nat) (f : Nat → Nat) : Prop :=
  (∀ off, i ≤ off → off < i + n → c' d off = f off) ∧ ∀ e off, (e ≠ d ∨ off < i ∨ i + n ≤ off) → c' e off = c e off

theorem run_fill (io : List Nat) (f : Nat → Nat) (n i : Nat) (c : Nat → Nat → Nat) (h : Nat → Nat) :
    ((fill f n i).run io c h).2 = h ∧ Replaced c ((fill f n i).run io c h).1 (arg io 0) i n (fun off => f (off - i)) := by
  induction n generalizing i c f with
  | zero => exact ⟨rfl, fun off _ _ => by omega, fun _ _ _ => rfl⟩
  | succ n ih =>
    simp only [fill, Prog.run]
    obtain ⟨h1, h2, h3⟩ := ih (fun j => f (j + 1)) (i + 1) (upd c (arg io 0) (upd (c (arg io 0)) i (f 0)))
    refine ⟨h1, fun off g1 g2 => ?_, fun e off g => ?_⟩
    · by_cases e : off = i
      · subst e; rw [h3 _ _ (by omega), upd_same, upd_same]; simp
      · rw [h2 off (by omega) (by omega)]; exact congrArg f (by omega)
    · rw [h3 e off (by omega)]
      by_cases e2 : e = arg io 0
      · subst e2; rw [upd_same, upd_other _ _ _ _ (by omega)]
      · rw [upd_other _ _ _ _ e2]

theorem run_copyBuf (io : List Nat) (hne : arg io 0 ≠ arg io 1) (n a b : Nat) (c : Nat → Nat → Nat) (h : Nat → Nat) :
    ((copyBuf n a b).run io c h).2 = h ∧ Replaced c ((copyBuf n a b).run io c h).1 (arg io 1) b n (fun off => c (arg io 0) (a + (off - b))) := by
  induction n generalizing a b c with
  | zero => exact ⟨rfl, fun off _ _ => by omega, fun _ _ _ => rfl⟩
  | succ n ih =>
    simp only [copyBuf, Prog.run]
    obtain ⟨h1, h2, h3⟩ := ih (a + 1) (b + 1) (upd c (arg io 1) (upd (c (arg io 1)) b (c (arg io 0) a)))
    refine ⟨h1, fun off g1 g2 => ?_, fun e off g => ?_⟩
    · by_cases e : off = b
      · subst e; rw [h3 _ _ (by omega), upd_same, upd_same]; simp
      · rw [h2 off (by omega) (by omega), upd_other _ _ _ _ hne]; exact congrArg (c (arg io 0)) (by omega)
    · rw [h3 e off (by omega)]
      by_cases e2 : e = arg io 1
      · subst e2; rw [upd_same, upd_other _ _ _ _ (by omega)]
      · rw [upd_other _ _ _ _ e2]

theorem dsz_eq (cf : Conf) (d : Nat) (h : cf.be ≠ .opencl ∨ cf.size d < 2 ^ 31) : cf.dsz d = cf.size d := by
  unfold Conf.dsz
  split
  · next e =>
    rcases h with h | h
    · exact absurd e h
    · have e2 : cf.size d % 2 ^ 32 = cf.size d := Nat.mod_eq_of_lt (by omega)
      simp only [toInt, e2]
      rw [if_pos h]; rfl
  · rfl

/-- `arax_data_set` gives the data object the user's bytes, all of them, and touches nothing else. On OpenCL: for sizes below 2^31. -/
theorem C82_set_partial (cf : Conf) (d : Nat) (hd : cf.be ≠ .opencl ∨ cf.size d < 2 ^ 31) (bs : Nat → Nat) (c : Nat → Nat → Nat) :
    ∃ q, cf.prog (.set d bs) = some q ∧ Replaced c (q.run [d] c (Req.set d bs).host).1 d 0 (cf.size d) bs := by
  refine ⟨_, rfl, ?_⟩
  obtain ⟨_, h2, h3⟩ := run_copyIn [d] (cf.dsz d) 0 c bs
  rw [dsz_eq cf d hd] at *
  refine ⟨fun off _ h => ?_, fun e off h => ?_⟩
  · exact (h3 off).trans (if_pos ⟨Nat.zero_le _, h⟩)
  · by_cases e2 : e = d
    · subst e2; exact (h3 off).trans (if_neg (by omega))
    · exact congrFun (h2 e e2) off

/-- `arax_data_get` gives the user all bytes of the data object and changes nothing. On OpenCL: for sizes below 2^31. -/
theorem C82_get_partial (cf : Conf) (d : Nat) (hd : cf.be ≠ .opencl ∨ cf.size d < 2 ^ 31) (c : Nat → Nat → Nat) :
    ∃ q, cf.prog (.get d) = some q ∧ (q.run [d] c (Req.get d).host).1 = c ∧ ∀ off, off < cf.size d → (q.run [d] c (Req.get d).host).2 off = c d off := by
  refine ⟨_, rfl, ?_⟩
  obtain ⟨h1, h2⟩ := run_copyOut [d] (cf.dsz d) 0 c (Req.get d).host
  rw [dsz_eq cf d hd] at *
  exact ⟨h1, fun off h => (h2 off).trans (if_pos ⟨Nat.zero_le _, by omega⟩)⟩

/-- On CUDA and HIP `memset` sets the bytes asked for, and no others. -/
theorem C82_memset_partial (cf : Conf) (hb : cf.be ≠ .opencl) (d off val n : Nat) (c : Nat → Nat → Nat) :
    ∃ q, cf.prog (.memset d off val n) = some q ∧ Replaced c (q.run [d] c (Req.memset d off val n).host).1 d off n (fun _ => val % 256) := by
  refine ⟨fill (fun _ => val % 256) n off, ?_, (run_fill [d] _ n off c _).2⟩
  simp only [Conf.prog]

/-- On CUDA and HIP `memcpy` between different data objects, for ranges that lie within them, copies the bytes asked for, and no others. -/
theorem C82_memcpy_partial (cf : Conf) (hs : cf.Sane) (hb : cf.be ≠ .opencl) (src dst so dof n : Nat) (w : Bool) (hne : src ≠ dst) (hn : 0 < n)
    (h1 : so + n ≤ cf.size src) (h2 : dof + n ≤ cf.size dst) (c : Nat → Nat → Nat) :
    ∃ q, cf.prog (.memcpy src dst so dof n w) = some q ∧
      Replaced c (q.run [src, dst] c (Req.memcpy src dst so dof n w).host).1 dst dof n (fun off => c src (so + (off - dof))) := by
  refine ⟨copyBuf n so dof, ?_, (run_copyBuf [src, dst] hne n so dof c _).2⟩
  simp only [Conf.prog]
  rw [usub_eq _ _ (hs dst) (by omega), usub_eq _ _ (hs src) (by omega), if_neg (by omega)]

/-- A `memcpy` that starts within both data objects and reaches past the end of one of them is noticed: the controller aborts. (All back-ends.) -/
theorem C82_memcpy_checked (cf : Conf) (hs : cf.Sane) (src dst so dof n : Nat) (w : Bool) (h1 : so ≤ cf.size src) (h2 : dof ≤ cf.size dst)
    (h : cf.size src < so + n ∨ cf.size dst < dof + n) : cf.prog (.memcpy src dst so dof n w) = none := by
  simp only [Conf.prog]
  rw [usub_eq _ _ (hs dst) h2, usub_eq _ _ (hs src) h1, if_pos (by omega)]

/-- Tasks leave data objects that are not among their arguments alone, if all tasks are legal. With `C81_get_returns`: what other clients do to their data cannot be seen in one's own. -/
theorem C82_others_partial (cf : Conf) (hs : cf.Sane) (task : Nat → Task) (A M : List Nat) (ini : Nat → Nat → Nat) (d : Nat)
    (hl : ∀ t ∈ M, (task t).req.Legal cf ∧ d ∉ (task t).req.io) : (seq cf task (A ++ M) ini).c d = (seq cf task A ini).c d := seq_keeps cf hs task A M ini d hl

/-! ## Who marks and frees tasks -/

/-- Tasks that are marked as done: their handlers do that. Freed: by the handler, or by the user after they were marked. (No code of its own.) -/
structure Marks (cf : Conf) (s : St) : Prop where
  done : ∀ t, s.done t = true → t < s.n ∧ cf.marks (s.task t).req = true
  gone : ∀ t, s.gone t = true → t < s.n ∧ (cf.frees (s.task t).req = true ∨ cf.marks (s.task t).req = true)
  queue : ∀ v t, (v, t) ∈ s.queue → t < s.n
  begins : ∀ p t, s.worker p = .begin t → t < s.n
  waits : ∀ p t, s.worker p = .wait t → t < s.n

theorem marks_complete {cf : Conf} {s : St} (h : Marks cf s) (t : Nat) (ht : t < s.n) : Marks cf (s.complete cf t) := by
  refine ⟨fun u hu => ?_, fun u hu => ?_, h.queue, h.begins, h.waits⟩
  · simp only [St.complete, upd] at hu ⊢
    split at hu
    · next e => subst e; exact ⟨ht, hu⟩
    · exact h.done u hu
  · simp only [St.complete, upd] at hu ⊢
    split at hu
    · next e => subst e; exact ⟨ht, .inl hu⟩
    · exact h.gone u hu

theorem marks_worker {cf : Conf} {s : St} (h : Marks cf s) (p : Nat) (W' : W) (h1 : ∀ t, W' = .begin t → t < s.n) (h2 : ∀ t, W' = .wait t → t < s.n) (q) (hq : ∀ v t, (v, t) ∈ q → t < s.n)
    (l) (st) : Marks cf { s with worker := upd s.worker p W', queue := q, log := l, stream := st } := by
  refine ⟨h.done, h.gone, hq, fun x t hx => ?_, fun x t hx => ?_⟩
  · have hx : upd s.worker p W' x = _ := hx
    simp only [upd] at hx
    split at hx
    · exact h1 t hx
    · exact h.begins x t hx
  · have hx : upd s.worker p W' x = _ := hx
    simp only [upd] at hx
    split at hx
    · exact h2 t hx
    · exact h.waits x t hx

theorem marks_step {cf : Conf} {all : List Nat} {s s' : St} (hm : Marks cf s) (a : Act) (h : s.step cf all a = some s') : Marks cf s' := by
  cases a with
  | issue v r =>
    simp only [St.step] at h
    split at h
    · cases h
      have e : ∀ t, t < s.n → upd s.task s.n ⟨v, r⟩ t = s.task t := fun t ht => upd_other _ _ _ _ (by omega)
      refine ⟨fun t ht => ?_, fun t ht => ?_, fun w t ht => ?_, fun p t ht => ?_, fun p t ht => ?_⟩
      · have := hm.done t ht; simp only [e t this.1]; exact ⟨by omega, this.2⟩
      · have := hm.gone t ht; simp only [e t this.1]; exact ⟨by omega, this.2⟩
      · rcases List.mem_append.1 ht with ht | ht
        · have := hm.queue w t ht; show t < s.n + 1; omega
        · simp only [List.mem_singleton, Prod.mk.injEq] at ht; show t < s.n + 1; omega
      · have := hm.begins p t ht; show t < s.n + 1; omega
      · have := hm.waits p t ht; show t < s.n + 1; omega
    · cases h
  | take p v =>
    simp only [St.step] at h
    split at h
    · split at h
      · cases h
      · next t r hf =>
        cases h
        obtain ⟨x, y, h1, h2, _⟩ := first_some hf
        refine marks_worker hm p (.begin t) (fun u hu => ?_) (fun u hu => by cases hu) r (fun w u hu => hm.queue w u ?_) s.log s.stream
        · cases hu; exact hm.queue v t (by rw [h1]; simp)
        · rw [h1]; rw [h2] at hu; simp only [List.mem_append, List.mem_cons] at hu ⊢
          rcases hu with g | g <;> simp [g]
    · cases h
  | alloc p d b =>
    simp only [St.step] at h
    split at h
    · split at h
      · split at h <;> (cases h; exact ⟨hm.done, hm.gone, hm.queue, hm.begins, hm.waits⟩)
      · cases h
    · cases h
  | launch p =>
    simp only [St.step] at h
    split at h
    · next t hw =>
      have ht := hm.begins p t hw
      split at h
      · split at h
        · cases h; exact ⟨hm.done, hm.gone, hm.queue, hm.begins, hm.waits⟩
        · split at h
          · cases h; exact marks_worker hm p (.wait t) (fun u hu => by cases hu) (fun u hu => by cases hu; exact ht) _ hm.queue _ _
          · cases h; exact marks_complete (marks_worker hm p .idle (fun u hu => by cases hu) (fun u hu => by cases hu) _ hm.queue _ _) t ht
      · cases h
    · cases h
  | dev p =>
    simp only [St.step] at h
    split at h
    · cases h
    · split at h <;> (cases h; exact ⟨hm.done, hm.gone, hm.queue, hm.begins, hm.waits⟩)
  | finish p =>
    simp only [St.step] at h
    split at h
    · next t hw =>
      split at h
      · cases h; exact marks_complete (marks_worker hm p .idle (fun u hu => by cases hu) (fun u hu => by cases hu) _ hm.queue _ _) t (hm.waits p t hw)
      · cases h
    · cases h
  | drop d =>
    simp only [St.step] at h
    split at h
    · cases h; exact ⟨hm.done, hm.gone, hm.queue, hm.begins, hm.waits⟩
    · cases h
  | freeDev p d =>
    simp only [St.step] at h
    split at h
    · split at h
      · cases h; exact ⟨hm.done, hm.gone, hm.queue, hm.begins, hm.waits⟩
      · cases h
    · cases h
  | userFree t =>
    simp only [St.step] at h
    split at h
    · next hc =>
      cases h
      refine ⟨hm.done, fun u hu => ?_, hm.queue, hm.begins, hm.waits⟩
      have hu : upd s.gone t true u = true := hu
      simp only [upd] at hu
      split at hu
      · next e => subst e; exact ⟨(hm.done u hc.1).1, .inr (hm.done u hc.1).2⟩
      · exact hm.gone u hu
    · cases h
  | scribble t f =>
    simp only [St.step] at h
    split at h
    · cases h; exact ⟨hm.done, hm.gone, hm.queue, hm.begins, hm.waits⟩
    · cases h

theorem marks_exec (cf : Conf) (all : List Nat) (s : St) (hm : Marks cf s) (h : List Act) : Marks cf (s.exec cf all h) := by
  induction h generalizing s with
  | nil => exact hm
  | cons a h ih =>
    refine ih _ ?_
    simp only [St.act]
    split
    · exact hm
    · cases e : s.step cf all a with
      | none => exact hm
      | some s' => exact marks_step hm a e

theorem marks_start (cf : Conf) (m) : Marks cf (start m) := by constructor <;> simp [start]

/-- Violated (CUDABuiltins.cu:183-186): on CUDA a `memcpy` task with `sync` false is never marked as done and never freed, whatever happens: whoever waits for it waits for ever, and its memory and its references to the data objects are lost. -/
theorem C82_violated_cuda_memcpy (cf : Conf) (hb : cf.be = .cuda) (all : List Nat) (m : Nat → Nat) (h : List Act) (t v src dst so dof n : Nat)
    (ht : ((start m).exec cf all h).task t = ⟨v, .memcpy src dst so dof n false⟩) :
    ((start m).exec cf all h).done t = false ∧ ((start m).exec cf all h).gone t = false := by
  have hm := marks_exec cf all _ (marks_start cf m) h
  generalize (start m).exec cf all h = s at *
  constructor
  · cases e : s.done t with
    | false => rfl
    | true => have := (hm.done t e).2; simp [ht, Conf.marks, hb] at this
  · cases e : s.gone t with
    | false => rfl
    | true => have := (hm.gone t e).2; simp [ht, Conf.marks, Conf.frees, hb] at this

/-- The handler of the task is at its end, or waits for its stream. (No code of its own.) -/
def Ended (cf : Conf) (s : St) : Prop := ∀ t, t ∈ s.log → (∃ p, s.worker p = .wait t) ∨ s.done t = cf.marks (s.task t).req

theorem ended_step {cf : Conf} {all : List Nat} {s s' : St} (hi : Inv cf all s) (he : Ended cf s) (a : Act) (h : s.step cf all a = some s') : Ended cf s' := by
  cases a with
  | issue v r =>
    simp only [St.step] at h
    split at h
    · cases h
      intro t ht
      have e : upd s.task s.n ⟨v, r⟩ t = s.task t := upd_other _ _ _ _ (by have := hi.log t ht; omega)
      simp only [e]; exact he t ht
    · cases h
  | take p v =>
    simp only [St.step] at h
    split at h
    · next hc =>
      split at h
      · cases h
      · cases h
        intro t ht
        rcases he t ht with ⟨x, hx⟩ | g
        · refine .inl ⟨x, ?_⟩
          show upd s.worker p _ x = _
          rw [upd_other]; exact hx
          rintro rfl; rw [hc.2.2] at hx; cases hx
        · exact .inr g
    · cases h
  | alloc p d b =>
    simp only [St.step] at h
    split at h
    · split at h
      · split at h <;> (cases h; exact he)
      · cases h
    · cases h
  | launch p =>
    simp only [St.step] at h
    split at h
    · next t hw =>
      have old : ∀ u W', u ∈ s.log → (∃ x, upd s.worker p W' x = .wait u) ∨ s.done u = cf.marks (s.task u).req := by
        intro u W' hu
        rcases he u hu with ⟨x, hx⟩ | g
        · refine .inl ⟨x, ?_⟩
          rw [upd_other]; exact hx
          rintro rfl; rw [hw] at hx; cases hx
        · exact .inr g
      split at h
      · split at h
        · cases h; exact he
        · split at h
          · cases h
            intro u hu
            rcases List.mem_append.1 hu with hu | hu
            · exact old u _ hu
            · rw [List.mem_singleton] at hu; subst hu; exact .inl ⟨p, upd_same _ _ _⟩
          · cases h
            intro u hu
            by_cases e : u = t
            · subst e; exact .inr (upd_same _ _ _)
            · rcases List.mem_append.1 hu with hu | hu
              · rcases old u .idle hu with g | g
                · exact .inl g
                · right; simp only [St.complete]; rw [upd_other _ _ _ _ e]; exact g
              · exact absurd (List.mem_singleton.1 hu) e
      · cases h
    · cases h
  | dev p =>
    simp only [St.step] at h
    split at h
    · cases h
    · split at h <;> (cases h; exact he)
  | finish p =>
    simp only [St.step] at h
    split at h
    · next t hw =>
      split at h
      · cases h
        intro u hu
        by_cases e : u = t
        · subst e; exact .inr (upd_same _ _ _)
        · rcases he u hu with ⟨x, hx⟩ | g
          · refine .inl ⟨x, ?_⟩
            show upd s.worker p _ x = _
            rw [upd_other]; exact hx
            rintro rfl; rw [hw] at hx; cases hx; exact e rfl
          · right; simp only [St.complete]; rw [upd_other _ _ _ _ e]; exact g
      · cases h
    · cases h
  | drop d =>
    simp only [St.step] at h
    split at h
    · cases h; exact he
    · cases h
  | freeDev p d =>
    simp only [St.step] at h
    split at h
    · split at h
      · cases h; exact he
      · cases h
    · cases h
  | userFree t =>
    simp only [St.step] at h
    split at h
    · cases h; exact he
    · cases h
  | scribble t f =>
    simp only [St.step] at h
    split at h
    · cases h; exact he
    · cases h

theorem ended_exec {cf : Conf} (hs : cf.Sane) (all : List Nat) (s : St) (hg : Good cf all s) (he : Ended cf s) (h : List Act) (hl : AllLegal cf h) : Ended cf (s.exec cf all h) := by
  induction h generalizing s with
  | nil => exact he
  | cons a h ih =>
    have key : Good cf all (s.act cf all a) ∧ Ended cf (s.act cf all a) := by
      simp only [St.act]
      split
      · exact ⟨hg, he⟩
      · cases e : s.step cf all a with
        | none => exact ⟨hg, he⟩
        | some s' => exact ⟨good_step hs hg a (fun v r e' => hl v r (e' ▸ .head _)) e, ended_step hg.1 he a e⟩
    exact ih _ key.1 key.2 fun v r hr => hl v r (.tail _ hr)

/-- Once its handler has been called and does not wait for its stream any more, a task is marked as done: every `memset`, `arax_data_get`, kernel, and `memcpy` with `sync` on every back-end (`arax_data_set` gives the user no task to wait for). -/
theorem C82_marked_partial (cf : Conf) (hs : cf.Sane) (all : List Nat) (m : Nat → Nat) (h : List Act) (hl : AllLegal cf h) (t : Nat) (ht : t ∈ ((start m).exec cf all h).log)
    (hw : ∀ p, ((start m).exec cf all h).worker p ≠ .wait t) :
    match (((start m).exec cf all h).task t).req with
    | .set _ _ => True
    | .memcpy _ _ _ _ _ w => w = true → ((start m).exec cf all h).done t = true
    | _ => ((start m).exec cf all h).done t = true := by
  have he := ended_exec hs all _ (good_start cf all m) (fun _ h => by cases h) h hl t ht
  generalize (start m).exec cf all h = s at *
  rcases he with ⟨p, hp⟩ | g
  · exact absurd hp (hw p)
  · cases e : (s.task t).req <;> simp_all [Conf.marks]

/-- Except for `memset` on OpenCL, a task the user can wait for is freed by nobody but the user: it is valid when it has been marked as done, unless the user has freed it. Stated for single steps: the only one that frees it is the user's. -/
theorem C82_valid_partial (cf : Conf) (all : List Nat) (s s' : St) (a : Act) (h : s.step cf all a = some s') (t : Nat) (hg : s.gone t = false) (hg' : s'.gone t = true) :
    a = .userFree t ∨ match (s.task t).req with
      | .set _ _ => True
      | .memcpy _ _ _ _ _ w => w = false
      | .memset _ _ _ _ => cf.be = .opencl
      | _ => False := by
  have comp : ∀ (x : St) (u : Nat), x.task = s.task → x.gone t = false → (x.complete cf u).gone t = true → cf.frees (s.task t).req = true := by
    intro x u hx h1 h2
    simp only [St.complete, upd] at h2
    split at h2
    · next e => subst e; rw [← hx]; exact h2
    · rw [h1] at h2; cases h2
  have fin : cf.frees (s.task t).req = true → (match (s.task t).req with
      | .set _ _ => True
      | .memcpy _ _ _ _ _ w => w = false
      | .memset _ _ _ _ => cf.be = .opencl
      | _ => False) := by
    intro hf
    cases e : (s.task t).req <;> simp_all [Conf.frees]
  cases a with
  | issue v r =>
    simp only [St.step] at h
    split at h
    · cases h; rw [hg] at hg'; cases hg'
    · cases h
  | take p v =>
    simp only [St.step] at h
    split at h
    · split at h
      · cases h
      · cases h; rw [hg] at hg'; cases hg'
    · cases h
  | alloc p d b =>
    simp only [St.step] at h
    split at h
    · split at h
      · split at h <;> (cases h; rw [hg] at hg'; cases hg')
      · cases h
    · cases h
  | launch p =>
    simp only [St.step] at h
    split at h
    · split at h
      · split at h
        · cases h; rw [hg] at hg'; cases hg'
        · split at h
          · cases h; rw [hg] at hg'; cases hg'
          · cases h; refine .inr (fin (comp _ _ ?_ ?_ hg')) <;> first | rfl | exact hg
      · cases h
    · cases h
  | dev p =>
    simp only [St.step] at h
    split at h
    · cases h
    · split at h <;> (cases h; rw [hg] at hg'; cases hg')
  | finish p =>
    simp only [St.step] at h
    split at h
    · split at h
      · cases h; refine .inr (fin (comp _ _ ?_ ?_ hg')) <;> first | rfl | exact hg
      · cases h
    · cases h
  | drop d =>
    simp only [St.step] at h
    split at h
    · cases h; rw [hg] at hg'; cases hg'
    · cases h
  | freeDev p d =>
    simp only [St.step] at h
    split at h
    · split at h
      · cases h; rw [hg] at hg'; cases hg'
      · cases h
    · cases h
  | userFree u =>
    simp only [St.step] at h
    split at h
    · cases h
      left
      have hg' : upd s.gone u true t = true := hg'
      simp only [upd] at hg'
      split at hg'
      · next e => rw [e]
      · rw [hg] at hg'; cases hg'
    · cases h
  | scribble u f =>
    simp only [St.step] at h
    split at h
    · cases h; rw [hg] at hg'; cases hg'
    · cases h

/-- After an abort of the controller no task is marked as done any more, whoever issued it. -/
theorem dead_exec (cf : Conf) (all : List Nat) (s : St) (hd : s.dead = true) (h : List Act) : s.exec cf all h = s := by
  induction h with
  | nil => rfl
  | cons a h ih => show (s.act cf all a).exec cf all h = s; rw [show s.act cf all a = s by simp [St.act, hd]]; exact ih

end Arax.Stream
