import Verif.Tso.Queue
import Verif.Queue.LinProps
/-!
# C84 on processors that delay stores

Any program around the queue of `Verif/Tso/Queue.lean` (store buffers that write back in any order): whatever it can reach it can reach with
an atomic queue.
-/
namespace Arax.Tso.QueueC
open Arax.Queue.Conc Arax.Queue.Lin

/-- The program, the queue with its store buffers, and the variable `data` of `utils_queue_push` (queue.c:89, 109, 123). -/
structure TC (γ : Type) where
  g : γ
  t : TSt
  data : Nat → Nat

/-- What a call at its last instruction returns (queue.c:77, 81-83, 123). -/
def tresult {γ : Type} (c : TC γ) (i : Nat) : Nat :=
  match c.t.pc i with
  | .at (.popC t _ v) => if c.t.top = t then v else 0
  | .at .pushU => c.data i
  | _ => 0

/-- `data` after the next instruction (queue.c:108-109). -/
def tdata {γ : Type} (cap : Nat) (c : TC γ) (i : Nat) : Nat :=
  match c.t.pc i with
  | .at (.pushRT _ b) => if Queue.diff16 b c.t.top = cap then 0 else c.data i
  | _ => c.data i

/-- Steps of the program with this queue (as `Lin.CStep`), and stores reaching memory. (No code of its own.) -/
inductive TCStep {γ : Type} (C : Client γ) (cap : Nat) : TC γ → TC γ → Prop where
  | own {c g'} : C.own c.g g' → TCStep C cap c { c with g := g' }
  | call {c : TC γ} {i x} : c.t.pc i = .at .idle → C.want c.g i = some x →
      TCStep C cap c { g := C.call c.g i x, t := tstep cap c.t i x, data := fun j => if j = i then arg x else c.data j }
  | instr {c : TC γ} {i} : c.t.pc i ≠ .at .idle → WindowAt c.t i → (tstep cap c.t i .pop).pc i ≠ .at .idle →
      TCStep C cap c { c with t := tstep cap c.t i .pop, data := fun j => if j = i then tdata cap c i else c.data j }
  | last {c : TC γ} {i} : c.t.pc i ≠ .at .idle → WindowAt c.t i → (tstep cap c.t i .pop).pc i = .at .idle →
      TCStep C cap c { c with g := C.ret c.g i (tresult c i), t := tstep cap c.t i .pop }
  | flush {c : TC γ} {i n} : TCStep C cap c { c with t := flush c.t i n }

/-- What the program can reach. (No code of its own.) -/
inductive TCReach {γ : Type} (C : Client γ) (cap : Nat) (g0 : γ) : TC γ → Prop where
  | init : TCReach C cap g0 { g := g0, t := tinit, data := fun _ => 0 }
  | step {a b} : TCReach C cap g0 a → TCStep C cap a b → TCReach C cap g0 b

/-- The same point of the program with the sequentially consistent queue. (No code of its own.) -/
def absC {γ : Type} (c : TC γ) : CSt γ := { g := c.g, s := abs c.t, data := c.data }

/-- Not a point between which a store is delayed. (No code of its own.) -/
def Sync : Pc → Prop
  | .pushW _ _ => False
  | .pushB _ _ => False
  | .pushU => False
  | _ => True

theorem abs_pc (t : TSt) (i : Nat) : (abs t).pc i = absPc (t.buf i) (t.pc i) := rfl

theorem sync_plain {p : Pc} (h : Sync p) : Plain p := by cases p <;> first | trivial | exact absurd h id

/-- An instruction at such a point is the one of the sequentially consistent machine. -/
theorem sync_step (cap : Nat) (s : TSt) (h : ∀ j, BufOk cap (s.buf j) (s.pc j)) (i : Nat) (cmd : Cmd) (p : Pc) (hp : s.pc i = .at p)
    (hs : Sync p) : abs (tstep cap s i cmd) = step cap (abs s) i cmd ∧ s.buf i = [] := by
  have hb : s.buf i = [] := plain_buf cap _ p (sync_plain hs) (hp ▸ h i)
  refine ⟨?_, hb⟩
  have hpc : (abs s).pc i = p := by rw [abs_pc, hp]; exact plain_abs _ p (sync_plain hs)
  rcases (step_sim cap s h i cmd).2 with e | e
  · -- nothing changed: only a spinning thread does that
    cases p with
    | pushSpin v =>
      rw [e, step.eq_def, hpc]
      by_cases hl : s.lock ≠ 0
      · exact (if_pos (show (abs s).lock ≠ 0 from hl)).symm
      · have : tstep cap s i cmd = s.goto i (.at (.pushCas v)) := by rw [tstep.eq_def, hp]; exact if_neg hl
        rw [this, abs_goto] at e
        have e' := congrFun (congrArg St.pc e) i
        rw [hpc] at e'
        simp [St.goto, absPc] at e'
    | idle =>
      cases cmd with
      | pop =>
        have : tstep cap s i .pop = s.goto i (.at (.popB s.top s.popped.length)) := by rw [tstep.eq_def, hp]
        rw [this, abs_goto, hb, step.eq_def, hpc]; rfl
      | push v =>
        have : tstep cap s i (.push v) = s.goto i (.at (.pushSpin v)) := by rw [tstep.eq_def, hp]
        rw [this, abs_goto, hb, step.eq_def, hpc]; rfl
    | popB t gt =>
      exfalso
      have e' := congrFun (congrArg St.pc e) i
      rw [hpc, tstep.eq_def, hp, hb] at e'
      dsimp only at e'
      split at e' <;> (rw [abs_goto] at e'; simp [St.goto, absPc] at e')
    | popE t gt =>
      exfalso
      have e' := congrFun (congrArg St.pc e) i
      rw [hpc, tstep.eq_def, hp, hb] at e'
      dsimp only at e'
      rw [abs_goto] at e'; simp [St.goto, absPc] at e'
    | popC t gt v =>
      exfalso
      have e' := congrFun (congrArg St.pc e) i
      rw [hpc, tstep.eq_def, hp] at e'
      dsimp only at e'
      rw [if_neg (by rw [hb]; exact fun h => h rfl)] at e'
      split at e' <;> (rw [abs_goto] at e'; simp [St.goto, absPc] at e')
    | pushCas v =>
      exfalso
      have e' := congrFun (congrArg St.pc e) i
      rw [hpc, tstep.eq_def, hp] at e'
      dsimp only at e'
      rw [if_neg (by rw [hb]; exact fun h => h rfl)] at e'
      split at e' <;> (rw [abs_goto] at e'; simp [St.goto, absPc] at e')
    | pushRB v =>
      exfalso
      have e' := congrFun (congrArg St.pc e) i
      rw [hpc, tstep.eq_def, hp, hb] at e'
      dsimp only at e'
      rw [abs_goto] at e'; simp [St.goto, absPc] at e'
    | pushRT v b =>
      exfalso
      have e' := congrFun (congrArg St.pc e) i
      rw [hpc, tstep.eq_def, hp] at e'
      dsimp only at e'
      split at e' <;> (rw [abs_goto, hb] at e'; simp [St.goto, absPc] at e')
    | pushW v b => exact absurd hs id
    | pushB v b => exact absurd hs id
    | pushU => exact absurd hs id
  · exact e.1

theorem absPc_idle (b : List W) (p : TPc) : absPc b p = .idle ↔ p = .at .idle := by
  cases p with
  | fence v b' => cases b <;> simp [absPc]
  | «at» p =>
    cases p <;> simp [absPc]
    cases b with
    | nil => simp
    | cons w l => cases w <;> simp

theorem absPc_popC (b : List W) (p : TPc) (t gt v : Nat) (h : absPc b p = .popC t gt v) : p = .at (.popC t gt v) := by
  cases p with
  | fence v b' => cases b <;> simp [absPc] at h
  | «at» p =>
    cases p <;> simp [absPc] at h ⊢
    · exact h
    · cases b with
      | nil => simp at h
      | cons w l => cases w <;> simp at h

theorem win_abs (t : TSt) (i : Nat) (h : WindowAt t i) : Queue.Conc.WindowAt (abs t) i :=
  fun x gt v e => h x gt v (absPc_popC _ _ _ _ _ (abs_pc t i ▸ e))

theorem same_data (d : Nat → Nat) (i x : Nat) (h : x = d i) : (fun j => if j = i then x else d j) = d := by
  funext j; split
  · rename_i e; rw [h, e]
  · rfl

/-- One step with store buffers is one step without, or none. -/
theorem tc_step {γ : Type} (C : Client γ) (cap : Nat) (c c' : TC γ) (hb : ∀ j, BufOk cap (c.t.buf j) (c.t.pc j))
    (h : TCStep C cap c c') : (∀ j, BufOk cap (c'.t.buf j) (c'.t.pc j)) ∧ (absC c' = absC c ∨ CStep C cap true (absC c) (absC c')) := by
  cases h with
  | own ho => exact ⟨hb, .inr (.own ho)⟩
  | @call i x hi hx =>
    obtain ⟨e, _⟩ := sync_step cap c.t hb i x .idle hi trivial
    refine ⟨(step_sim cap c.t hb i x).1, .inr ?_⟩
    have := CStep.call (C := C) (cap := cap) (win := true) (c := absC c) (i := i) (x := x) (by show absPc _ _ = _; rw [hi]; rfl) hx
    unfold absC at this ⊢
    rw [e]; exact this
  | @instr i hi hw hn =>
    refine ⟨(step_sim cap c.t hb i .pop).1, ?_⟩
    have key : ∀ p, c.t.pc i = .at p → Sync p → CStep C cap true (absC c)
        (absC { c with t := tstep cap c.t i .pop, data := fun j => if j = i then tdata cap c i else c.data j }) := by
      intro p hp hs
      obtain ⟨e, _⟩ := sync_step cap c.t hb i .pop p hp hs
      have hpc : (abs c.t).pc i = p := by rw [abs_pc, hp]; exact plain_abs _ p (sync_plain hs)
      have hd : dataNext cap (absC c) i = tdata cap c i := by
        unfold dataNext tdata
        rw [show (absC c).s.pc i = p from hpc, hp]
        cases p <;> rfl
      have h1 : (absC c).s.pc i ≠ .idle := fun hh => hi ((absPc_idle _ _).1 hh)
      have h2 : (step cap (absC c).s i .pop).pc i ≠ .idle := by
        intro hh
        have hh' : (step cap (abs c.t) i .pop).pc i = .idle := hh
        rw [← e, abs_pc] at hh'
        exact hn ((absPc_idle _ _).1 hh')
      have := CStep.instr (C := C) (cap := cap) (win := true) (c := absC c) (i := i) h1 (fun _ => win_abs c.t i hw) h2
      rw [hd] at this
      unfold absC at this ⊢
      rw [e]; exact this
    have same : abs (tstep cap c.t i .pop) = abs c.t → tdata cap c i = c.data i →
        absC { c with t := tstep cap c.t i .pop, data := fun j => if j = i then tdata cap c i else c.data j } = absC c := by
      intro e1 e2
      unfold absC
      rw [e1, same_data _ _ _ e2]
    cases hp : c.t.pc i with
    | fence v b =>
      left
      refine same ?_ (by simp only [tdata, hp])
      rw [tstep.eq_def, hp]
      dsimp only
      split
      · rfl
      · rename_i hbuf
        have hbuf : c.t.buf i = [] := Classical.not_not.1 hbuf
        rw [abs_goto, hbuf]
        refine goto_self _ _ _ ?_
        rw [abs_pc, hp, hbuf]; rfl
    | «at» p =>
      cases p with
      | pushW v b =>
        left
        refine same ?_ (by simp only [tdata, hp])
        rcases (step_sim cap c.t hb i .pop).2 with e | e
        · exact e
        · exfalso
          have e' := congrFun (congrArg St.pc e.1) i
          have hbuf : c.t.buf i = [] := plain_buf cap _ (.pushW v b) trivial (hp ▸ hb i)
          have hpc : (abs c.t).pc i = .pushW v b := by rw [abs_pc, hp]; rfl
          rw [step.eq_def, hpc, tstep.eq_def, hp, hbuf] at e'
          simp [abs, TSt.goto, TSt.setBuf, St.goto, absPc] at e'
      | pushB v b =>
        left
        refine same ?_ (by simp only [tdata, hp])
        rcases (step_sim cap c.t hb i .pop).2 with e | e
        · exact e
        · exfalso
          have e' := congrFun (congrArg St.pc e.1) i
          have hbuf : c.t.buf i = [] := plain_buf cap _ (.pushB v b) trivial (hp ▸ hb i)
          have hpc : (abs c.t).pc i = .pushB v b := by rw [abs_pc, hp]; rfl
          rw [step.eq_def, hpc, tstep.eq_def, hp, hbuf] at e'
          simp [abs, TSt.goto, TSt.setBuf, St.goto, absPc] at e'
      | pushU =>
        left
        refine same ?_ (by simp only [tdata, hp])
        rw [tstep.eq_def, hp] at hn ⊢
        dsimp only at hn ⊢
        split
        · rfl
        · rename_i hbuf
          rw [if_neg hbuf] at hn
          exact absurd (by simp [TSt.goto]) hn
      | idle => exact absurd hp hi
      | popB t gt => exact .inr (key _ hp trivial)
      | popE t gt => exact .inr (key _ hp trivial)
      | popC t gt v => exact .inr (key _ hp trivial)
      | pushSpin v => exact .inr (key _ hp trivial)
      | pushCas v => exact .inr (key _ hp trivial)
      | pushRB v => exact .inr (key _ hp trivial)
      | pushRT v b => exact .inr (key _ hp trivial)
  | @last i hi hw hn =>
    refine ⟨(step_sim cap c.t hb i .pop).1, .inr ?_⟩
    have fin : ∀ p, (absC c).s.pc i = p → c.t.pc i = .at p → abs (tstep cap c.t i .pop) = step cap (abs c.t) i .pop → CStep C cap true (absC c)
        (absC { c with g := C.ret c.g i (tresult c i), t := tstep cap c.t i .pop }) := by
      intro p hpc hp e
      have hd : result (absC c) i = tresult c i := by
        unfold result tresult
        rw [hpc, hp]
        cases p <;> rfl
      have h1 : (absC c).s.pc i ≠ .idle := fun hh => hi ((absPc_idle _ _).1 hh)
      have h2 : (step cap (absC c).s i .pop).pc i = .idle := by
        show (step cap (abs c.t) i .pop).pc i = .idle
        rw [← e, abs_pc]
        exact (absPc_idle _ _).2 hn
      have := CStep.last (C := C) (cap := cap) (win := true) (c := absC c) (i := i) h1 (fun _ => win_abs c.t i hw) h2
      rw [hd] at this
      unfold absC at this ⊢
      rw [e]; exact this
    cases hp : c.t.pc i with
    | fence v b =>
      exfalso
      rw [tstep.eq_def, hp] at hn
      dsimp only at hn
      split at hn
      · exact hi hn
      · simp [TSt.goto] at hn
    | «at» p =>
      have go : Sync p → CStep C cap true (absC c) (absC { c with g := C.ret c.g i (tresult c i), t := tstep cap c.t i .pop }) :=
        fun hs => fin p (by show absPc _ _ = _; rw [hp]; exact plain_abs _ p (sync_plain hs)) hp (sync_step cap c.t hb i .pop p hp hs).1
      cases p with
      | pushW v b => rw [tstep.eq_def, hp] at hn; simp [TSt.goto] at hn
      | pushB v b => rw [tstep.eq_def, hp] at hn; simp [TSt.goto] at hn
      | pushU =>
        have hbuf : c.t.buf i = [] := by
          apply Classical.byContradiction
          intro hbuf
          rw [tstep.eq_def, hp] at hn
          dsimp only at hn
          rw [if_pos hbuf, hp] at hn
          cases hn
        refine fin .pushU (by show absPc _ _ = _; rw [hp, hbuf]; rfl) hp ?_
        rcases (step_sim cap c.t hb i .pop).2 with e | e
        · exfalso
          have e' := congrFun (congrArg St.pc e) i
          rw [abs_pc, abs_pc, hn, hp, hbuf] at e'
          simp [absPc] at e'
        · exact e.1
      | idle => exact absurd hp hi
      | popB t gt => exact go trivial
      | popE t gt => exact go trivial
      | popC t gt v => exact go trivial
      | pushSpin v => exact go trivial
      | pushCas v => exact go trivial
      | pushRB v => exact go trivial
      | pushRT v b => exact go trivial
  | @flush i n =>
    obtain ⟨h1, h2⟩ := flush_sim cap c.t hb i n
    refine ⟨h1, ?_⟩
    rcases h2 with e | ⟨e, h3⟩
    · left; unfold absC; rw [e]
    · right
      have hx : (absC c).s.pc i ≠ .idle ∧ (step cap (absC c).s i .pop).pc i ≠ .idle ∧ dataNext cap (absC c) i = c.data i
          ∧ Queue.Conc.WindowAt (absC c).s i := by
        rcases h3 with ⟨v, b, h3⟩ | ⟨v, b, h3⟩
        · have h3' : (absC c).s.pc i = _ := h3
          refine ⟨(by rw [h3']; exact fun h => (by cases h)), ?_, ?_, ?_⟩
          · rw [step.eq_def, h3']; simp [St.goto]
          · simp only [dataNext, h3']; rfl
          · intro t gt v e; rw [h3'] at e; cases e
        · have h3' : (absC c).s.pc i = _ := h3
          refine ⟨(by rw [h3']; exact fun h => (by cases h)), ?_, ?_, ?_⟩
          · rw [step.eq_def, h3']; simp [St.goto]
          · simp only [dataNext, h3']; rfl
          · intro t gt v e; rw [h3'] at e; cases e
      have := CStep.instr (C := C) (cap := cap) (win := true) (c := absC c) (i := i) hx.1 (fun _ => hx.2.2.2) hx.2.1
      rw [same_data (absC c).data i _ hx.2.2.1] at this
      unfold absC at this ⊢
      rw [e]; exact this

theorem tc_reach {γ : Type} (C : Client γ) (cap : Nat) (g0 : γ) (c : TC γ) (h : TCReach C cap g0 c) :
    (∀ j, BufOk cap (c.t.buf j) (c.t.pc j)) ∧ CReach C cap true g0 (absC c) := by
  induction h with
  | init => exact ⟨fun _ => rfl, .init⟩
  | step _ hst ih =>
    obtain ⟨h1, h2⟩ := tc_step C cap _ _ ih.1 hst
    refine ⟨h1, ?_⟩
    rcases h2 with h2 | h2
    · rw [h2]; exact ih.2
    · exact .step ih.2 h2

/-- **C84** (partial) Also where stores are delayed and written back in any order: whatever state any program can reach with the queue of
queue.c, it can reach with an atomic bounded FIFO queue that holds the same elements.  Missing: as for `C84_linearizable_partial`, and loads
out of order (C83). -/
theorem C84_delayed_stores_partial {γ : Type} (C : Client γ) (k : Nat) (hk : k ≤ 15) (g0 : γ) (c : TC γ) (h : TCReach C (2 ^ k) g0 c) :
    ∃ a : ASt γ, AReach C (2 ^ k) true g0 a ∧ a.g = c.g ∧ c.t.pushed = c.t.popped ++ a.q ∧ a.q.length ≤ 2 ^ k :=
  C84_linearizable_partial C k hk g0 (absC c) (tc_reach C _ g0 c h).2

/-- A program in the middle of a push whose stores are delayed. -/
example : ∃ c : TC ((Nat → Option Cmd) × List (Nat × Nat)), TCReach demo (2 ^ 2) (fun _ => some (.push 7), []) c ∧ c.t.buf 0 = [.ent 0 7] ∧ c.t.entries 0 = 0 :=
  ⟨_, .step (.step (.step (.step (.step (.step .init (.call (i := 0) (x := .push 7) (by decide) rfl))
    (.instr (i := 0) (by decide) (fun _ _ _ e => by cases e) (by decide))) (.instr (i := 0) (by decide) (fun _ _ _ e => by cases e) (by decide)))
    (.instr (i := 0) (by decide) (fun _ _ _ e => by cases e) (by decide))) (.instr (i := 0) (by decide) (fun _ _ _ e => by cases e) (by decide)))
    (.instr (i := 0) (by decide) (fun _ _ _ e => by cases e) (by decide)), by decide, by decide⟩

end Arax.Tso.QueueC
