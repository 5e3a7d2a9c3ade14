import Verif.Queue.Lin
/-!
# C84: proof
-/
namespace Arax.Queue.Lin
open Conc

/-- What the atomic queue knows of a thread at `p` with local variable `d`. -/
def ThOk (p : Pc) (d : Nat) (t : ATh) : Prop :=
  match p with
  | .idle => t = .out
  | .popB _ gt => t = .called .pop gt
  | .popE _ gt => t = .called .pop gt
  | .popC _ gt _ => t = .called .pop gt
  | .pushSpin v => d = v ∧ ∃ n, t = .called (.push v) n
  | .pushCas v => d = v ∧ ∃ n, t = .called (.push v) n
  | .pushRB v => d = v ∧ ∃ n, t = .called (.push v) n
  | .pushRT v _ => d = v ∧ ∃ n, t = .called (.push v) n
  | .pushW v _ => d = v ∧ ∃ n, t = .called (.push v) n
  | .pushB v _ => d = v ∧ ∃ n, t = .called (.push v) n
  | .pushU => t = .done d

/-- The queue of queue.c and the atomic queue at the same point of the program. -/
structure Sim {γ : Type} (cap : Nat) (c : CSt γ) (a : ASt γ) : Prop where
  inv : Inv cap c.s
  g : a.g = c.g
  pops : a.pops = c.s.popped.length
  q : c.s.pushed = c.s.popped ++ a.q
  th : ∀ i, ThOk (c.s.pc i) (c.data i) (a.th i)

theorem sim_init {γ : Type} (cap : Nat) (g0 : γ) : Sim cap (cinit g0) (ainit g0) where
  inv := inv_init cap
  g := rfl
  pops := rfl
  q := rfl
  th _ := rfl

/-- The threads other than `i` are untouched. -/
theorem th_goto {f : Nat → Pc} {d d' : Nat → Nat} {t : Nat → ATh} (i : Nat) (p : Pc) (x : ATh)
    (h : ∀ j, ThOk (f j) (d j) (t j)) (hd : ∀ j, j ≠ i → d' j = d j) (hx : ThOk p (d' i) x) :
    ∀ j, ThOk (if j = i then p else f j) (d' j) (if j = i then x else t j) := by
  intro j
  by_cases hj : j = i
  · subst hj; simpa using hx
  · simp only [if_neg hj, hd j hj]; exact h j

theorem qlen {γ : Type} {cap : Nat} {c : CSt γ} {a : ASt γ} (h : Sim cap c a) :
    c.s.pushed.length = c.s.popped.length + a.q.length := by rw [h.q, List.length_append]

/-- No pop has succeeded since a pop that is under way was called. -/
def NoneMeanwhile (s : St) : Prop :=
  ∀ i t, (∀ gt, s.pc i = .popB t gt → gt = s.popped.length) ∧ (∀ gt, s.pc i = .popE t gt → gt = s.popped.length) ∧
    (∀ gt v, s.pc i = .popC t gt v → gt = s.popped.length)

section
variable {γ : Type} (C : Client γ) (k : Nat) (hk : k ≤ 15) (sp : Bool) (P : ASt γ → Prop) (hP : ∀ a b, P a → AStep C (2 ^ k) sp a b → P b)
include hk hP

/-- One instruction of the queue that is not the last of its call. -/
theorem sim_instr (c : CSt γ) (a : ASt γ) (hs : Sim (2 ^ k) c a) (ha : P a) (i : Nat) (hi : c.s.pc i ≠ .idle)
    (hw : WindowAt c.s i) (hn : (Conc.step (2 ^ k) c.s i .pop).pc i ≠ .idle) :
    ∃ a', P a' ∧
      Sim (2 ^ k) { c with s := Conc.step (2 ^ k) c.s i .pop, data := fun j => if j = i then dataNext (2 ^ k) c i else c.data j } a' := by
  have hinv := step_inv k hk c.s i .pop hs.inv hw
  have hth := hs.th i
  have hc := pow_le k hk
  cases hp : c.s.pc i with
  | idle => exact absurd hp hi
  | popB t gt =>
    rw [hp] at hth
    have e : Conc.step (2 ^ k) c.s i .pop = c.s.goto i (.popE t gt) := by
      rw [Conc.step.eq_def, hp] at hn ⊢
      by_cases hb : c.s.bottom = t
      · exact absurd (by simp [hb, St.goto]) hn
      · simp only [if_neg hb]
    rw [e] at hinv ⊢
    refine ⟨a, ha, hinv, hs.g, hs.pops, hs.q, fun j => ?_⟩
    have hd : (fun j => if j = i then dataNext (2 ^ k) c i else c.data j) = c.data := by
      funext j; split
      · rename_i e; subst e; simp only [dataNext, hp]
      · rfl
    show ThOk _ ((fun j => if j = i then dataNext (2 ^ k) c i else c.data j) j) _
    rw [hd]
    by_cases hj : j = i
    · subst hj; simp only [St.goto, if_pos]; exact hth
    · simp only [St.goto, if_neg hj]; exact hs.th j
  | popE t gt =>
    rw [hp] at hth
    have e : Conc.step (2 ^ k) c.s i .pop = c.s.goto i (.popC t gt (c.s.entries (t &&& (2 ^ k - 1)))) := by
      rw [Conc.step.eq_def, hp]
    rw [e] at hinv ⊢
    refine ⟨a, ha, hinv, hs.g, hs.pops, hs.q, fun j => ?_⟩
    have hd : (fun j => if j = i then dataNext (2 ^ k) c i else c.data j) = c.data := by
      funext j; split
      · rename_i e; subst e; simp only [dataNext, hp]
      · rfl
    show ThOk _ ((fun j => if j = i then dataNext (2 ^ k) c i else c.data j) j) _
    rw [hd]
    by_cases hj : j = i
    · subst hj; simp only [St.goto, if_pos]; exact hth
    · simp only [St.goto, if_neg hj]; exact hs.th j
  | popC t gt v =>
    refine absurd ?_ hn
    rw [Conc.step.eq_def, hp]
    dsimp only
    split <;> simp [St.goto]
  | pushSpin v =>
    rw [hp] at hth
    have hd : (fun j => if j = i then dataNext (2 ^ k) c i else c.data j) = c.data := by
      funext j; split
      · rename_i e; subst e; simp only [dataNext, hp]
      · rfl
    rw [hd]
    by_cases hl : c.s.lock ≠ 0
    · have e : Conc.step (2 ^ k) c.s i .pop = c.s := by rw [Conc.step.eq_def, hp]; exact if_pos hl
      rw [e]; exact ⟨a, ha, hs.inv, hs.g, hs.pops, hs.q, hs.th⟩
    · have e : Conc.step (2 ^ k) c.s i .pop = c.s.goto i (.pushCas v) := by rw [Conc.step.eq_def, hp]; exact if_neg hl
      rw [e] at hinv ⊢
      refine ⟨a, ha, hinv, hs.g, hs.pops, hs.q, fun j => ?_⟩
      by_cases hj : j = i
      · subst hj; simp only [St.goto, if_pos]; exact hth
      · simp only [St.goto, if_neg hj]; exact hs.th j
  | pushCas v =>
    rw [hp] at hth
    have hd : (fun j => if j = i then dataNext (2 ^ k) c i else c.data j) = c.data := by
      funext j; split
      · rename_i e; subst e; simp only [dataNext, hp]
      · rfl
    rw [hd]
    by_cases hl : c.s.lock = 0
    · have e : Conc.step (2 ^ k) c.s i .pop = { c.s with lock := 1 }.goto i (.pushRB v) := by rw [Conc.step.eq_def, hp]; exact if_pos hl
      rw [e] at hinv ⊢
      refine ⟨a, ha, hinv, hs.g, hs.pops, hs.q, fun j => ?_⟩
      by_cases hj : j = i
      · subst hj; simp only [St.goto, if_pos]; exact hth
      · simp only [St.goto, if_neg hj]; exact hs.th j
    · have e : Conc.step (2 ^ k) c.s i .pop = c.s.goto i (.pushSpin v) := by rw [Conc.step.eq_def, hp]; exact if_neg hl
      rw [e] at hinv ⊢
      refine ⟨a, ha, hinv, hs.g, hs.pops, hs.q, fun j => ?_⟩
      by_cases hj : j = i
      · subst hj; simp only [St.goto, if_pos]; exact hth
      · simp only [St.goto, if_neg hj]; exact hs.th j
  | pushRB v =>
    rw [hp] at hth
    have hd : (fun j => if j = i then dataNext (2 ^ k) c i else c.data j) = c.data := by
      funext j; split
      · rename_i e; subst e; simp only [dataNext, hp]
      · rfl
    rw [hd]
    have e : Conc.step (2 ^ k) c.s i .pop = c.s.goto i (.pushRT v c.s.bottom) := by rw [Conc.step.eq_def, hp]
    rw [e] at hinv ⊢
    refine ⟨a, ha, hinv, hs.g, hs.pops, hs.q, fun j => ?_⟩
    by_cases hj : j = i
    · subst hj; simp only [St.goto, if_pos]; exact hth
    · simp only [St.goto, if_neg hj]; exact hs.th j
  | pushRT v b =>
    rw [hp] at hth
    obtain ⟨hdv, n, hn'⟩ := hth
    have hok := hs.inv.ok i
    rw [hp] at hok
    have hb : b = c.s.bottom := hok
    have hdiff : diff16 b c.s.top = a.q.length := by
      have h1 := hs.inv.top
      have h2 := hs.inv.bot
      have h3 := qlen hs
      have h4 := hs.inv.room
      have e : b = (c.s.top + a.q.length) % 65536 := by rw [hb, h2, h1, h3]; omega
      rw [e, diff16_eq _ _ (by omega) (by omega)]
    by_cases hf : diff16 b c.s.top = 2 ^ k
    · have e : Conc.step (2 ^ k) c.s i .pop = c.s.goto i .pushU := by rw [Conc.step.eq_def, hp]; exact if_pos hf
      rw [e] at hinv ⊢
      refine ⟨_, hP _ _ ha (.full hn' (by rw [← hdiff, hf])), hinv, hs.g, hs.pops, hs.q, fun j => ?_⟩
      by_cases hj : j = i
      · subst hj
        simp only [St.goto, ASt.goto, if_pos, dataNext, hp, if_pos hf]; rfl
      · simp only [St.goto, ASt.goto, if_neg hj]; exact hs.th j
    · have e : Conc.step (2 ^ k) c.s i .pop = c.s.goto i (.pushW v b) := by rw [Conc.step.eq_def, hp]; exact if_neg hf
      rw [e] at hinv ⊢
      refine ⟨a, ha, hinv, hs.g, hs.pops, hs.q, fun j => ?_⟩
      by_cases hj : j = i
      · subst hj
        simp only [St.goto, if_pos, dataNext, hp, if_neg hf]; exact ⟨hdv, n, hn'⟩
      · simp only [St.goto, if_neg hj]; exact hs.th j
  | pushW v b =>
    rw [hp] at hth
    have hd : (fun j => if j = i then dataNext (2 ^ k) c i else c.data j) = c.data := by
      funext j; split
      · rename_i e; subst e; simp only [dataNext, hp]
      · rfl
    rw [hd]
    have e : Conc.step (2 ^ k) c.s i .pop = { c.s with entries := fun j => if j = b &&& (2 ^ k - 1) then v else c.s.entries j }.goto i (.pushB v b) := by
      rw [Conc.step.eq_def, hp]
    rw [e] at hinv ⊢
    refine ⟨a, ha, hinv, hs.g, hs.pops, hs.q, fun j => ?_⟩
    by_cases hj : j = i
    · subst hj; simp only [St.goto, if_pos]; exact hth
    · simp only [St.goto, if_neg hj]; exact hs.th j
  | pushB v b =>
    rw [hp] at hth
    obtain ⟨hdv, n, hn'⟩ := hth
    have hd : (fun j => if j = i then dataNext (2 ^ k) c i else c.data j) = c.data := by
      funext j; split
      · rename_i e; subst e; simp only [dataNext, hp]
      · rfl
    rw [hd]
    have hok := hs.inv.ok i
    rw [hp] at hok
    have hroom : a.q.length < 2 ^ k := by
      have h1 : c.s.pushed.length < c.s.popped.length + 2 ^ k := hok.2.1
      have h2 := qlen hs
      omega
    have e : Conc.step (2 ^ k) c.s i .pop = { c.s with bottom := (b + 1) % 65536, pushed := c.s.pushed ++ [v] }.goto i .pushU := by
      rw [Conc.step.eq_def, hp]
    rw [e] at hinv ⊢
    refine ⟨_, hP _ _ ha (.push hn' hroom), hinv, hs.g, hs.pops, ?_, fun j => ?_⟩
    · show c.s.pushed ++ [v] = c.s.popped ++ (a.q ++ [v])
      rw [hs.q, List.append_assoc]
    · by_cases hj : j = i
      · subst hj; simp only [St.goto, ASt.goto, if_pos]; rw [hdv]; rfl
      · simp only [St.goto, ASt.goto, if_neg hj]; exact hs.th j
  | pushU =>
    refine absurd ?_ hn
    rw [Conc.step.eq_def, hp]; simp [St.goto]

/-- The last instruction of a call. -/
theorem sim_last (c : CSt γ) (a : ASt γ) (hsp : sp = true ∨ NoneMeanwhile c.s) (hs : Sim (2 ^ k) c a) (ha : P a) (i : Nat) (hi : c.s.pc i ≠ .idle)
    (hw : WindowAt c.s i) (hn : (Conc.step (2 ^ k) c.s i .pop).pc i = .idle) :
    ∃ a', P a' ∧ Sim (2 ^ k) { c with g := C.ret c.g i (result c i), s := Conc.step (2 ^ k) c.s i .pop } a' := by
  have hinv := step_inv k hk c.s i .pop hs.inv hw
  have hth := hs.th i
  have hc := pow_le k hk
  cases hp : c.s.pc i with
  | idle => exact absurd hp hi
  | popB t gt =>
    rw [hp] at hth
    have hth' : a.th i = .called .pop gt := hth
    have hok := hs.inv.ok i
    rw [hp] at hok
    have hok' : t = gt % 65536 ∧ gt ≤ c.s.popped.length := hok
    have hb : c.s.bottom = t := by
      rw [Conc.step.eq_def, hp] at hn
      by_cases hb : c.s.bottom = t
      · exact hb
      · simp [hb, St.goto] at hn
    have e : Conc.step (2 ^ k) c.s i .pop = c.s.goto i .idle := by rw [Conc.step.eq_def, hp]; exact if_pos hb
    have hr : result c i = 0 := by simp only [result, hp]
    rw [e] at hinv ⊢
    rw [hr]
    have h3 := qlen hs
    have h2 := hs.inv.bot
    have h4 := hs.inv.room
    -- the atomic queue is empty, or it has been popped meanwhile
    have hlin : AStep C (2 ^ k) sp a (a.goto i (.done 0)) := by
      by_cases hq : a.q = []
      · exact .empty hth' hq
      · have hne : a.q.length ≠ 0 := fun h => hq (List.eq_nil_of_length_eq_zero h)
        have hlt : gt < c.s.popped.length := by
          rw [h2, hok'.1, h3] at hb
          omega
        rcases hsp with hsp | hsp
        · exact .spurious hsp hth' (by rw [hs.pops]; exact hlt)
        · have := (hsp i t).1 gt hp; omega
    refine ⟨_, hP _ _ (hP _ _ ha hlin) (.ret (i := i) (r := 0) (by simp [ASt.goto])), hinv, ?_, hs.pops, hs.q, fun j => ?_⟩
    · show C.ret a.g i 0 = _; rw [hs.g]
    · by_cases hj : j = i
      · subst hj; simp only [St.goto, ASt.goto, if_pos]; rfl
      · simp only [St.goto, ASt.goto, if_neg hj]; exact hs.th j
  | popE t gt =>
    rw [Conc.step.eq_def, hp] at hn; simp [St.goto] at hn
  | popC t gt v =>
    rw [hp] at hth
    have hth' : a.th i = .called .pop gt := hth
    have hok := hs.inv.ok i
    rw [hp] at hok
    have hok' : t = gt % 65536 ∧ gt ≤ c.s.popped.length ∧ (c.s.popped.length = gt → c.s.pushed[gt]? = some v) := hok
    have h1 := hs.inv.top
    by_cases ht : c.s.top = t
    · have hwin := hw t gt v hp
      have hT : c.s.popped.length = gt := by rw [h1, hok'.1] at ht; omega
      have hv := hok'.2.2 hT
      have e : Conc.step (2 ^ k) c.s i .pop = { c.s with top := (t + 1) % 65536, popped := c.s.popped ++ [v] }.goto i .idle := by
        rw [Conc.step.eq_def, hp]; exact if_pos ht
      have hr : result c i = v := by simp only [result, hp]; exact if_pos ht
      rw [e] at hinv ⊢
      rw [hr]
      obtain ⟨q, hq⟩ : ∃ q, a.q = v :: q := by
        rw [hs.q, ← hT, List.getElem?_append_right (Nat.le_refl _), Nat.sub_self] at hv
        cases haq : a.q with
        | nil => rw [haq] at hv; simp at hv
        | cons x q => rw [haq] at hv; simp at hv; exact ⟨q, by rw [hv]⟩
      refine ⟨_, hP _ _ (hP _ _ ha (.pop hth' hq)) (.ret (i := i) (r := v) (by simp [ASt.goto])), hinv, ?_, ?_, ?_, fun j => ?_⟩
      · show C.ret a.g i v = _; rw [hs.g]
      · show a.pops + 1 = (c.s.popped ++ [v]).length
        rw [hs.pops]; simp
      · show c.s.pushed = (c.s.popped ++ [v]) ++ q
        rw [hs.q, hq]; simp
      · by_cases hj : j = i
        · subst hj; simp only [St.goto, ASt.goto, if_pos]; rfl
        · simp only [St.goto, ASt.goto, if_neg hj]; exact hs.th j
    · have e : Conc.step (2 ^ k) c.s i .pop = c.s.goto i .idle := by rw [Conc.step.eq_def, hp]; exact if_neg ht
      have hr : result c i = 0 := by simp only [result, hp]; exact if_neg ht
      rw [e] at hinv ⊢
      rw [hr]
      have hlt : gt < a.pops := by
        rw [hs.pops]
        rcases Nat.lt_or_eq_of_le hok'.2.1 with h | h
        · exact h
        · exact absurd (by rw [h1, hok'.1, h]) ht
      have hsp' : sp = true := by
        rcases hsp with hsp | hsp
        · exact hsp
        · have := (hsp i t).2.2 gt v hp
          rw [hs.pops] at hlt; omega
      refine ⟨_, hP _ _ (hP _ _ ha (.spurious hsp' hth' hlt)) (.ret (i := i) (r := 0) (by simp [ASt.goto])), hinv, ?_, hs.pops, hs.q, fun j => ?_⟩
      · show C.ret a.g i 0 = _; rw [hs.g]
      · by_cases hj : j = i
        · subst hj; simp only [St.goto, ASt.goto, if_pos]; rfl
        · simp only [St.goto, ASt.goto, if_neg hj]; exact hs.th j
  | pushSpin v =>
    rw [Conc.step.eq_def, hp] at hn; dsimp only at hn
    split at hn
    · exact absurd hn hi
    · simp [St.goto] at hn
  | pushCas v =>
    rw [Conc.step.eq_def, hp] at hn; dsimp only at hn
    split at hn <;> simp [St.goto] at hn
  | pushRB v =>
    rw [Conc.step.eq_def, hp] at hn; simp [St.goto] at hn
  | pushRT v b =>
    rw [Conc.step.eq_def, hp] at hn; dsimp only at hn
    split at hn <;> simp [St.goto] at hn
  | pushW v b =>
    rw [Conc.step.eq_def, hp] at hn; simp [St.goto] at hn
  | pushB v b =>
    rw [Conc.step.eq_def, hp] at hn; simp [St.goto] at hn
  | pushU =>
    rw [hp] at hth
    have hth' : a.th i = .done (c.data i) := hth
    have e : Conc.step (2 ^ k) c.s i .pop = { c.s with lock := 0 }.goto i .idle := by rw [Conc.step.eq_def, hp]
    have hr : result c i = c.data i := by simp only [result, hp]
    rw [e] at hinv ⊢
    rw [hr]
    refine ⟨_, hP _ _ ha (.ret hth'), hinv, ?_, hs.pops, hs.q, fun j => ?_⟩
    · show C.ret a.g i _ = _; rw [hs.g]
    · by_cases hj : j = i
      · subst hj; simp only [St.goto, ASt.goto, if_pos]; rfl
      · simp only [St.goto, ASt.goto, if_neg hj]; exact hs.th j

theorem sim_step (c c' : CSt γ) (a : ASt γ) (win : Bool) (hwin : win = true ∨ NoneMeanwhile c.s) (hsp : sp = true ∨ NoneMeanwhile c.s)
    (hs : Sim (2 ^ k) c a) (ha : P a) (h : CStep C (2 ^ k) win c c') :
    ∃ a', P a' ∧ Sim (2 ^ k) c' a' := by
  have hW : ∀ i, (win = true → WindowAt c.s i) → WindowAt c.s i := by
    intro i hw t gt v e
    rcases hwin with h | h
    · exact hw h t gt v e
    · have := (h i t).2.2 gt v e; omega
  cases h with
  | own ho => exact ⟨_, hP _ _ ha (.own (hs.g ▸ ho)), hs.inv, rfl, hs.pops, hs.q, hs.th⟩
  | @call i x hi hx =>
    have hth : a.th i = .out := by have := hs.th i; rw [hi] at this; exact this
    have hinv := step_inv k hk c.s i x hs.inv (fun t gt v e => by rw [hi] at e; cases e)
    refine ⟨_, hP _ _ ha (.call hth (hs.g ▸ hx)), hinv, ?_, ?_, ?_, fun j => ?_⟩
    · show C.call a.g i x = _; rw [hs.g]
    · show a.pops = _; rw [hs.pops, Conc.step.eq_def, hi]; cases x <;> rfl
    · show (Conc.step (2 ^ k) c.s i x).pushed = (Conc.step (2 ^ k) c.s i x).popped ++ a.q
      rw [Conc.step.eq_def, hi]; cases x <;> exact hs.q
    · show ThOk ((Conc.step (2 ^ k) c.s i x).pc j) (if j = i then arg x else c.data j) _
      rw [Conc.step.eq_def, hi]
      by_cases hj : j = i
      · subst hj
        cases x with
        | pop => simp only [St.goto, ASt.goto, if_pos]; show _ = _; rw [hs.pops]
        | push v => simp only [St.goto, ASt.goto, if_pos]; exact ⟨rfl, _, rfl⟩
      · cases x <;> simp only [St.goto, ASt.goto, if_neg hj] <;> exact hs.th j
  | instr hi hw hn => exact sim_instr C k hk sp P hP c a hs ha _ hi (hW _ hw) hn
  | last hi hw hn => exact sim_last C k hk sp P hP c a hsp hs ha _ hi (hW _ hw) hn
end

theorem sim_reach {γ : Type} (C : Client γ) (k : Nat) (hk : k ≤ 15) (g0 : γ) (c : CSt γ) (h : CReach C (2 ^ k) true g0 c) :
    ∃ a, AReach C (2 ^ k) true g0 a ∧ Sim (2 ^ k) c a := by
  induction h with
  | init => exact ⟨_, .init, sim_init _ g0⟩
  | step _ hst ih =>
    obtain ⟨a, ha, hs⟩ := ih
    exact sim_step C k hk true (AReach C (2 ^ k) true g0) (fun _ _ => .step) _ _ a true (.inl rfl) (.inl rfl) hs ha hst

/-- **C84** (partial) Whatever state any program can reach with the queue of queue.c, at the level of single memory accesses, it can also reach with
an atomic bounded FIFO queue that holds the same elements.  (The program's state may contain the whole history of its calls and results.)
Missing: executions in which a pop is overtaken by 65536 others between its first and last instruction (C08). -/
theorem C84_linearizable_partial {γ : Type} (C : Client γ) (k : Nat) (hk : k ≤ 15) (g0 : γ) (c : CSt γ) (h : CReach C (2 ^ k) true g0 c) :
    ∃ a : ASt γ, AReach C (2 ^ k) true g0 a ∧ a.g = c.g ∧ c.s.pushed = c.s.popped ++ a.q ∧ a.q.length ≤ 2 ^ k := by
  obtain ⟨a, ha, hs⟩ := sim_reach C k hk g0 c h
  refine ⟨a, ha, hs.g, hs.q, ?_⟩
  have := qlen hs
  have := hs.inv.room
  omega

/-! ## One popper at a time -/

theorem none_goto (s : St) (i : Nat) (p : Pc) (h : NoneMeanwhile s)
    (hp : ∀ t, (∀ gt, p = .popB t gt → gt = s.popped.length) ∧ (∀ gt, p = .popE t gt → gt = s.popped.length) ∧
      (∀ gt v, p = .popC t gt v → gt = s.popped.length)) : NoneMeanwhile (s.goto i p) := by
  intro j t
  by_cases hj : j = i
  · subst hj; simp only [St.goto, if_pos]; exact hp t
  · simp only [St.goto, if_neg hj]; exact h j t

theorem none_step (cap : Nat) (s : St) (i : Nat) (cmd : Cmd) (h : NoneMeanwhile s)
    (h1 : ∀ i j, inPop (s.pc i) = true → inPop (s.pc j) = true → i = j) : NoneMeanwhile (Conc.step cap s i cmd) := by
  have triv : ∀ (x : St) (p : Pc), x.pc = s.pc → x.popped = s.popped → inPop p = false → NoneMeanwhile (x.goto i p) := by
    intro x p e1 e2 hp
    refine none_goto x i p (fun j t => by rw [e1, e2]; exact h j t) (fun t => ⟨?_, ?_, ?_⟩)
    · intro gt e; rw [e] at hp; cases hp
    · intro gt e; rw [e] at hp; cases hp
    · intro gt v e; rw [e] at hp; cases hp
  rw [Conc.step.eq_def]
  cases hp : s.pc i with
  | idle =>
    cases cmd with
    | pop =>
      refine none_goto s i _ h (fun t => ⟨?_, ?_, ?_⟩)
      · intro gt e; cases e; rfl
      · intro gt e; cases e
      · intro gt v e; cases e
    | push v => exact triv s _ rfl rfl rfl
  | popB t gt =>
    dsimp only
    split
    · exact triv s _ rfl rfl rfl
    · refine none_goto s i _ h (fun t' => ⟨?_, ?_, ?_⟩)
      · intro gt e; cases e
      · intro gt' e; cases e; exact (h i t).1 gt hp
      · intro gt v e; cases e
  | popE t gt =>
    refine none_goto s i _ h (fun t' => ⟨?_, ?_, ?_⟩)
    · intro gt e; cases e
    · intro gt e; cases e
    · intro gt' v e; cases e; exact (h i t).2.1 gt hp
  | popC t gt v =>
    dsimp only
    split
    · intro j t'
      by_cases hj : j = i
      · subst hj; simp only [St.goto, if_pos]
        exact ⟨fun _ e => (by cases e), fun _ e => (by cases e), fun _ _ e => by cases e⟩
      · simp only [St.goto, if_neg hj]
        have hii : inPop (s.pc i) = true := by rw [hp]; rfl
        refine ⟨?_, ?_, ?_⟩
        · intro gt e; exact absurd (h1 j i (by rw [e]; rfl) hii) hj
        · intro gt e; exact absurd (h1 j i (by rw [e]; rfl) hii) hj
        · intro gt v e; exact absurd (h1 j i (by rw [e]; rfl) hii) hj
    · exact triv s _ rfl rfl rfl
  | pushSpin v =>
    dsimp only
    split
    · exact h
    · exact triv s _ rfl rfl rfl
  | pushCas v =>
    dsimp only
    split
    · exact triv { s with lock := 1 } _ rfl rfl rfl
    · exact triv s _ rfl rfl rfl
  | pushRB v => exact triv s _ rfl rfl rfl
  | pushRT v b =>
    dsimp only
    split
    · exact triv s _ rfl rfl rfl
    · exact triv s _ rfl rfl rfl
  | pushW v b => exact triv { s with entries := fun j => if j = b &&& (cap - 1) then v else s.entries j } _ rfl rfl rfl
  | pushB v b => exact triv { s with bottom := (b + 1) % 65536, pushed := s.pushed ++ [v] } _ rfl rfl rfl
  | pushU => exact triv { s with lock := 0 } _ rfl rfl rfl

theorem one_reach {γ : Type} (C : Client γ) (k : Nat) (hk : k ≤ 15) (g0 : γ) (h1 : OnePopper C (2 ^ k) g0) (c : CSt γ)
    (h : CReach C (2 ^ k) false g0 c) : NoneMeanwhile c.s ∧ ∃ a, AReach C (2 ^ k) false g0 a ∧ Sim (2 ^ k) c a := by
  induction h with
  | init => exact ⟨fun i t => ⟨fun _ e => (by cases e), fun _ e => (by cases e), fun _ _ e => by cases e⟩, _, .init, sim_init _ g0⟩
  | @step c c' hr hst ih =>
    obtain ⟨hn, a, ha, hs⟩ := ih
    refine ⟨?_, sim_step C k hk false (AReach C (2 ^ k) false g0) (fun _ _ => .step) _ _ a false (.inr hn) (.inr hn) hs ha hst⟩
    cases hst with
    | own _ => exact hn
    | call _ _ => exact none_step _ _ _ _ hn (h1 c hr)
    | instr _ _ _ => exact none_step _ _ _ _ hn (h1 c hr)
    | last _ _ _ => exact none_step _ _ _ _ hn (h1 c hr)

/-- **C84** If no two threads pop at the same time, then whatever state any program can reach with the queue of queue.c it can also reach with
an atomic bounded FIFO queue where a pop returns NULL only if the queue is empty at an instant of the call. No bound on the
number of operations. -/
theorem C84_one_popper {γ : Type} (C : Client γ) (k : Nat) (hk : k ≤ 15) (g0 : γ) (h1 : OnePopper C (2 ^ k) g0) (c : CSt γ)
    (h : CReach C (2 ^ k) false g0 c) :
    ∃ a : ASt γ, AReach C (2 ^ k) false g0 a ∧ a.g = c.g ∧ c.s.pushed = c.s.popped ++ a.q ∧ a.q.length ≤ 2 ^ k := by
  obtain ⟨_, a, ha, hs⟩ := one_reach C k hk g0 h1 c h
  refine ⟨a, ha, hs.g, hs.q, ?_⟩
  have := qlen hs
  have := hs.inv.room
  omega

/-- A program in which only thread `w` ever pops is one. -/
theorem onePopper_of_thread {γ : Type} (C : Client γ) (cap : Nat) (g0 : γ) (w : Nat) (hw : ∀ g i, C.want g i = some .pop → i = w) :
    OnePopper C cap g0 := by
  have key : ∀ c, CReach C cap false g0 c → ∀ i, inPop (c.s.pc i) = true → i = w := by
    intro c h
    induction h with
    | init => intro i hi; cases hi
    | @step c c' _ hst ih =>
      have stay : ∀ i x, (c.s.pc i ≠ .idle ∨ C.want c.g i = some x) → ∀ j, inPop ((Conc.step cap c.s i x).pc j) = true → j = w := by
        intro i x hi j hj
        by_cases hji : j = i
        · subst hji
          rw [Conc.step.eq_def] at hj
          cases hp : c.s.pc j with
          | idle =>
            rw [hp] at hj
            cases x with
            | pop => exact hw _ _ (hi.resolve_left (fun h => h hp))
            | push v => simp [St.goto, inPop] at hj
          | popB t gt => exact ih j (by rw [hp]; rfl)
          | popE t gt => exact ih j (by rw [hp]; rfl)
          | popC t gt v => exact ih j (by rw [hp]; rfl)
          | pushSpin v => rw [hp] at hj; dsimp only at hj; split at hj <;> simp [St.goto, inPop, hp] at hj
          | pushCas v => rw [hp] at hj; dsimp only at hj; split at hj <;> simp [St.goto, inPop] at hj
          | pushRB v => rw [hp] at hj; simp [St.goto, inPop] at hj
          | pushRT v b => rw [hp] at hj; dsimp only at hj; split at hj <;> simp [St.goto, inPop] at hj
          | pushW v b => rw [hp] at hj; simp [St.goto, inPop] at hj
          | pushB v b => rw [hp] at hj; simp [St.goto, inPop] at hj
          | pushU => rw [hp] at hj; simp [St.goto, inPop] at hj
        · have e : (Conc.step cap c.s i x).pc j = c.s.pc j := by
            rw [Conc.step.eq_def]
            cases hp : c.s.pc i <;> dsimp only <;> (try (cases x)) <;> (try split) <;> simp [St.goto, hji]
          rw [e] at hj; exact ih j hj
      cases hst with
      | own _ => exact ih
      | call _ h2 => exact stay _ _ (.inr h2)
      | instr hi _ _ => exact stay _ .pop (.inl hi)
      | last hi _ _ => exact stay _ .pop (.inl hi)
  intro c h i j hi hj
  rw [key c h i hi, key c h j hj]

/-! ## Histories and cases -/

/-- An entry of a history. -/
inductive Ev where
  | call (i : Nat) (c : Cmd)
  | ret (i r : Nat)

/-- The program that makes all calls in all orders, and keeps the history. The first component is what the threads call next. -/
def anyCalls : Client ((Nat → Option Cmd) × List Ev) where
  want g i := g.1 i
  call g i c := (g.1, g.2 ++ [.call i c])
  ret g i r := (g.1, g.2 ++ [.ret i r])
  own g g' := g'.2 = g.2

/-- **C84** (partial) Linearizability: every history of calls and results of the queue of queue.c is one of the atomic queue.
Missing: as for `C84_linearizable_partial`. -/
theorem C84_histories_partial (k : Nat) (hk : k ≤ 15) (f : Nat → Option Cmd) (c : CSt ((Nat → Option Cmd) × List Ev))
    (h : CReach anyCalls (2 ^ k) true (f, []) c) : ∃ a, AReach anyCalls (2 ^ k) true (f, []) a ∧ a.g.2 = c.g.2 := by
  obtain ⟨a, ha, e, _⟩ := C84_linearizable_partial anyCalls k hk (f, []) c h
  exact ⟨a, ha, by rw [e]⟩

/-- The state after the next memory access of thread `i` (model bookkeeping for the cases below). -/
def next {γ : Type} (C : Client γ) (cap : Nat) (c : CSt γ) (i : Nat) : CSt γ :=
  if c.s.pc i = .idle then
    match C.want c.g i with
    | none => c
    | some x => { g := C.call c.g i x, s := Conc.step cap c.s i x, data := fun j => if j = i then arg x else c.data j }
  else if (Conc.step cap c.s i .pop).pc i = .idle then
    { c with g := C.ret c.g i (result c i), s := Conc.step cap c.s i .pop }
  else { c with s := Conc.step cap c.s i .pop, data := fun j => if j = i then dataNext cap c i else c.data j }

theorem step_popped_le (cap : Nat) (s : St) (i : Nat) (x : Cmd) : (Conc.step cap s i x).popped.length ≤ s.popped.length + 1 := by
  rw [Conc.step.eq_def]
  cases s.pc i <;> dsimp only <;> (try (cases x)) <;> (try split) <;> simp [St.goto]

theorem nexts_reach {γ : Type} (C : Client γ) (cap : Nat) (g0 : γ) : ∀ (l : List Nat) (c : CSt γ), CReach C cap true g0 c →
    c.s.popped.length + l.length < 65536 → CReach C cap true g0 (l.foldl (next C cap) c) := by
  intro l
  induction l with
  | nil => intro c h _; exact h
  | cons i l ih =>
    intro c h hl
    simp only [List.length_cons] at hl
    have hw : WindowAt c.s i := fun t gt v _ => by omega
    refine ih _ ?_ ?_
    · unfold next
      split
      · rename_i hi
        split
        · exact h
        · rename_i x hx; exact .step h (.call hi hx)
      · rename_i hi
        split
        · rename_i hn; exact .step h (.last hi (fun _ => hw) hn)
        · rename_i hn; exact .step h (.instr hi (fun _ => hw) hn)
    · have hle : (next C cap c i).s.popped.length ≤ c.s.popped.length + 1 := by
        unfold next
        split
        · split
          · omega
          · exact step_popped_le _ _ _ _
        · split <;> exact step_popped_le _ _ _ _
      omega

/-- Threads 0 and 1 push 5 and 6, threads 2 and 3 pop once each: (call to make, results so far). -/
def demo : Client ((Nat → Option Cmd) × List (Nat × Nat)) where
  want g i := g.1 i
  call g i _ := (fun j => if j = i then none else g.1 j, g.2)
  ret g i r := (g.1, g.2 ++ [(i, r)])
  own _ _ := False

/-- Two pops at the same time: thread 3 gets NULL although the queue is not empty at any instant of its call (`spurious` is needed). -/
example : ∃ c, CReach demo (2 ^ 2) true (fun i => if i = 0 then some (.push 5) else if i = 1 then some (.push 6) else if i = 2 ∨ i = 3 then some .pop else none, []) c ∧
    c.g.2 = [(0, 5), (1, 6), (2, 5), (3, 0)] ∧ c.s.pushed = [5, 6] ∧ c.s.popped = [5] :=
  ⟨_, nexts_reach demo _ _ [0, 0, 0, 0, 0, 0, 0, 0, 1, 1, 1, 1, 1, 1, 1, 1, 2, 3, 2, 3, 2, 3, 2, 3] _ .init (by decide), by decide, by decide, by decide⟩

/-- A program with one popper (thread 2) meets the hypothesis of `C84_one_popper`. -/
example : OnePopper { anyCalls with want := fun g i => if i = 2 then some .pop else (match g.1 i with | some (.push v) => some (.push v) | _ => none) }
    (2 ^ 8) (fun _ => none, []) := by
  refine onePopper_of_thread _ _ _ 2 (fun g i h => ?_)
  by_cases hi : i = 2
  · exact hi
  · simp only [if_neg hi] at h
    split at h <;> cases h

end Arax.Queue.Lin
