import Verif.Stream.Inv

/-!
# The tasks of a virtual accelerator are run in the order in which they were issued (C81)
-/
namespace Arax.Stream

/-- The task of `v` its worker has taken and not started. (No code of its own.) -/
def held (cf : Conf) (s : St) (v : Nat) : List Nat := match s.worker (cf.ph v) with
  | .begin t => if (s.task t).vac = v then [t] else []
  | _ => []

/-- Run, taken, queued: together all tasks of `v`, in the order of issue. (No code of its own.) -/
def Ordered (cf : Conf) (s : St) (v : Nat) : Prop :=
  s.log.filter (fun t => (s.task t).vac = v) ++ held cf s v ++ (s.queue.filter (fun x => x.1 = v)).map (·.2) = (List.range s.n).filter (fun t => (s.task t).vac = v)

theorem ordered_same {cf : Conf} {s s' : St} {v} (h : Ordered cf s v) (h1 : s'.log = s.log) (h2 : s'.task = s.task) (h3 : s'.queue = s.queue) (h4 : s'.worker = s.worker) (h5 : s'.n = s.n) :
    Ordered cf s' v := by
  simp only [Ordered, held, h1, h2, h3, h4, h5]; exact h

theorem ordered_launch {cf : Conf} {all} {s : St} (hi : Inv cf all s) {v p t} (hw : s.worker p = .begin t) (h : Ordered cf s v) (st) (W') (hW : ∀ u, W' ≠ .begin u) :
    Ordered cf { s with log := s.log ++ [t], stream := st, worker := upd s.worker p W' } v := by
  have hb := (hi.begins p t hw).2.2.1
  by_cases e : (s.task t).vac = v
  · have e2 : cf.ph v = p := by rw [← e]; exact hb
    simp only [Ordered, held, List.filter_append] at h ⊢
    rw [e2] at h ⊢
    rw [hw] at h
    simp only [e, if_true] at h
    rw [← h, upd_same]
    cases W' with
    | begin u => exact absurd rfl (hW u)
    | idle => simp [e]
    | wait u => simp [e]
  · have hh : held cf { s with log := s.log ++ [t], stream := st, worker := upd s.worker p W' } v = held cf s v := by
      simp only [held]
      by_cases e2 : cf.ph v = p
      · rw [e2, upd_same, hw]
        cases W' with
        | begin u => exact absurd rfl (hW u)
        | idle => simp [e]
        | wait u => simp [e]
      · rw [upd_other _ _ _ _ e2]
    simp only [Ordered]
    rw [hh]
    simp only [List.filter_append]
    rw [← h]
    simp [e]

theorem ordered_step {cf : Conf} {all : List Nat} {s s' : St} (hi : Inv cf all s) (a : Act) (h : s.step cf all a = some s') (v : Nat) (ho : Ordered cf s v) : Ordered cf s' v := by
  cases a with
  | issue w r =>
    simp only [St.step] at h
    split at h
    · cases h
      have e : ∀ t, t < s.n → upd s.task s.n ⟨w, r⟩ t = s.task t := fun t ht => upd_other _ _ _ _ (by omega)
      have f1 : ∀ l : List Nat, (∀ t ∈ l, t < s.n) → l.filter (fun t => (upd s.task s.n ⟨w, r⟩ t).vac = v) = l.filter (fun t => (s.task t).vac = v) := by
        intro l hl
        exact List.filter_congr fun t ht => by rw [e t (hl t ht)]
      simp only [Ordered, held]
      rw [f1 _ hi.log, List.range_succ, List.filter_append (List.range s.n), f1 _ (fun t ht => List.mem_range.1 ht), ← ho, List.filter_append, List.map_append]
      have hh : (match s.worker (cf.ph v) with
          | .begin t => if (upd s.task s.n ⟨w, r⟩ t).vac = v then [t] else []
          | _ => []) = held cf s v := by
        simp only [held]
        cases hw : s.worker (cf.ph v) with
        | begin t => simp only; rw [e t (hi.begins _ t hw).1]
        | idle => rfl
        | wait t => rfl
      rw [hh]
      by_cases ev : w = v
      · simp [ev]
      · simp [ev]
    · cases h
  | take p w =>
    simp only [St.step] at h
    split at h
    · next hc =>
      split at h
      · cases h
      · next t r hf =>
        cases h
        obtain ⟨x, y, h1, h2, h3⟩ := first_some hf
        have hv : (s.task t).vac = w := (hi.queue w t (by rw [h1]; simp)).2
        have hx : x.filter (fun z => z.1 = w) = [] := by simpa using fun a b hz => h3 (a, b) hz
        simp only [Ordered, held] at ho ⊢
        rw [h1] at ho
        rw [h2]
        by_cases e : w = v
        · subst e
          rw [hc.2.1, hc.2.2] at ho
          rw [hc.2.1, upd_same]
          simp only [hv, if_true, List.filter_append, hx] at ho ⊢
          simpa using ho
        · have : ∀ z : List (Nat × Nat), ((w, t) :: z).filter (fun z => z.1 = v) = z.filter (fun z => z.1 = v) := by intro z; simp [e]
          rw [List.filter_append, this] at ho
          rw [List.filter_append]
          by_cases e2 : cf.ph v = p
          · rw [e2, upd_same]
            rw [e2, hc.2.2] at ho
            simp only [hv, if_neg e]
            exact ho
          · rw [upd_other _ _ _ _ e2]; exact ho
    · cases h
  | alloc p d b =>
    simp only [St.step] at h
    split at h
    · split at h
      · split at h <;> (cases h; exact ordered_same ho rfl rfl rfl rfl rfl)
      · cases h
    · cases h
  | launch p =>
    simp only [St.step] at h
    split at h
    · next t hw =>
      split at h
      · split at h
        · cases h; exact ordered_same ho rfl rfl rfl rfl rfl
        · split at h
          · cases h; exact ordered_launch hi hw ho _ _ (by simp)
          · cases h
            exact ordered_same (ordered_launch hi hw ho s.stream .idle (by simp)) rfl rfl rfl rfl rfl
      · cases h
    · cases h
  | dev p =>
    simp only [St.step] at h
    split at h
    · cases h
    · split at h <;> (cases h; exact ordered_same ho rfl rfl rfl rfl rfl)
  | finish p =>
    simp only [St.step] at h
    split at h
    · next t hw =>
      split at h
      · cases h
        have hh : held cf (St.complete cf { s with worker := upd s.worker p .idle } t) v = held cf s v := by
          simp only [held, St.complete]
          by_cases e : cf.ph v = p
          · rw [e, upd_same, hw]
          · rw [upd_other _ _ _ _ e]
            cases s.worker (cf.ph v) <;> rfl
        simp only [Ordered]
        rw [hh]; exact ho
      · cases h
    · cases h
  | drop d =>
    simp only [St.step] at h
    split at h
    · cases h; exact ordered_same ho rfl rfl rfl rfl rfl
    · cases h
  | freeDev p d =>
    simp only [St.step] at h
    split at h
    · split at h
      · cases h; exact ordered_same ho rfl rfl rfl rfl rfl
      · cases h
    · cases h
  | userFree t =>
    simp only [St.step] at h
    split at h
    · cases h; exact ordered_same ho rfl rfl rfl rfl rfl
    · cases h
  | scribble t f =>
    simp only [St.step] at h
    split at h
    · cases h; exact ordered_same ho rfl rfl rfl rfl rfl
    · cases h

theorem ordered_exec {cf : Conf} (hs : cf.Sane) (all : List Nat) (s : St) (hg : Good cf all s) (v : Nat) (ho : Ordered cf s v) (h : List Act) (hl : AllLegal cf h) :
    Ordered cf (s.exec cf all h) v := by
  induction h generalizing s with
  | nil => exact ho
  | cons a h ih =>
    have key : Good cf all (s.act cf all a) ∧ Ordered cf (s.act cf all a) v := by
      simp only [St.act]
      split
      · exact ⟨hg, ho⟩
      · cases e : s.step cf all a with
        | none => exact ⟨hg, ho⟩
        | some s' => exact ⟨good_step hs hg a (fun v r e' => hl v r (e' ▸ .head _)) e, ordered_step hg.1 a e v ho⟩
    exact ih _ key.1 key.2 fun v r hr => hl v r (.tail _ hr)

theorem ordered_start (cf : Conf) (m v) : Ordered cf (start m) v := by simp [Ordered, held, start]

end Arax.Stream
