import Verif.Stream.Order

/-!
# C81: asynchronous execution on devices cannot be seen
-/
namespace Arax.Stream

theorem run_copyIn (io : List Nat) (n i : Nat) (c : Nat → Nat → Nat) (h : Nat → Nat) :
    ((copyIn n i).run io c h).2 = h ∧ (∀ d, d ≠ arg io 0 → ((copyIn n i).run io c h).1 d = c d) ∧
    ∀ off, ((copyIn n i).run io c h).1 (arg io 0) off = if i ≤ off ∧ off < i + n then h off else c (arg io 0) off := by
  induction n generalizing i c with
  | zero => exact ⟨rfl, fun _ _ => rfl, fun off => (if_neg (by omega)).symm⟩
  | succ n ih =>
    simp only [copyIn, Prog.run]
    obtain ⟨h1, h2, h3⟩ := ih (i + 1) (upd c (arg io 0) (upd (c (arg io 0)) i (h i)))
    refine ⟨h1, fun d hd => by rw [h2 d hd, upd_other _ _ _ _ hd], fun off => ?_⟩
    rw [h3 off, upd_same]
    by_cases e : off = i
    · subst e; rw [if_neg (by omega), upd_same, if_pos (by omega)]
    · rw [upd_other _ _ _ _ e]
      by_cases e2 : i + 1 ≤ off ∧ off < i + 1 + n
      · rw [if_pos e2, if_pos (by omega)]
      · rw [if_neg e2, if_neg (by omega)]

theorem run_copyOut (io : List Nat) (n i : Nat) (c : Nat → Nat → Nat) (h : Nat → Nat) :
    ((copyOut n i).run io c h).1 = c ∧ ∀ off, ((copyOut n i).run io c h).2 off = if i ≤ off ∧ off < i + n then c (arg io 0) off else h off := by
  induction n generalizing i h with
  | zero => exact ⟨rfl, fun off => (if_neg (by omega)).symm⟩
  | succ n ih =>
    simp only [copyOut, Prog.run]
    obtain ⟨h1, h3⟩ := ih (i + 1) (upd h i (c (arg io 0) i))
    refine ⟨h1, fun off => ?_⟩
    rw [h3 off]
    by_cases e : off = i
    · subst e; rw [if_neg (by omega), upd_same, if_pos (by omega)]
    · rw [upd_other _ _ _ _ e]
      by_cases e2 : i + 1 ≤ off ∧ off < i + 1 + n
      · rw [if_pos e2, if_pos (by omega)]
      · rw [if_neg e2, if_neg (by omega)]

/-- What is in the host area of a task that has been executed is what executing the tasks one after the other, in the order in which the handlers were called, puts there: for every task that is marked as done, has not been freed, and whose handler
waits for its stream (the ones that give something back). `ini`: what was in the device memory when it was allocated. -/
theorem C81_outputs (cf : Conf) (hs : cf.Sane) (all : List Nat) (m : Nat → Nat) (h : List Act) (hl : AllLegal cf h) :
    ∃ ini, ∀ t A B, ((start m).exec cf all h).log = A ++ t :: B → ((start m).exec cf all h).done t = true → ((start m).exec cf all h).gone t = false →
      cf.waits (((start m).exec cf all h).task t).req = true →
      ((start m).exec cf all h).host t =
        (((cf.prog (((start m).exec cf all h).task t).req).getD .done).run (((start m).exec cf all h).task t).req.io (seq cf ((start m).exec cf all h).task A ini).c
          (((start m).exec cf all h).task t).req.host).2 := by
  obtain ⟨hi, ini, hsim⟩ := good_exec hs all _ (good_start cf all m) h hl
  generalize (start m).exec cf all h = s at *
  refine ⟨ini, fun t A B hlog hd hg hw => ?_⟩
  have ht : t ∈ s.log := by rw [hlog]; simp
  have nb : t ∉ B := by
    have := hi.nodup
    rw [hlog, List.nodup_append] at this
    exact (List.nodup_cons.1 this.2.1).1
  have hf : (flush (s.stream (cf.ph (s.task t).vac)) s.mem s.host).2 t = s.host t := by
    apply flush_host
    rintro o ho rfl
    have := (hi.ops _ o ho).wait hw
    have := (hi.waits _ _ this).2.2.2.1
    rw [hd] at this; cases this
  rw [← hf, (hsim _).host t ht rfl hg, hlog]
  rw [show A ++ t :: B = (A ++ [t]) ++ B by simp, seq_h_other _ _ _ _ _ _ nb, seq_append]
  simp only [Seq.one, upd_same]

/-- `arax_data_get` gives the contents the data object has after all tasks before it have been executed one after the other, although memsets, copies and kernels are still in flight when their tasks are marked as done, and whatever the other accelerators,
clients, the allocation of device memory and its reuse do meanwhile. -/
theorem C81_get_returns (cf : Conf) (hs : cf.Sane) (all : List Nat) (m : Nat → Nat) (h : List Act) (hl : AllLegal cf h) :
    ∃ ini, ∀ t A B v d, ((start m).exec cf all h).log = A ++ t :: B → ((start m).exec cf all h).done t = true → ((start m).exec cf all h).gone t = false →
      ((start m).exec cf all h).task t = ⟨v, .get d⟩ → ∀ off, off < cf.dsz d →
      ((start m).exec cf all h).host t off = (seq cf ((start m).exec cf all h).task A ini).c d off := by
  obtain ⟨ini, hx⟩ := C81_outputs cf hs all m h hl
  refine ⟨ini, fun t A B v d h1 h2 h3 h4 off hoff => ?_⟩
  rw [hx t A B h1 h2 h3 (by rw [h4]; rfl), h4]
  show ((copyOut (cf.dsz d) 0).run [d] _ _).2 off = _
  rw [(run_copyOut [d] _ _ _ _).2 off, if_pos (by omega)]; rfl

/-- The handlers of the tasks of a virtual accelerator are called in the order in which the tasks were issued; the ones missing at the end are still waiting. -/
theorem C81_order (cf : Conf) (hs : cf.Sane) (all : List Nat) (m : Nat → Nat) (h : List Act) (hl : AllLegal cf h) (v : Nat) :
    ((start m).exec cf all h).log.filter (fun t => (((start m).exec cf all h).task t).vac = v) <+:
      (List.range ((start m).exec cf all h).n).filter (fun t => (((start m).exec cf all h).task t).vac = v) := by
  have := ordered_exec hs all _ (good_start cf all m) v (ordered_start cf m v) h hl
  rw [← show _ = _ from this, List.append_assoc]
  exact List.prefix_append _ _

/-- No handler is called twice for one task. -/
theorem C81_once (cf : Conf) (hs : cf.Sane) (all : List Nat) (m : Nat → Nat) (h : List Act) (hl : AllLegal cf h) : ((start m).exec cf all h).log.Nodup :=
  (good_exec hs all _ (good_start cf all m) h hl).1.nodup

theorem seq_keeps (cf : Conf) (hs : cf.Sane) (task : Nat → Task) (A M : List Nat) (ini) (d) (hl : ∀ t ∈ M, (task t).req.Legal cf ∧ d ∉ (task t).req.io) :
    (seq cf task (A ++ M) ini).c d = (seq cf task A ini).c d := by
  induction M using List.reverseRecOn with
  | nil => simp
  | append_singleton l u ih =>
    rw [← List.append_assoc, seq_append]
    obtain ⟨h1, h2⟩ := hl u (by simp)
    simp only [Seq.one]
    rw [run_keeps _ d h2 (fun k => cf.dsz (arg (task u).req.io k)), ih fun t ht => hl t (by simp [ht])]
    cases e : cf.prog (task u).req with
    | none => trivial
    | some q => exact (legal_ok cf hs _ h1 q e).1

/-- A client that uses its data with one virtual accelerator reads what it wrote: `arax_data_set`, later `arax_data_get`, no task that has the data object as an argument issued in between. Nobody waits for the `set`, and other clients, accelerators and
streams run all the time. -/
theorem C81_read_back (cf : Conf) (hs : cf.Sane) (all : List Nat) (m : Nat → Nat) (h : List Act) (hl : AllLegal cf h) (u t v d : Nat) (bs : Nat → Nat)
    (hut : u < t) (hu : ((start m).exec cf all h).task u = ⟨v, .set d bs⟩) (ht : ((start m).exec cf all h).task t = ⟨v, .get d⟩)
    (hd : ((start m).exec cf all h).done t = true) (hg : ((start m).exec cf all h).gone t = false)
    (hv : ∀ w, w < ((start m).exec cf all h).n → d ∈ (((start m).exec cf all h).task w).req.io → (((start m).exec cf all h).task w).vac = v)
    (hb : ∀ w, u < w → w < t → d ∉ (((start m).exec cf all h).task w).req.io) :
    ∀ off, off < cf.dsz d → ((start m).exec cf all h).host t off = bs off := by
  intro off hoff
  have hi := (good_exec hs all _ (good_start cf all m) h hl).1
  obtain ⟨ini, hget⟩ := C81_get_returns cf hs all m h hl
  have hord := C81_order cf hs all m h hl v
  generalize (start m).exec cf all h = s at *
  have sorted : ((List.range s.n).filter (fun t => (s.task t).vac = v)).Pairwise (· < ·) := List.Pairwise.filter _ List.pairwise_lt_range
  have tl : t ∈ s.log := hi.marked t hd
  obtain ⟨R, hR⟩ := hord
  have ul : u ∈ s.log := by
    have hm : u ∈ (List.range s.n).filter (fun t => (s.task t).vac = v) := by
      rw [List.mem_filter, List.mem_range]
      exact ⟨by have := hi.log t tl; omega, by simp [hu]⟩
    rw [← hR] at hm sorted
    rcases List.mem_append.1 hm with g | g
    · exact (List.mem_filter.1 g).1
    · have := (List.pairwise_append.1 sorted).2.2 t (List.mem_filter.2 ⟨tl, by simp [ht]⟩) u g
      omega
  have sl : (s.log.filter (fun t => (s.task t).vac = v)).Pairwise (· < ·) := by
    rw [← hR] at sorted; exact (List.pairwise_append.1 sorted).1
  obtain ⟨A, B, hAB⟩ := List.append_of_mem tl
  have uA : u ∈ A := by
    rw [hAB] at ul
    rcases List.mem_append.1 ul with g | g
    · exact g
    · rcases List.mem_cons.1 g with g | g
      · omega
      · rw [hAB, List.filter_append, List.filter_cons_of_pos (by simp [ht])] at sl
        have := (List.pairwise_cons.1 (List.pairwise_append.1 sl).2.1).1 u (List.mem_filter.2 ⟨g, by simp [hu]⟩)
        omega
  obtain ⟨A1, M, hA⟩ := List.append_of_mem uA
  rw [hget t A B v d hAB hd hg ht off hoff, hA, show A1 ++ u :: M = (A1 ++ [u]) ++ M by simp, seq_keeps cf hs, seq_append]
  · simp only [Seq.one, hu]
    show ((copyIn (cf.dsz d) 0).run [d] _ _).1 d off = _
    rw [show (((copyIn (cf.dsz d) 0).run [d] _ _).1 d off) = _ from (run_copyIn [d] _ _ _ _).2.2 off, if_pos (by omega)]; rfl
  · intro w hw
    have wl : w ∈ s.log := by rw [hAB, hA]; simp [hw]
    refine ⟨hi.legal w (hi.log w wl), fun hdw => ?_⟩
    have wv := hv w (hi.log w wl) hdw
    rw [hAB, hA, List.filter_append, List.filter_append, List.filter_cons_of_pos (by simp [hu]), List.filter_cons_of_pos (by simp [ht])] at sl
    have p1 := List.pairwise_append.1 sl
    have h1 := (List.pairwise_cons.1 (List.pairwise_append.1 p1.1).2.1).1 w (List.mem_filter.2 ⟨hw, by simp [wv]⟩)
    have h2 := p1.2.2 w (List.mem_append_right _ (.tail _ (List.mem_filter.2 ⟨hw, by simp [wv]⟩))) t (.head _)
    exact hb w h1 h2 hdw

end Arax.Stream
