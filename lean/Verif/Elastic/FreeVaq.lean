import Verif.Elastic.Props
/-!
# C69, continued: the queue for freeing memory never moves

Each accelerator has one virtual accelerator of its own, through which its device memory is freed (`free_vaq`, /repo/src/core/arax_accel.c:22). A task that frees memory of
device `p` has to run on `p`, so it must stay there whatever the scheduler moves.
-/
namespace Arax.Elastic

/-- Invariant: the `free_vaq` of `p` is assigned to `p`, is in its list, and nobody else has it, nor ever saw it. (No code of its own.) -/
structure FInv (cf : Conf) (n : Nat) (s : St) : Prop where
  phys : ∀ p, p < n → s.vphys (cf.freev p) = some p
  mine : ∀ p, p < n → cf.freev p ∈ s.list p
  list : ∀ p q, p < n → cf.freev p ∈ s.list q → q = p
  snap : ∀ p q, p < n → cf.freev p ∈ s.snap q → q = p

theorem finv_init (cf : Conf) (hf : FreeVaqs cf) (n : Nat) : FInv cf n (init cf n) := by
  have hl : ∀ p, p < n → cf.freev p ∈ (init cf n).list p := fun p hp => by
    show cf.freev p ∈ (if p < n then [cf.freev p] else []); rw [if_pos hp]; simp
  refine ⟨fun p hp => listed_init cf hf n p _ (hl p hp), hl, ?_, fun p q _ h => (by cases h)⟩
  intro p q hp h
  have h' : cf.freev p ∈ (if q < n then [cf.freev q] else []) := h
  split at h'
  · simp at h'; exact (hf _ _ h').symm
  · cases h'

/-- Assigning a virtual accelerator that is no `free_vaq`. -/
theorem finv_add {cf : Conf} {n : Nat} {s : St} (hi : FInv cf n s) (q v : Nat) (hv : ∀ p, p < n → cf.freev p ≠ v) : FInv cf n (addVac s q v) := by
  have hs := (moved_add s q v).snap
  refine ⟨?_, ?_, ?_, fun p r hp h => hi.snap p r hp (hs ▸ h)⟩
  · intro p hp; rw [add_vphys s q v _ (hv p hp)]; exact hi.phys p hp
  · intro p hp
    unfold addVac; split
    · exact hi.mine p hp
    · split
      · show cf.freev p ∈ upd s.list q (v :: s.list q) p
        by_cases e : p = q
        · subst e; rw [upd_same]; exact List.mem_cons_of_mem _ (hi.mine p hp)
        · rw [upd_other _ _ e]; exact hi.mine p hp
      · exact hi.mine p hp
  · intro p r hp h
    unfold addVac at h; split at h
    · exact hi.list p r hp h
    · split at h
      · have h' : cf.freev p ∈ upd s.list q (v :: s.list q) r := h
        by_cases e : r = q
        · subst e; rw [upd_same] at h'
          rcases List.mem_cons.mp h' with e' | e'
          · exact absurd e' (hv p hp)
          · exact hi.list p r hp e'
        · rw [upd_other _ _ e] at h'; exact hi.list p r hp h'
      · exact hi.list p r hp h

theorem finv_del {cf : Conf} {n : Nat} {s : St} (hi : FInv cf n s) (q v : Nat) (hv : ∀ p, p < n → cf.freev p ≠ v) : FInv cf n (delVac s q v) := by
  have hs := (moved_del s q v).snap
  refine ⟨?_, ?_, ?_, fun p r hp h => hi.snap p r hp (hs ▸ h)⟩
  · intro p hp; rw [del_vphys s q v _ (hv p hp)]; exact hi.phys p hp
  · intro p hp
    unfold delVac; split
    · show cf.freev p ∈ upd s.list q ((s.list q).filter (· ≠ v)) p
      by_cases e : p = q
      · subst e; rw [upd_same]; exact List.mem_filter.mpr ⟨hi.mine p hp, by simpa using hv p hp⟩
      · rw [upd_other _ _ e]; exact hi.mine p hp
    · exact hi.mine p hp
  · intro p r hp h
    unfold delVac at h; split at h
    · have h' : cf.freev p ∈ upd s.list q ((s.list q).filter (· ≠ v)) r := h
      by_cases e : r = q
      · subst e; rw [upd_same] at h'; exact hi.list p r hp (List.mem_filter.mp h').1
      · rw [upd_other _ _ e] at h'; exact hi.list p r hp h'
    · exact hi.list p r hp h

theorem finv_moveOne {cf : Conf} {n : Nat} {s : St} (hi : FInv cf n s) (cur nxt : Nat) : FInv cf n (moveOne cf s cur nxt) := by
  unfold moveOne
  split
  · exact hi
  · rename_i m hm
    have hmem := List.mem_of_find?_eq_some hm
    have hne := List.find?_some hm
    have hv : ∀ p, p < n → cf.freev p ≠ m := by
      intro p hp e
      have : cf.freev p ∈ s.snap cur := e ▸ hmem
      have := hi.snap p cur hp this
      subst this
      simp [e] at hne
    have hi' : FInv cf n { s with mig := some m } := ⟨hi.phys, hi.mine, hi.list, hi.snap⟩
    exact finv_add (finv_del hi' cur m hv) nxt m hv

theorem finv_assign {cf : Conf} {n : Nat} {s : St} (hi : FInv cf n s) (v : Nat) (ho : s.vphys v = none) : FInv cf n (assignVac cf s v) := by
  have hv : ∀ p, p < n → cf.freev p ≠ v := fun p hp e => by rw [← e, hi.phys p hp] at ho; cases ho
  have hi0 : FInv cf n { s with calls := s.calls + 1 } := ⟨hi.phys, hi.mine, hi.list, hi.snap⟩
  unfold assignVac
  simp only
  split
  · exact ⟨hi.phys, hi.mine, hi.list, hi.snap⟩
  · rename_i i _
    generalize (cf.accs (cf.vtype v)).getD i 0 = cur
    generalize (cf.accs (cf.vtype v)).getD (if i + 1 = (cf.accs (cf.vtype v)).length then 0 else i + 1) 0 = nxt
    generalize hx : (if s.snap cur ≠ [] then moveOne cf { s with calls := s.calls + 1 } cur nxt else { s with calls := s.calls + 1 }) = x
    have hx' : FInv cf n x := by
      rw [← hx]; split
      · exact finv_moveOne hi0 cur nxt
      · exact hi0
    split
    · exact hx'
    · have := finv_add hx' cur v hv
      exact ⟨this.phys, this.mine, this.list, this.snap⟩

theorem finv_step {cf : Conf} {n : Nat} {s : St} (hi : FInv cf n s) (e : Event) : FInv cf n (step cf s e) := by
  unfold step
  split
  · exact hi
  · cases e with
    | assign v =>
      simp only
      split
      · rename_i ho; exact finv_assign hi v ho
      · exact hi
    | submit v t =>
      simp only
      split
      · exact ⟨hi.phys, hi.mine, hi.list, hi.snap⟩
      · exact hi
    | refresh q =>
      refine ⟨hi.phys, hi.mine, hi.list, ?_⟩
      intro p r hp h
      have h' : cf.freev p ∈ upd s.snap q (s.list q) r := h
      by_cases e : r = q
      · subst e; rw [upd_same] at h'; exact hi.list p r hp h'
      · rw [upd_other _ _ e] at h'; exact hi.snap p r hp h'
    | pick q v =>
      simp only
      split
      · split
        · exact hi
        · rename_i t r _
          obtain ⟨_, _, _, h4, h5, _, _, h8, _⟩ := run_frame cf { s with queue := upd s.queue v r } q v t
          exact ⟨fun p hp => by rw [h4]; exact hi.phys p hp, fun p hp => by rw [h5]; exact hi.mine p hp,
            fun p r hp h => hi.list p r hp (by rw [h5] at h; exact h), fun p r hp h => hi.snap p r hp (by rw [h8] at h; exact h)⟩
      · exact hi
    | free d =>
      simp only
      split
      · split <;> exact ⟨hi.phys, hi.mine, hi.list, hi.snap⟩
      · exact hi

/-- **C69 (freeing memory).** Whatever is assigned, moved, submitted and freed, and however slow the workers are: the `free_vaq` of every accelerator stays assigned to it, and no other worker ever
takes a task of it. Hence memory of a device is freed by that device's worker. -/
theorem C69_free_vaq_stays (cf : Conf) (hf : FreeVaqs cf) (nacc : Nat) (h : List Event) (p : Nat) (hp : p < nacc) :
    let s := exec cf (init cf nacc) h
    s.vphys (cf.freev p) = some p ∧ cf.freev p ∈ s.list p ∧
    ∀ q, q ≠ p → step cf s (.pick q (cf.freev p)) = s := by
  have : ∀ (h : List Event) (s : St), FInv cf nacc s → FInv cf nacc (exec cf s h) := by
    intro h
    induction h with
    | nil => intro s hi; exact hi
    | cons e h ih => intro s hi; exact ih (step cf s e) (finv_step hi e)
  have hi := this h _ (finv_init cf hf nacc)
  refine ⟨hi.phys p hp, hi.mine p hp, fun q hq => ?_⟩
  have hn : cf.freev p ∉ (exec cf (init cf nacc) h).snap q := fun hm => hq (hi.snap p q hp hm)
  unfold step
  split
  · rfl
  · simp only [if_neg hn]

/-- A history in which virtual accelerators are moved meets the hypotheses. -/
example : FreeVaqs (conf true (fun _ => 0) id 8) ∧ (exec (conf true (fun _ => 0) id 8) (init (conf true (fun _ => 0) id 8) 2) moveHistory).mig ≠ none :=
  ⟨conf_freeVaqs _ _ _ _, by decide⟩

end Arax.Elastic
