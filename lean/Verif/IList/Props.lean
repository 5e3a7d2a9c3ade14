import Verif.IList.Lemmas
/-!
# C10, C11: intrusive lists behave as sequences, and do not disturb each other
-/
namespace Arax.IList

/-- **C10** After every legal history of calls over any number of lists and nodes on one heap, starting
from arbitrary heap contents: the next legal call returns exactly what the sequence specification
prescribes (so pop_head/pop_tail return the most/least recently added remaining node, NULL when empty)
and leads to a heap related to the specified world. -/
theorem C10_calls_follow_spec {h : Heap} {w : World} (hr : Reach h w) {op : Op} {r : Nat} {w' : World}
    (hs : SpecStep w op r w') : (step h op).2 = r ∧ Reach (step h op).1 w' :=
  ⟨(inv_step h w w' op r (inv_reach h w hr) hs).2, Reach.step hr hs⟩

/-- C10: what an observer sees of a list whose specified contents are `ns`: its length; the nodes visited by
the forward and the reverse iteration (which terminate); the array of owners; and the members are linked. -/
theorem C10_observations {h : Heap} {w : World} (hr : Reach h w) {l : Nat} {ns : List Nat} (hc : w.cont l = some ns)
    (fuel : Nat) (hf : ns.length < fuel) :
    h.length l = ns.length ∧ toArrayNull h l = ns.length ∧
    forEach h l fuel = some ns ∧ forEachRev h l fuel = some ns.reverse ∧
    toArray h l fuel = some (ns.map w.owner, ns.length) ∧
    (∀ n ∈ ns, linked h n = true) ∧ ns.Nodup := by
  have inv := inv_reach h w hr
  have rep := inv.rep l ns hc
  have hnd := rep.nodup
  rw [List.nodup_cons] at hnd
  have hfe : forEach h l fuel = some ns := walk_seg h l ns l fuel hnd.1 rep.seg hf
  refine ⟨rep.len, rep.len, hfe, walk_seg_rev h l ns l fuel hnd.1 rep.seg hf, ?_, ?_, hnd.2⟩
  · unfold toArray
    have hown : ns.map h.owner = ns.map w.owner := by
      apply List.map_congr_left
      intro x hx; exact inv.owner x (Or.inr ⟨l, ns, hc, by simp [hx]⟩)
    split
    · rw [hfe]; simp [hown, rep.len]
    · rename_i hz
      have : ns.length = 0 := by rw [← rep.len]; simpa using hz
      have : ns = [] := List.length_eq_zero_iff.mp this
      subst this; simp [rep.len]
  · intro n hn
    obtain ⟨xs, ys, rfl⟩ := List.append_of_mem hn
    obtain ⟨-, s2⟩ := (seg_append h xs l n ys l).mp rep.seg
    have h1 := (seg_first h ys n l s2).1
    unfold linked
    have : firstOf ys l ≠ n := by
      rw [List.nodup_append] at hnd
      obtain ⟨hl, -, hny, -⟩ := hnd
      rw [List.nodup_cons] at hny
      intro e
      rcases List.mem_cons.mp (firstOf_mem ys l) with e2 | e2
      · apply hl; rw [← e2, e]; simp
      · exact hny.1 (e ▸ e2)
    rw [h1]; simpa using this

/-- C10: a node that is initialised but in no list is reported as not linked. -/
theorem C10_loose_not_linked {h : Heap} {w : World} (hr : Reach h w) {n : Nat} (hn : w.loose n) :
    linked h n = false := by
  have := (inv_reach h w hr).loose n hn
  simp [linked, this.1]

/-- The list that a call operates on. -/
def Op.list : Op → Option Nat
  | .initList l => some l
  | .initNode _ _ => none
  | .add l _ => some l
  | .del l _ => some l
  | .popHead l => some l
  | .popTail l => some l

/-- **C11** A legal call on one list leaves every other list's length, forward and reverse iteration and
owner array unchanged. -/
theorem C11_other_lists_intact {h : Heap} {w : World} (hr : Reach h w) {op : Op} {r : Nat} {w' : World}
    (hs : SpecStep w op r w') {l : Nat} {ns : List Nat} (hc : w.cont l = some ns) (hl : op.list ≠ some l)
    (fuel : Nat) (hf : ns.length < fuel) :
    (step h op).1.length l = h.length l ∧ forEach (step h op).1 l fuel = forEach h l fuel ∧
    forEachRev (step h op).1 l fuel = forEachRev h l fuel ∧ toArray (step h op).1 l fuel = toArray h l fuel := by
  obtain ⟨-, hr'⟩ := C10_calls_follow_spec hr hs
  have key : w'.cont l = some ns ∧ ns.map w'.owner = ns.map w.owner := by
    have inv := inv_reach h w hr
    cases hs with
    | initList l' _ hu =>
      have hne : l ≠ l' := fun e => hl (by simp [Op.list, e])
      refine ⟨by simp only [setCont_eq]; rw [if_neg hne]; exact hc, ?_⟩
      apply List.map_congr_left
      intro x hx
      show (if x = l' then l' else w.owner x) = w.owner x
      rw [if_neg (fun e : x = l' => hu.2.2 l ns hc (e ▸ hx))]
    | initNode n o _ hu =>
      refine ⟨hc, ?_⟩
      apply List.map_congr_left
      intro x hx
      show (if x = n then o else w.owner x) = w.owner x
      rw [if_neg (fun e : x = n => hu.2.2 l ns hc (e ▸ hx))]
    | add l' n ns' _ _ =>
      have hne : l ≠ l' := fun e => hl (by simp [Op.list, e])
      exact ⟨by simp only [setCont_eq]; rw [if_neg hne]; exact hc, rfl⟩
    | del l' n xs ys _ =>
      have hne : l ≠ l' := fun e => hl (by simp [Op.list, e])
      exact ⟨by simp only [setCont_eq]; rw [if_neg hne]; exact hc, rfl⟩
    | popHeadNil l' _ => exact ⟨hc, rfl⟩
    | popTailNil l' _ => exact ⟨hc, rfl⟩
    | popHead l' n ns' _ =>
      have hne : l ≠ l' := fun e => hl (by simp [Op.list, e])
      exact ⟨by simp only [setCont_eq]; rw [if_neg hne]; exact hc, rfl⟩
    | popTail l' n ns' _ =>
      have hne : l ≠ l' := fun e => hl (by simp [Op.list, e])
      exact ⟨by simp only [setCont_eq]; rw [if_neg hne]; exact hc, rfl⟩
  obtain ⟨a1, -, a3, a4, a5, -, -⟩ := C10_observations hr hc fuel hf
  obtain ⟨b1, -, b3, b4, b5, -, -⟩ := C10_observations hr' key.1 fuel hf
  exact ⟨by rw [a1, b1], by rw [a3, b3], by rw [a4, b4], by rw [a5, b5, key.2]⟩

/-- Closes `Unused` goals about concrete worlds. -/
local macro "unused" : tactic => `(tactic| (
  refine ⟨by simp [World.setCont, World.empty], by simp [World.empty], fun l ns h => ?_⟩
  simp only [World.setCont, World.empty] at h
  (repeat' split at h) <;> simp_all))

/-- Non-vacuity: a world with two lists (at 1 and 2), nodes 10, 11, 12 added to list 1, node 20 to list 2,
node 11 deleted from the middle. -/
example (h0 : Heap) : ∃ h w, Reach h w ∧ w.cont 1 = some [12, 10] ∧ w.cont 2 = some [20] ∧ w.loose 11 := by
  have s := Reach.init h0
  have s := s.step (.initList 1 (by decide) (by unused))
  have s := s.step (.initList 2 (by decide) (by unused))
  have s := s.step (.initNode 10 100 (by decide) (by unused))
  have s := s.step (.initNode 11 110 (by decide) (by unused))
  have s := s.step (.initNode 12 120 (by decide) (by unused))
  have s := s.step (.initNode 20 200 (by decide) (by unused))
  have s := s.step (.add 1 10 [] (by simp [World.setCont, World.empty]) (by simp))
  have s := s.step (.add 1 11 [10] (by simp [World.setCont]) (by simp))
  have s := s.step (.add 1 12 [11, 10] (by simp [World.setCont]) (by simp))
  have s := s.step (.add 2 20 [] (by simp [World.setCont]) (by simp))
  have s := s.step (.del 1 11 [12] [10] (by simp [World.setCont]))
  exact ⟨_, _, s, by simp [World.setCont], by simp [World.setCont], by simp⟩

end Arax.IList
