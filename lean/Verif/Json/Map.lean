import Verif.Json.Spec
/-!
# C85: objects
-/
namespace Arax.Json

theorem lt_irrefl (s : List Nat) : lt s s = false := by
  induction s with
  | nil => rfl
  | cons a s ih => rw [lt, if_neg (by omega), if_neg (by omega)]; exact ih

theorem lt_trans {s t u : List Nat} (h1 : lt s t = true) (h2 : lt t u = true) : lt s u = true := by
  induction s generalizing t u with
  | nil =>
    cases t with
    | nil => cases h1
    | cons b t =>
      cases u with
      | nil => cases h2
      | cons c u => rfl
  | cons a s ih =>
    cases t with
    | nil => cases h1
    | cons b t =>
      cases u with
      | nil => cases h2
      | cons c u =>
        rw [lt] at h1 h2 ⊢
        by_cases hab : a < b
        · by_cases hbc : b < c
          · rw [if_pos (by omega)]
          · rw [if_neg hbc] at h2
            by_cases hcb : c < b
            · rw [if_pos hcb] at h2; cases h2
            · rw [if_pos (by omega)]
        · rw [if_neg hab] at h1
          by_cases hba : b < a
          · rw [if_pos hba] at h1; cases h1
          · rw [if_neg hba] at h1
            by_cases hbc : b < c
            · rw [if_pos (by omega)]
            · rw [if_neg hbc] at h2
              by_cases hcb : c < b
              · rw [if_pos hcb] at h2; cases h2
              · rw [if_neg hcb] at h2
                rw [if_neg (by omega), if_neg (by omega)]
                exact ih h1 h2

theorem lt_total (s t : List Nat) : s = t ∨ lt s t = true ∨ lt t s = true := by
  induction s generalizing t with
  | nil =>
    cases t with
    | nil => exact .inl rfl
    | cons b t => exact .inr (.inl rfl)
  | cons a s ih =>
    cases t with
    | nil => exact .inr (.inr rfl)
    | cons b t =>
      rw [lt, lt]
      by_cases hab : a < b
      · exact .inr (.inl (if_pos hab))
      · by_cases hba : b < a
        · exact .inr (.inr (if_pos hba))
        · rw [if_neg hab, if_neg hba, if_neg hba, if_neg hab]
          have : a = b := by omega
          rw [this]
          rcases ih t with e | e | e
          · exact .inl (by rw [e])
          · exact .inr (.inl e)
          · exact .inr (.inr e)

/-- Sorted by key. (No code of its own.) -/
abbrev Sorted (o : List (List Nat × JVal)) : Prop := o.Pairwise (fun a b => lt a.1 b.1 = true)

theorem mset_mem {o : List (List Nat × JVal)} {k : List Nat} {v : JVal} {x : List Nat × JVal} (h : x ∈ mset o k v) : x = (k, v) ∨ x ∈ o := by
  induction o with
  | nil => rw [mset] at h; exact .inl (List.mem_singleton.1 h)
  | cons p o ih =>
    rw [mset] at h
    split at h
    · rcases List.mem_cons.1 h with h | h
      · exact .inl h
      · exact .inr (List.mem_cons_of_mem _ h)
    · split at h
      · rcases List.mem_cons.1 h with h | h
        · exact .inl h
        · exact .inr h
      · rcases List.mem_cons.1 h with h | h
        · exact .inr (by rw [h]; exact List.mem_cons_self ..)
        · rcases ih h with h | h
          · exact .inl h
          · exact .inr (List.mem_cons_of_mem _ h)

theorem mset_sorted {o : List (List Nat × JVal)} (h : Sorted o) (k : List Nat) (v : JVal) : Sorted (mset o k v) := by
  induction o with
  | nil => rw [mset]; exact List.pairwise_singleton _ _
  | cons p o ih =>
    have h1 := List.pairwise_cons.1 h
    rw [mset]
    split
    · next e => exact List.pairwise_cons.2 ⟨fun x hx => by have := h1.1 x hx; rwa [← e] at this, h1.2⟩
    · next e =>
      split
      · next hlt =>
        refine List.pairwise_cons.2 ⟨fun x hx => ?_, h⟩
        rcases List.mem_cons.1 hx with rfl | hx
        · exact hlt
        · exact lt_trans hlt (h1.1 x hx)
      · next hlt =>
        refine List.pairwise_cons.2 ⟨fun x hx => ?_, ih h1.2⟩
        rcases mset_mem hx with rfl | hx
        · rcases lt_total k p.1 with e' | e' | e'
          · exact absurd e' e
          · exact absurd e' hlt
          · exact e'
        · exact h1.1 x hx

theorem entry_nil (k : List Nat) : entry [] k = none := rfl

theorem entry_cons (p : List Nat × JVal) (o : List (List Nat × JVal)) (k : List Nat) : entry (p :: o) k = if p.1 = k then some p.2 else entry o k := by
  unfold entry
  by_cases h : p.1 = k
  · rw [List.find?_cons_of_pos (by simpa using h), if_pos h]; rfl
  · rw [List.find?_cons_of_neg (by simpa using h), if_neg h]

theorem entry_mset (o : List (List Nat × JVal)) (k : List Nat) (v : JVal) (k' : List Nat) : entry (mset o k v) k' = if k = k' then some v else entry o k' := by
  induction o with
  | nil => rw [mset, entry_cons]
  | cons p o ih =>
    rw [mset]
    split
    · next e =>
      rw [entry_cons, entry_cons]
      dsimp only
      by_cases hk : k = k'
      · rw [if_pos hk, if_pos hk]
      · rw [if_neg hk, if_neg hk, if_neg (by rw [← e]; exact hk)]
    · next e =>
      split
      · rw [entry_cons]
      · rw [entry_cons, ih, entry_cons]
        dsimp only
        by_cases hk : k = k'
        · rw [if_neg (by intro e'; exact e (by rw [hk, e'])), if_pos hk, if_pos hk]
        · rw [if_neg hk, if_neg hk]

theorem lastOf_append (ms : List (List Nat × JVal)) (k : List Nat) (v : JVal) (k' : List Nat) :
    lastOf (ms ++ [(k, v)]) k' = if k = k' then some v else lastOf ms k' := by
  unfold lastOf
  rw [List.filter_append]
  by_cases h : k = k'
  · rw [if_pos h, List.filter_cons_of_pos (by simpa using h)]
    simp
  · rw [if_neg h, List.filter_cons_of_neg (by simpa using h), List.filter_nil, List.append_nil]

/-- The map that the parser builds. (No code of its own.) -/
def build (o : List (List Nat × JVal)) (ms : List (List Nat × JVal)) : List (List Nat × JVal) := ms.foldl (fun o m => mset o m.1 m.2) o

theorem build_snoc (ms : List (List Nat × JVal)) (k : List Nat) (v : JVal) : build [] (ms ++ [(k, v)]) = mset (build [] ms) k v := by
  unfold build; rw [List.foldl_append]; rfl

theorem build_isMap (ms : List (List Nat × JVal)) : IsMap (build [] ms) ms := by
  have h : ∀ l : List (List Nat × JVal), IsMap (build [] l.reverse) l.reverse := by
    intro l
    induction l with
    | nil => exact ⟨List.Pairwise.nil, fun k => rfl⟩
    | cons m l ih =>
      rw [List.reverse_cons, build_snoc]
      refine ⟨mset_sorted ih.1 _ _, fun k => ?_⟩
      rw [entry_mset, lastOf_append, ih.2 k]
  have := h ms.reverse
  rwa [List.reverse_reverse] at this

theorem entry_none_of_lt {o : List (List Nat × JVal)} {k : List Nat} (h : ∀ x ∈ o, lt k x.1 = true) : entry o k = none := by
  induction o with
  | nil => rfl
  | cons p o ih =>
    rw [entry_cons, if_neg, ih (fun x hx => h x (List.mem_cons_of_mem _ hx))]
    intro e
    have := h p (List.mem_cons_self ..)
    rw [e, lt_irrefl] at this
    cases this

theorem sorted_unique {a b : List (List Nat × JVal)} (ha : Sorted a) (hb : Sorted b) (h : ∀ k, entry a k = entry b k) : a = b := by
  induction a generalizing b with
  | nil =>
    cases b with
    | nil => rfl
    | cons p b => have := h p.1; rw [entry_cons, if_pos rfl] at this; cases this
  | cons p a ih =>
    cases b with
    | nil => have := h p.1; rw [entry_cons, if_pos rfl] at this; cases this
    | cons q b =>
      have ha' := List.pairwise_cons.1 ha
      have hb' := List.pairwise_cons.1 hb
      have hk : p.1 = q.1 := by
        rcases lt_total p.1 q.1 with e | e | e
        · exact e
        · have h1 := h p.1
          rw [entry_cons, if_pos rfl, entry_none_of_lt] at h1
          · cases h1
          · intro x hx
            rcases List.mem_cons.1 hx with rfl | hx
            · exact e
            · exact lt_trans e (hb'.1 x hx)
        · have h1 := h q.1
          rw [entry_cons (p := q), if_pos rfl, entry_none_of_lt] at h1
          · cases h1
          · intro x hx
            rcases List.mem_cons.1 hx with rfl | hx
            · exact e
            · exact lt_trans e (ha'.1 x hx)
      have hv : p.2 = q.2 := by
        have h1 := h p.1
        rw [entry_cons, if_pos rfl, entry_cons, if_pos hk.symm] at h1
        exact Option.some.inj h1
      have hpq : p = q := Prod.ext hk hv
      subst hpq
      congr 1
      refine ih ha'.2 hb'.2 fun k => ?_
      by_cases e : p.1 = k
      · rw [← e, entry_none_of_lt ha'.1, entry_none_of_lt hb'.1]
      · have h1 := h k
        rwa [entry_cons, if_neg e, entry_cons, if_neg e] at h1

theorem isMap_build {o ms : List (List Nat × JVal)} (h : IsMap o ms) : o = build [] ms :=
  sorted_unique h.1 (build_isMap ms).1 fun k => by rw [h.2 k, (build_isMap ms).2 k]

end Arax.Json
