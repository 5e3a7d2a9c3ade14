import Verif.Grind.Spec
import Verif.Json.Map
/-!
# Lemmas for C90
-/
namespace Arax.Grind

theorem label_eq (o : Obj) : nameOf o = label o := by
  unfold nameOf label
  cases h : o.kind <;> simp
  cases o.procName <;> first | rfl | decide

theorem bytes_eq {S : Sizes} {o : Obj} (h : bytes S o < 2 ^ 64) : sizeOf S o = bytes S o := by
  unfold sizeOf bytes at *
  cases hk : o.kind <;> rw [hk] at h <;> simp at *
  omega

/-! ## Maps -/

section Map
variable {K V : Type} [DecidableEq K]

/-- A strict order of the keys. -/
structure Ord (lt : K → K → Bool) : Prop where
  irrefl : ∀ a, lt a a = false
  trans : ∀ a b c, lt a b = true → lt b c = true → lt a c = true
  total : ∀ a b, a = b ∨ lt a b = true ∨ lt b a = true

/-- Keys strictly increasing. -/
def Sorted (lt : K → K → Bool) (m : List (K × V)) : Prop := m.Pairwise (fun a b => lt a.1 b.1 = true)

/-- Element for a key. -/
def get (m : List (K × V)) (k : K) : Option V :=
  match m with
  | [] => none
  | (k', v) :: l => if k = k' then some v else get l k

theorem alter_mem {lt : K → K → Bool} {d : V} {k : K} {f : V → V} {m : List (K × V)} {x : K × V} (h : x ∈ alter lt d k f m) : x.1 = k ∨ x ∈ m := by
  induction m with
  | nil => simp [alter] at h; exact .inl (by rw [h])
  | cons a l ih =>
    obtain ⟨k', v⟩ := a
    rw [alter] at h
    split at h
    · rename_i e
      rcases List.mem_cons.mp h with h | h
      · left; rw [h, e]
      · exact .inr (List.mem_cons_of_mem _ h)
    · split at h
      · rcases List.mem_cons.mp h with h | h
        · left; rw [h]
        · exact .inr h
      · rcases List.mem_cons.mp h with h | h
        · right; rw [h]; exact List.mem_cons_self
        · rcases ih h with h | h
          · exact .inl h
          · exact .inr (List.mem_cons_of_mem _ h)

theorem alter_sorted {lt : K → K → Bool} (ho : Ord lt) {d : V} {k : K} {f : V → V} {m : List (K × V)} (h : Sorted lt m) : Sorted lt (alter lt d k f m) := by
  induction m with
  | nil => exact List.pairwise_singleton _ _
  | cons a l ih =>
    obtain ⟨k', v⟩ := a
    have hc := List.pairwise_cons.mp h
    rw [alter]
    split
    · exact List.pairwise_cons.mpr ⟨hc.1, hc.2⟩
    · rename_i hne
      split
      · rename_i hlt
        refine List.pairwise_cons.mpr ⟨?_, h⟩
        intro x hx
        rcases List.mem_cons.mp hx with e | hx
        · rw [e]; exact hlt
        · exact ho.trans _ _ _ hlt (hc.1 x hx)
      · rename_i hlt
        refine List.pairwise_cons.mpr ⟨?_, ih hc.2⟩
        intro x hx
        rcases alter_mem hx with e | hx
        · rw [e]
          rcases ho.total k k' with h | h | h
          · exact absurd h hne
          · exact absurd h hlt
          · exact h
        · exact hc.1 x hx

theorem get_none_of_lt {lt : K → K → Bool} (ho : Ord lt) {k : K} {m : List (K × V)} (h : ∀ x ∈ m, lt k x.1 = true) : get m k = none := by
  induction m with
  | nil => rfl
  | cons a l ih =>
    rw [get, if_neg]
    · exact ih (fun x hx => h x (List.mem_cons_of_mem _ hx))
    · intro e
      have := h a List.mem_cons_self
      rw [e, ho.irrefl] at this
      cases this

theorem get_alter {lt : K → K → Bool} (ho : Ord lt) {d : V} {k : K} {f : V → V} {m : List (K × V)} (h : Sorted lt m) (k2 : K) :
    get (alter lt d k f m) k2 = if k2 = k then some (f ((get m k).getD d)) else get m k2 := by
  induction m with
  | nil => simp [alter, get]
  | cons a l ih =>
    obtain ⟨k', v⟩ := a
    have hc := List.pairwise_cons.mp h
    rw [alter]
    by_cases hk : k = k'
    · rw [if_pos hk, get, get, get, if_pos hk, ← hk]
      split <;> rfl
    · rw [if_neg hk]
      by_cases hl : lt k k' = true
      · rw [if_pos hl, get]
        have : get ((k', v) :: l) k = none := get_none_of_lt ho (by
          intro x hx
          rcases List.mem_cons.mp hx with e | hx
          · rw [e]; exact hl
          · exact ho.trans _ _ _ hl (hc.1 x hx))
        rw [this]; rfl
      · rw [if_neg hl, get, ih hc.2]
        rw [get, if_neg hk, get]
        by_cases h2 : k2 = k'
        · rw [if_pos h2, if_neg (by rw [h2]; exact fun e => hk e.symm), if_pos h2]
        · rw [if_neg h2, if_neg h2]

theorem get_mem {m : List (K × V)} {k : K} {v : V} (h : get m k = some v) : (k, v) ∈ m := by
  induction m with
  | nil => cases h
  | cons a l ih =>
    obtain ⟨k', v'⟩ := a
    rw [get] at h
    split at h
    · rename_i e; rw [Option.some.inj h, e]; exact List.mem_cons_self
    · exact List.mem_cons_of_mem _ (ih h)

theorem mem_get {lt : K → K → Bool} (ho : Ord lt) {m : List (K × V)} (hs : Sorted lt m) {k : K} {v : V} (h : (k, v) ∈ m) : get m k = some v := by
  induction m with
  | nil => cases h
  | cons a l ih =>
    obtain ⟨k', v'⟩ := a
    have hc := List.pairwise_cons.mp hs
    rw [get]
    rcases List.mem_cons.mp h with e | h
    · rw [(Prod.mk.inj e).1, if_pos rfl, (Prod.mk.inj e).2]
    · rw [if_neg, ih hc.2 h]
      intro e
      have := hc.1 _ h
      rw [e, ho.irrefl] at this
      cases this

end Map

theorem ordN : Ord ltN := ⟨by simp [ltN], by simp [ltN]; omega, by simp [ltN]; omega⟩
theorem ordS : Ord Json.lt := ⟨Json.lt_irrefl, fun _ _ _ => Json.lt_trans, Json.lt_total⟩

/-! ## The collection -/

theorem collect_eq (S : Sizes) (l : List Obj) (c t : Nat) (m : Leaks) (hc : c < 2 ^ 64) (ht : t < 2 ^ 64) :
    collect S (c, t, m) l = ((c + l.length) % 2 ^ 64, (t + (l.map (sizeOf S)).sum) % 2 ^ 64, l.foldl (add S) m) := by
  induction l generalizing c t m with
  | nil => simp [collect, Nat.mod_eq_of_lt hc, Nat.mod_eq_of_lt ht]
  | cons o l ih =>
    rw [collect, ih _ _ _ (Nat.mod_lt _ (by omega)) (Nat.mod_lt _ (by omega))]
    simp only [List.length_cons, List.map_cons, List.sum_cons, List.foldl_cons, Prod.mk.injEq, and_true]
    constructor <;> omega

/-- Line for given key. -/
def getL (m : Leaks) (s : Nat) (n : List Nat) : Option Leak := (get m s).bind (fun im => get im n)

/-- What the map is after the objects `l`. -/
structure MInv (S : Sizes) (m : Leaks) (l : List Obj) : Prop where
  outer : Sorted ltN m
  inner : ∀ x ∈ m, Sorted Json.lt x.2 ∧ x.2 ≠ []
  val : ∀ s n, getL m s n = if l.filter (fun o => sizeOf S o = s ∧ nameOf o = n) = [] then none
    else some ((l.filter (fun o => sizeOf S o = s ∧ nameOf o = n)).foldl (Leak.track S) Leak.new)

theorem alter_ne_nil {K V : Type} [DecidableEq K] (lt : K → K → Bool) (d : V) (k : K) (f : V → V) (m : List (K × V)) : alter lt d k f m ≠ [] := by
  cases m with
  | nil => simp [alter]
  | cons a l => obtain ⟨k', v⟩ := a; rw [alter]; split <;> (try split) <;> simp

theorem alter_inner {S : Sizes} {m : Leaks} {l : List Obj} (h : MInv S m l) (s : Nat) (n : List Nat) (f : Leak → Leak) :
    ∀ x ∈ alter ltN [] s (alter Json.lt Leak.new n f) m, Sorted Json.lt x.2 ∧ x.2 ≠ [] := by
  intro x hx
  have hs := alter_sorted ordN (d := []) (k := s) (f := alter Json.lt Leak.new n f) h.outer
  have hg := mem_get ordN hs (k := x.1) (v := x.2) hx
  rw [get_alter ordN h.outer] at hg
  split at hg
  · have e := Option.some.inj hg
    rw [← e]
    refine ⟨?_, alter_ne_nil _ _ _ _ _⟩
    apply alter_sorted ordS
    cases hm : get m s with
    | none => exact List.Pairwise.nil
    | some im => exact (h.inner _ (get_mem hm)).1
  · exact h.inner _ (get_mem hg)

theorem add_inv {S : Sizes} {m : Leaks} {l : List Obj} (h : MInv S m l) (o : Obj) : MInv S (add S m o) (l ++ [o]) := by
  refine ⟨alter_sorted ordN h.outer, alter_inner h _ _ _, ?_⟩
  intro s n
  unfold add getL
  rw [get_alter ordN h.outer, List.filter_append]
  by_cases hs : s = sizeOf S o
  · rw [if_pos hs]
    have hin : Sorted Json.lt ((get m (sizeOf S o)).getD []) := by
      cases hm : get m (sizeOf S o) with
      | none => exact List.Pairwise.nil
      | some im => exact (h.inner _ (get_mem hm)).1
    have hv := h.val s n
    have hgl : getL m s n = get ((get m (sizeOf S o)).getD []) n := by
      rw [hs]; unfold getL
      cases get m (sizeOf S o) <;> rfl
    rw [hgl] at hv
    show get _ n = _
    rw [get_alter ordS hin]
    by_cases hn : n = nameOf o
    · rw [if_pos hn, ← hn, hv]
      have : [o].filter (fun o => decide (sizeOf S o = s ∧ nameOf o = n)) = [o] := by simp [hs, hn]
      have hne : l.filter (fun o => decide (sizeOf S o = s ∧ nameOf o = n)) ++ [o] ≠ [] := by simp
      rw [this, if_neg hne, List.foldl_append]
      split
      · rename_i he; rw [he]; rfl
      · rfl
    · rw [if_neg hn, hv]
      have : [o].filter (fun o => decide (sizeOf S o = s ∧ nameOf o = n)) = [] := by
        simp; intro _ e; exact hn e.symm
      rw [this, List.append_nil]
  · rw [if_neg hs]
    have : [o].filter (fun o => decide (sizeOf S o = s ∧ nameOf o = n)) = [] := by
      simp; intro e; exact absurd e.symm hs
    rw [this, List.append_nil]
    exact h.val s n

theorem fold_inv {S : Sizes} {m : Leaks} {l : List Obj} (h : MInv S m l) (l2 : List Obj) : MInv S (l2.foldl (add S) m) (l ++ l2) := by
  induction l2 generalizing m l with
  | nil => simpa using h
  | cons o l2 ih =>
    have := ih (add_inv h o)
    rwa [List.append_assoc] at this

theorem nil_inv (S : Sizes) : MInv S [] [] := ⟨List.Pairwise.nil, by simp, by intro s n; rfl⟩

theorem collect_inv (S : Sizes) (l : List Obj) : MInv S (l.foldl (add S) []) l := by
  have := fold_inv (nil_inv S) l
  simpa using this

/-! ## One line -/

theorem fold_track (S : Sizes) (g : List Obj) (x : Leak) (hx : x.leaks < 2 ^ 64) (ht : x.total < 2 ^ 64) :
    (g.foldl (Leak.track S) x).instances = x.instances ++ g.map (fun o => (o.addr, o.refs)) ∧
    (g.foldl (Leak.track S) x).leaks = (x.leaks + g.length) % 2 ^ 64 ∧
    (g.foldl (Leak.track S) x).total = (x.total + (g.map (sizeOf S)).sum) % 2 ^ 64 ∧
    (∀ o ∈ g, o.refs ≤ (g.foldl (Leak.track S) x).maxRef) ∧ x.maxRef ≤ (g.foldl (Leak.track S) x).maxRef ∧
    ((g.foldl (Leak.track S) x).maxRef = x.maxRef ∨ ∃ o ∈ g, o.refs = (g.foldl (Leak.track S) x).maxRef) ∧
    (∀ o ∈ g, (g.foldl (Leak.track S) x).minRef ≤ o.refs) ∧ (g.foldl (Leak.track S) x).minRef ≤ x.minRef ∧
    ((g.foldl (Leak.track S) x).minRef = x.minRef ∨ ∃ o ∈ g, o.refs = (g.foldl (Leak.track S) x).minRef) := by
  induction g generalizing x with
  | nil => simp [Nat.mod_eq_of_lt hx, Nat.mod_eq_of_lt ht]
  | cons o g ih =>
    obtain ⟨h1, h2, h3, h4, h5, h6, h7, h8, h9⟩ := ih (x.track S o) (Nat.mod_lt _ (by omega)) (Nat.mod_lt _ (by omega))
    simp only [List.foldl_cons]
    have e1 : (x.track S o).maxRef = max x.maxRef o.refs := rfl
    have e2 : (x.track S o).minRef = min x.minRef o.refs := rfl
    have e3 : (x.track S o).leaks = (x.leaks + 1) % 2 ^ 64 := rfl
    have e4 : (x.track S o).total = (x.total + sizeOf S o) % 2 ^ 64 := rfl
    refine ⟨?_, ?_, ?_, ?_, ?_, ?_, ?_, ?_, ?_⟩
    · rw [h1]; simp [Leak.track]
    · rw [h2, e3]; simp only [List.length_cons]; omega
    · rw [h3, e4]; simp only [List.map_cons, List.sum_cons]; omega
    · intro a ha
      rcases List.mem_cons.mp ha with e | ha
      · rw [e]; omega
      · exact h4 a ha
    · omega
    · rcases h6 with h6 | ⟨a, ha, h6⟩
      · by_cases hm : x.maxRef ≤ o.refs
        · right; exact ⟨o, List.mem_cons_self, by rw [h6, e1]; omega⟩
        · left; rw [h6, e1]; omega
      · right; exact ⟨a, List.mem_cons_of_mem _ ha, h6⟩
    · intro a ha
      rcases List.mem_cons.mp ha with e | ha
      · rw [e]; omega
      · exact h7 a ha
    · omega
    · rcases h9 with h9 | ⟨a, ha, h9⟩
      · by_cases hm : o.refs ≤ x.minRef
        · right; exact ⟨o, List.mem_cons_self, by rw [h9, e2]; omega⟩
        · left; rw [h9, e2]; omega
      · right; exact ⟨a, List.mem_cons_of_mem _ ha, h9⟩

theorem fold_key (S : Sizes) (s : Nat) (n : List Nat) (g : List Obj) (x : Leak) (hg : ∀ o ∈ g, sizeOf S o = s ∧ nameOf o = n) (hne : g ≠ []) :
    (g.foldl (Leak.track S) x).size = s ∧ (g.foldl (Leak.track S) x).name = n := by
  induction g generalizing x with
  | nil => exact absurd rfl hne
  | cons o g ih =>
    by_cases h : g = []
    · subst h
      exact ⟨(hg o List.mem_cons_self).1, (hg o List.mem_cons_self).2⟩
    · exact ih (x.track S o) (fun a ha => hg a (List.mem_cons_of_mem _ ha)) h

theorem sum_const {S : Sizes} {s : Nat} {g : List Obj} (h : ∀ o ∈ g, bytes S o = s) : totalBytes S g = g.length * s := by
  induction g with
  | nil => simp [totalBytes]
  | cons o g ih =>
    have := ih (fun a ha => h a (List.mem_cons_of_mem _ ha))
    unfold totalBytes at *
    rw [List.map_cons, List.sum_cons, this, h o List.mem_cons_self, List.length_cons, Nat.succ_mul]; omega

theorem le_total {S : Sizes} {l : List Obj} {o : Obj} (h : o ∈ l) : bytes S o ≤ totalBytes S l := by
  induction l with
  | nil => cases h
  | cons a l ih =>
    unfold totalBytes at *
    rw [List.map_cons, List.sum_cons]
    rcases List.mem_cons.mp h with e | h
    · rw [e]; omega
    · have := ih h; omega

theorem filter_total {S : Sizes} (p : Obj → Bool) (l : List Obj) : totalBytes S (l.filter p) ≤ totalBytes S l := by
  induction l with
  | nil => exact Nat.le_refl _
  | cons a l ih =>
    unfold totalBytes at *
    rw [List.filter_cons]
    split
    · simp only [List.map_cons, List.sum_cons]; omega
    · simp only [List.map_cons, List.sum_cons]; omega

theorem sizes_eq {S : Sizes} {l : List Obj} (h : totalBytes S l < 2 ^ 64) : l.map (sizeOf S) = l.map (bytes S) := by
  apply List.map_congr_left
  intro o ho
  exact bytes_eq (Nat.lt_of_le_of_lt (le_total ho) h)

theorem group_eq {S : Sizes} {l : List Obj} (h : totalBytes S l < 2 ^ 64) (s : Nat) (n : List Nat) :
    l.filter (fun o => sizeOf S o = s ∧ nameOf o = n) = group S l s n := by
  unfold group
  apply List.filter_congr
  intro o ho
  rw [bytes_eq (Nat.lt_of_le_of_lt (le_total ho) h), label_eq]

/-- Lines of the map. -/
theorem mem_lines {m : Leaks} (hs : Sorted ltN m) (hi : ∀ x ∈ m, Sorted Json.lt x.2 ∧ x.2 ≠ []) (x : Leak) :
    x ∈ m.flatMap (fun p => p.2.map (·.2)) ↔ ∃ s n, getL m s n = some x := by
  constructor
  · intro h
    obtain ⟨p, hp, hx⟩ := List.mem_flatMap.mp h
    obtain ⟨q, hq, hx⟩ := List.mem_map.mp hx
    refine ⟨p.1, q.1, ?_⟩
    unfold getL
    rw [mem_get ordN hs (k := p.1) (v := p.2) hp]
    show get p.2 q.1 = some x
    rw [mem_get ordS (hi p hp).1 (k := q.1) (v := q.2) hq, hx]
  · rintro ⟨s, n, h⟩
    unfold getL at h
    cases hg : get m s with
    | none => rw [hg] at h; cases h
    | some im =>
      rw [hg] at h
      exact List.mem_flatMap.mpr ⟨(s, im), get_mem hg, List.mem_map.mpr ⟨(n, x), get_mem h, rfl⟩⟩

theorem line_key {S : Sizes} {m : Leaks} {l : List Obj} (h : MInv S m l) {s : Nat} {n : List Nat} {x : Leak} (hx : getL m s n = some x) :
    x.size = s ∧ x.name = n ∧ l.filter (fun o => sizeOf S o = s ∧ nameOf o = n) ≠ [] ∧
    x = (l.filter (fun o => sizeOf S o = s ∧ nameOf o = n)).foldl (Leak.track S) Leak.new := by
  rw [h.val] at hx
  split at hx
  · cases hx
  · rename_i hne
    have e := Option.some.inj hx
    have hk := fold_key S s n (l.filter (fun o => sizeOf S o = s ∧ nameOf o = n)) Leak.new (by
      intro o ho
      have := (List.mem_filter.mp ho).2
      simpa using this) hne
    rw [e] at hk
    exact ⟨hk.1, hk.2, hne, e.symm⟩

end Arax.Grind
