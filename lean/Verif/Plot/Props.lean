import Verif.Plot.Spec
/-!
# C89: proofs
-/
namespace Arax.Plot
open Arax.Json

/-! ## The samples -/

theorem same_iff : ∀ (a b : List Nat), a.length = b.length → (same a b = true ↔ a = b)
  | [], [], _ => by simp [same]
  | [], _ :: _, h => by simp at h
  | _ :: _, [], h => by simp at h
  | x :: a, y :: b, h => by
    have := same_iff a b (by simpa using h)
    simp [same, this]

theorem same_refl (a : List Nat) : same a a = true := (same_iff a a rfl).mpr rfl

/-- What is trimmed is the front. -/
theorem removeIf_false (last : List Nat) : ∀ l, removeIf false last l = l
  | [] => rfl
  | s :: l => by simp [removeIf, removeIf_false last l]

theorem removeIf_split (last : List Nat) : ∀ l, ∃ pre, l = pre ++ removeIf true last l ∧ (∀ s ∈ pre, same s.values last = true) ∧
    ∀ s, (removeIf true last l).head? = some s → same s.values last = false
  | [] => ⟨[], rfl, by simp, by simp [removeIf]⟩
  | s :: l => by
    by_cases h : same s.values last = true
    · obtain ⟨pre, h1, h2, h3⟩ := removeIf_split last l
      refine ⟨s :: pre, ?_, ?_, ?_⟩
      · simp only [removeIf, h, Bool.and_self, if_pos, List.cons_append]; rw [← h1]
      · intro x hx
        rcases List.mem_cons.mp hx with rfl | hx
        · exact h
        · exact h2 x hx
      · simpa [removeIf, h] using h3
    · refine ⟨[], ?_, by simp, ?_⟩
      · simp [removeIf, h, removeIf_false]
      · intro x hx
        simp only [removeIf, h, Bool.and_false] at hx
        simp at hx
        subst hx; simpa using h

/-- Trimming, for a recording in order of time. -/
theorem trim_spec {k : Nat} {rec : List Sample} (hr : Recording k rec) (hne : rec ≠ []) : IdleEnd rec (trim rec.reverse).reverse := by
  obtain ⟨e, he⟩ : ∃ e, rec.getLast? = some e := by
    cases h : rec.getLast? with
    | none => rw [List.getLast?_eq_none_iff] at h; exact absurd h hne
    | some e => exact ⟨e, rfl⟩
  have hh : rec.reverse.head? = some e := by rw [List.head?_reverse, he]
  have hme : e ∈ rec := List.mem_of_getLast? he
  obtain ⟨l, hl⟩ : ∃ l, rec.reverse = e :: l := by
    cases h : rec.reverse with
    | nil => rw [h] at hh; cases hh
    | cons a l => rw [h] at hh; cases hh; exact ⟨l, rfl⟩
  obtain ⟨pre, h1, h2, h3⟩ := removeIf_split e.values rec.reverse
  have ht : trim rec.reverse = removeIf true e.values rec.reverse := by rw [hl]; rfl
  rw [ht]
  have hv : ∀ s ∈ rec, (same s.values e.values = true ↔ s.values = e.values) := fun s hs => same_iff _ _ (by rw [hr.width s hs, hr.width e hme])
  have hmem : ∀ s, s ∈ pre ∨ s ∈ removeIf true e.values rec.reverse → s ∈ rec := by
    intro s hs
    rw [← List.mem_reverse, h1]
    exact List.mem_append.mpr hs
  refine ⟨pre.reverse, ?_, ?_, ?_, ?_⟩
  · rw [← List.reverse_append, ← h1, List.reverse_reverse]
  · intro hp
    have hp : pre = [] := by simpa using hp
    have := h3 e (by rw [hp, List.nil_append] at h1; rw [← h1, hh])
    rw [same_refl] at this; cases this
  · intro s hs e' he'
    rw [he] at he'; cases he'
    have hs : s ∈ pre := by simpa using hs
    exact (hv s (hmem s (.inl hs))).mp (h2 s hs)
  · intro s e' hs he' hc
    rw [he] at he'; cases he'
    rw [List.getLast?_reverse] at hs
    have := h3 s hs
    rw [(hv s (hmem s (.inr (List.mem_of_head? hs)))).mpr hc] at this
    cases this

/-- There is one idle end. -/
theorem idle_unique {rec k1 k2 : List Sample} (h1 : IdleEnd rec k1) (h2 : IdleEnd rec k2) : k1 = k2 := by
  have key : ∀ {k1 k2 : List Sample}, IdleEnd rec k1 → IdleEnd rec k2 → k1.length ≤ k2.length := by
    intro k1 k2 h1 h2
    obtain ⟨i1, e1, n1, a1, b1⟩ := h1
    obtain ⟨i2, e2, n2, a2, b2⟩ := h2
    apply Classical.byContradiction
    intro hlt
    -- the last sample of `k1` is in the idle part of `k2`
    obtain ⟨e, he⟩ : ∃ e, rec.getLast? = some e := by
      cases h : rec.getLast? with
      | none => rw [List.getLast?_eq_none_iff] at h; rw [e1] at h; simp [n1] at h
      | some e => exact ⟨e, rfl⟩
    obtain ⟨s, hs⟩ : ∃ s, k1.getLast? = some s := by
      cases h : k1.getLast? with
      | none => rw [List.getLast?_eq_none_iff] at h; rw [h] at hlt; simp at hlt
      | some e => exact ⟨e, rfl⟩
    refine b1 s e hs he (a2 s ?_ e he)
    have g1 : rec[k1.length - 1]? = some s := by
      rw [e1, List.getElem?_append_left (by omega), ← List.getLast?_eq_getElem?, hs]
    rw [e2, List.getElem?_append_right (by omega)] at g1
    exact List.mem_of_getElem? g1
  have hl : k1.length = k2.length := Nat.le_antisymm (key h1 h2) (key h2 h1)
  obtain ⟨i1, e1, _⟩ := h1
  obtain ⟨i2, e2, _⟩ := h2
  exact (List.append_inj (e1.symm.trans e2) hl).1

theorem loop_head (p c : Sample) (r : List Sample) : ∃ w, loop p c r = p :: w := by
  induction r generalizing c with
  | nil => exact ⟨_, rfl⟩
  | cons n r ih =>
    simp only [loop]
    split
    · exact ih n
    · exact ⟨_, rfl⟩

theorem loop_sublist (p c : Sample) (r : List Sample) : (loop p c r).Sublist (p :: c :: r) := by
  induction r generalizing p c with
  | nil => exact List.Sublist.refl _
  | cons n r ih =>
    simp only [loop]
    split
    · exact (ih p n).trans (List.Sublist.cons_cons p (List.Sublist.cons c (List.Sublist.refl _)))
    · exact List.Sublist.cons_cons p (ih c n)

/-- After two equal samples comes an equal one. -/
theorem loop_second {k : Nat} (p c : Sample) (r : List Sample) (hw : ∀ s ∈ p :: c :: r, s.values.length = k) (h : p.values = c.values) :
    ∃ x w, loop p c r = p :: x :: w ∧ x.values = c.values ∧ x ∈ c :: r := by
  induction r generalizing p c with
  | nil => exact ⟨c, [], rfl, rfl, by simp⟩
  | cons n r ih =>
    simp only [loop]
    split
    · rename_i hc
      simp only [Bool.and_eq_true] at hc
      have e2 := (same_iff c.values n.values (by rw [hw c (by simp), hw n (by simp)])).mp hc.2
      obtain ⟨x, w, h1, h2, h3⟩ := ih p n (fun s hs => hw s (by simp only [List.mem_cons] at hs ⊢; grind)) (by rw [h, e2])
      exact ⟨x, w, h1, by rw [h2, e2], List.mem_cons_of_mem _ h3⟩
    · obtain ⟨w, h1⟩ := loop_head c n r
      exact ⟨c, w, by rw [h1], rfl, by simp⟩

/-- The other direction of time. -/
def DrawnR (w : List Sample) (s : Sample) : Prop :=
  s ∈ w ∨ ∃ l a b r, w = l ++ a :: b :: r ∧ a.values = s.values ∧ b.values = s.values ∧ s.start ≤ a.start ∧ b.start ≤ s.start

theorem drawnR_cons {w : List Sample} {s : Sample} (p : Sample) (h : DrawnR w s) : DrawnR (p :: w) s := by
  rcases h with h | ⟨l, a, b, r, h, h'⟩
  · exact .inl (List.mem_cons_of_mem _ h)
  · exact .inr ⟨p :: l, a, b, r, by rw [h]; rfl, h'⟩

theorem loop_drawn {k : Nat} (p c : Sample) (r : List Sample) (hw : ∀ s ∈ p :: c :: r, s.values.length = k) (ht : (p :: c :: r).Pairwise (fun a b => b.start ≤ a.start)) :
    ∀ s ∈ p :: c :: r, DrawnR (loop p c r) s := by
  induction r generalizing p c with
  | nil => intro s hs; exact .inl hs
  | cons n r ih =>
    intro s hs
    simp only [loop]
    have hsub : ∀ s ∈ p :: n :: r, s ∈ p :: c :: n :: r := fun s hs => by simp only [List.mem_cons] at hs ⊢; grind
    split
    · rename_i hc
      simp only [Bool.and_eq_true] at hc
      have e1 := (same_iff p.values c.values (by rw [hw p (by simp), hw c (by simp)])).mp hc.1
      have e2 := (same_iff c.values n.values (by rw [hw c (by simp), hw n (by simp)])).mp hc.2
      have hw' : ∀ s ∈ p :: n :: r, s.values.length = k := fun s hs => hw s (hsub s hs)
      have ht' : (p :: n :: r).Pairwise (fun a b => b.start ≤ a.start) :=
        ht.sublist (List.Sublist.cons_cons p (List.Sublist.cons c (List.Sublist.refl _)))
      by_cases hsc : s = c
      · subst hsc
        obtain ⟨x, w, h1, h2, h3⟩ := loop_second p n r hw' (by rw [e1, e2])
        rw [h1]
        refine .inr ⟨[], p, x, w, rfl, e1, by rw [h2, e2], ?_, ?_⟩
        · exact (List.pairwise_cons.mp ht).1 s (by simp)
        · exact (List.pairwise_cons.mp (List.pairwise_cons.mp ht).2).1 x h3
      · refine ih p n hw' ht' s ?_
        simp only [List.mem_cons] at hs ⊢; grind
    · rcases List.mem_cons.mp hs with rfl | hs
      · exact .inl (List.mem_cons_self ..)
      · exact drawnR_cons p (ih c n (fun s hs => hw s (List.mem_cons_of_mem _ hs)) (List.pairwise_cons.mp ht).2 s hs)

/-- No three neighbouring points are equal. -/
theorem loop_thin {k : Nat} (p c : Sample) (r : List Sample) (hw : ∀ s ∈ p :: c :: r, s.values.length = k) :
    ∀ l a b d t, loop p c r = l ++ a :: b :: d :: t → ¬ (a.values = b.values ∧ b.values = d.values) := by
  induction r generalizing p c with
  | nil =>
    intro l a b d t h
    have := congrArg List.length h
    simp [loop] at this
    omega
  | cons n r ih =>
    intro l a b d t h
    simp only [loop] at h
    split at h
    · exact ih p n (fun s hs => hw s (by simp only [List.mem_cons] at hs ⊢; grind)) l a b d t h
    · rename_i hc
      have hw' : ∀ s ∈ c :: n :: r, s.values.length = k := fun s hs => hw s (List.mem_cons_of_mem _ hs)
      cases l with
      | cons x l =>
        simp only [List.cons_append, List.cons.injEq] at h
        exact ih c n hw' l a b d t h.2
      | nil =>
        rintro ⟨e1, e2⟩
        simp only [List.nil_append, List.cons.injEq] at h
        obtain ⟨rfl, h⟩ := h
        obtain ⟨w, hh⟩ := loop_head c n r
        rw [hh] at h
        simp only [List.cons.injEq] at h
        obtain ⟨rfl, h⟩ := h
        have s1 : same p.values c.values = true := (same_iff _ _ (by rw [hw p (by simp), hw c (by simp)])).mpr e1
        -- the next sample differs, so nothing is erased there
        have s2 : same c.values n.values = false := by simpa [s1] using hc
        cases r with
        | nil =>
          simp only [loop, List.cons.injEq] at hh
          rw [← hh.2] at h
          simp only [List.cons.injEq] at h
          rw [h.1, ← e2, same_refl] at s2; cases s2
        | cons n' r =>
          rw [loop, s2, Bool.false_and, if_neg (by simp)] at hh
          obtain ⟨w', hh'⟩ := loop_head n n' r
          rw [hh'] at hh
          simp only [List.cons.injEq, true_and] at hh
          rw [← hh] at h
          simp only [List.cons.injEq] at h
          rw [h.1, ← e2, same_refl] at s2; cases s2

/-! ## The text -/

theorem dec_lt {n : Nat} (h : n < 10) : dec n = [48 + n] := by rw [dec, dif_pos h]
theorem dec_ge {n : Nat} (h : ¬ n < 10) : dec n = dec (n / 10) ++ [48 + n % 10] := by rw [dec, dif_neg h]

theorem dec_digs (n : Nat) : Digs (dec n) := by
  induction n using Nat.strongRecOn with
  | _ n ih =>
    by_cases h : n < 10
    · rw [dec_lt h]; intro d hd; simp at hd; omega
    · rw [dec_ge h]
      intro d hd
      rcases List.mem_append.mp hd with hd | hd
      · exact ih (n / 10) (by omega) d hd
      · simp at hd; omega

theorem decimal_append (a : List Nat) (d : Nat) : decimal (a ++ [d]) = decimal a * 10 + (d - 48) := by
  induction a with
  | nil => simp [decimal]
  | cons x a ih =>
    simp only [List.cons_append, decimal, ih, List.length_append, List.length_singleton, Nat.pow_succ, Nat.add_mul, Nat.mul_assoc]
    omega

theorem dec_decimal (n : Nat) : decimal (dec n) = n := by
  induction n using Nat.strongRecOn with
  | _ n ih =>
    by_cases h : n < 10
    · rw [dec_lt h]; simp [decimal]
    · rw [dec_ge h, decimal_append, ih (n / 10) (by omega)]; omega

theorem dec_head (n : Nat) : dec n = [48] ∨ (dec n ≠ [] ∧ (dec n).head? ≠ some 48) := by
  induction n using Nat.strongRecOn with
  | _ n ih =>
    by_cases h : n < 10
    · rw [dec_lt h]
      by_cases h0 : n = 0
      · subst h0; exact .inl rfl
      · exact .inr ⟨by simp, by simp; omega⟩
    · rw [dec_ge h]
      refine .inr ⟨by simp, ?_⟩
      rcases ih (n / 10) (by omega) with h1 | ⟨h1, h2⟩
      · exfalso
        have := dec_decimal (n / 10)
        rw [h1] at this
        simp [decimal] at this
        omega
      · cases e : dec (n / 10) with
        | nil => exact absurd e h1
        | cons x y => rw [e] at h2; simpa using h2

theorem finite_nat (n : Nat) (h : n < 2 ^ 64) : finite (n : Int) 0 = true := by
  have hbig : (2 : Nat) ^ 64 ≤ 2 ^ 1024 - 2 ^ 970 := by decide +kernel
  have hlt : n < 2 ^ 1024 - 2 ^ 970 := Nat.lt_of_lt_of_le h hbig
  unfold finite
  generalize (2 : Nat) ^ 1024 - 2 ^ 970 = B at hlt
  rw [if_pos (Int.le_refl 0), Int.natAbs_natCast]
  simpa using hlt

theorem num_lt {n : Nat} (h : n < 2 ^ 63) : num n = .int n := if_pos h
theorem num_ge {n : Nat} (h : 2 ^ 63 ≤ n) : num n = .dec n 0 := if_neg (by omega)

theorem dec_mant (n : Nat) : NumParts.mant ⟨false, dec n, none, none⟩ = (n : Int) := by simp [NumParts.mant, dec_decimal]

theorem dec_exp (n : Nat) : NumParts.exp ⟨false, dec n, none, none⟩ = 0 := by simp [NumParts.exp]

theorem dec_small (n : Nat) (h1 : n < 2 ^ 63) : NumParts.Denotes ⟨false, dec n, none, none⟩ (num n) := by
  rw [NumParts.Denotes, dec_mant, dec_exp, num_lt h1]
  rw [if_pos ⟨rfl, rfl, by omega, by omega⟩]

theorem dec_large (n : Nat) (h1 : 2 ^ 63 ≤ n) : NumParts.Denotes ⟨false, dec n, none, none⟩ (num n) := by
  rw [NumParts.Denotes, dec_mant, dec_exp, num_ge h1]
  rw [if_neg (fun h2 => by have := h2.2.2.2; omega)]

theorem dec_holds (n : Nat) (h : n < 2 ^ 64) : NumParts.Holds ⟨false, dec n, none, none⟩ := by
  have := finite_nat n h
  rw [NumParts.Holds, dec_mant, dec_exp]
  exact this

attribute [local irreducible] NumParts.Denotes NumParts.Holds

theorem dec_ex (n : Nat) : NumParts.ExOk ⟨false, dec n, none, none⟩ := by
  intro _ _ _ hf
  cases hf

/-- A numeral denotes its number. -/
theorem dec_strict (n : Nat) (h : n < 2 ^ 64) : Strict (dec n) (num n) :=
  ⟨⟨false, dec n, none, none⟩, by simp [NumParts.text], dec_digs n, dec_head n, (fun _ hf => by cases hf), dec_ex n,
    dec_holds n h, (Nat.lt_or_ge n (2 ^ 63)).elim (dec_small n) (dec_large n)⟩

theorem ws_nil : Ws [] := by intro c hc; simp at hc

/-- A non-empty row. -/
theorem commas_items : ∀ (l : List Nat), l ≠ [] → (∀ n ∈ l, n < 2 ^ 64) → G Strict (commas l) (.items (l.map num))
  | [], h, _ => absurd rfl h
  | [n], _, hb => by
    have := G.item ws_nil (G.num (dec_strict n (hb n (by simp)))) ws_nil
    simpa [commas] using this
  | n :: m :: l, _, hb => by
    have h1 := G.num (dec_strict n (hb n (by simp)))
    have h2 := commas_items (m :: l) (by simp) (fun x hx => hb x (List.mem_cons_of_mem _ hx))
    have := G.items ws_nil h1 ws_nil h2
    simpa [commas] using this

theorem row (l : List Nat) (h : l ≠ []) (hb : ∀ n ∈ l, n < 2 ^ 64) : G Strict ([91] ++ commas l ++ [93]) (.val (.arr (l.map num))) :=
  .arr (commas_items l h hb)

theorem ws_nl : Ws [10] := by intro c hc; simp at hc; omega

/-- A row followed by columns. -/
theorem columns_items (w : List Sample) (hne : w ≠ []) (k : Nat) (hb : ∀ s ∈ w, ∀ c, s.values.getD c 0 < 2 ^ 64) :
    ∀ c (ws' : List Nat) (t : List Nat) (v : JVal), Ws ws' → G Strict t (.val v) →
      G Strict (ws' ++ t ++ [10] ++ columns w c k) (.items (v :: (List.range' c k).map (fun c => .arr (w.map (fun s => num (s.values.getD c 0)))))) := by
  induction k with
  | zero =>
    intro c ws' t v hws ht
    simpa [columns] using G.item hws ht ws_nl
  | succ k ih =>
    intro c ws' t v hws ht
    have hr := row (w.map (fun s => s.values.getD c 0)) (by simpa using hne) (by
      intro n hn
      obtain ⟨s, hs, rfl⟩ := List.mem_map.mp hn
      exact hb s hs c)
    have h2 := ih (c + 1) [] _ _ ws_nil hr
    have := G.items hws ht ws_nl h2
    simpa [columns, List.range'_succ, Function.comp_def] using this

/-- The text of the page's data is the JSON of the matrix. -/
theorem write_doc (w : List Sample) (hne : w ≠ []) (k : Nat) (hk : ∀ s ∈ w, s.values.length = k) (hb : ∀ s ∈ w, s.start < 2 ^ 64 ∧ ∀ v ∈ s.values, v < 2 ^ 64) :
    Doc Strict (write w) (matrix w k) := by
  have hh : (w.head?.map (·.values.length)).getD 0 = k := by
    cases w with
    | nil => exact absurd rfl hne
    | cons s w => simpa using hk s (by simp)
  have hr := row (w.map (·.start)) (by simpa using hne) (by
    intro n hn
    obtain ⟨s, hs, rfl⟩ := List.mem_map.mp hn
    exact (hb s hs).1)
  have hc := columns_items w hne k (by
    intro s hs c
    rw [List.getD_eq_getElem?_getD]
    cases e : s.values[c]? with
    | none => simp
    | some v => simpa using (hb s hs).2 v (List.mem_of_getElem? e)) 0 [10] _ _ ws_nl hr
  refine ⟨[], write w, [], by simp, ws_nil, ?_, ws_nil⟩
  have := G.arr hc
  rw [write, hh, matrix, List.range_eq_range']
  simpa [Function.comp_def] using this

end Arax.Plot
