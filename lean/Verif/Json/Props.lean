import Verif.Json.Num
import Verif.Json.Map
/-!
# C85: the reader against the grammar
-/
namespace Arax.Json

theorem isWs_iff (c : Nat) : isWs c = true ↔ c = 32 ∨ c = 9 ∨ c = 10 ∨ c = 13 := by
  unfold isWs; simp only [Bool.or_eq_true, beq_iff_eq]; omega

theorem drop_ws (w t : List Nat) (hw : Ws w) : (w ++ t).dropWhile isWs = t.dropWhile isWs := by
  induction w with
  | nil => rfl
  | cons c w ih =>
    have hc : isWs c = true := (isWs_iff c).2 (hw c (List.mem_cons_self ..))
    rw [List.cons_append, List.dropWhile_cons_of_pos hc]
    exact ih (fun x hx => hw x (List.mem_cons_of_mem _ hx))

/-- A character that is not white space. -/
theorem drop_head (c : Nat) (t : List Nat) (h : isWs c = false) : (c :: t).dropWhile isWs = c :: t :=
  List.dropWhile_cons_of_neg (by rw [h]; exact Bool.false_ne_true)

theorem take_ws (t : List Nat) : Ws (t.takeWhile isWs) := by
  induction t with
  | nil => intro c hc; cases hc
  | cons d t ih =>
    by_cases h : isWs d = true
    · rw [List.takeWhile_cons_of_pos h]
      intro c hc
      rcases List.mem_cons.1 hc with rfl | hc
      · exact (isWs_iff c).1 h
      · exact ih c hc
    · rw [List.takeWhile_cons_of_neg h]; intro c hc; cases hc

theorem drop_drop (t : List Nat) : (t.dropWhile isWs).dropWhile isWs = t.dropWhile isWs := by
  have := drop_ws (t.takeWhile isWs) (t.dropWhile isWs) (take_ws t)
  rw [List.takeWhile_append_dropWhile] at this
  exact this.symm

theorem ws_split (t : List Nat) : ∃ w, Ws w ∧ t = w ++ t.dropWhile isWs := ⟨t.takeWhile isWs, take_ws t, List.takeWhile_append_dropWhile.symm⟩

/-- How values begin. -/
def Starts (c : Nat) : Prop := isWs c = false ∧ c ≠ 93 ∧ c ≠ 125 ∧ c ≠ 44

theorem val_start {t : List Nat} {v : JVal} (h : G Lax t (.val v)) : ∃ c t', t = c :: t' ∧ Starts c := by
  cases h with
  | null => exact ⟨_, _, rfl, by unfold Starts; decide⟩
  | false => exact ⟨_, _, rfl, by unfold Starts; decide⟩
  | true => exact ⟨_, _, rfl, by unfold Starts; decide⟩
  | num hn =>
    obtain ⟨p, rfl, hf, _, _⟩ := lax_form.1 hn
    obtain ⟨c, t', e, hc⟩ := text_start hf
    refine ⟨c, t', e, ?_⟩
    rcases hc with hc | rfl
    · have := (isDig_iff c).1 hc
      refine ⟨?_, by omega, by omega, by omega⟩
      cases hw : isWs c with
      | false => rfl
      | true => have := (isWs_iff c).1 hw; omega
    · unfold Starts; decide
  | str _ => exact ⟨_, _, rfl, by unfold Starts; decide⟩
  | arr0 _ => exact ⟨_, _, rfl, by unfold Starts; decide⟩
  | arr _ => exact ⟨_, _, rfl, by unfold Starts; decide⟩
  | obj0 _ => exact ⟨_, _, rfl, by unfold Starts; decide⟩
  | obj _ _ => exact ⟨_, _, rfl, by unfold Starts; decide⟩

theorem stop_ws {w r : List Nat} (hw : Ws w) (hr : Stop r) : Stop (w ++ r) := by
  cases w with
  | nil => exact hr
  | cons c w =>
    intro d hd
    rw [← Option.some.inj hd]
    rcases hw c (List.mem_cons_self ..) with rfl | rfl | rfl | rfl <;> rfl

theorem stop_cons {c : Nat} {r : List Nat} (h : isNum c = false) : Stop (c :: r) := by
  intro d hd
  rw [← Option.some.inj hd]; exact h

/-- A number value. -/
def JVal.isNumber : JVal → Bool
  | .int _ | .dec _ _ => true
  | _ => false

/-- What completeness says of each piece of text. -/
def Reads (t : List Nat) : Sem → Prop
  | .val v => ∀ (n : Nat) (i : In) (t0 r : List Nat), t.length < n → At i t0 → t0.dropWhile isWs = t ++ r → (v.isNumber = true → Stop r) →
      ∃ j, parseV n i = .ok v j ∧ At j r
  | .items l => ∀ (n : Nat) (a : List JVal) (i : In) (t0 r : List Nat), t.length + 1 < n → At i t0 →
      t0.dropWhile isWs = (t ++ 93 :: r).dropWhile isWs → ∃ j, arrLoop n a i = .ok (.arr (a ++ l)) j ∧ At j r
  | .members ms => ∀ (n : Nat) (o : List (List Nat × JVal)) (i : In) (t0 r : List Nat), t.length + 1 < n → At i t0 →
      t0.dropWhile isWs = (t ++ 125 :: r).dropWhile isWs → ∃ j, objLoop n o i = .ok (.obj (build o ms)) j ∧ At j r

theorem items_head {t : List Nat} {l : List JVal} (h : G Lax t (.items l)) (r : List Nat) : ((t ++ 93 :: r).dropWhile isWs).head? ≠ some 93 := by
  cases h with
  | item hw hv hw' =>
    obtain ⟨c, t', rfl, hs⟩ := val_start hv
    rw [List.append_assoc, List.append_assoc, drop_ws _ _ hw, List.cons_append, drop_head _ _ hs.1]
    intro e; exact hs.2.1 (Option.some.inj e)
  | items hw hv hw' _ =>
    obtain ⟨c, t', rfl, hs⟩ := val_start hv
    simp only [List.append_assoc]
    rw [drop_ws _ _ hw, List.cons_append, drop_head _ _ hs.1]
    intro e; exact hs.2.1 (Option.some.inj e)

theorem members_head {t : List Nat} {ms : List (List Nat × JVal)} (h : G Lax t (.members ms)) (r : List Nat) :
    ((t ++ 125 :: r).dropWhile isWs).head? ≠ some 125 := by
  cases h with
  | member hw _ _ _ _ _ =>
    simp only [List.append_assoc]
    rw [drop_ws _ _ hw, List.cons_append, drop_head _ _ rfl]
    intro e; cases e
  | members hw _ _ _ _ _ _ =>
    simp only [List.append_assoc]
    rw [drop_ws _ _ hw, List.cons_append, drop_head _ _ rfl]
    intro e; cases e

theorem start_at {i : In} {t0 u : List Nat} {c : Nat} (hi : At i t0) (h : t0.dropWhile isWs = c :: u) :
    ∃ i1, getc (skipWs i) = (some c, i1) ∧ At i1 u ∧ At (ungetc i1) (c :: u) := by
  have h1 := skipWs_at hi
  rw [h] at h1
  exact getc_cons h1

theorem item_reads {w t w' : List Nat} {v : JVal} (hw : Ws w) (hv : G Lax t (.val v)) (hw' : Ws w') (ih : Reads t (.val v)) {n : Nat} {i : In}
    {t0 u : List Nat} {c : Nat} (hn : t.length < n) (hi : At i t0) (h : t0.dropWhile isWs = (w ++ (t ++ (w' ++ c :: u))).dropWhile isWs)
    (hc : isNum c = false) (hc' : isWs c = false) : ∃ j, parseV n i = .ok v j ∧ At j (w' ++ c :: u) ∧ (w' ++ c :: u).dropWhile isWs = c :: u := by
  obtain ⟨d, t', e, hs⟩ := val_start hv
  have h' : t0.dropWhile isWs = t ++ (w' ++ c :: u) := by
    rw [h, drop_ws _ _ hw, e, List.cons_append, drop_head _ _ hs.1]
  obtain ⟨j, e1, a⟩ := ih n i t0 _ hn hi h' (fun _ => stop_ws hw' (stop_cons hc))
  exact ⟨j, e1, a, by rw [drop_ws _ _ hw', drop_head _ _ hc']⟩

theorem key_reads {w k s w' : List Nat} (hw : Ws w) (hk : Chars k s) (hw' : Ws w') {i : In} {t0 u : List Nat} (hi : At i t0)
    (h : t0.dropWhile isWs = (w ++ 34 :: (k ++ 34 :: (w' ++ 58 :: u))).dropWhile isWs) :
    ∃ i1 i2 i3, expect i 34 = (true, i1) ∧ parseStr i1 = (some s, i2) ∧ expect i2 58 = (true, i3) ∧ At i3 u := by
  rw [drop_ws _ _ hw, drop_head _ _ rfl] at h
  obtain ⟨i1, e1, a1⟩ := expect_yes hi h
  obtain ⟨i2, e2, a2⟩ := parseStr_yes hk a1
  obtain ⟨i3, e3, a3⟩ := expect_yes a2 (by rw [drop_ws _ _ hw', drop_head _ _ rfl])
  exact ⟨i1, i2, i3, e1, e2, e3, a3⟩

/-- Completeness. -/
theorem reads {t : List Nat} {x : Sem} (h : G Lax t x) : Reads t x := by
  induction h with
  | null =>
    intro n i t0 r hn hi h _
    obtain ⟨n, rfl⟩ : ∃ m, n = m + 1 := ⟨n - 1, by omega⟩
    obtain ⟨i1, e, a, _⟩ := start_at hi h
    obtain ⟨j, e', a2⟩ := matchP_yes [117, 108, 108] r i1 a
    refine ⟨j, ?_, a2⟩
    rw [parseV, e]
    dsimp only
    rw [if_pos rfl, literal, e']
  | false =>
    intro n i t0 r hn hi h _
    obtain ⟨n, rfl⟩ : ∃ m, n = m + 1 := ⟨n - 1, by omega⟩
    obtain ⟨i1, e, a, _⟩ := start_at hi h
    obtain ⟨j, e', a2⟩ := matchP_yes [97, 108, 115, 101] r i1 a
    refine ⟨j, ?_, a2⟩
    rw [parseV, e]
    dsimp only
    rw [if_neg (by omega), if_pos rfl, literal, e']
  | true =>
    intro n i t0 r hn hi h _
    obtain ⟨n, rfl⟩ : ∃ m, n = m + 1 := ⟨n - 1, by omega⟩
    obtain ⟨i1, e, a, _⟩ := start_at hi h
    obtain ⟨j, e', a2⟩ := matchP_yes [114, 117, 101] r i1 a
    refine ⟨j, ?_, a2⟩
    rw [parseV, e]
    dsimp only
    rw [if_neg (by omega), if_neg (by omega), if_pos rfl, literal, e']
  | @num t v hN =>
    intro n i t0 r hn hi h hstop
    obtain ⟨n, rfl⟩ : ∃ m, n = m + 1 := ⟨n - 1, by omega⟩
    obtain ⟨p, hp, hf, _, hd⟩ := lax_form.1 hN
    obtain ⟨c, t', e, hc⟩ := text_start hf
    rw [← hp] at e
    have h' := h
    rw [e, List.cons_append] at h'
    obtain ⟨i1, e1, a, a'⟩ := start_at hi h'
    have hv : v.isNumber = true := by
      unfold NumParts.Denotes at hd
      split at hd <;> rw [hd] <;> rfl
    have : At (ungetc i1) (t ++ r) := by rw [e]; exact a'
    obtain ⟨j, e2, a2⟩ := number_yes hN (hstop hv) this
    refine ⟨j, ?_, a2⟩
    have hcb : (isDig c || c == 45) = true := by
      rcases hc with hc | hc
      · rw [hc]; rfl
      · rw [hc]; rfl
    have hcv : (48 ≤ c ∧ c ≤ 57) ∨ c = 45 := hc.imp (isDig_iff c).1 id
    rw [parseV, e1]
    dsimp only
    rw [if_neg (by omega), if_neg (by omega), if_neg (by omega), if_neg (by omega), if_neg (by omega), if_neg (by omega), if_pos hcb, e2]
  | @str t s hs =>
    intro n i t0 r hn hi h _
    obtain ⟨n, rfl⟩ : ∃ m, n = m + 1 := ⟨n - 1, by omega⟩
    have h' : t0.dropWhile isWs = 34 :: (t ++ 34 :: r) := by rw [h]; simp
    obtain ⟨i1, e, a, _⟩ := start_at hi h'
    obtain ⟨j, e2, a2⟩ := parseStr_yes hs a
    refine ⟨j, ?_, a2⟩
    rw [parseV, e]
    dsimp only
    rw [if_neg (by omega), if_neg (by omega), if_neg (by omega), if_pos rfl, e2]
  | @arr0 w hw =>
    intro n i t0 r hn hi h _
    obtain ⟨n, rfl⟩ : ∃ m, n = m + 1 := ⟨n - 1, by omega⟩
    have h' : t0.dropWhile isWs = 91 :: (w ++ 93 :: r) := by rw [h]; simp
    obtain ⟨i1, e, a, _⟩ := start_at hi h'
    obtain ⟨j, e2, a2⟩ := expect_yes a (by rw [drop_ws _ _ hw, drop_head _ _ rfl])
    refine ⟨j, ?_, a2⟩
    rw [parseV, e]
    dsimp only
    rw [if_neg (by omega), if_neg (by omega), if_neg (by omega), if_neg (by omega), if_pos rfl, e2]
  | @arr t l hl ih =>
    intro n i t0 r hn hi h _
    obtain ⟨n, rfl⟩ : ∃ m, n = m + 1 := ⟨n - 1, by omega⟩
    have h' : t0.dropWhile isWs = 91 :: (t ++ 93 :: r) := by rw [h]; simp
    obtain ⟨i1, e, a, _⟩ := start_at hi h'
    obtain ⟨i2, e2, a2⟩ := expect_no a (items_head hl r)
    obtain ⟨j, e3, a3⟩ := ih n [] i2 _ r (by simp at hn; omega) a2 (drop_drop _)
    refine ⟨j, ?_, a3⟩
    rw [parseV, e]
    dsimp only
    rw [if_neg (by omega), if_neg (by omega), if_neg (by omega), if_neg (by omega), if_pos rfl, e2]
    exact e3
  | @obj0 w hw =>
    intro n i t0 r hn hi h _
    obtain ⟨n, rfl⟩ : ∃ m, n = m + 1 := ⟨n - 1, by omega⟩
    have h' : t0.dropWhile isWs = 123 :: (w ++ 125 :: r) := by rw [h]; simp
    obtain ⟨i1, e, a, _⟩ := start_at hi h'
    obtain ⟨j, e2, a2⟩ := expect_yes a (by rw [drop_ws _ _ hw, drop_head _ _ rfl])
    refine ⟨j, ?_, a2⟩
    rw [parseV, e]
    dsimp only
    rw [if_neg (by omega), if_neg (by omega), if_neg (by omega), if_neg (by omega), if_neg (by omega), if_pos rfl, e2]
  | @obj t ms o hl hm ih =>
    intro n i t0 r hn hi h _
    obtain ⟨n, rfl⟩ : ∃ m, n = m + 1 := ⟨n - 1, by omega⟩
    have h' : t0.dropWhile isWs = 123 :: (t ++ 125 :: r) := by rw [h]; simp
    obtain ⟨i1, e, a, _⟩ := start_at hi h'
    obtain ⟨i2, e2, a2⟩ := expect_no a (members_head hl r)
    obtain ⟨j, e3, a3⟩ := ih n [] i2 _ r (by simp at hn; omega) a2 (drop_drop _)
    refine ⟨j, ?_, a3⟩
    rw [parseV, e]
    dsimp only
    rw [if_neg (by omega), if_neg (by omega), if_neg (by omega), if_neg (by omega), if_neg (by omega), if_pos rfl, e2]
    dsimp only
    rw [e3, isMap_build hm]
  | @item w t w' v hw hv hw' ih =>
    intro n a i t0 r hn hi h
    obtain ⟨n, rfl⟩ : ∃ m, n = m + 1 := ⟨n - 1, by omega⟩
    simp only [List.append_assoc] at h
    obtain ⟨i1, e1, a1, d1⟩ := item_reads hw hv hw' ih (n := n) (by simp at hn; omega) hi h rfl rfl
    obtain ⟨i2, e2, a2⟩ := expect_no (c := 44) a1 (by rw [d1]; intro e; exact absurd (Option.some.inj e) (by decide))
    obtain ⟨i3, e3, a3⟩ := expect_yes (c := 93) (r := r) a2 (by rw [drop_drop, d1])
    refine ⟨i3, ?_, a3⟩
    rw [arrLoop, e1]
    dsimp only
    rw [e2]
    dsimp only
    rw [e3]
  | @items w t w' v u l hw hv hw' _ ih ihu =>
    intro n a i t0 r hn hi h
    obtain ⟨n, rfl⟩ : ∃ m, n = m + 1 := ⟨n - 1, by omega⟩
    simp only [List.append_assoc, List.cons_append, List.nil_append] at h
    obtain ⟨i1, e1, a1, d1⟩ := item_reads hw hv hw' ih (n := n) (by simp at hn; omega) hi h rfl rfl
    obtain ⟨i2, e2, a2⟩ := expect_yes (c := 44) a1 d1
    obtain ⟨j, e3, a3⟩ := ihu n (a ++ [v]) i2 _ r (by simp at hn; omega) a2 rfl
    refine ⟨j, ?_, a3⟩
    rw [arrLoop, e1]
    dsimp only
    rw [e2]
    dsimp only
    rw [e3, List.append_assoc]
    rfl
  | @member w k s w' w'' t v w''' hw hk hw' hw'' hv hw''' ih =>
    intro n o i t0 r hn hi h
    obtain ⟨n, rfl⟩ : ∃ m, n = m + 1 := ⟨n - 1, by omega⟩
    simp only [List.append_assoc, List.cons_append, List.nil_append] at h
    obtain ⟨k1, k2, k3, f1, f2, f3, b⟩ := key_reads hw hk hw' hi h
    obtain ⟨i1, e1, a1, d1⟩ := item_reads hw'' hv hw''' ih (n := n) (by simp at hn; omega) b rfl rfl rfl
    obtain ⟨i2, e2, a2⟩ := expect_no (c := 44) a1 (by rw [d1]; intro e; exact absurd (Option.some.inj e) (by decide))
    obtain ⟨i3, e3, a3⟩ := expect_yes (c := 125) (r := r) a2 (by rw [drop_drop, d1])
    refine ⟨i3, ?_, a3⟩
    rw [objLoop, f1]
    dsimp only
    rw [f2]
    dsimp only
    rw [f3]
    dsimp only
    rw [e1]
    dsimp only
    rw [e2]
    dsimp only
    rw [e3]
    rfl
  | @members w k s w' w'' t v w''' u ms hw hk hw' hw'' hv hw''' _ ih ihu =>
    intro n o i t0 r hn hi h
    obtain ⟨n, rfl⟩ : ∃ m, n = m + 1 := ⟨n - 1, by omega⟩
    simp only [List.append_assoc, List.cons_append, List.nil_append] at h
    obtain ⟨k1, k2, k3, f1, f2, f3, b⟩ := key_reads hw hk hw' hi h
    obtain ⟨i1, e1, a1, d1⟩ := item_reads hw'' hv hw''' ih (n := n) (by simp at hn; omega) b rfl rfl rfl
    obtain ⟨i2, e2, a2⟩ := expect_yes (c := 44) a1 d1
    obtain ⟨j, e3, a3⟩ := ihu n (mset o s v) i2 _ r (by simp at hn; omega) a2 rfl
    refine ⟨j, ?_, a3⟩
    rw [objLoop, f1]
    dsimp only
    rw [f2]
    dsimp only
    rw [f3]
    dsimp only
    rw [e1]
    dsimp only
    rw [e2]
    dsimp only
    rw [e3]
    rfl

theorem build_cons (o : List (List Nat × JVal)) (k : List Nat) (v : JVal) (ms : List (List Nat × JVal)) :
    build o ((k, v) :: ms) = build (mset o k v) ms := rfl

theorem ws_append {a b : List Nat} (ha : Ws a) (hb : Ws b) : Ws (a ++ b) := by
  intro x hx
  rcases List.mem_append.1 hx with hx | hx
  · exact ha x hx
  · exact hb x hx

theorem items_ws {w p : List Nat} {l : List JVal} (hw : Ws w) (hl : G Lax p (.items l)) : G Lax (w ++ p) (.items l) := by
  cases hl with
  | @item w1 t w' v hw1 hv hw' =>
    have := G.item (ws_append hw hw1) hv hw'
    simp only [List.append_assoc] at this ⊢
    exact this
  | @items w1 t w' v u l hw1 hv hw' hu =>
    have := G.items (ws_append hw hw1) hv hw' hu
    simp only [List.append_assoc] at this ⊢
    exact this

theorem members_ws {w p : List Nat} {ms : List (List Nat × JVal)} (hw : Ws w) (hl : G Lax p (.members ms)) : G Lax (w ++ p) (.members ms) := by
  cases hl with
  | member hw1 hk hw' hw2 hv hw3 =>
    have := G.member (ws_append hw hw1) hk hw' hw2 hv hw3
    simp only [List.append_assoc] at this ⊢
    exact this
  | members hw1 hk hw' hw2 hv hw3 hu =>
    have := G.members (ws_append hw hw1) hk hw' hw2 hv hw3 hu
    simp only [List.append_assoc] at this ⊢
    exact this

/-- Soundness. -/
theorem sound (n : Nat) :
    (∀ (i j : In) (t : List Nat) (v : JVal), At i t → parseV n i = .ok v j →
      ∃ p r, t.dropWhile isWs = p ++ r ∧ At j r ∧ G Lax p (.val v) ∧ (v.isNumber = true → Stop r)) ∧
    (∀ (i j : In) (t : List Nat) (a : List JVal) (v : JVal), At i t → arrLoop n a i = .ok v j →
      ∃ p r l, t = p ++ 93 :: r ∧ At j r ∧ v = .arr (a ++ l) ∧ G Lax p (.items l)) ∧
    (∀ (i j : In) (t : List Nat) (o : List (List Nat × JVal)) (v : JVal), At i t → objLoop n o i = .ok v j →
      ∃ p r ms, t = p ++ 125 :: r ∧ At j r ∧ v = .obj (build o ms) ∧ G Lax p (.members ms)) := by
  induction n with
  | zero =>
    refine ⟨?_, ?_, ?_⟩
    · intro i j t v _ e; rw [parseV] at e; cases e
    · intro i j t a v _ e; rw [arrLoop] at e; cases e
    · intro i j t a v _ e; rw [objLoop] at e; cases e
  | succ n ih =>
    obtain ⟨ihv, iha, iho⟩ := ih
    refine ⟨?_, ?_, ?_⟩
    · intro i j t v hi e
      have h1 := skipWs_at hi
      rw [parseV] at e
      cases hd : t.dropWhile isWs with
      | nil =>
        rw [hd] at h1
        obtain ⟨k, e1, _, _⟩ := getc_nil h1
        rw [e1] at e
        cases e
      | cons c u =>
        rw [hd] at h1
        obtain ⟨i1, e1, a1, a1'⟩ := getc_cons h1
        rw [e1] at e
        dsimp only at e
        have hlit : ∀ (p : List Nat) (x : JVal), literal p x i1 = .ok v j → ∃ r, u = p ++ r ∧ At j r ∧ v = x := by
          intro p x el
          unfold literal at el
          cases hm : matchP p i1 with
          | mk b k =>
            rw [hm] at el
            cases b with
            | false => cases el
            | true =>
              dsimp only at el
              cases el
              obtain ⟨r, hr, ha⟩ := matchP_sound p i1 _ u a1 hm
              exact ⟨r, hr, ha, rfl⟩
        by_cases c1 : c = 110
        · rw [if_pos c1] at e
          obtain ⟨r, rfl, ha, rfl⟩ := hlit _ _ e
          exact ⟨[110, 117, 108, 108], r, by rw [c1]; rfl, ha, .null, fun h => by cases h⟩
        rw [if_neg c1] at e
        by_cases c2 : c = 102
        · rw [if_pos c2] at e
          obtain ⟨r, rfl, ha, rfl⟩ := hlit _ _ e
          exact ⟨[102, 97, 108, 115, 101], r, by rw [c2]; rfl, ha, .false, fun h => by cases h⟩
        rw [if_neg c2] at e
        by_cases c3 : c = 116
        · rw [if_pos c3] at e
          obtain ⟨r, rfl, ha, rfl⟩ := hlit _ _ e
          exact ⟨[116, 114, 117, 101], r, by rw [c3]; rfl, ha, .true, fun h => by cases h⟩
        rw [if_neg c3] at e
        by_cases c4 : c = 34
        · rw [if_pos c4] at e
          cases hs : parseStr i1 with
          | mk x k =>
            rw [hs] at e
            cases x with
            | none => cases e
            | some s =>
              dsimp only at e
              cases e
              obtain ⟨p, r, rfl, hp, ha⟩ := parseStr_sound a1 hs
              exact ⟨[34] ++ p ++ [34], r, by rw [c4]; simp, ha, .str hp, fun h => by cases h⟩
        rw [if_neg c4] at e
        by_cases c5 : c = 91
        · rw [if_pos c5] at e
          rcases expect_cases 93 a1 with ⟨k, r, ex, hr, ha⟩ | ⟨k, ex, ha⟩
          · rw [ex] at e
            dsimp only at e
            cases e
            obtain ⟨w, hw, he⟩ := ws_split u
            rw [hr] at he
            exact ⟨[91] ++ w ++ [93], r, by rw [c5, he]; simp, ha, .arr0 hw, fun h => by cases h⟩
          · rw [ex] at e
            dsimp only at e
            obtain ⟨p, r, l, hr, ha', rfl, hl⟩ := iha _ _ _ _ _ ha e
            obtain ⟨w, hw, he⟩ := ws_split u
            rw [hr] at he
            exact ⟨[91] ++ (w ++ p) ++ [93], r, by rw [c5, he]; simp, ha', .arr (items_ws hw hl), fun h => by cases h⟩
        rw [if_neg c5] at e
        by_cases c6 : c = 123
        · rw [if_pos c6] at e
          rcases expect_cases 125 a1 with ⟨k, r, ex, hr, ha⟩ | ⟨k, ex, ha⟩
          · rw [ex] at e
            dsimp only at e
            cases e
            obtain ⟨w, hw, he⟩ := ws_split u
            rw [hr] at he
            exact ⟨[123] ++ w ++ [125], r, by rw [c6, he]; simp, ha, .obj0 hw, fun h => by cases h⟩
          · rw [ex] at e
            dsimp only at e
            obtain ⟨p, r, ms, hr, ha', rfl, hl⟩ := iho _ _ _ _ _ ha e
            obtain ⟨w, hw, he⟩ := ws_split u
            rw [hr] at he
            exact ⟨[123] ++ (w ++ p) ++ [125], r, by rw [c6, he]; simp, ha', .obj (members_ws hw hl) (build_isMap ms), fun h => by cases h⟩
        rw [if_neg c6] at e
        by_cases c7 : (isDig c || c == 45) = true
        · rw [if_pos c7] at e
          have hc : isDig c = true ∨ c = 45 := by simpa using c7
          obtain ⟨p, r, hp, ha, hl, hs⟩ := number_sound hc a1' e
          exact ⟨p, r, hp, ha, .num hl, fun _ => hs⟩
        · rw [if_neg c7] at e; cases e
    · intro i j t a v hi e
      rw [arrLoop] at e
      cases hv : parseV n i with
      | bad k => rw [hv] at e; cases e
      | thrown => rw [hv] at e; cases e
      | ok x k =>
        rw [hv] at e
        dsimp only at e
        obtain ⟨p, r, hp, ha, hx, _⟩ := ihv _ _ _ _ hi hv
        obtain ⟨w, hw, he⟩ := ws_split t
        obtain ⟨w2, hw2, he2⟩ := ws_split r
        rcases expect_cases 44 ha with ⟨k2, r2, ex, hr, ha2⟩ | ⟨k2, ex, ha2⟩
        · rw [ex] at e
          dsimp only at e
          obtain ⟨q, r3, l, hr3, ha3, rfl, hl⟩ := iha _ _ _ _ _ ha2 e
          refine ⟨w ++ p ++ w2 ++ [44] ++ q, r3, x :: l, ?_, ha3, by simp, .items hw hx hw2 hl⟩
          rw [he, hp, he2, hr, hr3]; simp
        · rw [ex] at e
          dsimp only at e
          rcases expect_cases 93 ha2 with ⟨k3, r3, ex3, hr3, ha3⟩ | ⟨k3, ex3, ha3⟩
          · rw [ex3] at e
            dsimp only at e
            cases e
            rw [drop_drop] at hr3
            refine ⟨w ++ p ++ w2, r3, [x], ?_, ha3, rfl, .item hw hx hw2⟩
            rw [he, hp, he2, hr3]; simp
          · rw [ex3] at e; cases e
    · intro i j t o v hi e
      rw [objLoop] at e
      rcases expect_cases 34 hi with ⟨k1, r1, ex1, hr1, ha1⟩ | ⟨k1, ex1, ha1⟩
      · rw [ex1] at e
        dsimp only at e
        cases hs : parseStr k1 with
        | mk y k2 =>
          rw [hs] at e
          cases y with
          | none => cases e
          | some s =>
            dsimp only at e
            obtain ⟨kt, r2, hk2, hch, ha2⟩ := parseStr_sound ha1 hs
            rcases expect_cases 58 ha2 with ⟨k3, r3, ex3, hr3, ha3⟩ | ⟨k3, ex3, ha3⟩
            · rw [ex3] at e
              dsimp only at e
              cases hv : parseV n k3 with
              | bad k => rw [hv] at e; cases e
              | thrown => rw [hv] at e; cases e
              | ok x k =>
                rw [hv] at e
                dsimp only at e
                obtain ⟨p, r, hp, ha, hx, _⟩ := ihv _ _ _ _ ha3 hv
                obtain ⟨w, hw, he⟩ := ws_split t
                obtain ⟨w1, hw1, he1⟩ := ws_split r2
                obtain ⟨w2, hw2, he2⟩ := ws_split r3
                obtain ⟨w3, hw3, he3⟩ := ws_split r
                rw [hr1, hk2, he1, hr3, he2, hp, he3] at he
                rcases expect_cases 44 ha with ⟨k4, r4, ex4, hr4, ha4⟩ | ⟨k4, ex4, ha4⟩
                · rw [ex4] at e
                  dsimp only at e
                  obtain ⟨q, r5, ms, hr5, ha5, rfl, hl⟩ := iho _ _ _ _ _ ha4 e
                  refine ⟨w ++ [34] ++ kt ++ [34] ++ w1 ++ [58] ++ w2 ++ p ++ w3 ++ [44] ++ q, r5, (s, x) :: ms, ?_, ha5, rfl,
                    .members hw hch hw1 hw2 hx hw3 hl⟩
                  rw [he, hr4, hr5]; simp
                · rw [ex4] at e
                  dsimp only at e
                  rcases expect_cases 125 ha4 with ⟨k5, r5, ex5, hr5, ha5⟩ | ⟨k5, ex5, ha5⟩
                  · rw [ex5] at e
                    dsimp only at e
                    cases e
                    rw [drop_drop] at hr5
                    refine ⟨w ++ [34] ++ kt ++ [34] ++ w1 ++ [58] ++ w2 ++ p ++ w3, r5, [(s, x)], ?_, ha5, rfl, .member hw hch hw1 hw2 hx hw3⟩
                    rw [he, hr5]; simp
                  · rw [ex5] at e; cases e
            · rw [ex3] at e; cases e
      · rw [ex1] at e; cases e

theorem g_mono {N M : List Nat → JVal → Prop} (hNM : ∀ t v, N t v → M t v) {t : List Nat} {x : Sem} (h : G N t x) : G M t x := by
  induction h with
  | null => exact .null
  | false => exact .false
  | true => exact .true
  | num h => exact .num (hNM _ _ h)
  | str h => exact .str h
  | arr0 h => exact .arr0 h
  | arr _ ih => exact .arr ih
  | obj0 h => exact .obj0 h
  | obj _ h ih => exact .obj ih h
  | item h1 _ h2 ih => exact .item h1 ih h2
  | items h1 _ h2 _ ih1 ih2 => exact .items h1 ih1 h2 ih2
  | member h1 h2 h3 h4 _ h5 ih => exact .member h1 h2 h3 h4 ih h5
  | members h1 h2 h3 h4 _ h5 _ ih1 ih2 => exact .members h1 h2 h3 h4 ih1 h5 ih2

theorem at_start (t : List Nat) : At { cur := t, con := false, line := 1 } t := rfl

theorem parse_of_prefix {w p r : List Nat} {v : JVal} (hw : Ws w) (hg : G Lax p (.val v)) (hs : v.isNumber = true → Stop r) :
    ∃ j, parse (w ++ p ++ r) = .ok v j ∧ At j r := by
  obtain ⟨c, p', rfl, hc⟩ := val_start hg
  have := reads hg ((w ++ c :: p' ++ r).length + 2) _ _ r (by simp; omega) (at_start (w ++ c :: p' ++ r))
    (by rw [List.append_assoc, drop_ws _ _ hw, List.cons_append, drop_head _ _ hc.1]) hs
  exact this

/-- **C85** (reading).  Every JSON document (RFC 8259; white space, escapes, surrogate pairs, duplicate keys, numbers a `double` can hold) is read, as
the value that it denotes. -/
theorem C85_reads {t : List Nat} {v : JVal} (h : Doc Strict t v) : ∃ j, parse t = .ok v j := by
  obtain ⟨w, u, w', rfl, hw, hg, hw'⟩ := h
  obtain ⟨j, e, _⟩ := parse_of_prefix hw (g_mono (fun _ _ => strict_lax) hg) (fun _ => by
    have := stop_ws (r := []) hw' (fun c hc => by cases hc)
    rwa [List.append_nil] at this)
  exact ⟨j, e⟩

/-- **C85** (nothing else, as far as it holds).  Exactly the texts are accepted that begin with a JSON value — where numbers may have leading zeros
and lack digits before or after the point — and the result is that value.  What follows the value is ignored. -/
theorem C85_exact_partial (t : List Nat) (v : JVal) :
    (∃ j, parse t = .ok v j) ↔ ∃ w p r, t = w ++ p ++ r ∧ Ws w ∧ G Lax p (.val v) ∧ (v.isNumber = true → Stop r) := by
  constructor
  · rintro ⟨j, e⟩
    obtain ⟨p, r, hp, _, hg, hs⟩ := (sound _).1 _ _ _ _ (at_start t) e
    obtain ⟨w, hw, he⟩ := ws_split t
    exact ⟨w, p, r, by rw [List.append_assoc, ← hp]; exact he, hw, hg, hs⟩
  · rintro ⟨w, p, r, rfl, hw, hg, hs⟩
    obtain ⟨j, e, _⟩ := parse_of_prefix hw hg hs
    exact ⟨j, e⟩

/-- A document has one meaning. -/
theorem C85_unambiguous {t : List Nat} {v v' : JVal} (h : Doc Strict t v) (h' : Doc Strict t v') : v = v' := by
  obtain ⟨j, e⟩ := C85_reads h
  obtain ⟨j', e'⟩ := C85_reads h'
  rw [e] at e'
  cases e'
  rfl

end Arax.Json
