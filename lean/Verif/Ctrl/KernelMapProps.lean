import Verif.Ctrl.KernelMap
/-!
# C94: the printed table of kernels tells the truth

*Property.* After loading its libraries the controller prints a table with one column per architecture. Every registered kernel is listed in it exactly once, nothing else is; the cell of a kernel and
an architecture says GOOD or FAIL as the last registration of the two, and ---- if there was none. Kernels may share a row: `a, b` lists the two, `p_<x,y>` lists `p_x` and `p_y`. A registration
that repeats an earlier one is reported, others are not.
-/
namespace Arax.KernelMap

/-! ## Specification: reading the table, and what it should say -/

/-- Split at ", ". -/
def parts : Str → List Str
  | [] => [[]]
  | ',' :: ' ' :: r => [] :: parts r
  | c :: r => match parts r with
    | h :: t => (c :: h) :: t
    | [] => [[c]]

/-- `p<x,y>` stands for `px` and `py`; anything else for itself. -/
def expand (s : Str) : List Str :=
  match s.dropWhile (· ≠ '<') with
  | [] => [s]
  | _ :: r => let p := s.takeWhile (· ≠ '<'); [p ++ r.takeWhile (· ≠ ','), p ++ ((r.dropWhile (· ≠ ',')).drop 1).takeWhile (· ≠ '>')]

/-- The kernels a row lists. -/
def listed (text : Str) : List Str := (parts text).flatMap expand

/-- The last registration of a kernel for an architecture. -/
def last (regs : List Reg) (k a : Str) : Option Bool := ((regs.reverse).find? (fun r => r.1 = a ∧ r.2.1 = k)).map (·.2.2)

/-- The texts of kernel names: no characters that the table uses itself. (Symbols of C and C++ have none of them.) -/
def Plain (s : Str) : Prop := ∀ c ∈ s, c ≠ ',' ∧ c ≠ ' ' ∧ c ≠ '<' ∧ c ≠ '>'

/-! ## Maps -/

theorem get_ins {α : Type} (k : Str) (v : α) : ∀ (m : Map α) (k' : Str), get (ins k v m) k' = if k' = k then some v else get m k'
  | [], k' => by
    by_cases h : k' = k <;> simp [ins, get, h]
  | (k1, v1) :: r, k' => by
    have ih := get_ins k v r k'
    unfold ins
    by_cases h1 : k = k1
    · subst h1
      by_cases h : k' = k <;> simp [get, h]
    · by_cases h2 : lt k k1 = true
      · by_cases h : k' = k <;> simp [h1, h2, get, h]
      · by_cases h : k' = k1
        · subst h
          have hk : ¬ k' = k := fun hh => h1 hh.symm
          simp [h1, h2, hk, get]
        · simp [h1, h2, get, h, ih]

theorem ins_perm {α : Type} (k : Str) (v : α) : ∀ (m : Map α), (∀ p ∈ m, p.1 ≠ k) → (ins k v m).Perm ((k, v) :: m)
  | [], _ => by simp [ins]
  | (k1, v1) :: r, h => by
    have h1 : k ≠ k1 := fun hh => h (k1, v1) (by simp) hh.symm
    have ih := ins_perm k v r (fun p hp => h p (by simp [hp]))
    unfold ins
    rw [if_neg h1]
    split
    · exact .refl _
    · exact (List.Perm.cons _ ih).trans (List.Perm.swap ..)

theorem mem_ins_key {α : Type} (k : Str) (v : α) : ∀ (m : Map α) (x : Str), x ∈ (ins k v m).map (·.1) ↔ x = k ∨ x ∈ m.map (·.1)
  | [], x => by simp [ins]
  | (k1, v1) :: r, x => by
    have ih := mem_ins_key k v r x
    unfold ins
    by_cases h1 : k = k1
    · subst h1; simp
    · rw [if_neg h1]
      split
      · simp
      · simp only [List.map_cons, List.mem_cons, ih]
        constructor
        · rintro (h | h | h)
          · exact .inr (.inl h)
          · exact .inl h
          · exact .inr (.inr h)
        · rintro (h | h | h)
          · exact .inr (.inl h)
          · exact .inl h
          · exact .inr (.inr h)

theorem lt_irrefl : ∀ a, lt a a = false
  | [] => rfl
  | a :: as => by simp [lt, lt_irrefl as]

theorem lt_trans : ∀ a b c, lt a b = true → lt b c = true → lt a c = true
  | _, [], _, h, _ => by simp [lt] at h
  | _, _ :: _, [], _, h => by simp [lt] at h
  | [], _ :: _, _ :: _, _, _ => by simp [lt]
  | a :: as, b :: bs, c :: cs, h1, h2 => by
    have ih := lt_trans as bs cs
    unfold lt at h1 h2 ⊢
    by_cases hab : a.toNat < b.toNat
    · by_cases hbc : b.toNat < c.toNat
      · rw [if_pos (by omega)]
      · rw [if_neg hbc] at h2
        by_cases hcb : c.toNat < b.toNat
        · rw [if_pos hcb] at h2; cases h2
        · rw [if_pos (by omega)]
    · rw [if_neg hab] at h1
      by_cases hba : b.toNat < a.toNat
      · rw [if_pos hba] at h1; cases h1
      · rw [if_neg hba] at h1
        by_cases hbc : b.toNat < c.toNat
        · rw [if_pos (by omega)]
        · rw [if_neg hbc] at h2
          by_cases hcb : c.toNat < b.toNat
          · rw [if_pos hcb] at h2; cases h2
          · rw [if_neg hcb] at h2
            rw [if_neg (by omega), if_neg (by omega)]
            exact ih h1 h2

theorem lt_total : ∀ a b : Str, a ≠ b → lt a b = false → lt b a = true
  | [], [], h, _ => absurd rfl h
  | _ :: _, [], _, _ => by simp [lt]
  | [], _ :: _, _, h => by simp [lt] at h
  | a :: as, b :: bs, h, h1 => by
    have ih := lt_total as bs
    unfold lt at h1 ⊢
    by_cases hab : a.toNat < b.toNat
    · rw [if_pos hab] at h1; cases h1
    · rw [if_neg hab] at h1
      by_cases hba : b.toNat < a.toNat
      · rw [if_pos hba]
      · rw [if_neg hba] at h1 ⊢
        rw [if_neg hab]
        have hc : a = b := Char.ext (UInt32.toNat_inj.1 (show a.toNat = b.toNat by omega))
        exact ih (fun hh => h (by rw [hc, hh])) h1

/-- In the order of the keys. -/
def Sorted {α : Type} (m : Map α) : Prop := m.Pairwise (fun p q => lt p.1 q.1 = true)

theorem ins_sorted {α : Type} (k : Str) (v : α) (m : Map α) (h : Sorted m) : Sorted (ins k v m) := by
  induction m with
  | nil => simp [ins, Sorted]
  | cons p r ih =>
    obtain ⟨k1, v1⟩ := p
    unfold Sorted at h ih ⊢
    rw [List.pairwise_cons] at h
    unfold ins
    by_cases h1 : k = k1
    · subst h1; rw [if_pos rfl, List.pairwise_cons]; exact h
    · rw [if_neg h1]
      split
      · rename_i hlt
        rw [List.pairwise_cons, List.pairwise_cons]
        refine ⟨?_, h⟩
        intro q hq
        rcases List.mem_cons.1 hq with hq | hq
        · rw [hq]; exact hlt
        · exact lt_trans _ _ _ hlt (h.1 q hq)
      · rename_i hlt
        rw [List.pairwise_cons]
        refine ⟨?_, ih h.2⟩
        intro q hq
        have : q.1 ∈ (ins k v r).map (·.1) := List.mem_map_of_mem hq
        rcases (mem_ins_key k v r q.1).1 this with hh | hh
        · rw [hh]; exact lt_total _ _ h1 (by simpa using hlt)
        · obtain ⟨q', hq', e⟩ := List.mem_map.1 hh
          rw [← e]; exact h.1 q' hq'

theorem sorted_nodup {α : Type} {m : Map α} (h : Sorted m) : (m.map (·.1)).Nodup := by
  unfold Sorted at h
  rw [List.Nodup, List.pairwise_map]
  refine h.imp ?_
  intro p q hpq e
  rw [e, lt_irrefl] at hpq
  cases hpq

theorem get_eq_some {α : Type} {m : Map α} (h : (m.map (·.1)).Nodup) (k : Str) (v : α) : get m k = some v ↔ (k, v) ∈ m := by
  induction m with
  | nil => simp [get]
  | cons p r ih =>
    obtain ⟨k1, v1⟩ := p
    simp only [List.map_cons, List.nodup_cons] at h
    have ih := ih h.2
    unfold get
    by_cases hk : k = k1
    · subst hk
      simp only [if_true, Option.some.injEq, List.mem_cons, Prod.mk.injEq, true_and]
      constructor
      · intro e; exact .inl e.symm
      · rintro (e | e)
        · exact e.symm
        · exact absurd (List.mem_map_of_mem e) h.1
    · simp only [hk, if_false, ih, List.mem_cons, Prod.mk.injEq, false_and, false_or]

/-! ## Registrations -/

/-- The state of a kernel for an architecture in the map. -/
def stateOf (km : KM) (k a : Str) : Option Bool := (get km.states k).bind (fun s => get s a)

theorem stateOf_add (km : KM) (arch krnl : Str) (b : Bool) (k a : Str) :
    stateOf (addKernel km arch krnl b).1 k a = if a = arch ∧ k = krnl then some b else stateOf km k a := by
  simp only [stateOf, addKernel, get_ins]
  by_cases hk : k = krnl
  · subst hk
    by_cases ha : a = arch
    · simp [ha, get_ins]
    · simp only [if_true, Option.bind_some, get_ins, ha, if_false, false_and]
      cases get km.states k <;> simp [get]
  · simp [hk]

theorem last_cons (r : Reg) (rs : List Reg) (k a : Str) : last (r :: rs) k a = (last rs k a).or (if a = r.1 ∧ k = r.2.1 then some r.2.2 else none) := by
  unfold last
  rw [List.reverse_cons, List.find?_append]
  cases (List.find? (fun r => decide (r.1 = a ∧ r.2.1 = k)) rs.reverse) with
  | some x => simp
  | none =>
    by_cases h : a = r.1 ∧ k = r.2.1
    · have h' : r.1 = a ∧ r.2.1 = k := ⟨h.1.symm, h.2.symm⟩
      simp [h]
    · have h' : ¬ (r.1 = a ∧ r.2.1 = k) := fun hh => h ⟨hh.1.symm, hh.2.symm⟩
      rw [if_neg h]
      simp [h']

theorem addAll_spec (regs : List Reg) : ∀ km, (∀ k a, stateOf (addAll km regs).1 k a = (last regs k a).or (stateOf km k a)) ∧
    (∀ k, k ∈ (addAll km regs).1.states.map (·.1) ↔ (∃ r ∈ regs, r.2.1 = k) ∨ k ∈ km.states.map (·.1)) ∧
    (∀ a, a ∈ (addAll km regs).1.archs.map (·.1) ↔ (∃ r ∈ regs, r.1 = a) ∨ a ∈ km.archs.map (·.1)) ∧
    (Sorted km.states → Sorted (addAll km regs).1.states) ∧ (Sorted km.archs → Sorted (addAll km regs).1.archs) := by
  induction regs with
  | nil => intro km; simp [addAll, last]
  | cons r rs ih =>
    intro km
    obtain ⟨h1, h2, h3, h4, h5⟩ := ih (addKernel km r.1 r.2.1 r.2.2).1
    simp only [addAll]
    refine ⟨?_, ?_, ?_, ?_, ?_⟩
    · intro k a
      rw [h1, stateOf_add, last_cons]
      cases last rs k a with
      | some x => rfl
      | none =>
        by_cases h : a = r.1 ∧ k = r.2.1
        · simp [h]
        · rw [if_neg h, if_neg h]; rfl
    · intro k
      rw [h2]
      simp only [addKernel, mem_ins_key, List.mem_cons, exists_eq_or_imp, eq_comm (a := k)]
      grind
    · intro a
      rw [h3]
      simp only [addKernel, mem_ins_key, List.mem_cons, exists_eq_or_imp, eq_comm (a := a)]
      grind
    · intro h; exact h4 (ins_sorted _ _ _ h)
    · intro h; exact h5 (ins_sorted _ _ _ h)

/-! ## Texts -/

theorem parts_ne_nil : ∀ s, parts s ≠ []
  | [] => by simp [parts]
  | c :: r => by
    have := parts_ne_nil r
    rw [parts.eq_def]
    split
    · simp
    · simp
    · split <;> simp

theorem parts_nosp : ∀ s : Str, ' ' ∉ s → parts s = [s]
  | [], _ => rfl
  | c :: r, h => by
    have ih := parts_nosp r (fun hh => h (List.mem_cons_of_mem _ hh))
    rw [parts.eq_def]
    split
    · simp at *
    · rename_i heq
      injection heq with _ h2
      rw [h2] at h
      exact absurd (by simp) h
    · rename_i heq
      injection heq with h1 h2
      subst h1; subst h2
      rw [ih]

theorem parts_cons (c : Char) (r : Str) (h : ¬ (c = ',' ∧ r.head? = some ' ')) : parts (c :: r) = match parts r with | h :: t => (c :: h) :: t | [] => [[c]] := by
  rw [parts.eq_def]
  split
  · simp at *
  · rename_i heq
    injection heq with h1 h2
    exact absurd ⟨h1, by rw [h2]; rfl⟩ h
  · rename_i heq
    injection heq with h1 h2
    subst h1; subst h2
    rfl

theorem parts_join (t : Str) : ∀ n (s : Str), s.length ≤ n → parts (s ++ ',' :: ' ' :: t) = parts s ++ parts t
  | _, [], _ => by simp [parts]
  | 0, c :: r, h => by simp at h
  | n + 1, c :: r, h => by
    simp only [List.length_cons] at h
    by_cases hc : c = ',' ∧ r.head? = some ' '
    · obtain ⟨rfl, hr⟩ := hc
      cases r with
      | nil => simp at hr
      | cons d r' =>
        simp only [List.head?_cons, Option.some.injEq] at hr
        subst hr
        have ih := parts_join t n r' (by simp at h; omega)
        simp only [List.cons_append, parts, ih]
    · have ih := parts_join t n r (by omega)
      have hc' : ¬ (c = ',' ∧ (r ++ ',' :: ' ' :: t).head? = some ' ') := by
        rintro ⟨h1, h2⟩
        cases r with
        | nil => simp at h2
        | cons d r' => exact hc ⟨h1, by simpa using h2⟩
      rw [List.cons_append, parts_cons _ _ hc', parts_cons _ _ hc, ih]
      cases hp : parts r with
      | nil => exact absurd hp (parts_ne_nil r)
      | cons x xs => rfl

theorem expand_plain {s : Str} (h : Plain s) : expand s = [s] := by
  unfold expand
  have : s.dropWhile (· ≠ '<') = [] := by
    have hall : ∀ c ∈ s, decide (c ≠ '<') = true := fun c hc => by simpa using (h c hc).2.2.1
    clear h
    induction s with
    | nil => rfl
    | cons x xs ih => rw [List.dropWhile_cons, if_pos (hall x (by simp))]; exact ih (fun c hc => hall c (by simp [hc]))
  rw [this]

theorem takeWhile_stop {p : Char → Bool} {a : Str} {c : Char} {r : Str} (h : ∀ x ∈ a, p x = true) (hc : p c = false) : (a ++ c :: r).takeWhile p = a := by
  induction a with
  | nil => simp [hc]
  | cons x xs ih =>
    have hx := h x (by simp)
    simp only [List.cons_append, List.takeWhile_cons, hx, if_true]
    rw [ih (fun y hy => h y (by simp [hy]))]

theorem dropWhile_stop {p : Char → Bool} {a : Str} {c : Char} {r : Str} (h : ∀ x ∈ a, p x = true) (hc : p c = false) : (a ++ c :: r).dropWhile p = c :: r := by
  induction a with
  | nil => simp [hc]
  | cons x xs ih =>
    have hx := h x (by simp)
    simp only [List.cons_append, List.dropWhile_cons, hx, if_true]
    exact ih (fun y hy => h y (by simp [hy]))

theorem commonPrefix_spec (a b : Str) : ∃ a' b', a = commonPrefix a b ++ a' ∧ b = commonPrefix a b ++ b' := by
  have key : ∀ n, ∃ a' b', a = (if a.take n = b.take n then a.take n else []) ++ a' ∧ b = (if a.take n = b.take n then a.take n else []) ++ b' := by
    intro n
    split
    · rename_i h
      exact ⟨a.drop n, b.drop n, (List.take_append_drop n a).symm, by rw [h]; exact (List.take_append_drop n b).symm⟩
    · exact ⟨a, b, rfl, rfl⟩
  unfold commonPrefix
  cases lastU a with
  | none => cases lastU b with
    | none => exact ⟨a, b, rfl, rfl⟩
    | some j => exact key _
  | some i => cases lastU b with
    | none => exact key _
    | some j => exact key _

theorem pairText_eq (a b : Str) : ∃ p a' b', a = p ++ a' ∧ b = p ++ b' ∧ pairText a b = p ++ '<' :: (a' ++ ',' :: (b' ++ ['>'])) := by
  obtain ⟨a', b', h1, h2⟩ := commonPrefix_spec a b
  refine ⟨commonPrefix a b, a', b', h1, h2, ?_⟩
  unfold pairText differentPostfix
  generalize commonPrefix a b = p at h1 h2 ⊢
  rw [h1, h2, List.drop_left, List.drop_left]
  simp

/-- The texts that the two loops make of kernel names, with the names. -/
inductive Text : Str → List Str → Prop where
  | plain {s : Str} : Plain s → Text s [s]
  | pair {a b : Str} : Plain a → Plain b → Text (pairText a b) [a, b]
  | join {s t : Str} {ns ms : List Str} : Text s ns → Text t ms → Text (joinText s t) (ns ++ ms)

theorem listed_text {s : Str} {ns : List Str} (h : Text s ns) : listed s = ns ∧ ns ≠ [] := by
  induction h with
  | plain hp =>
    rename_i s
    have : ' ' ∉ s := fun hh => (hp ' ' hh).2.1 rfl
    simp [listed, parts_nosp _ this, expand_plain hp]
  | pair ha hb =>
    rename_i a b
    obtain ⟨p, a', b', h1, h2, h3⟩ := pairText_eq a b
    have hpa : ∀ c ∈ p, c ≠ ',' ∧ c ≠ ' ' ∧ c ≠ '<' ∧ c ≠ '>' := fun c hc => ha c (by rw [h1]; simp [hc])
    have haa : ∀ c ∈ a', c ≠ ',' ∧ c ≠ ' ' ∧ c ≠ '<' ∧ c ≠ '>' := fun c hc => ha c (by rw [h1]; simp [hc])
    have hbb : ∀ c ∈ b', c ≠ ',' ∧ c ≠ ' ' ∧ c ≠ '<' ∧ c ≠ '>' := fun c hc => hb c (by rw [h2]; simp [hc])
    have hsp : ' ' ∉ pairText a b := by
      rw [h3]
      simp only [List.mem_append, List.mem_cons, not_or]
      exact ⟨fun hh => (hpa _ hh).2.1 rfl, by decide, fun hh => (haa _ hh).2.1 rfl, by decide, fun hh => (hbb _ hh).2.1 rfl, by decide, by simp⟩
    refine ⟨?_, by simp⟩
    have e1 : (pairText a b).dropWhile (· ≠ '<') = '<' :: (a' ++ ',' :: (b' ++ ['>'])) := by
      rw [h3]; exact dropWhile_stop (fun x hx => by simpa using (hpa x hx).2.2.1) (by simp)
    have e2 : (pairText a b).takeWhile (· ≠ '<') = p := by
      rw [h3]; exact takeWhile_stop (fun x hx => by simpa using (hpa x hx).2.2.1) (by simp)
    have e3 : (a' ++ ',' :: (b' ++ ['>'])).takeWhile (· ≠ ',') = a' := takeWhile_stop (fun x hx => by simpa using (haa x hx).1) (by simp)
    have e4 : (a' ++ ',' :: (b' ++ ['>'])).dropWhile (· ≠ ',') = ',' :: (b' ++ ['>']) := dropWhile_stop (fun x hx => by simpa using (haa x hx).1) (by simp)
    have e5 : (b' ++ ['>']).takeWhile (· ≠ '>') = b' := takeWhile_stop (fun x hx => by simpa using (hbb x hx).2.2.2) (by simp)
    have : expand (pairText a b) = [a, b] := by
      unfold expand
      rw [e1]
      simp only [e2, e3, e4, List.drop_succ_cons, List.drop_zero, e5]
      rw [← h1, ← h2]
    simp [listed, parts_nosp _ hsp, this]
  | join hs ht ih1 ih2 =>
    rename_i s t ns ms
    have := parts_join t s.length s (Nat.le_refl _)
    refine ⟨?_, by simp [ih1.2]⟩
    simp only [listed, joinText] at ih1 ih2 ⊢
    rw [this, List.flatMap_append, ih1.1, ih2.1]

/-! ## The two loops -/

/-- What a map says: every listed kernel with its states. -/
def says (m : Map States) : List (Str × States) := m.flatMap (fun kv => (listed kv.1).map (fun n => (n, kv.2)))

/-- Every key is a text of kernel names, and no name is listed twice. -/
def WF (m : Map States) : Prop := (∀ kv ∈ m, ∃ ns, Text kv.1 ns) ∧ ((says m).map (·.1)).Nodup

theorem says_perm {m m' : Map States} (h : m.Perm m') : (says m).Perm (says m') := List.Perm.flatMap_right _ h

theorem says_cons (x : Str × States) (m : Map States) : says (x :: m) = (listed x.1).map (fun n => (n, x.2)) ++ says m := rfl

theorem wf_perm {m m' : Map States} (h : m.Perm m') (hw : WF m) : WF m' :=
  ⟨fun kv hkv => hw.1 kv (h.mem_iff.2 hkv), ((says_perm h).map _).nodup_iff.1 hw.2⟩

/-- A key whose text lists a name that no other key lists is new. -/
theorem key_new {m : Map States} {k : Str} {ns : List Str} (hk : Text k ns) (hd : ∀ n ∈ ns, n ∉ (says m).map (·.1)) : ∀ p ∈ m, p.1 ≠ k := by
  intro p hp e
  obtain ⟨hl, hne⟩ := listed_text hk
  obtain ⟨n, rest, hn⟩ := List.exists_cons_of_ne_nil hne
  refine hd n (by rw [hn]; simp) ?_
  rw [List.mem_map]
  refine ⟨(n, p.2), ?_, rfl⟩
  rw [says, List.mem_flatMap]
  exact ⟨p, hp, List.mem_map.2 ⟨n, by rw [e, hl, hn]; simp, rfl⟩⟩

theorem pairUp_spec : ∀ (n : Nat) (m t : Map States), m.length ≤ n → (∀ kv ∈ m, Plain kv.1) → WF t → ((m ++ says t).map (·.1)).Nodup →
    (says (pairUp m t)).Perm (m ++ says t) ∧ WF (pairUp m t)
  | _, [], t, _, _, ht, _ => by simp only [pairUp, List.nil_append]; exact ⟨.refl _, ht⟩
  | 0, _ :: _, _, h, _, _, _ => by simp at h
  | n + 1, [x], t, _, hp, ht, hnd => by
    have hx : Text x.1 [x.1] := .plain (hp x (by simp))
    simp only [List.cons_append, List.nil_append, List.map_cons, List.nodup_cons] at hnd
    have hnew := key_new (m := t) hx (by intro n hn; simp only [List.mem_singleton] at hn; rw [hn]; exact hnd.1)
    have hperm := ins_perm x.1 x.2 t hnew
    have hs : says ((x.1, x.2) :: t) = x :: says t := by rw [says_cons, (listed_text hx).1]; rfl
    have hs' : (says (ins x.1 x.2 t)).Perm (x :: says t) := by rw [← hs]; exact says_perm hperm
    simp only [pairUp, List.cons_append, List.nil_append]
    refine ⟨hs', fun kv hkv => ?_, ?_⟩
    · rcases List.mem_cons.1 (hperm.mem_iff.1 hkv) with e | e
      · rw [e]; exact ⟨_, hx⟩
      · exact ht.1 kv e
    · rw [(hs'.map _).nodup_iff]; simp only [List.map_cons, List.nodup_cons]; exact hnd
  | n + 1, x :: y :: r, t, hlen, hp, ht, hnd => by
    simp only [List.length_cons] at hlen
    have hpx := hp x (by simp)
    have hpy := hp y (by simp)
    simp only [List.cons_append, List.map_cons, List.nodup_cons, List.mem_cons, not_or, List.map_append, List.mem_append] at hnd
    obtain ⟨⟨hxy, hxr, hxt⟩, ⟨hyr, hyt⟩, hrest⟩ := hnd
    rw [pairUp]
    by_cases hc : x.2 = y.2 ∧ (x.1 ++ y.1).length + 2 > (pairText x.1 y.1).length
    · rw [if_pos hc]
      have hx : Text (pairText x.1 y.1) [x.1, y.1] := .pair hpx hpy
      have hnew := key_new (m := t) hx (by
        intro n hn
        simp only [List.mem_cons, List.not_mem_nil, or_false] at hn
        rcases hn with rfl | rfl
        · exact hxt
        · exact hyt)
      have hperm := ins_perm (pairText x.1 y.1) x.2 t hnew
      have hs : says ((pairText x.1 y.1, x.2) :: t) = x :: y :: says t := by
        rw [says_cons, (listed_text hx).1]
        simp only [List.map_cons, List.map_nil, List.cons_append, List.nil_append]
        rw [show (y.1, x.2) = y by rw [hc.1]]
      have hs' : (says (ins (pairText x.1 y.1) x.2 t)).Perm (x :: y :: says t) := by rw [← hs]; exact says_perm hperm
      have hmid : (r ++ says (ins (pairText x.1 y.1) x.2 t)).Perm (x :: y :: (r ++ says t)) := by
        rw [List.perm_iff_count]; intro z
        have := hs'.count_eq z
        simp only [List.count_append, List.count_cons] at this ⊢
        omega
      have ht' : WF (ins (pairText x.1 y.1) x.2 t) := by
        refine ⟨fun kv hkv => ?_, ?_⟩
        · rcases List.mem_cons.1 (hperm.mem_iff.1 hkv) with e | e
          · rw [e]; exact ⟨_, hx⟩
          · exact ht.1 kv e
        · rw [(hs'.map _).nodup_iff]
          simp only [List.map_cons, List.nodup_cons, List.mem_cons, not_or]
          exact ⟨⟨hxy, hxt⟩, hyt, ht.2⟩
      have hnd' : ((r ++ says (ins (pairText x.1 y.1) x.2 t)).map (·.1)).Nodup := by
        rw [(hmid.map _).nodup_iff]
        simp only [List.map_cons, List.nodup_cons, List.mem_cons, not_or, List.map_append, List.mem_append]
        exact ⟨⟨hxy, hxr, hxt⟩, ⟨hyr, hyt⟩, hrest⟩
      obtain ⟨i1, i2⟩ := pairUp_spec n r _ (by omega) (fun kv hkv => hp kv (by simp [hkv])) ht' hnd'
      exact ⟨i1.trans hmid, i2⟩
    · rw [if_neg hc]
      have hx : Text x.1 [x.1] := .plain hpx
      have hnew := key_new (m := t) hx (by intro n hn; simp only [List.mem_singleton] at hn; rw [hn]; exact hxt)
      have hperm := ins_perm x.1 x.2 t hnew
      have hs : says ((x.1, x.2) :: t) = x :: says t := by rw [says_cons, (listed_text hx).1]; rfl
      have hs' : (says (ins x.1 x.2 t)).Perm (x :: says t) := by rw [← hs]; exact says_perm hperm
      have hmid : (y :: r ++ says (ins x.1 x.2 t)).Perm (x :: y :: (r ++ says t)) := by
        rw [List.perm_iff_count]; intro z
        have := hs'.count_eq z
        simp only [List.count_append, List.count_cons] at this ⊢
        omega
      have ht' : WF (ins x.1 x.2 t) := by
        refine ⟨fun kv hkv => ?_, ?_⟩
        · rcases List.mem_cons.1 (hperm.mem_iff.1 hkv) with e | e
          · rw [e]; exact ⟨_, hx⟩
          · exact ht.1 kv e
        · rw [(hs'.map _).nodup_iff]
          simp only [List.map_cons, List.nodup_cons]
          exact ⟨hxt, ht.2⟩
      have hnd' : ((y :: r ++ says (ins x.1 x.2 t)).map (·.1)).Nodup := by
        rw [(hmid.map _).nodup_iff]
        simp only [List.map_cons, List.nodup_cons, List.mem_cons, not_or, List.map_append, List.mem_append]
        exact ⟨⟨hxy, hxr, hxt⟩, ⟨hyr, hyt⟩, hrest⟩
      obtain ⟨i1, i2⟩ := pairUp_spec n (y :: r) _ (by simp; omega) (fun kv hkv => hp kv (by simp at hkv ⊢; exact .inr hkv)) ht' hnd'
      exact ⟨i1.trans hmid, i2⟩

theorem findJoin_spec {w : Nat} : ∀ {m : Map States} {x y : Str × States}, findJoin w m = some (x, y) → ∃ l r, m = l ++ x :: y :: r ∧ x.2 = y.2
  | [], _, _, h => by simp [findJoin] at h
  | [_], _, _, h => by simp [findJoin] at h
  | a :: b :: r, x, y, h => by
    unfold findJoin at h
    split at h
    · rename_i hc
      obtain ⟨rfl, rfl⟩ := Prod.mk.inj (Option.some.inj h)
      exact ⟨[], r, rfl, hc.1⟩
    · obtain ⟨l, r', e, h'⟩ := findJoin_spec h
      exact ⟨a :: l, r', by rw [e]; rfl, h'⟩

theorem filter_none {α : Type} {p : α → Bool} {l : List α} (h : ∀ a ∈ l, p a = true) : l.filter p = l := List.filter_eq_self.2 h

theorem joinOnce_spec {m : Map States} {x y : Str × States} {l r : Map States} (hm : m = l ++ x :: y :: r) (hxy : x.2 = y.2) (hw : WF m) :
    (joinOnce m x y).Perm ((joinText x.1 y.1, y.2) :: (l ++ r)) ∧ (says (joinOnce m x y)).Perm (says m) ∧ WF (joinOnce m x y) := by
  obtain ⟨nx, tx⟩ := hw.1 x (by rw [hm]; simp)
  obtain ⟨ny, ty⟩ := hw.1 y (by rw [hm]; simp)
  have hjoin := Text.join tx ty
  obtain ⟨hlx, hnx⟩ := listed_text tx
  obtain ⟨hly, hny⟩ := listed_text ty
  have hperm0 : m.Perm (x :: y :: (l ++ r)) := by
    rw [hm, List.perm_iff_count]; intro z
    simp only [List.count_append, List.count_cons]; omega
  have hsays := says_perm hperm0
  rw [says_cons, says_cons, hlx, hly] at hsays
  have hnd := ((hsays.map (·.1)).nodup_iff).1 hw.2
  simp only [List.map_append, List.map_map] at hnd
  have hfx : ∀ (ns : List Str) (s : States), List.map ((fun z : Str × States => z.1) ∘ fun n => (n, s)) ns = ns := by
    intro ns s; exact (List.map_congr_left (fun _ _ => rfl)).trans (List.map_id ns)
  rw [hfx, hfx, List.nodup_append, List.nodup_append] at hnd
  obtain ⟨hn1, ⟨hn2, hn3, hn4⟩, hn5⟩ := hnd
  have hxo : ∀ p ∈ l ++ r, p.1 ≠ x.1 := key_new tx (fun n hn hh => hn5 n hn n (List.mem_append.2 (.inr hh)) rfl)
  have hyo : ∀ p ∈ l ++ r, p.1 ≠ y.1 := key_new ty (fun n hn hh => hn4 n hn n hh rfl)
  have hxy' : x.1 ≠ y.1 := by
    intro e
    obtain ⟨n, rest, hn⟩ := List.exists_cons_of_ne_nil hnx
    have hnl : nx = ny := by rw [← hlx, ← hly, e]
    exact hn5 n (by rw [hn]; simp) n (List.mem_append.2 (.inl (by rw [← hnl, hn]; simp))) rfl
  have hjx : joinText x.1 y.1 ≠ x.1 := by intro e; have := congrArg List.length e; simp [joinText] at this
  have hjy : joinText x.1 y.1 ≠ y.1 := by intro e; have := congrArg List.length e; simp [joinText] at this; omega
  have hknew : ∀ p ∈ m, p.1 ≠ joinText x.1 y.1 := by
    intro p hp
    have hp' := hperm0.mem_iff.1 hp
    simp only [List.mem_cons] at hp'
    rcases hp' with rfl | rfl | hp'
    · exact fun e => hjx e.symm
    · exact fun e => hjy e.symm
    · refine key_new hjoin ?_ p hp'
      intro n hn hh
      rcases List.mem_append.1 hn with hn | hn
      · exact hn5 n hn n (List.mem_append.2 (.inr hh)) rfl
      · exact hn4 n hn n hh rfl
  have hp1 : (ins (joinText x.1 y.1) y.2 m).Perm ((joinText x.1 y.1, y.2) :: x :: y :: (l ++ r)) :=
    (ins_perm _ _ m hknew).trans (hperm0.cons _)
  have hp2 : (joinOnce m x y).Perm ((joinText x.1 y.1, y.2) :: (l ++ r)) := by
    unfold joinOnce erase
    refine ((hp1.filter _).filter _).trans ?_
    have e1 : List.filter (fun p : Str × States => decide (p.1 ≠ x.1)) ((joinText x.1 y.1, y.2) :: x :: y :: (l ++ r)) = (joinText x.1 y.1, y.2) :: y :: (l ++ r) := by
      rw [List.filter_cons_of_pos (by simpa using hjx), List.filter_cons_of_neg (by simp), List.filter_cons_of_pos (by simpa using hxy'.symm),
        filter_none (fun p hp => by simpa using hxo p hp)]
    have e2 : List.filter (fun p : Str × States => decide (p.1 ≠ y.1)) ((joinText x.1 y.1, y.2) :: y :: (l ++ r)) = (joinText x.1 y.1, y.2) :: (l ++ r) := by
      rw [List.filter_cons_of_pos (by simpa using hjy), List.filter_cons_of_neg (by simp), filter_none (fun p hp => by simpa using hyo p hp)]
    rw [e1, e2]
  have hs : (says (joinOnce m x y)).Perm (says m) := by
    refine (says_perm hp2).trans ?_
    rw [says_cons, (listed_text hjoin).1, List.map_append]
    refine List.Perm.trans ?_ hsays.symm
    rw [hxy, List.append_assoc]
  refine ⟨hp2, hs, ?_, ((hs.map _).nodup_iff).2 hw.2⟩
  intro kv hkv
  rcases List.mem_cons.1 (hp2.mem_iff.1 hkv) with e | e
  · rw [e]; exact ⟨_, hjoin⟩
  · exact hw.1 kv (hperm0.mem_iff.2 (by simp only [List.mem_cons]; exact .inr (.inr e)))

theorem compact_spec (w : Nat) : ∀ (n : Nat) (m : Map States), WF m → (says (compact w n m)).Perm (says m) ∧ WF (compact w n m) ∧
    (m.length ≤ n → findJoin w (compact w n m) = none)
  | 0, m, hw => ⟨.refl _, hw, fun h => by
      have : m = [] := List.length_eq_zero_iff.1 (by omega)
      subst this; rfl⟩
  | n + 1, m, hw => by
    unfold compact
    cases hf : findJoin w m with
    | none => exact ⟨.refl _, hw, fun _ => hf⟩
    | some xy =>
      obtain ⟨x, y⟩ := xy
      obtain ⟨l, r, e, hxy⟩ := findJoin_spec hf
      obtain ⟨h1, h2, h3⟩ := joinOnce_spec e hxy hw
      obtain ⟨i1, i2, i3⟩ := compact_spec w n (joinOnce m x y) h3
      refine ⟨i1.trans h2, i2, fun hl => i3 ?_⟩
      have := h1.length_eq
      rw [e] at hl
      simp only [List.length_append, List.length_cons] at this hl
      omega

/-- The second loop ends because nothing is left to join, not because the model stops it: it makes fewer changes than there are entries. -/
theorem compact_done (w : Nat) (m : Map States) (hw : WF m) : findJoin w (compact w m.length m) = none := (compact_spec w _ m hw).2.2 (Nat.le_refl _)

theorem findJoin_fits {w : Nat} : ∀ {m : Map States} {x y : Str × States}, findJoin w m = some (x, y) → (joinText x.1 y.1).length + w < 75
  | [], _, _, h => by simp [findJoin] at h
  | [_], _, _, h => by simp [findJoin] at h
  | a :: b :: r, x, y, h => by
    unfold findJoin at h
    split at h
    · rename_i hc
      obtain ⟨rfl, rfl⟩ := Prod.mk.inj (Option.some.inj h)
      exact hc.2
    · exact findJoin_fits h

theorem compact_fits (w : Nat) : ∀ (n : Nat) (m : Map States) (k : Str), k ∈ (compact w n m).map (·.1) → k ∈ m.map (·.1) ∨ k.length + w < 75
  | 0, _, _, h => .inl h
  | n + 1, m, k, h => by
    unfold compact at h
    cases hf : findJoin w m with
    | none => rw [hf] at h; exact .inl h
    | some xy =>
      obtain ⟨x, y⟩ := xy
      rw [hf] at h
      rcases compact_fits w n _ k h with h | h
      · have h2 : k ∈ (ins (joinText x.1 y.1) y.2 m).map (·.1) := by
          obtain ⟨kv, hkv, rfl⟩ := List.mem_map.1 h
          exact List.mem_map.2 ⟨kv, (List.mem_filter.1 (List.mem_filter.1 hkv).1).1, rfl⟩
        rcases (mem_ins_key _ _ m k).1 h2 with e | e
        · rw [e]; exact .inr (findJoin_fits hf)
        · exact .inl e
      · exact .inr h

/-- **C94 (width).** Kernels are put together in one row only as long as the row, with its columns, is shorter than 75 characters: every row is one of those of the first loop (one kernel, or two with a common beginning), or so short. -/
theorem C94_width (km : KM) (row : Row) (h : row ∈ (print km).2) :
    (∃ kv ∈ pairUp km.states [], row.text = kv.1) ∨ row.text.length + colWidth km.archs < 75 := by
  simp only [print, List.mem_map] at h
  obtain ⟨kv, hkv, rfl⟩ := h
  rcases compact_fits _ _ _ kv.1 (List.mem_map.2 ⟨kv, hkv, rfl⟩) with e | e
  · obtain ⟨kv', hm, he⟩ := List.mem_map.1 e
    exact .inl ⟨kv', hm, he.symm⟩
  · exact .inr e

/-! ## The theorems -/

/-- What the rows of the table say: every listed kernel with the cells of its row. -/
def shown (rows : List Row) : List (Str × List String) := rows.flatMap (fun r => (listed r.text).map (fun n => (n, r.cells)))

theorem says_plain (m : Map States) (h : ∀ kv ∈ m, Plain kv.1) : says m = m := by
  induction m with
  | nil => rfl
  | cons x r ih =>
    rw [says_cons, ih (fun kv hkv => h kv (by simp [hkv])), (listed_text (.plain (h x (by simp)))).1]
    rfl

theorem shown_print (km : KM) (hp : ∀ kv ∈ km.states, Plain kv.1) (hn : (km.states.map (·.1)).Nodup) :
    (shown (print km).2).Perm (km.states.map (fun kv => (kv.1, km.archs.map (fun a => cell (get kv.2 a.1))))) := by
  obtain ⟨h1, h2⟩ := pairUp_spec km.states.length km.states [] (Nat.le_refl _) hp ⟨by simp, by simp [says]⟩ (by simpa [says] using hn)
  obtain ⟨h3, -, -⟩ := compact_spec (colWidth km.archs) (pairUp km.states []).length _ h2
  have h4 := h3.trans h1
  rw [show says ([] : Map States) = [] from rfl, List.append_nil] at h4
  have h5 := h4.map (fun kv : Str × States => (kv.1, km.archs.map (fun a => cell (get kv.2 a.1))))
  refine List.Perm.trans (List.Perm.of_eq ?_) h5
  simp only [shown, print, says, List.flatMap_map, List.map_flatMap, List.map_map]
  rfl

/-- **C94: the table.** For every sequence of registrations: every registered kernel is listed exactly once, and nothing else; its cells are, column by column, the last registration of the kernel for the
architecture of the column; the columns are the registered architectures, in order. -/
theorem C94_table (regs : List Reg) (hp : ∀ r ∈ regs, Plain r.2.1) :
    let t := print (addAll {} regs).1
    ((shown t.2).map (·.1)).Nodup ∧
    (∀ k cells, (k, cells) ∈ shown t.2 ↔ (∃ r ∈ regs, r.2.1 = k) ∧ cells = t.1.map (fun a => cell (last regs k a))) ∧
    (∀ a, a ∈ t.1 ↔ ∃ r ∈ regs, r.1 = a) ∧ t.1.Pairwise (fun a b => lt a b = true) := by
  intro t
  obtain ⟨h1, h2, h3, h4, h5⟩ := addAll_spec regs {}
  have hs := h4 List.Pairwise.nil
  have ha := h5 List.Pairwise.nil
  have hnd := sorted_nodup hs
  have hpl : ∀ kv ∈ (addAll {} regs).1.states, Plain kv.1 := by
    intro kv hkv
    rcases (h2 kv.1).1 (List.mem_map_of_mem hkv) with ⟨r, hr, e⟩ | h
    · rw [← e]; exact hp r hr
    · simp at h
  have hperm := shown_print (addAll {} regs).1 hpl hnd
  refine ⟨?_, ?_, ?_, ?_⟩
  · rw [(hperm.map _).nodup_iff, List.map_map]
    exact hnd
  · intro k cells
    rw [hperm.mem_iff, List.mem_map]
    have hcells : ∀ st, get (addAll {} regs).1.states k = some st → ∀ a, get st a = last regs k a := by
      intro st hst a
      have := h1 k a
      simp only [stateOf, hst, Option.bind_some] at this
      rw [this]
      simp [get]
    constructor
    · rintro ⟨kv, hkv, e⟩
      obtain ⟨e1, e2⟩ := Prod.mk.inj e
      have hg := (get_eq_some hnd kv.1 kv.2).2 hkv
      rw [e1] at hg
      refine ⟨?_, ?_⟩
      · rcases (h2 kv.1).1 (List.mem_map_of_mem hkv) with ⟨r, hr, e'⟩ | h
        · exact ⟨r, hr, e'.trans e1⟩
        · simp at h
      · rw [← e2]
        show _ = ((addAll {} regs).1.archs.map (·.1)).map _
        rw [List.map_map]
        refine List.map_congr_left ?_
        intro a _
        simp only [Function.comp, hcells _ hg]
    · rintro ⟨hr, e⟩
      have hk := (h2 k).2 (.inl hr)
      obtain ⟨kv, hkv, e1⟩ := List.mem_map.1 hk
      have hg := (get_eq_some hnd kv.1 kv.2).2 hkv
      rw [e1] at hg
      refine ⟨kv, hkv, ?_⟩
      rw [e, e1]
      show _ = (k, ((addAll {} regs).1.archs.map (·.1)).map _)
      rw [List.map_map]
      congr 1
      refine List.map_congr_left ?_
      intro a _
      simp only [Function.comp, hcells _ hg]
  · intro a
    have := h3 a
    show a ∈ (addAll {} regs).1.archs.map (·.1) ↔ _
    rw [this]
    exact ⟨fun h => h.resolve_right (by simp), .inl⟩
  · show ((addAll {} regs).1.archs.map (·.1)).Pairwise _
    rw [List.pairwise_map]
    exact ha

/-- **C94: duplicates.** The warning is printed for a registration exactly if the same kernel was registered before for the same architecture. -/
theorem C94_duplicates (pre post : List Reg) (r : Reg) :
    (addAll {} (pre ++ r :: post)).2[pre.length]? = some (decide (∃ q ∈ pre, q.1 = r.1 ∧ q.2.1 = r.2.1)) := by
  have gen : ∀ (pre : List Reg) (km : KM), (addAll km (pre ++ r :: post)).2[pre.length]? =
      some (decide ((∃ q ∈ pre, q.1 = r.1 ∧ q.2.1 = r.2.1) ∨ (stateOf km r.2.1 r.1).isSome = true)) := by
    intro pre
    induction pre with
    | nil =>
      intro km
      simp only [List.nil_append, addAll, List.length_nil, List.getElem?_cons_zero, addKernel]
      congr 1
      rw [Bool.eq_iff_iff, decide_eq_true_iff]
      unfold stateOf
      cases get km.states r.2.1 <;> simp [get]
    | cons q qs ih =>
      intro km
      have := ih (addKernel km q.1 q.2.1 q.2.2).1
      simp only [List.cons_append, addAll, List.length_cons, List.getElem?_cons_succ]
      rw [this, stateOf_add]
      congr 1
      rw [decide_eq_decide]
      by_cases h : r.1 = q.1 ∧ r.2.1 = q.2.1
      · rw [if_pos h]
        simp only [Option.isSome_some, or_true, List.mem_cons, exists_eq_or_imp, true_iff]
        exact .inl (.inl ⟨h.1.symm, h.2.symm⟩)
      · rw [if_neg h]
        have h' : ¬ (q.1 = r.1 ∧ q.2.1 = r.2.1) := fun hh => h ⟨hh.1.symm, hh.2.symm⟩
        simp only [List.mem_cons, exists_eq_or_imp, h', false_or]
  have := gen pre {}
  simpa [stateOf, get] using this

/-! ## Non-vacuity -/

/-- Five registrations of three kernels on two architectures. -/
def regs0 : List Reg := [("CPU".toList, "mul_a".toList, true), ("CPU".toList, "mul_b".toList, true), ("CPU".toList, "noop".toList, false),
  ("GPU".toList, "mul_b".toList, true), ("GPU".toList, "mul_a".toList, true)]

example : ∀ r ∈ regs0, Plain r.2.1 := by
  have : regs0.all (fun r => r.2.1.all (fun c => c ≠ ',' && c ≠ ' ' && c ≠ '<' && c ≠ '>')) = true := by decide
  intro r hr c hc
  have := List.all_eq_true.1 (List.all_eq_true.1 this r hr) c hc
  simpa [and_assoc] using this

/-- The two `mul` kernels share a row. -/
example : (print (addAll {} regs0).1).2.map (fun r => (r.cells, String.ofList r.text)) = [(["GOOD", "GOOD"], "mul_<a,b>"), (["FAIL", "----"], "noop")] := by decide
example : listed "x, mul_<a,b>".toList = ["x".toList, "mul_a".toList, "mul_b".toList] := by decide
example : (addAll {} (regs0 ++ [("GPU".toList, "mul_b".toList, false)])).2 = [false, false, false, false, false, true] := by decide

end Arax.KernelMap
