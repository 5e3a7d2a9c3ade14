import Verif.Kv.Model
/-!
# C12: the key-value store is a bounded map
-/
namespace Arax.Kv

/-- Specification: the value last set for `k` in a history of `(key, value)` writes, oldest first. -/
def lastSet (k : Nat) (h : List (Nat × Nat)) : Option Nat :=
  (h.reverse.find? (fun p => p.1 = k)).map (·.2)

/-- Specification: the number of distinct keys in a history. -/
def distinctKeys (h : List (Nat × Nat)) : Nat := ((h.map (·.1)).eraseDups).length

/-- What `scan` finds: the first slot in `[itr, itr+n)` holding `k`. -/
theorem scan_spec (cap : Nat) (kv : Kv) (k : Nat) : ∀ n itr, itr + n ≤ cap →
    (∃ i, scan cap kv k itr n = .ok (some i) ∧ itr ≤ i ∧ i < itr + n ∧ kv.key i = k) ∨
    (scan cap kv k itr n = .ok none ∧ ∀ i, itr ≤ i → i < itr + n → kv.key i ≠ k) := by
  intro n
  induction n with
  | zero => intro itr _; right; exact ⟨rfl, fun i h1 h2 => by omega⟩
  | succ n ih =>
    intro itr h
    unfold scan
    rw [if_neg (by omega)]
    by_cases hk : kv.key itr = k
    · left; exact ⟨itr, by rw [if_pos hk], by omega, by omega, hk⟩
    · rw [if_neg hk]
      rcases ih (itr + 1) (by omega) with ⟨i, h1, h2, h3, h4⟩ | ⟨h1, h2⟩
      · left; exact ⟨i, h1, by omega, by omega, h4⟩
      · right; refine ⟨h1, fun i a b => ?_⟩
        by_cases e : i = itr
        · rw [e]; exact hk
        · exact h2 i (by omega) (by omega)

/-- Relation between a store and the history that led to it: slots hold distinct keys, exactly the keys
of the history in order of first use, each with its last value. -/
structure Inv (cap : Nat) (kv : Kv) (h : List (Nat × Nat)) : Prop where
  bound : kv.pairs ≤ cap
  inj   : ∀ i j, i < kv.pairs → j < kv.pairs → kv.key i = kv.key j → i = j
  val   : ∀ i, i < kv.pairs → lastSet (kv.key i) h = some (kv.value i)
  all   : ∀ k, lastSet k h ≠ none → ∃ i, i < kv.pairs ∧ kv.key i = k
  keys  : (List.range kv.pairs).map kv.key = (h.map (·.1)).eraseDups

theorem eraseDups_snoc (l : List Nat) (a : Nat) :
    (l ++ [a]).eraseDups = if a ∈ l then l.eraseDups else l.eraseDups ++ [a] := by
  rw [List.eraseDups_append]
  split
  · rename_i h; simp [List.removeAll, h]
  · rename_i h; simp [List.removeAll, h, List.eraseDups_cons]

theorem lastSet_snoc (k : Nat) (h : List (Nat × Nat)) (a b : Nat) :
    lastSet k (h ++ [(a, b)]) = if a = k then some b else lastSet k h := by
  unfold lastSet
  rw [List.reverse_append]
  simp only [List.reverse_cons, List.reverse_nil, List.nil_append, List.cons_append, List.find?_cons]
  by_cases e : a = k <;> simp [e]

theorem lastSet_none (k : Nat) (h : List (Nat × Nat)) : lastSet k h = none ↔ k ∉ h.map (·.1) := by
  unfold lastSet
  simp only [Option.map_eq_none_iff, List.find?_eq_none, List.mem_reverse, decide_eq_true_eq, List.mem_map, not_exists, not_and]

theorem inv_init (cap : Nat) : Inv cap init [] :=
  ⟨Nat.zero_le _, by simp [init], by simp [init], by simp [lastSet], by simp [init]⟩

theorem distinct_eq (cap : Nat) (kv : Kv) (h : List (Nat × Nat)) (hI : Inv cap kv h) : distinctKeys h = kv.pairs := by
  unfold distinctKeys; rw [← hI.keys]; simp

theorem set_step (cap : Nat) (kv : Kv) (h : List (Nat × Nat)) (k v : Nat) (hI : Inv cap kv h) :
    (distinctKeys (h ++ [(k, v)]) ≤ cap ∧ ∃ kv', set cap kv k v = .ok kv' ∧ Inv cap kv' (h ++ [(k, v)])) ∨
    (cap < distinctKeys (h ++ [(k, v)]) ∧ set cap kv k v = .abort) := by
  have hd := distinct_eq cap kv h hI
  unfold distinctKeys at hd ⊢
  rw [List.map_append, List.map_singleton, eraseDups_snoc]
  unfold set
  rcases scan_spec cap kv k kv.pairs 0 (by have := hI.bound; omega) with ⟨i, h1, _, h3, h4⟩ | ⟨h1, h2⟩
  · left
    have hi : i < kv.pairs := by omega
    have hm : k ∈ h.map (·.1) := by
      have := hI.val i hi
      apply Decidable.not_not.mp
      intro hn
      rw [h4, (lastSet_none k h).mpr hn] at this
      exact absurd this (by simp)
    rw [if_pos hm, h1]
    refine ⟨by rw [hd]; exact hI.bound, _, rfl, hI.bound, hI.inj, ?_, ?_, ?_⟩
    · intro j hj
      show lastSet (kv.key j) (h ++ [(k, v)]) = some (if j = i then v else kv.value j)
      rw [lastSet_snoc]
      by_cases e : j = i
      · subst e; rw [if_pos h4.symm, if_pos rfl]
      · rw [if_neg (fun e2 => e (hI.inj j i hj hi (by rw [h4, e2]))), if_neg e]
        exact hI.val j hj
    · intro k' hk'
      rw [lastSet_snoc] at hk'
      by_cases e : k = k'
      · exact ⟨i, hi, by rw [h4, e]⟩
      · rw [if_neg e] at hk'; exact hI.all k' hk'
    · rw [List.map_append, List.map_singleton, eraseDups_snoc, if_pos hm]; exact hI.keys
  · have hm : k ∉ h.map (·.1) := by
      intro hm
      have : lastSet k h ≠ none := fun e => (lastSet_none k h).mp e hm
      obtain ⟨i, hi, e⟩ := hI.all k this
      exact h2 i (by omega) (by omega) e
    rw [if_neg hm, h1, List.length_append, hd]
    by_cases hc : kv.pairs < cap
    · left
      simp only [Res.bind_ok, if_pos hc, Res.pure_eq]
      refine ⟨by simp only [List.length_singleton]; omega, _, rfl, (by show kv.pairs + 1 ≤ cap; omega), ?_, ?_, ?_, ?_⟩
      · intro a b ha hb e
        simp only at ha hb e
        by_cases ea : a = kv.pairs <;> by_cases eb : b = kv.pairs
        · omega
        · rw [if_pos ea, if_neg eb] at e
          exact absurd e.symm (h2 b (by omega) (by omega))
        · rw [if_neg ea, if_pos eb] at e
          exact absurd e (h2 a (by omega) (by omega))
        · rw [if_neg ea, if_neg eb] at e
          exact hI.inj a b (by omega) (by omega) e
      · intro a ha
        simp only at ha ⊢
        rw [lastSet_snoc]
        by_cases ea : a = kv.pairs
        · rw [if_pos ea, if_pos rfl, if_pos ea]
        · rw [if_neg ea, if_neg (fun e => h2 a (by omega) (by omega) e.symm), if_neg ea]
          exact hI.val a (by omega)
      · intro k' hk'
        rw [lastSet_snoc] at hk'
        by_cases e : k = k'
        · exact ⟨kv.pairs, by simp, by simp [e]⟩
        · rw [if_neg e] at hk'
          obtain ⟨i, hi, e2⟩ := hI.all k' hk'
          exact ⟨i, by simp; omega, by simp only; rw [if_neg (by omega)]; exact e2⟩
      · rw [List.map_append, List.map_singleton, eraseDups_snoc, if_neg hm, ← hI.keys]
        simp only [List.range_succ, List.map_append, List.map_cons, List.map_nil, if_pos]
        congr 1
        apply List.map_congr_left
        intro x hx
        rw [if_neg (by have := List.mem_range.mp hx; omega)]
    · right
      exact ⟨by simp only [List.length_singleton]; omega, by simp [hc]⟩

theorem run_spec (cap : Nat) (ops : List (Nat × Nat)) : ∀ (h : List (Nat × Nat)) (kv : Kv), Inv cap kv h →
    (∃ kv', run cap ops kv = .ok kv' ∧ Inv cap kv' (h ++ ops)) ∨
    (run cap ops kv = .abort ∧ ∃ pre, pre <+: ops ∧ cap < distinctKeys (h ++ pre)) := by
  induction ops with
  | nil => intro h kv hI; left; exact ⟨kv, rfl, by simpa using hI⟩
  | cons p ops ih =>
    intro h kv hI
    obtain ⟨k, v⟩ := p
    rcases set_step cap kv h k v hI with ⟨_, kv', h1, h2⟩ | ⟨h1, h2⟩
    · rcases ih (h ++ [(k, v)]) kv' h2 with ⟨kv'', a, b⟩ | ⟨a, pre, b, c⟩
      · left; exact ⟨kv'', by simp [run, h1, a], by simpa using b⟩
      · right; exact ⟨by simp [run, h1, a], (k, v) :: pre, by simpa using b, by simpa using c⟩
    · right
      refine ⟨by simp [run, h2], [(k, v)], by simp, h1⟩

/-- Distinct keys only grow along a history. -/
theorem distinct_mono (h t : List (Nat × Nat)) : distinctKeys h ≤ distinctKeys (h ++ t) := by
  unfold distinctKeys
  rw [List.map_append, List.eraseDups_append, List.length_append]
  omega

/-- **C12** For every history of sets on a fresh store of any capacity: if it uses at most `cap` distinct keys
then no set aborts or leaves the array and every later `get k` returns the last value set for `k`
(NULL if never set); otherwise the history aborts (never undefined behaviour). -/
theorem C12_bounded_map (cap : Nat) (ops : List (Nat × Nat)) :
    (distinctKeys ops ≤ cap → ∃ kv, run cap ops init = .ok kv ∧ ∀ k, get cap kv k = .ok (lastSet k ops)) ∧
    (cap < distinctKeys ops → run cap ops init = .abort) := by
  rcases run_spec cap ops [] init (inv_init cap) with ⟨kv, a, b⟩ | ⟨a, pre, b, c⟩
  · rw [List.nil_append] at b
    have hd := distinct_eq cap kv ops b
    have hb := b.bound
    refine ⟨fun _ => ⟨kv, a, fun k => ?_⟩, fun hc => by omega⟩
    unfold get getSlot
    rcases scan_spec cap kv k kv.pairs 0 (by omega) with ⟨i, h1, _, h3, h4⟩ | ⟨h1, h2⟩
    · rw [h1]; have := b.val i (by omega); rw [h4] at this; rw [this]; rfl
    · rw [h1]
      cases e : lastSet k ops with
      | none => rfl
      | some v =>
        obtain ⟨i, hi, e2⟩ := b.all k (by rw [e]; simp)
        exact absurd e2 (h2 i (by omega) (by omega))
  · rw [List.nil_append] at c
    obtain ⟨t, rfl⟩ := b
    have := distinct_mono pre t
    exact ⟨fun hc => by omega, fun _ => a⟩

/-- C12: the address returned by `get` for a key stays the address for that key after every later set
(callers such as `arax_plot` keep the pointer). -/
theorem C12_slot_stable (cap : Nat) (ops more : List (Nat × Nat)) (kv kv' : Kv) (h : run cap ops init = .ok kv)
    (h' : run cap more kv = .ok kv') (k i : Nat) (hg : getSlot cap kv k = .ok (some i)) :
    getSlot cap kv' k = .ok (some i) := by
  have key : ∀ (more : List (Nat × Nat)) (h : List (Nat × Nat)) (kv kv' : Kv), Inv cap kv h →
      run cap more kv = .ok kv' → i < kv.pairs → kv.key i = k → i < kv'.pairs ∧ kv'.key i = k ∧ ∃ h', Inv cap kv' h' := by
    intro more
    induction more with
    | nil => intro h kv kv' hI hr a b; simp only [run, Res.ok.injEq] at hr; subst hr; exact ⟨a, b, h, hI⟩
    | cons p more ih =>
      intro h kv kv' hI hr a b
      obtain ⟨k2, v2⟩ := p
      rcases set_step cap kv h k2 v2 hI with ⟨_, kv2, h1, h2⟩ | ⟨h1, h2⟩
      · simp only [run, h1, Res.bind_ok] at hr
        refine ih _ kv2 kv' h2 hr ?_ ?_
        all_goals
          unfold set at h1
          rcases scan_spec cap kv k2 kv.pairs 0 (by have := hI.bound; omega) with ⟨j, g1, _, g3, g4⟩ | ⟨g1, g2⟩
          · rw [g1] at h1; simp only [Res.bind_ok, Res.pure_eq, Res.ok.injEq] at h1; subst h1; assumption
          · rw [g1] at h1; simp only [Res.bind_ok, Res.pure_eq] at h1
            split at h1
            · simp only [Res.ok.injEq] at h1; subst h1
              first
              | (show i < kv.pairs + 1; omega)
              | (show (if i = kv.pairs then k2 else kv.key i) = k; rw [if_neg (by omega)]; exact b)
            · exact absurd h1 (by simp)
      · simp [run, h2] at hr
  have hi0 := run_spec cap ops [] init (inv_init cap)
  rw [h] at hi0
  simp only [Res.ok.injEq, exists_eq_left', reduceCtorEq, false_and, or_false] at hi0
  unfold getSlot at hg
  rcases scan_spec cap kv k kv.pairs 0 (by have := hi0.bound; omega) with ⟨j, g1, _, g3, g4⟩ | ⟨g1, g2⟩
  · rw [g1] at hg; simp only [Res.ok.injEq, Option.some.injEq] at hg; subst hg
    obtain ⟨a, b, h2, hI2⟩ := key more _ kv kv' hi0 h' (by omega) g4
    unfold getSlot
    rcases scan_spec cap kv' k kv'.pairs 0 (by have := hI2.bound; omega) with ⟨m, e1, _, e3, e4⟩ | ⟨e1, e2⟩
    · rw [e1, hI2.inj m j (by omega) a (by rw [e4, b])]
    · exact absurd b (e2 j (by omega) (by omega))
  · rw [g1] at hg; simp at hg

/-- Non-vacuity: overwriting, two keys, and a third key on a store of capacity 2. -/
example : distinctKeys [(5, 1), (6, 2), (5, 3)] = 2 ∧ lastSet 5 [(5, 1), (6, 2), (5, 3)] = some 3 ∧
    lastSet 7 [(5, 1), (6, 2), (5, 3)] = none ∧ run 2 [(5, 1), (6, 2), (7, 3)] init = .abort := by
  refine ⟨by decide, by decide, by decide, by simp [run, set, scan, init]⟩

end Arax.Kv
