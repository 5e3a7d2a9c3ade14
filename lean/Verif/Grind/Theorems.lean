import Verif.Grind.Props
import Verif.Layout.Props
/-!
# C90: `araxgrind`
-/
namespace Arax.Grind

/-! ## The report -/

theorem sum_alter {K V : Type} [DecidableEq K] (lt : K → K → Bool) (d : V) (k : K) (f : V → V) (μ : V → Nat) (a : Nat) (m : List (K × V))
    (hd : μ (f d) = a) (hf : ∀ x ∈ m, μ (f x.2) = μ x.2 + a) : ((alter lt d k f m).map (fun x => μ x.2)).sum = (m.map (fun x => μ x.2)).sum + a := by
  induction m with
  | nil => simp [alter, hd]
  | cons x m ih =>
    obtain ⟨k', v⟩ := x
    have h1 := hf _ List.mem_cons_self
    have h2 := ih (fun x hx => hf x (List.mem_cons_of_mem _ hx))
    simp only at h1
    rw [alter]
    split
    · simp only [List.map_cons, List.sum_cons, h1]; omega
    · split
      · simp only [List.map_cons, List.sum_cons, hd]; omega
      · simp only [List.map_cons, List.sum_cons, h2]; omega

theorem le_sum {K V : Type} (μ : V → Nat) {m : List (K × V)} {x : K × V} (h : x ∈ m) : μ x.2 ≤ (m.map (fun x => μ x.2)).sum := by
  induction m with
  | nil => cases h
  | cons y m ih =>
    rw [List.map_cons, List.sum_cons]
    rcases List.mem_cons.mp h with e | h
    · rw [e]; omega
    · have := ih h; omega

/-- Sum over the lines. -/
def lsum (μ : Leak → Nat) (m : Leaks) : Nat := (m.map (fun x => (x.2.map (fun y => μ y.2)).sum)).sum

theorem lsum_lines (μ : Leak → Nat) (m : Leaks) : ((m.flatMap (fun p => p.2.map (·.2))).map μ).sum = lsum μ m := by
  induction m with
  | nil => rfl
  | cons x m ih =>
    simp only [List.flatMap_cons, List.map_append, List.sum_append, ih, List.map_map]
    unfold lsum
    rw [List.map_cons, List.sum_cons]
    rfl

theorem lsum_add (S : Sizes) (μ : Leak → Nat) (a : Nat) (m : Leaks) (o : Obj) (h0 : μ (Leak.new.track S o) = a)
    (h : ∀ x, μ x ≤ lsum μ m → μ (x.track S o) = μ x + a) : lsum μ (add S m o) = lsum μ m + a := by
  unfold lsum add
  apply sum_alter (μ := fun im : List (List Nat × Leak) => (im.map (fun y => μ y.2)).sum)
  · simp [alter, h0]
  · intro x hx
    apply sum_alter
    · exact h0
    · intro y hy
      apply h
      have h1 := le_sum μ hy
      have h2 := le_sum (fun im : List (List Nat × Leak) => (im.map (fun y => μ y.2)).sum) hx
      exact Nat.le_trans h1 h2

theorem leaks_sum (S : Sizes) (l : List Obj) (m : Leaks) (h : lsum (·.leaks) m + l.length < 2 ^ 64) : lsum (·.leaks) (l.foldl (add S) m) = lsum (·.leaks) m + l.length := by
  induction l generalizing m with
  | nil => rfl
  | cons o l ih =>
    rw [List.length_cons] at h
    have e : lsum (·.leaks) (add S m o) = lsum (·.leaks) m + 1 := by
      apply lsum_add
      · rfl
      · intro x hx
        show (x.leaks + 1) % 2 ^ 64 = x.leaks + 1
        omega
    rw [List.foldl_cons, ih _ (by omega), e, List.length_cons]; omega

theorem totals_sum (S : Sizes) (l : List Obj) (m : Leaks) (h : lsum (·.total) m + (l.map (sizeOf S)).sum < 2 ^ 64) :
    lsum (·.total) (l.foldl (add S) m) = lsum (·.total) m + (l.map (sizeOf S)).sum := by
  induction l generalizing m with
  | nil => rfl
  | cons o l ih =>
    rw [List.map_cons, List.sum_cons] at h
    have e : lsum (·.total) (add S m o) = lsum (·.total) m + sizeOf S o := by
      apply lsum_add
      · show (0 + sizeOf S o) % 2 ^ 64 = _
        omega
      · intro x hx
        show (x.total + sizeOf S o) % 2 ^ 64 = x.total + sizeOf S o
        omega
    rw [List.foldl_cons, ih _ (by omega), e, List.map_cons, List.sum_cons]; omega

/-- **C90** (partial) For any registered objects (fewer than 2^64 bytes; reference counts are non-negative `int`s) the report is right: the header has their number and bytes; there is one line per size and name that occurs, in order; the line has the exact number, bytes, smallest and largest reference count and instances of those objects; the lines add up to the header.  Missing: the number of sources (`C90_violated_sources`), and the bytes of tasks (`C90_violated_task_bytes`). -/
theorem C90_report_partial (S : Sizes) (l : List Obj) (hb : totalBytes S l < 2 ^ 64) (hn : l.length < 2 ^ 64) (hr : ∀ o ∈ l, 0 ≤ o.refs ∧ o.refs < 2 ^ 31) :
    Right S l (leakCheck S l) := by
  have he : leakCheck S l = { count := l.length, total := totalBytes S l, sources := (l.foldl (add S) []).length, lines := (l.foldl (add S) []).flatMap (fun p => p.2.map (·.2)) } := by
    unfold leakCheck
    rw [collect_eq S l 0 0 [] (by omega) (by omega)]
    rw [sizes_eq hb]
    show Report.mk ((0 + l.length) % 2 ^ 64) ((0 + totalBytes S l) % 2 ^ 64) _ _ = _
    rw [Nat.zero_add, Nat.zero_add, Nat.mod_eq_of_lt hn, Nat.mod_eq_of_lt hb]
  have hi := collect_inv S l
  rw [he]
  refine ⟨rfl, rfl, ?_, ?_, ?_, ?_, ?_⟩
  · show List.Pairwise Before (List.flatMap _ _)
    rw [List.pairwise_flatMap]
    have key : ∀ p ∈ l.foldl (add S) [], ∀ q ∈ p.2, q.2.size = p.1 ∧ q.2.name = q.1 := by
      intro p hp q hq
      have hg : getL (l.foldl (add S) []) p.1 q.1 = some q.2 := by
        unfold getL
        rw [mem_get ordN hi.outer (k := p.1) (v := p.2) hp]
        exact mem_get ordS (hi.inner p hp).1 (k := q.1) (v := q.2) hq
      have := line_key hi hg
      exact ⟨this.1, this.2.1⟩
    constructor
    · intro p hp
      rw [List.pairwise_map]
      refine List.Pairwise.imp_of_mem ?_ (hi.inner p hp).1
      intro a b ha hb hab
      right
      rw [(key p hp a ha).1, (key p hp b hb).1, (key p hp a ha).2, (key p hp b hb).2]
      exact ⟨rfl, hab⟩
    · refine List.Pairwise.imp_of_mem ?_ hi.outer
      intro a b ha hb hab x hx y hy
      obtain ⟨q, hq, e⟩ := List.mem_map.mp hx
      obtain ⟨q', hq', e'⟩ := List.mem_map.mp hy
      left
      rw [← e, ← e', (key a ha q hq).1, (key b hb q' hq').1]
      simpa [ltN] using hab
  · intro o ho
    have hv := hi.val (sizeOf S o) (nameOf o)
    rw [if_neg (fun e => by
      have : o ∈ l.filter (fun o' => sizeOf S o' = sizeOf S o ∧ nameOf o' = nameOf o) := List.mem_filter.mpr ⟨ho, by simp⟩
      rw [e] at this; cases this)] at hv
    refine ⟨_, (mem_lines hi.outer hi.inner _).mpr ⟨_, _, hv⟩, ?_⟩
    have := line_key hi hv
    rw [this.1, this.2.1, bytes_eq (Nat.lt_of_le_of_lt (le_total ho) hb), label_eq]
    exact ⟨rfl, rfl⟩
  · intro x hx
    obtain ⟨s, n, hg⟩ := (mem_lines hi.outer hi.inner x).mp hx
    obtain ⟨e1, e2, hne, e⟩ := line_key hi hg
    rw [group_eq hb] at hne e
    rw [e1, e2]
    have hlen : (group S l s n).length ≤ l.length := List.length_filter_le _ _
    have hsub : ∀ o ∈ group S l s n, o ∈ l := fun o ho => (List.mem_filter.mp ho).1
    have htot : totalBytes S (group S l s n) ≤ totalBytes S l := filter_total _ _
    have hst : (group S l s n).map (sizeOf S) = (group S l s n).map (bytes S) := sizes_eq (by omega)
    obtain ⟨h1, h2, h3, h4, h5, h6, h7, h8, h9⟩ := fold_track S (group S l s n) Leak.new (by decide) (by decide)
    rw [← e] at h1 h2 h3 h4 h5 h6 h7 h8 h9
    have n1 : Leak.new.leaks = 0 := rfl
    have n2 : Leak.new.total = 0 := rfl
    have n3 : Leak.new.maxRef = 0 := rfl
    have n4 : Leak.new.minRef = 2 ^ 31 - 1 := rfl
    have hcnt : x.leaks = (group S l s n).length := by rw [h2, n1]; omega
    have htt : x.total = totalBytes S (group S l s n) := by
      rw [h3, n2, hst]
      show (0 + totalBytes S (group S l s n)) % 2 ^ 64 = _
      omega
    obtain ⟨o0, ho0⟩ := List.exists_mem_of_ne_nil _ hne
    refine ⟨hne, hcnt, htt, ?_, h1, h4, ?_, h7, ?_⟩
    · rw [htt, hcnt, e1]
      apply sum_const
      intro o ho
      have := (List.mem_filter.mp ho).2
      simp at this
      exact this.1
    · rcases h6 with h6 | h6
      · refine ⟨o0, ho0, ?_⟩
        have := h4 o0 ho0
        have := (hr o0 (hsub o0 ho0)).1
        omega
      · exact h6
    · rcases h9 with h9 | h9
      · refine ⟨o0, ho0, ?_⟩
        have := h7 o0 ho0
        have := (hr o0 (hsub o0 ho0)).2
        omega
      · exact h9
  · show l.length = _
    have := leaks_sum S l [] (by simpa [lsum] using hn)
    rw [lsum_lines, this]
    simp [lsum]
  · show totalBytes S l = _
    have h0 : (l.map (sizeOf S)).sum = totalBytes S l := by rw [sizes_eq hb]; rfl
    have := totals_sum S l [] (by rw [h0]; simpa [lsum] using hb)
    rw [lsum_lines, this, h0]
    simp [lsum]

/-- Some sizes of structs. -/
def exS : Sizes := { phys := 200, virt := 300, proc := 100, data := 100, task := 64 }
/-- "A", "B". -/
def dA (addr size : Nat) (refs : Int) : Obj := { kind := .data, addr := addr, name := [65], size := size, procName := none, refs := refs }
def dB (addr size : Nat) (refs : Int) : Obj := { kind := .data, addr := addr, name := [66], size := size, procName := none, refs := refs }

/-- Non-vacuity, and what the report looks like: three data in two lines. -/
example : (∀ o ∈ [dA 1 28 2, dB 2 28 1, dA 3 28 5], 0 ≤ o.refs ∧ o.refs < 2 ^ 31) ∧ totalBytes exS [dA 1 28 2, dB 2 28 1, dA 3 28 5] < 2 ^ 64 ∧
    leakCheck exS [dA 1 28 2, dB 2 28 1, dA 3 28 5] = { count := 3, total := 384, sources := 1, lines := [
      { instances := [(1, 2), (3, 5)], name := [65], leaks := 2, size := 128, total := 256, maxRef := 5, minRef := 2 },
      { instances := [(2, 1)], name := [66], leaks := 1, size := 128, total := 128, maxRef := 1, minRef := 1 }] } := by decide

/-- **C90 is violated by the code**: "from N sources" counts the sizes, not the lines (main.cpp:162: `leaks.size()` of the outer map): two data of different names and the same size are "1 sources". -/
theorem C90_violated_sources : ∃ (S : Sizes) (l : List Obj), ¬ SourcesRight (leakCheck S l) :=
  ⟨exS, [dA 1 28 1, dB 2 28 1], by show ¬ _ = _; decide⟩

/-- **C90** (partial) The number of sources is right if no two names share a size. -/
theorem C90_sources_partial (S : Sizes) (l : List Obj) (hb : totalBytes S l < 2 ^ 64) (h : ∀ o ∈ l, ∀ o' ∈ l, bytes S o = bytes S o' → label o = label o') :
    SourcesRight (leakCheck S l) := by
  have hi := collect_inv S l
  have he : (leakCheck S l).sources = (l.foldl (add S) []).length ∧ (leakCheck S l).lines = (l.foldl (add S) []).flatMap (fun p => p.2.map (·.2)) := by
    unfold leakCheck
    rw [collect_eq S l 0 0 [] (by omega) (by omega)]
    exact ⟨rfl, rfl⟩
  have one : ∀ p ∈ l.foldl (add S) [], p.2.length = 1 := by
    intro p hp
    obtain ⟨hs, hne⟩ := hi.inner p hp
    have grp : ∀ q ∈ p.2, ∃ o ∈ l, bytes S o = p.1 ∧ label o = q.1 := by
      intro q hq
      have hg : getL (l.foldl (add S) []) p.1 q.1 = some q.2 := by
        unfold getL
        rw [mem_get ordN hi.outer (k := p.1) (v := p.2) hp]
        exact mem_get ordS hs (k := q.1) (v := q.2) hq
      obtain ⟨-, -, hg, -⟩ := line_key hi hg
      obtain ⟨o, ho⟩ := List.exists_mem_of_ne_nil _ hg
      obtain ⟨ho, hk⟩ := List.mem_filter.mp ho
      simp at hk
      exact ⟨o, ho, by rw [← bytes_eq (Nat.lt_of_le_of_lt (le_total ho) hb)]; exact hk.1, by rw [← label_eq]; exact hk.2⟩
    match hp2 : p.2 with
    | [] => exact absurd hp2 hne
    | [_] => rfl
    | a :: b :: r =>
      exfalso
      obtain ⟨o, ho, h1, h2⟩ := grp a (by rw [hp2]; simp)
      obtain ⟨o', ho', h1', h2'⟩ := grp b (by rw [hp2]; simp)
      have e := h o ho o' ho' (by rw [h1, h1'])
      rw [hp2] at hs
      have := (List.pairwise_cons.mp hs).1 b (by simp)
      rw [← h2, ← h2', e, Json.lt_irrefl] at this
      cases this
  unfold SourcesRight
  rw [he.1, he.2]
  generalize l.foldl (add S) [] = m at one
  induction m with
  | nil => rfl
  | cons p m ih =>
    have h1 := one p List.mem_cons_self
    have h2 := ih (fun q hq => one q (List.mem_cons_of_mem _ hq))
    simp only [List.flatMap_cons, List.length_append, List.length_cons, List.length_map]
    omega

/-- Non-vacuity: several objects, two names, two sizes. -/
example : ∀ o ∈ [dA 1 28 1, dB 2 30 1, dA 3 28 1], ∀ o' ∈ [dA 1 28 1, dB 2 30 1, dA 3 28 1], bytes exS o = bytes exS o' → label o = label o' := by decide

/-- A task with this much behind its struct. -/
def tk (addr size : Nat) : Obj := { kind := .task, addr := addr, name := [], size := size, procName := some [112], refs := 1 }

/-- **C90 is violated by the code**: the bytes of a task's arguments and host data are not counted (main.cpp:31): a leaked task with a megabyte of host data is a leak of 64 bytes. -/
theorem C90_violated_task_bytes : ∃ (S : Sizes) (l : List Obj), (l.map (held S)).sum < 2 ^ 64 ∧ (leakCheck S l).total ≠ (l.map (held S)).sum :=
  ⟨exS, [tk 1 1048576], by decide, by decide⟩

/-! ## `printSize` -/

theorem shrink_spec (v : Nat) : ∀ (fuel n u : Nat), n = v / 1024 ^ u → (0 < u → 10 ≤ n) → u + fuel = 7 → u ≤ 6 →
    let r := shrink n u fuel
    r.1 = v / 1024 ^ r.2 ∧ (0 < r.2 → 10 ≤ r.1) ∧ r.2 ≤ 6 ∧ (r.2 < 6 → r.1 < 10240) ∧ (r.2 = 6 → u = 6 ∨ 10240 ≤ v / 1024 ^ 5) := by
  intro fuel
  induction fuel with
  | zero => intro n u h1 h2 h3 h4; omega
  | succ f ih =>
    intro n u h1 h2 h3 h4
    simp only
    rw [shrink]
    split
    · rename_i hc
      have := ih (n / 1024) (u + 1) (by rw [h1, Nat.div_div_eq_div_mul, ← Nat.pow_succ]) (fun _ => by omega) (by omega) (by omega)
      obtain ⟨r1, r2, r3, r4, r5⟩ := this
      refine ⟨r1, r2, r3, r4, fun h => ?_⟩
      rcases r5 h with h | h
      · right
        have : u = 5 := by omega
        subst this; rw [← h1]; exact hc.1
      · exact .inr h
    · rename_i hc
      refine ⟨h1, h2, h4, ?_, fun h => .inl h⟩
      show u < 6 → n < 10240
      omega

/-- **C90** A size below 10240 PB is printed as the number of whole units it contains, in the smallest unit for which that is below 10240. -/
theorem C90_print_size (v : Nat) (h : v < 10240 * weight 5) : ∃ n u, printSize v = some (n, u) ∧ n * weight u ≤ v ∧ v < (n + 1) * weight u ∧ n < 10240 ∧ (0 < u → 10240 ≤ v / weight (u - 1)) := by
  unfold weight at *
  have hd : v / 1024 ^ 5 < 10240 := Nat.div_lt_of_lt_mul (by rw [Nat.mul_comm]; exact h)
  obtain ⟨r1, r2, r3, r4, r5⟩ := shrink_spec v 7 v 0 (by simp) (by omega) (by omega) (by omega)
  have hlt : (shrink v 0 7).2 < 6 := by
    by_cases h6 : (shrink v 0 7).2 = 6
    · rcases r5 h6 with h | h <;> omega
    · omega
  refine ⟨(shrink v 0 7).1, (shrink v 0 7).2, ?_, ?_, ?_, r4 hlt, ?_⟩
  · unfold printSize; rw [if_pos hlt]
  · rw [r1]; exact Nat.div_mul_le_self _ _
  · rw [r1]
    have := Nat.lt_div_mul_add (a := v) (b := 1024 ^ (shrink v 0 7).2) (Nat.pow_pos (by omega))
    rw [Nat.add_mul, Nat.one_mul]; exact this
  · intro hu
    have h10 := r2 hu
    rw [r1] at h10
    obtain ⟨w, hw⟩ : ∃ w, (shrink v 0 7).2 = w + 1 := ⟨(shrink v 0 7).2 - 1, by omega⟩
    rw [hw] at h10 ⊢
    show 10240 ≤ v / 1024 ^ w
    rw [Nat.pow_succ, ← Nat.div_div_eq_div_mul] at h10
    omega

/-- Non-vacuity: 9 KB are printed as "9216 B", 12345678 bytes as "11MB". -/
example : printSize 9216 = some (9216, 0) ∧ printSize 12345678 = some (11, 2) ∧ 12345678 < 10240 * weight 5 := by decide

/-- C90: from 10240 PB on the name of the unit is read beyond the end of the array. -/
theorem C90_print_size_limit (v : Nat) (h : 10240 * weight 5 ≤ v) (hv : v < 2 ^ 64) : printSize v = none := by
  unfold weight at h
  unfold printSize
  have e : (shrink v 0 7).2 = 6 := by
    have h0 : 10240 ≤ v := by omega
    have h1 : 10240 ≤ v / 1024 := by omega
    have h2 : 10240 ≤ v / 1024 / 1024 := by omega
    have h3 : 10240 ≤ v / 1024 / 1024 / 1024 := by omega
    have h4 : 10240 ≤ v / 1024 / 1024 / 1024 / 1024 := by omega
    have h5 : 10240 ≤ v / 1024 / 1024 / 1024 / 1024 / 1024 := by omega
    simp [shrink, h0, h1, h2, h3, h4, h5]
  simp only
  rw [if_neg (by omega)]

/-- Non-vacuity: such a number exists below 2^64. -/
example : printSize (10240 * 1024 ^ 5) = none ∧ 10240 * 1024 ^ 5 < 2 ^ 64 := by decide

/-! ## Pointers -/

theorem enum_code (k : Kind) : enumerator k = k.code := by cases k <;> decide

theorem nameAt_obj {g : Seg} (hg : Consistent g) {o : Obj} (ho : o ∈ g.objs) : nameAt g o.addr = some (label o) := by
  unfold nameAt
  have ht := (hg.type o ho).trans (enum_code _)
  by_cases hk : o.kind = .task
  · have hp := hg.proc o ho hk
    have ht : Layout.typeOf g.L g.mem o.addr = 4 := by rw [ht, hk]; rfl
    rw [if_pos ht, ← label_eq]
    unfold nameOf
    rw [hk]
    cases hn : o.procName with
    | none => rw [hn] at hp; simp only at hp; simp only; rw [if_pos hp]; rfl
    | some n =>
      rw [hn] at hp; simp only at hp; simp only
      rw [if_neg hp.1, if_neg hp.2.1, hp.2.2]; rfl
  · have hn := hg.name o ho hk
    rw [if_neg (by rw [ht]; cases hh : o.kind <;> simp_all [Kind.code])]
    simp only
    rw [if_neg hn.1, hn.2]
    unfold label
    rw [if_neg hk]

theorem addr_ne {l : List Obj} (h : l.Pairwise (fun a b => a.addr ≠ b.addr)) {a b : Obj} (ha : a ∈ l) (hb : b ∈ l) (hne : a ≠ b) : a.addr ≠ b.addr := by
  induction l with
  | nil => cases ha
  | cons x l ih =>
    have hc := List.pairwise_cons.mp h
    rcases List.mem_cons.mp ha with e | ha <;> rcases List.mem_cons.mp hb with e' | hb
    · exact absurd (e.trans e'.symm) hne
    · rw [e]; exact hc.1 b hb
    · rw [e']; exact (hc.1 a ha).symm
    · exact ih hc.2 ha hb

theorem certain_iff {g : Seg} (hg : Consistent g) (p : Nat) (k : Kind) : certainType g p = some k ↔ ∃ o ∈ g.objs, o.addr = p ∧ o.kind = k := by
  unfold certainType
  simp only
  constructor
  · intro h
    split at h
    · cases h
    · cases hf : (g.objs.filter (fun o => o.kind.code = Layout.typeOf g.L g.mem p)).find? (fun o => o.addr = p) with
      | none => rw [hf] at h; cases h
      | some o =>
        rw [hf] at h
        have hm := List.mem_of_find?_eq_some hf
        have ha := List.find?_some hf
        exact ⟨o, (List.mem_filter.mp hm).1, by simpa using ha, Option.some.inj h⟩
  · rintro ⟨o, ho, ha, hk⟩
    have ht := (hg.type o ho).trans (enum_code _)
    rw [ha] at ht
    rw [if_neg (by rw [ht]; cases o.kind <;> simp [Kind.code])]
    cases hf : (g.objs.filter (fun o => o.kind.code = Layout.typeOf g.L g.mem p)).find? (fun o => o.addr = p) with
    | none =>
      have := List.find?_eq_none.mp hf o (List.mem_filter.mpr ⟨ho, by rw [ht]; simp⟩)
      simp [ha] at this
    | some o' =>
      have hm := (List.mem_filter.mp (List.mem_of_find?_eq_some hf)).1
      have ha' := List.find?_some hf
      have e : o' = o := by
        have hd := hg.distinct
        by_cases hee : o' = o
        · exact hee
        · exfalso
          exact addr_ne hd hm ho hee (by rw [ha]; simpa using ha')
      rw [e]
      show some o.kind = some k
      rw [hk]

/-- **C90** The tool says that an address is an object of some type and name exactly if an object of that type and name is registered at it - whatever bytes there are at other addresses. -/
theorem C90_inspect_object (g : Seg) (hg : Consistent g) (p : Nat) (k : Kind) (n : List Nat) :
    inspect g p = .object k n ↔ ∃ o ∈ g.objs, o.addr = p ∧ o.kind = k ∧ label o = n := by
  constructor
  · intro h
    unfold inspect at h
    split at h
    · cases h
    · split at h
      · rename_i k' hk'
        obtain ⟨o, ho, ha, hk⟩ := (certain_iff hg p k').mp hk'
        rw [← ha, nameAt_obj hg ho] at h
        simp only [Answer.object.injEq] at h
        exact ⟨o, ho, ha, by rw [hk]; exact h.1, h.2⟩
      · split at h
        · cases h
        · split at h
          · split at h <;> cases h
          · cases h
        · cases h
  · rintro ⟨o, ho, ha, hk, hn⟩
    unfold inspect
    have hc := (certain_iff hg p k).mpr ⟨o, ho, ha, hk⟩
    have hv := hg.valid o ho
    rw [ha] at hv
    rw [hv, if_neg (by decide), hc]
    simp only
    rw [← ha, nameAt_obj hg ho, hn]

/-- **C90** An address outside of the segment is called that. -/
theorem C90_inspect_outside (g : Seg) (p : Nat) : inspect g p = .notArax ↔ ¬ (g.L.base ≤ p ∧ p < g.L.base + g.L.len) := by
  have hiff : Layout.ptrValid g.L p = false ↔ ¬ (g.L.base ≤ p ∧ p < g.L.base + g.L.len) := by simp [Layout.ptrValid]
  rw [← hiff]
  constructor
  · intro h
    unfold inspect at h
    split at h
    · assumption
    · split at h
      · split at h <;> cases h
      · split at h
        · cases h
        · split at h
          · split at h <;> cases h
          · cases h
        · cases h
  · intro h; unfold inspect; rw [if_pos h]

/-- **C90** (partial) For an address inside the buffer of a registered data object, at which no object is registered, the tool names that object and the right offset, provided the eight bytes in front of the address do not spell the address of a data object (C39) and provided it survives printing the "name".  Missing: the name (`C90_violated_name`). -/
theorem C90_inspect_inside_partial (g : Seg) (hg : Consistent g) (hL : g.L.Valid) {s : Layout.St} (hs : Layout.Reach g.L s) (hm : s.mem = g.mem)
    (hl : s.live.map Layout.Obj.addr = (g.objs.filter (fun o => o.kind = .data)).map (·.addr)) {o : Layout.Obj} (ho : o ∈ s.live)
    {b q : Nat} (hb : Layout.deref g.L g.mem o.addr = .ok b) (h1 : b ≤ q) (h2 : q < b + o.size) (hno : ∀ x ∈ g.objs, x.addr ≠ q)
    (hfake : q ≠ b → Layout.NoFakeOwner g.L g.mem q) : inspect g q = .crash ∨ ∃ n, inspect g q = .inside (q - b) o.addr n := by
  have hr := Layout.C39_offset_partial hL hs ho (p := b) (q := q) (by rw [hm]; exact hb) h1 h2 (by rw [hm]; exact hfake)
  rw [hm, hl] at hr
  have ok := (Layout.inv_of_reach hL hs).objs o ho
  have hbb := Layout.bufAddr_bounds g.L hL ok.al ok.hi
  have hd := Layout.deref_ok ok
  rw [hm, hb] at hd
  have ebuf := Res.ok.inj hd
  have hse := hL.seg_end
  have hlo := ok.lo
  have hhi := ok.hi
  have hv : Layout.ptrValid g.L q = true := by simp [Layout.ptrValid]; omega
  unfold inspect
  rw [hv, if_neg (by decide)]
  have hc : certainType g q = none := by
    cases hc : certainType g q with
    | none => rfl
    | some k =>
      obtain ⟨x, hx, hxa, -⟩ := (certain_iff hg q k).mp hc
      exact absurd hxa (hno x hx)
  rw [hc]
  simp only
  rw [hr]
  simp only
  rw [hb]
  simp only
  cases hn : nameAt g q with
  | none => exact .inl rfl
  | some n =>
    refine .inr ⟨n, ?_⟩
    simp only [Answer.inside.injEq, and_true]
    omega

/-- **C90 is violated by the code**: the name printed for an address inside a buffer is not that of the data object but what the user's bytes at the address, taken for an object, give (main.cpp:242: `*obj` instead of `*data`): wherever they are zero in the place of the name, the tool dies. -/
theorem C90_violated_name (g : Seg) (hg : Consistent g) (hL : g.L.Valid) {s : Layout.St} (hs : Layout.Reach g.L s) (hm : s.mem = g.mem)
    (hl : s.live.map Layout.Obj.addr = (g.objs.filter (fun o => o.kind = .data)).map (·.addr)) {o : Layout.Obj} (ho : o ∈ s.live)
    {b q : Nat} (hb : Layout.deref g.L g.mem o.addr = .ok b) (h1 : b ≤ q) (h2 : q < b + o.size) (hno : ∀ x ∈ g.objs, x.addr ≠ q)
    (hfake : q ≠ b → Layout.NoFakeOwner g.L g.mem q) (ht : Layout.typeOf g.L g.mem q ≠ 4) (hz : Layout.readLE g.mem (q + g.offName) 8 = 0) : inspect g q = .crash := by
  rcases C90_inspect_inside_partial g hg hL hs hm hl ho hb h1 h2 hno hfake with h | ⟨n, h⟩
  · exact h
  · exfalso
    have hn : nameAt g q = none := by
      unfold nameAt
      rw [if_neg ht]
      simp only
      rw [if_pos hz]
    unfold inspect at h
    rw [hn] at h
    split at h
    · cases h
    · split at h
      · cases h
      · split at h
        · cases h
        · split at h <;> cases h
        · cases h

/-- A segment with a data object "A" of 64 bytes at 4096, whose buffer is zero except that the user stored something in it. -/
def exMem : Layout.Mem := fun x => if x = 4128 then 0x88 else if x = 4129 then 0x13 else if x = 5000 then 65 else 0

theorem ex_seg : ∃ m, Layout.Reach Layout.exLay ⟨m, [⟨4096, 64, 8⟩]⟩ ∧
    Consistent { L := Layout.exLay, mem := m, objs := [{ kind := .data, addr := 4096, name := [65], size := 64, procName := none, refs := 1 }], offName := 32, offProc := 40 } ∧
    Layout.deref Layout.exLay m 4096 = .ok 4176 ∧ Layout.NoFakeOwner Layout.exLay m 4186 ∧ Layout.typeOf Layout.exLay m 4186 ≠ 4 ∧ Layout.readLE m (4186 + 32) 8 = 0 := by
  have h1 := (Layout.Reach.init (L := Layout.exLay) exMem).create' (a := 4096) (size := 64) (align := 8) (by decide) (by decide)
    (by decide) (by simp) (by decide)
  refine ⟨_, h1, ⟨?_, ?_, ?_, ?_, ?_⟩, ?_, ?_, ?_, ?_⟩
  · intro o ho; rw [List.mem_singleton.mp ho]; decide +kernel
  · intro o ho _; rw [List.mem_singleton.mp ho]; constructor <;> decide +kernel
  · intro o ho hk; rw [List.mem_singleton.mp ho] at hk; cases hk
  · intro o ho; rw [List.mem_singleton.mp ho]; decide +kernel
  · exact List.pairwise_singleton _ _
  · decide +kernel
  · intro v hv
    rw [show Layout.readLE _ (4186 - 8) 8 = 0 from by decide +kernel] at hv
    rw [← hv]; decide
  · decide +kernel
  · decide +kernel

/-- Non-vacuity of the three theorems on pointers: the object is found at 4096; ten bytes into its buffer the tool dies. -/
example : ∃ g : Seg, Consistent g ∧ inspect g 4096 = .object .data [65] ∧ inspect g 4186 = .crash := by
  obtain ⟨m, hr, hc, hd, hf, ht, hz⟩ := ex_seg
  refine ⟨_, hc, (C90_inspect_object _ hc _ _ _).mpr ⟨_, List.mem_singleton.mpr rfl, rfl, rfl, by decide⟩, ?_⟩
  refine C90_violated_name _ hc Layout.exLay_valid hr rfl rfl (List.mem_singleton.mpr rfl) hd (by decide) (by decide) ?_ (fun _ => hf) ht hz
  intro x hx; rw [List.mem_singleton.mp hx]; decide

end Arax.Grind
