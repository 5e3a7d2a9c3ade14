/-!
# C111: every series of a plot has a colour of its own

`arax_plot` draws every metric of a trace as a line (/repo/arax_plot/Metric.cpp:102-116); its
colour comes from `Pallete` (/repo/arax_plot/Pallete.cpp, the same file as
/repo/vdf/Pallete.cpp), by number; the class also gives colours by name.

Simplifications: `std::shuffle` with a fixed seed is an arbitrary permutation of
the 4096 colours; a `std::set<size_t>` is the ascending list of its elements; a
number is a `size_t`.
-/
namespace Arax.Palette

/-- How many colours `init` makes: three digits. (/repo/arax_plot/Pallete.cpp:15-17.) -/
def count : Nat := 4096

/-- A digit, as `init` writes it. (/repo/arax_plot/Pallete.cpp:19-30; `hex` at :41 has the same ones.) -/
def digit (d : Nat) : Char := if d < 10 then Char.ofNat (48 + d) else Char.ofNat (65 + (d - 10))

/-- The `i`-th colour that `init` pushes, before the shuffle. (/repo/arax_plot/Pallete.cpp:15-32.) -/
def rgb (i : Nat) : List Char := [digit (i / 256), digit (i / 16 % 16), digit (i % 16)]

/-- Numbers of the unused colours, and the names that have one. (/repo/arax_plot/Pallete.cpp:7-9.) -/
structure St where
  unused : List Nat
  named : List (List Char × Nat)

/-- After `init`, which every call makes first. (/repo/arax_plot/Pallete.cpp:34-35, 49, 59.) -/
def start : St := ⟨List.range count, []⟩

/-- /repo/arax_plot/Pallete.cpp:43-46. -/
def clamp (o : Int) : Nat := if o > 15 then 15 else if o < 0 then 0 else o.toNat

/-- `get(id, opacity)`; `none`: `colors[id]` is behind the end. `perm` is what the shuffle did. (/repo/arax_plot/Pallete.cpp:39-55.) -/
def getId (perm : Nat → Nat) (s : St) (id : Nat) (o : Int) : Option (St × List Char) :=
  if id < count then some ({ s with unused := s.unused.erase id }, rgb (perm id) ++ [digit (clamp o)]) else none

/-- `get(name, opacity)`; `none`: `begin()` of the empty set is dereferenced. (/repo/arax_plot/Pallete.cpp:57-67.) -/
def getName (perm : Nat → Nat) (s : St) (name : List Char) (o : Int) : Option (St × List Char) :=
  match s.named.lookup name with
  | some c => getId perm s c o
  | none =>
    match s.unused with
    | [] => none
    | c :: _ => getId perm { unused := s.unused.erase c, named := (name, c) :: s.named } c o

/-- The strokes of a trace with `n` metrics: `get(k, 12)` for each in turn. (/repo/arax_plot/Metric.cpp:108-111.) -/
def strokes (perm : Nat → Nat) (s : St) : Nat → Option (St × List (List Char))
  | 0 => some (s, [])
  | n + 1 =>
    match strokes perm s n with
    | none => none
    | some (s', cs) => (getId perm s' n 12).map (fun r => (r.1, cs ++ [r.2]))

/-! ## Specification -/

/-- What `std::shuffle` does: the same colours in another order. -/
structure Shuffle (perm : Nat → Nat) : Prop where
  into : ∀ i, i < count → perm i < count
  inj : ∀ i j, i < count → j < count → perm i = perm j → i = j

/-- The value of a hexadecimal digit. -/
def value (c : Char) : Nat := if c.toNat < 58 then c.toNat - 48 else c.toNat - 55

/-- Two strings `RGBA` are one colour, up to opacity. -/
def Same (a b : List Char) : Prop := (a.take 3).map value = (b.take 3).map value

/-- One request. -/
inductive Req where
  | id (i : Nat)
  | name (n : List Char)
  deriving DecidableEq

/-- Requests one after another, with their answers. -/
inductive Run (perm : Nat → Nat) : St → List (Req × List Char) → Prop
  | start : Run perm start []
  | id {s s' : St} {h : List (Req × List Char)} {i : Nat} {o : Int} {c : List Char} :
      Run perm s h → getId perm s i o = some (s', c) → Run perm s' (h ++ [(.id i, c)])
  | name {s s' : St} {h : List (Req × List Char)} {n : List Char} {o : Int} {c : List Char} :
      Run perm s h → getName perm s n o = some (s', c) → Run perm s' (h ++ [(.name n, c)])

/-! ## Proofs -/

theorem value_digit (d : Nat) (h : d < 16) : value (digit d) = d := by
  have : ∀ d : Fin 16, value (digit d.val) = d.val := by decide
  exact this ⟨d, h⟩

theorem rgb_value (i : Nat) (h : i < count) : (rgb i).map value = [i / 256, i / 16 % 16, i % 16] := by
  simp only [count] at h
  simp only [rgb, List.map]
  rw [value_digit _ (by omega), value_digit _ (by omega), value_digit _ (by omega)]

theorem same_rgb (i j : Nat) (a b : Char) (hi : i < count) (hj : j < count) (h : Same (rgb i ++ [a]) (rgb j ++ [b])) : i = j := by
  have e : ∀ (k : Nat) (c : Char), (rgb k ++ [c]).take 3 = rgb k := fun k c => rfl
  simp only [Same, e, rgb_value i hi, rgb_value j hj, List.cons.injEq, and_true] at h
  simp only [count] at hi hj
  omega

/-- What holds between requests. -/
structure Inv (perm : Nat → Nat) (s : St) (h : List (Req × List Char)) : Prop where
  nodup : s.unused.Nodup
  lt : ∀ i ∈ s.unused, i < count
  named : ∀ n c, s.named.lookup n = some c → c < count ∧ c ∉ s.unused
  apart : ∀ n n' c, s.named.lookup n = some c → s.named.lookup n' = some c → n = n'
  ids : ∀ i a, (Req.id i, a) ∈ h → i < count ∧ i ∉ s.unused ∧ ∃ o : Int, a = rgb (perm i) ++ [digit (clamp o)]
  names : ∀ n a, (Req.name n, a) ∈ h → ∃ c, s.named.lookup n = some c ∧ ∃ o : Int, a = rgb (perm c) ++ [digit (clamp o)]
  only : ∀ n c, s.named.lookup n = some c → ∃ a, (Req.name n, a) ∈ h
  room : count ≤ s.unused.length + h.length

theorem getId_eq {perm : Nat → Nat} {s s' : St} {i : Nat} {o : Int} {c : List Char} (e : getId perm s i o = some (s', c)) :
    i < count ∧ s' = { s with unused := s.unused.erase i } ∧ c = rgb (perm i) ++ [digit (clamp o)] := by
  unfold getId at e
  split at e
  · next h => cases e; exact ⟨h, rfl, rfl⟩
  · cases e

theorem start_named (n : List Char) : start.named.lookup n = none := rfl
theorem start_unused : start.unused = List.range count := by simp only [start]

theorem inv_run {perm : Nat → Nat} {s : St} {h : List (Req × List Char)} (r : Run perm s h) : Inv perm s h := by
  induction r with
  | start =>
    refine ⟨?_, ?_, ?_, ?_, ?_, ?_, ?_, ?_⟩
    · rw [start_unused]; exact List.nodup_range
    · intro i hi; rw [start_unused] at hi; exact List.mem_range.mp hi
    · intro n c h; rw [start_named] at h; cases h
    · intro n n' c h; rw [start_named] at h; cases h
    · intro _ _ h; cases h
    · intro _ _ h; cases h
    · intro n c h; rw [start_named] at h; cases h
    · rw [start_unused, List.length_range]; exact Nat.le_add_right _ _
  | @id s s' h i o c _ e ih =>
    obtain ⟨hi, hs, hc⟩ := getId_eq e
    have sub : ∀ x, x ∈ s'.unused → x ∈ s.unused := fun x hx => by rw [hs] at hx; exact List.mem_of_mem_erase hx
    have hn : s'.named = s.named := by rw [hs]
    have hu : s'.unused = s.unused.erase i := by rw [hs]
    refine ⟨by rw [hu]; exact ih.nodup.erase i, fun x hx => ih.lt x (sub x hx), ?_, ?_, ?_, ?_, ?_, ?_⟩
    · intro n k hk; rw [hn] at hk
      exact ⟨(ih.named n k hk).1, fun hx => (ih.named n k hk).2 (sub k hx)⟩
    · intro n n' k h1 h2; rw [hn] at h1 h2; exact ih.apart n n' k h1 h2
    · intro j a hj
      rcases List.mem_append.mp hj with hj | hj
      · obtain ⟨h1, h2, h3⟩ := ih.ids j a hj
        exact ⟨h1, fun hx => h2 (sub j hx), h3⟩
      · simp only [List.mem_singleton, Prod.mk.injEq, Req.id.injEq] at hj
        obtain ⟨rfl, rfl⟩ := hj
        refine ⟨hi, ?_, o, hc⟩
        rw [hu, ih.nodup.mem_erase_iff]
        exact fun hx => hx.1 rfl
    · intro n a hj
      rcases List.mem_append.mp hj with hj | hj
      · obtain ⟨k, h1, h2⟩ := ih.names n a hj
        exact ⟨k, by rw [hn]; exact h1, h2⟩
      · simp at hj
    · intro n k hk; rw [hn] at hk
      obtain ⟨a, ha⟩ := ih.only n k hk
      exact ⟨a, List.mem_append_left _ ha⟩
    · have := ih.room
      rw [hu, List.length_append, List.length_erase]
      simp only [List.length_singleton]
      split <;> omega
  | @name s s' h n o c _ e ih =>
    unfold getName at e
    split at e
    · next k hk =>
      obtain ⟨hi, hs, hc⟩ := getId_eq e
      have hs' : s' = s := by
        rw [hs, List.erase_of_not_mem (ih.named n k hk).2]
      subst hs'
      refine ⟨ih.nodup, ih.lt, ih.named, ih.apart, ?_, ?_, ?_, ?_⟩
      · intro j a hj
        rcases List.mem_append.mp hj with hj | hj
        · exact ih.ids j a hj
        · simp at hj
      · intro m a hj
        rcases List.mem_append.mp hj with hj | hj
        · exact ih.names m a hj
        · simp only [List.mem_singleton, Prod.mk.injEq, Req.name.injEq] at hj
          obtain ⟨rfl, rfl⟩ := hj
          exact ⟨k, hk, o, hc⟩
      · intro m j hj
        obtain ⟨a, ha⟩ := ih.only m j hj
        exact ⟨a, List.mem_append_left _ ha⟩
      · have := ih.room
        simp only [List.length_append]; omega
    · next hk =>
      split at e
      · cases e
      · next k rest hu =>
        obtain ⟨hi, hs, hc⟩ := getId_eq e
        have nd : k ∉ rest := by
          have h0 := ih.nodup
          rw [hu] at h0
          exact (List.nodup_cons.mp h0).1
        have hr : s'.unused = rest := by
          rw [hs]; dsimp only
          rw [hu, List.erase_cons_head, List.erase_of_not_mem nd]
        have hn : s'.named = (n, k) :: s.named := by rw [hs]
        have hmem : ∀ x, x ∈ s'.unused → x ∈ s.unused := fun x hx => by rw [hr] at hx; rw [hu]; exact List.mem_cons_of_mem _ hx
        have hkm : k ∈ s.unused := by rw [hu]; exact List.mem_cons_self
        have look : ∀ m, s'.named.lookup m = if m = n then some k else s.named.lookup m := by
          intro m
          rw [hn, List.lookup_cons]
          by_cases em : m = n
          · subst em; simp
          · rw [if_neg em, beq_false_of_ne em]
        have keep : ∀ m j, s.named.lookup m = some j → s'.named.lookup m = some j := by
          intro m j hm
          rw [look, if_neg (fun em => by rw [em, hk] at hm; cases hm), hm]
        refine ⟨?_, fun x hx => ih.lt x (hmem x hx), ?_, ?_, ?_, ?_, ?_, ?_⟩
        · have h0 := ih.nodup
          rw [hu] at h0
          rw [hr]; exact (List.nodup_cons.mp h0).2
        · intro m j hm
          rw [look] at hm
          split at hm
          · cases hm; exact ⟨hi, by rw [hr]; exact nd⟩
          · exact ⟨(ih.named m j hm).1, fun hx => (ih.named m j hm).2 (hmem j hx)⟩
        · intro m m' j h1 h2
          rw [look] at h1 h2
          split at h1
          · next e1 =>
            split at h2
            · next e2 => rw [e1, e2]
            · cases h1; exact absurd hkm (ih.named m' k h2).2
          · split at h2
            · cases h2; exact absurd hkm (ih.named m k h1).2
            · exact ih.apart m m' j h1 h2
        · intro j a hj
          rcases List.mem_append.mp hj with hj | hj
          · obtain ⟨h1, h2, h3⟩ := ih.ids j a hj
            exact ⟨h1, fun hx => h2 (hmem j hx), h3⟩
          · simp at hj
        · intro m a hj
          rcases List.mem_append.mp hj with hj | hj
          · obtain ⟨j, h1, h2⟩ := ih.names m a hj
            exact ⟨j, keep m j h1, h2⟩
          · simp only [List.mem_singleton, Prod.mk.injEq, Req.name.injEq] at hj
            obtain ⟨rfl, rfl⟩ := hj
            exact ⟨k, by rw [look, if_pos rfl], o, hc⟩
        · intro m j hm
          rw [look] at hm
          split at hm
          · next em => exact ⟨c, by rw [em]; simp⟩
          · obtain ⟨a, ha⟩ := ih.only m j hm
            exact ⟨a, List.mem_append_left _ ha⟩
        · have := ih.room
          rw [hu] at this
          simp only [List.length_cons] at this
          rw [hr]
          simp only [List.length_append, List.length_singleton]
          omega

/-- **C111 (by number).** For every shuffle and every history: two answers to numbers are the same colour exactly when the numbers are the same. -/
theorem C111_numbers {perm : Nat → Nat} (hp : Shuffle perm) {s : St} {h : List (Req × List Char)} (r : Run perm s h) (i j : Nat) (a b : List Char)
    (ha : (Req.id i, a) ∈ h) (hb : (Req.id j, b) ∈ h) : Same a b ↔ i = j := by
  obtain ⟨hi, _, _, ea⟩ := (inv_run r).ids i a ha
  obtain ⟨hj, _, _, eb⟩ := (inv_run r).ids j b hb
  constructor
  · intro hs
    rw [ea, eb] at hs
    exact hp.inj i j hi hj (same_rgb _ _ _ _ (hp.into i hi) (hp.into j hj) hs)
  · rintro rfl
    rw [ea, eb]; rfl

/-- **C111 (by name).** Two answers to names are the same colour exactly when the names are the same. -/
theorem C111_names {perm : Nat → Nat} (hp : Shuffle perm) {s : St} {h : List (Req × List Char)} (r : Run perm s h) (n m : List Char) (a b : List Char)
    (ha : (Req.name n, a) ∈ h) (hb : (Req.name m, b) ∈ h) : Same a b ↔ n = m := by
  have I := inv_run r
  obtain ⟨x, hx, _, ea⟩ := I.names n a ha
  obtain ⟨y, hy, _, eb⟩ := I.names m b hb
  have lx := (I.named n x hx).1
  have ly := (I.named m y hy).1
  constructor
  · intro hs
    rw [ea, eb] at hs
    have := hp.inj x y lx ly (same_rgb _ _ _ _ (hp.into x lx) (hp.into y ly) hs)
    subst this
    exact I.apart n m x hx hy
  · rintro rfl
    rw [hx] at hy; cases hy
    rw [ea, eb]; rfl

/-- **C111 (a new name).** A name asked for the first time gets a colour that no answer before was, whether to a number or to a name, and there is one
while fewer than 4096 requests were made. -/
theorem C111_new_name_partial {perm : Nat → Nat} (hp : Shuffle perm) {s : St} {h : List (Req × List Char)} (r : Run perm s h) (n : List Char) (o : Int)
    (new : ∀ a, (Req.name n, a) ∉ h) (room : h.length < count) :
    ∃ s' c, getName perm s n o = some (s', c) ∧ ∀ q a, (q, a) ∈ h → ¬ Same c a := by
  have I := inv_run r
  have hl : s.named.lookup n = none := by
    cases e : s.named.lookup n with
    | none => rfl
    | some c => obtain ⟨a, ha⟩ := I.only n c e; exact absurd ha (new a)
  cases hu : s.unused with
  | nil => have := I.room; rw [hu] at this; simp at this; omega
  | cons k rest =>
    have hk : k < count := I.lt k (by rw [hu]; exact List.mem_cons_self)
    have hkm : k ∈ s.unused := by rw [hu]; exact List.mem_cons_self
    refine ⟨{ unused := ((k :: rest).erase k).erase k, named := (n, k) :: s.named }, rgb (perm k) ++ [digit (clamp o)], by simp only [getName, hl, hu, getId, if_pos hk], ?_⟩
    intro q a hq hs
    cases q with
    | id i =>
      obtain ⟨hi, hn, _, ea⟩ := I.ids i a hq
      rw [ea] at hs
      have := hp.inj k i hk hi (same_rgb _ _ _ _ (hp.into k hk) (hp.into i hi) hs)
      exact hn (this ▸ hkm)
    | name m =>
      obtain ⟨y, hy, _, ea⟩ := I.names m a hq
      have hi := (I.named m y hy).1
      rw [ea] at hs
      have := hp.inj k y hk hi (same_rgb _ _ _ _ (hp.into k hk) (hp.into y hi) hs)
      exact (I.named m y hy).2 (this ▸ hkm)

theorem strokes_eq (perm : Nat → Nat) (s : St) (n : Nat) (h : n ≤ count) :
    ∃ s', strokes perm s n = some (s', (List.range n).map (fun k => rgb (perm k) ++ ['C'])) := by
  induction n with
  | zero => exact ⟨s, rfl⟩
  | succ n ih =>
    obtain ⟨s', e⟩ := ih (by omega)
    refine ⟨_, by simp only [strokes, e, getId, if_pos (show n < count by omega), Option.map_some]; rw [List.range_succ, List.map_append]; rfl⟩

/-- **C111 (plots).** The lines of a trace of at most 4096 metrics have colours, one each, all different. Missing: traces of more (`C111_violated_many`). -/
theorem C111_series_partial {perm : Nat → Nat} (hp : Shuffle perm) (n : Nat) (h : n ≤ count) :
    ∃ (s' : St) (cs : List (List Char)), strokes perm start n = some (s', cs) ∧ cs.length = n ∧ (∀ c ∈ cs, c.length = 4) ∧
      ∀ (i j : Nat) (a b : List Char), cs[i]? = some a → cs[j]? = some b → Same a b → i = j := by
  obtain ⟨s', e⟩ := strokes_eq perm start n h
  refine ⟨s', _, e, by simp, ?_, ?_⟩
  · intro c hc
    obtain ⟨k, _, rfl⟩ := List.mem_map.mp hc
    rfl
  · intro i j a b ha hb hs
    simp only [List.getElem?_map] at ha hb
    by_cases hi : i < n
    · by_cases hj : j < n
      · rw [List.getElem?_range hi] at ha
        rw [List.getElem?_range hj] at hb
        simp only [Option.map_some, Option.some.injEq] at ha hb
        subst ha; subst hb
        exact hp.inj i j (by omega) (by omega) (same_rgb _ _ _ _ (hp.into i (by omega)) (hp.into j (by omega)) hs)
      · rw [List.getElem?_eq_none (by simp; omega)] at hb; cases hb
    · rw [List.getElem?_eq_none (by simp; omega)] at ha; cases ha

/-- **C111 is violated by the code** for more than 4096 metrics: the vector of colours is read behind its end. -/
theorem C111_violated_many (perm : Nat → Nat) (s : St) (n : Nat) (h : count < n) : strokes perm s n = none := by
  induction n with
  | zero => omega
  | succ n ih =>
    by_cases e : n = count
    · obtain ⟨s', h1⟩ := strokes_eq perm s n (Nat.le_of_eq e)
      have h2 : getId perm s' n 12 = none := by rw [getId, if_neg (by omega)]
      simp only [strokes, h1, h2, Option.map_none]
    · simp only [strokes, ih (by omega)]

/-- **C111 is violated by the code** when numbers are asked for after names: the number 0 is answered with the colour that the name has. -/
theorem C111_violated_mixed (perm : Nat → Nat) (n : List Char) (o : Int) :
    ∃ s1 s2 c, getName perm start n o = some (s1, c) ∧ getId perm s1 0 o = some (s2, c) := by
  have h0 : 0 < count := by decide
  obtain ⟨rest, hu⟩ : ∃ rest, start.unused = 0 :: rest := by
    rw [start_unused]
    generalize count = k at h0
    cases k with
    | zero => omega
    | succ k => exact ⟨_, List.range_succ_eq_map⟩
  refine ⟨{ unused := ((0 :: rest).erase 0).erase 0, named := [(n, 0)] }, { unused := (((0 :: rest).erase 0).erase 0).erase 0, named := [(n, 0)] },
    rgb (perm 0) ++ [digit (clamp o)], ?_, ?_⟩
  · rw [getName, start_named]
    dsimp only
    rw [hu]
    dsimp only
    rw [getId, if_pos h0]
    rfl
  · rw [getId, if_pos h0]

/-- **C111 is violated by the code** when all colours are in use: a new name dereferences the end of the empty set. -/
theorem C111_violated_exhausted (perm : Nat → Nat) (s : St) (n : List Char) (o : Int) (hn : s.named.lookup n = none) (hu : s.unused = []) :
    getName perm s n o = none := by simp [getName, hn, hu]

/-! ## Non-vacuity -/

/-- An upper-case hexadecimal digit. -/
def IsHex (c : Char) : Prop := ('0' ≤ c ∧ c ≤ '9') ∨ ('A' ≤ c ∧ c ≤ 'F')
instance (c : Char) : Decidable (IsHex c) := by unfold IsHex; infer_instance

theorem hex_digit (d : Nat) (h : d < 16) : IsHex (digit d) := by
  have : ∀ d : Fin 16, IsHex (digit d.val) := by decide
  exact this ⟨d, h⟩

theorem colour_of {perm : Nat → Nat} (hp : Shuffle perm) {i : Nat} (hi : i < count) (o : Int) :
    (rgb (perm i) ++ [digit (clamp o)]).length = 4 ∧ (∀ x ∈ rgb (perm i) ++ [digit (clamp o)], IsHex x) ∧
    (value ((rgb (perm i) ++ [digit (clamp o)]).getD 3 ' ') : Int) = max 0 (min 15 o) := by
  have hq := hp.into i hi
  simp only [count] at hq
  have hc : clamp o < 16 ∧ (clamp o : Int) = max 0 (min 15 o) := by
    unfold clamp
    split
    · omega
    · split <;> omega
  refine ⟨rfl, ?_, ?_⟩
  · intro x hx
    simp only [rgb, List.mem_append, List.mem_cons, List.not_mem_nil, or_false] at hx
    rcases hx with (rfl | rfl | rfl) | rfl
    · exact hex_digit _ (by omega)
    · exact hex_digit _ (by omega)
    · exact hex_digit _ (by omega)
    · exact hex_digit _ hc.1
  · show (value (digit (clamp o)) : Int) = _
    rw [value_digit _ hc.1]; exact hc.2

/-- **C111 (colours).** Whatever was asked before, every answer, to a number or to a name, is four hexadecimal digits, the last of which is the opacity asked for, taken into the range from 0 to 15. -/
theorem C111_colour {perm : Nat → Nat} (hp : Shuffle perm) {s s' : St} (o : Int) (c : List Char)
    (e : (∃ i, getId perm s i o = some (s', c)) ∨ ∃ n, getName perm s n o = some (s', c)) :
    c.length = 4 ∧ (∀ x ∈ c, IsHex x) ∧ (value (c.getD 3 ' ') : Int) = max 0 (min 15 o) := by
  have key : ∀ {s0 : St} {i : Nat}, getId perm s0 i o = some (s', c) → c.length = 4 ∧ (∀ x ∈ c, IsHex x) ∧ (value (c.getD 3 ' ') : Int) = max 0 (min 15 o) := by
    intro s0 i e
    obtain ⟨hi, _, hc⟩ := getId_eq e
    rw [hc]; exact colour_of hp hi o
  rcases e with ⟨i, e⟩ | ⟨n, e⟩
  · exact key e
  · unfold getName at e
    split at e
    · exact key e
    · split at e
      · cases e
      · exact key e

theorem shuffle_rev : Shuffle (fun i => 4095 - i) := by
  constructor
  · intro i h; simp only [count] at *; omega
  · intro i j h1 h2 e; simp only [count] at *; omega

example : (getId (fun i => 4095 - i) start 1 16).map (·.2) = some ['F', 'F', 'E', 'F'] := by decide +kernel
example : (getId (fun i => 4095 - i) start 1 99).map (·.2) = some ['F', 'F', 'E', 'F'] := by decide +kernel
example : ∃ s c, Run (fun i => 4095 - i) s [(.id 7, c)] := ⟨_, _, Run.id (o := 12) Run.start (by rw [getId, if_pos (by decide)])⟩
example : ∃ s' cs, strokes (fun i => 4095 - i) start 3 = some (s', cs) ∧ cs.length = 3 := by
  obtain ⟨s', cs, h1, h2, _⟩ := C111_series_partial shuffle_rev 3 (by decide)
  exact ⟨s', cs, h1, h2⟩

end Arax.Palette
