/-!
# C102: vdf's page shows what is in the segment

*Property.* The page `vdf` serves has, for every object of the segment, one row with its (shortened) address, its name and its references; different objects have different addresses there; amounts of memory have a unit and are right to one part
in a thousand; the bar of a throttle is as wide as its share in use; the allocations are listed.

Simplifications: the tabs that indent the page are left out; a number printed as `float` is the exact number (it is one: at most 20 bits, divided by 1024); the page is read by a browser that knows tags, text and `&lt;`, `&gt;`, `&amp;`.
`JobTrace.cpp` and `Pallete.cpp` are not part of the page (the first is not compiled, nobody uses the second).
-/
namespace Arax.Vdf

/-- Texts. `std::string`. -/
abbrev Str := List Char

/-- A text of the program as a list of characters. (Used for the literals at /repo/vdf/Views/Objects.cpp:25-92.) -/
def S (s : String) : Str := s.toList

/-- `size_t` has 64 bits. (/repo/vdf/Misc.h:10.) -/
def W : Nat := 2 ^ 64

/-! ## Amounts -/

/-- The loop of `autoRange`: `ret` and `c` after it. `n` units are given, then a null pointer. 64 steps are more than a `size_t` allows. (/repo/vdf/Misc.cpp:12-15.) -/
def rangeGo (order n : Nat) : Nat → Nat → Nat → Nat × Nat
  | 0, ret, c => (ret, c)
  | fuel + 1, ret, c => if ret > order * order ∧ c < n then rangeGo order n fuel (ret / order) (c + 1) else (ret, c)

/-- `autoRange`: the number shown, as numerator and denominator, and the index of its unit (/repo/vdf/Misc.cpp:5-26). An index that is not below `n` is no unit: a null pointer, or what lies behind it. -/
def autoRange (value order n : Nat) : Nat × Nat × Nat :=
  let rc := rangeGo order n 64 value 0
  if rc.1 < order then (rc.1, 1, rc.2) else (rc.1, order, rc.2 + 1)

/-- `autoBytes`: eight units (/repo/vdf/Misc.h:6, 12). -/
def autoBytes (value : Nat) : Nat × Nat × Nat := autoRange value 1024 8

/-- `printThrotle`: the width of the bar in percent. `none`: division by zero. (/repo/vdf/Views/Throttle.cpp:11.) -/
def throttleBar (a t : Nat) : Option Nat := if t = 0 then none else some ((t + W - a) % W * 100 % W / t)

/-- The share of leaks (/repo/vdf/Views/Allocations.cpp:60-64, with `ALLOC_STATS`). -/
def leakShare (failed good frees : Nat) : Option Nat :=
  let total := (failed + good) % W
  if total = 0 then none else some ((good + W - frees) % W * 100 % W / total)

/-- The rows for the allocations: the loop changes copies, then the list is emptied, and nothing is printed. (/repo/vdf/Views/Allocations.cpp:84-98.) -/
def allocRows (allocs : List (Nat × Nat)) (base : Nat) : List Str :=
  let _ := allocs.map (fun a => (a.1 - base, a.2 - base))
  []

/-! ## Addresses -/

/-- The last `k` hexadecimal digits, first digit first. (`operator<<(void*)`, used at /repo/vdf/Misc.cpp:41, 57-58.) -/
def hexN : Nat → Nat → List Nat
  | 0, _ => []
  | k + 1, n => hexN k (n / 16) ++ [n % 16]

/-- How many digits are printed; 16 are enough for a pointer. (`operator<<(void*)`.) (C++ library.) -/
def hexLenGo : Nat → Nat → Nat
  | 0, _ => 1
  | f + 1, n => if n < 16 then 1 else hexLenGo f (n / 16) + 1
/-- See `hexLenGo`. (C++ library.) -/
def hexLen (n : Nat) : Nat := hexLenGo 16 n

/-- A pointer as text: `0x` (`x` is written 33) and its digits. (/repo/vdf/Misc.cpp:41.) -/
def ptrText (p : Nat) : List Nat := [0, 33] ++ hexN (hexLen p) p

/-- The loop of `calcDigits`: length of the common beginning. (/repo/vdf/Misc.cpp:63-68.) -/
def common : List Nat → List Nat → Nat
  | a :: as, b :: bs => if a = b then common as bs + 1 else 0
  | _, _ => 0

/-- `calcDigits`. (/repo/vdf/Misc.cpp:53-69.) -/
def calcDigits (ptr size : Nat) : Nat := common (ptrText ptr) (ptrText (ptr + size))

/-- `minPtr`; `none`: `substr` throws. (/repo/vdf/Misc.cpp:37-43.) -/
def minPtr (p digits : Nat) : Option (List Nat) :=
  if digits ≤ (ptrText p).length then some ((ptrText p).drop digits) else none

/-- Digits as characters. (`operator<<(void*)`.) (No code of its own.) -/
def digitChar (d : Nat) : Char := if d = 33 then 'x' else Nat.digitChar d

/-! ## The table of objects -/

/-- `tag_gen`. (/repo/vdf/Misc.cpp:28-35.) -/
def tagGen (tag inner attrs : Str) : Str :=
  ['<'] ++ tag ++ (if attrs ≠ [] then [' '] else []) ++ attrs ++ ['>'] ++ inner ++ ['<', '/'] ++ tag ++ ['>']

/-- `_TD`, `_TH`, `_TR`. (/repo/vdf/Misc.h:19-21.) -/
def td (s : Str) : Str := tagGen ['t', 'd'] s []
/-- See `td`. (No code of its own.) -/
def th (s : Str) : Str := tagGen ['t', 'h'] s []
/-- See `td`. (No code of its own.) -/
def tr (s : Str) : Str := tagGen ['t', 'r'] s []

/-- What a row says about an object; `kind` and `extra`: the last two cells, which depend on the type. (/repo/vdf/Views/Objects.cpp:43-75.) -/
structure Obj where
  label : Str
  name : Str
  refs : Str
  kind : Str
  extra : Str
  deriving Repr, DecidableEq

/-- One row. (/repo/vdf/Views/Objects.cpp:45-48, 49-74 all by `_TD`, 75.) -/
def row (o : Obj) : Str :=
  ['<'] ++ (S "tr onmouseover=\"highlight_same(this)\" name=\"alloc" ++ o.label ++ ['"']) ++ ['>'] ++ th o.label ++ td o.name ++ td o.refs ++ td o.kind ++ td o.extra ++ (['<'] ++ ['/', 't', 'r'] ++ ['>']) ++ ['\n']

/-- The table of one type. (/repo/vdf/Views/Objects.cpp:35-85.) -/
def table (type count : Str) (os : List Obj) : Str :=
  ['<'] ++ S "table" ++ ['>'] ++ ['\n']
  ++ tr (tagGen ['t', 'h'] (type ++ ['['] ++ count ++ [']']) (S "colspan=5")) ++ ['\n']
  ++ tr (th (S "Address") ++ th (S "Name") ++ th (S "Refs") ++ th (S "Type") ++ th (S "Extra")) ++ ['\n']
  ++ (if os = [] then tr (tagGen ['t', 'h'] ((S "No ") ++ type) (S "colspan=5")) ++ ['\n'] else os.flatMap row)
  ++ (['<'] ++ S "/table" ++ ['>']) ++ ['\n']

/-! ## Specification: reading a page -/

/-- What a browser sees. -/
inductive Tok where
  | tag (s : Str)
  | text (s : Str)
  deriving DecidableEq, Repr

/-- State of reading: in a tag or not, and what was read of the piece (last character first). -/
structure Rd where
  inTag : Bool := false
  cur : Str := []
  out : List Tok := []
  deriving DecidableEq, Repr

/-- Ends a piece of text. -/
def flush (r : Rd) : List Tok := if r.cur = [] then r.out else r.out ++ [.text r.cur.reverse]

/-- One character. -/
def rd (r : Rd) (c : Char) : Rd :=
  if r.inTag then
    if c = '>' then { inTag := false, cur := [], out := r.out ++ [.tag r.cur.reverse] } else { r with cur := c :: r.cur }
  else
    if c = '<' then { inTag := true, cur := [], out := flush r } else { r with cur := c :: r.cur }

/-- The pieces of a page. -/
def tokens (s : Str) : List Tok := flush (s.foldl rd {})

/-- A tag that opens or closes a cell. -/
def opens (t : Str) : Bool := t.take 3 = ['t', 'd'] || t.take 3 = ['t', 'h'] || t.take 3 = ['t', 'd', ' '] || t.take 3 = ['t', 'h', ' ']
/-- See `opens`. -/
def closes (t : Str) : Bool := t = ['/', 't', 'd'] || t = ['/', 't', 'h']

/-- The texts of the cells of a page, in order; `none`: not in a cell. -/
def cellsGo : Option Str → List Tok → List Str
  | _, [] => []
  | none, .tag t :: r => if opens t then cellsGo (some []) r else cellsGo none r
  | none, .text _ :: r => cellsGo none r
  | some a, .tag t :: r => if closes t then a :: cellsGo none r else cellsGo (some a) r
  | some a, .text x :: r => cellsGo (some (a ++ x)) r

/-- See `cellsGo`. -/
def cells (s : Str) : List Str := cellsGo none (tokens s)

/-- What a browser makes of `&lt;`, `&gt;` and `&amp;` in a text. -/
def entities : Str → Str
  | '&' :: 'l' :: 't' :: ';' :: r => '<' :: entities r
  | '&' :: 'g' :: 't' :: ';' :: r => '>' :: entities r
  | '&' :: 'a' :: 'm' :: 'p' :: ';' :: r => '&' :: entities r
  | c :: r => c :: entities r
  | [] => []

/-- The texts a reader of the page sees in its cells. -/
def shown (s : Str) : List Str := (cells s).map entities

/-- A text that means itself. -/
def Plain (s : Str) : Prop := '<' ∉ s ∧ '&' ∉ s

/-- An object all of whose texts mean themselves, and whose label has no `>`. -/
def PlainObj (o : Obj) : Prop := Plain o.label ∧ '>' ∉ o.label ∧ Plain o.name ∧ Plain o.refs ∧ Plain o.kind ∧ Plain o.extra

/-- What the row of an object should say. -/
def facts (o : Obj) : List Str := [o.label, o.name, o.refs, o.kind, o.extra]

/-! ## Amounts: proofs -/

theorem rangeGo_spec (order n : Nat) (ho : 2 ≤ order) (value : Nat) : ∀ fuel ret c, ret = value / order ^ c → c ≤ n → (c = 0 ∨ order ^ (c + 1) ≤ value) → ret < 2 ^ fuel →
    (rangeGo order n fuel ret c).1 = value / order ^ (rangeGo order n fuel ret c).2 ∧ (rangeGo order n fuel ret c).2 ≤ n ∧
      ((rangeGo order n fuel ret c).2 = 0 ∨ order ^ ((rangeGo order n fuel ret c).2 + 1) ≤ value) ∧
      ((rangeGo order n fuel ret c).1 ≤ order * order ∨ (rangeGo order n fuel ret c).2 = n) := by
  intro fuel
  induction fuel with
  | zero =>
    intro ret c h1 h2 h3 h4
    refine ⟨h1, h2, h3, Or.inl ?_⟩
    have : ret = 0 := by simpa using h4
    simp [rangeGo, this]
  | succ f ih =>
    intro ret c h1 h2 h3 h4
    rw [rangeGo]
    by_cases g : ret > order * order ∧ c < n
    · rw [if_pos g]
      have hpos : 0 < order ^ c := Nat.pow_pos (by omega)
      apply ih
      · rw [h1, Nat.div_div_eq_div_mul, Nat.pow_succ]
      · omega
      · right
        have h5 : order * order ≤ value / order ^ c := by omega
        have h6 := (Nat.le_div_iff_mul_le hpos).mp h5
        have h7 : order ^ (c + 1 + 1) = order * order * order ^ c := by
          rw [Nat.pow_succ, Nat.pow_succ]; rw [Nat.mul_assoc, Nat.mul_comm]
        rw [h7]; exact h6
      · have : ret / order ≤ ret / 2 := Nat.div_le_div_left ho (by decide)
        rw [Nat.pow_succ] at h4
        omega
    · rw [if_neg g]
      refine ⟨h1, h2, h3, ?_⟩
      omega

/-- **C102 (amounts).** With any number `n` of units, any factor between them, and any 64-bit value below the `n`-th power of the factor: the unit exists, and number times unit is at most the value and short of it by less than one part in `order`;
exact if the value is at most the square of the factor. -/
theorem C102_amount_partial (order n value : Nat) (ho : 2 ≤ order) (hv : value < W) (hn : value < order ^ n) (hn0 : 0 < n) :
    let s := autoRange value order n
    s.2.2 < n ∧ 0 < s.2.1 ∧ s.1 * order ^ s.2.2 ≤ value * s.2.1 ∧ (value * s.2.1 - s.1 * order ^ s.2.2) * order ≤ value * s.2.1 ∧
      (value ≤ order * order → s.1 * order ^ s.2.2 = value * s.2.1) := by
  intro s
  have hs : s = autoRange value order n := rfl
  obtain ⟨h1, h2, h3, h4⟩ := rangeGo_spec order n ho value 64 value 0 (by simp) (by omega) (Or.inl rfl) hv
  simp only [autoRange] at hs
  generalize hr : rangeGo order n 64 value 0 = rc at h1 h2 h3 h4 hs
  obtain ⟨ret, c⟩ := rc
  dsimp only at h1 h2 h3 h4 hs
  have hpos : 0 < order ^ c := Nat.pow_pos (by omega)
  have hle : ret * order ^ c ≤ value := by rw [h1]; exact Nat.div_mul_le_self _ _
  have hlt : value < ret * order ^ c + order ^ c := by
    have := Nat.lt_mul_div_succ value hpos
    rw [← h1, Nat.mul_add, Nat.mul_one, Nat.mul_comm] at this
    exact this
  have herr : (value - ret * order ^ c) * order ≤ value := by
    rcases h3 with h3 | h3
    · subst h3
      have e : ret = value := by rw [h1]; simp
      rw [e]; simp
    · have h5 : (value - ret * order ^ c) * order ≤ order ^ c * order := Nat.mul_le_mul_right _ (by omega)
      have e : order ^ c * order = order ^ (c + 1) := (Nat.pow_succ ..).symm
      omega
  have hex : value ≤ order * order → ret * order ^ c = value := by
    intro hq
    have hc : c = 0 := by
      rcases h3 with h3 | h3
      · exact h3
      · by_cases c0 : c = 0
        · exact c0
        · exfalso
          -- the loop does not start
          have : rangeGo order n 64 value 0 = (value, 0) := by
            rw [rangeGo, if_neg (by omega)]
          rw [this] at hr
          have := (Prod.mk.inj hr).2
          omega
    subst hc
    rw [h1]; simp
  by_cases hro : ret < order
  · rw [if_pos hro] at hs
    rw [hs]
    refine ⟨?_, Nat.one_pos, by simpa using hle, by simpa using herr, fun hq => by simpa using hex hq⟩
    rcases h3 with h3 | h3
    · dsimp only; omega
    · have : order ^ (c + 1) < order ^ n := Nat.lt_of_le_of_lt h3 hn
      have := (Nat.pow_lt_pow_iff_right (by omega : 1 < order)).mp this
      dsimp only; omega
  · rw [if_neg hro] at hs
    rw [hs]
    have hm : order ^ (c + 1) ≤ value := by
      rw [Nat.pow_succ, Nat.mul_comm]
      exact Nat.le_trans (Nat.mul_le_mul_right _ (by omega : order ≤ ret)) hle
    have e : ret * order ^ (c + 1) = ret * order ^ c * order := by rw [Nat.pow_succ, ← Nat.mul_assoc]
    dsimp only
    refine ⟨?_, by omega, ?_, ?_, ?_⟩
    · exact (Nat.pow_lt_pow_iff_right (by omega : 1 < order)).mp (Nat.lt_of_le_of_lt hm hn)
    · rw [e]; exact Nat.mul_le_mul_right _ hle
    · rw [e, ← Nat.sub_mul]; exact Nat.mul_le_mul_right _ herr
    · intro hq; rw [e, hex hq]

/-- For amounts of memory the eight units are enough for every 64-bit value. -/
theorem C102_bytes (value : Nat) (hv : value < W) :
    let s := autoBytes value
    s.2.2 < 8 ∧ 0 < s.2.1 ∧ s.1 * 1024 ^ s.2.2 ≤ value * s.2.1 ∧ (value * s.2.1 - s.1 * 1024 ^ s.2.2) * 1024 ≤ value * s.2.1 := by
  have h : value < 1024 ^ 8 := by
    have : W ≤ 1024 ^ 8 := by decide
    omega
  obtain ⟨h1, h2, h3, h4, _⟩ := C102_amount_partial 1024 8 value (by decide) hv h (by decide)
  exact ⟨h1, h2, h3, h4⟩

/-- 1.5 GiB; and one MiB, which is shown as 1024 Kb. -/
example : autoBytes (3 * 2 ^ 29) = (1536, 1024, 3) := by decide
theorem C102_violated_mib : autoBytes (2 ^ 20) = (1024 * 1024, 1024, 1) := by decide
/-- With the six units of time a long duration has none. -/
theorem C102_violated_time : (autoRange (10 ^ 18 + 10 ^ 15) 1000 6).2.2 = 6 := by decide +kernel

/-- **C102 (bars).** -/
theorem C102_throttle (a t : Nat) (ha : a ≤ t) (h0 : 0 < t) (ht : t * 100 < W) :
    throttleBar a t = some ((t - a) * 100 / t) ∧ (t - a) * 100 / t ≤ 100 := by
  have e : (t + W - a) % W = t - a := by
    rw [show t + W - a = (t - a) + W by omega, Nat.add_mod_right, Nat.mod_eq_of_lt (by omega)]
  have l : (t - a) * 100 ≤ t * 100 := Nat.mul_le_mul_right _ (by omega)
  constructor
  · rw [throttleBar, if_neg (by omega), e, Nat.mod_eq_of_lt (Nat.lt_of_le_of_lt l ht)]
  · rw [Nat.div_le_iff_le_mul h0]
    omega

/-- **C102 (leaks).** With no more frees than allocations that succeeded, the percentage is that of all attempts; it is at most 100. Missing: no attempt at all (`C102_violated_leaks`). -/
theorem C102_leaks_partial (failed good frees : Nat) (hf : frees ≤ good) (h0 : 0 < failed + good) (hw : (failed + good) * 100 < W) :
    leakShare failed good frees = some ((good - frees) * 100 / (failed + good)) ∧ (good - frees) * 100 / (failed + good) ≤ 100 := by
  have e : (good + W - frees) % W = good - frees := by
    rw [show good + W - frees = (good - frees) + W by omega, Nat.add_mod_right, Nat.mod_eq_of_lt (by omega)]
  have t : (failed + good) % W = failed + good := Nat.mod_eq_of_lt (by omega)
  constructor
  · simp only [leakShare]
    rw [t, if_neg (by omega), e, Nat.mod_eq_of_lt (by omega)]
  · rw [Nat.div_le_iff_le_mul h0]
    omega

/-- Non-vacuity: one attempt in four failed, one of the other three was not freed. -/
example : leakShare 1 3 2 = some 25 := (C102_leaks_partial 1 3 2 (by decide) (by decide) (by decide)).1

/-- Before the first allocation of a build with statistics the page ends vdf with a division by zero. -/
theorem C102_violated_leaks (frees : Nat) : leakShare 0 0 frees = none := by simp [leakShare]

/-- No allocation is ever listed. -/
theorem C102_violated_allocations (allocs : List (Nat × Nat)) (base : Nat) : allocRows allocs base = [] := rfl

/-! ## Addresses: proofs -/

theorem hexN_length (k n : Nat) : (hexN k n).length = k := by
  induction k generalizing n with
  | zero => rfl
  | succ k ih => simp [hexN, ih]

/-- The first `l` of `k` digits. -/
theorem hexN_split (l k n : Nat) : hexN (l + k) n = hexN l (n / 16 ^ k) ++ hexN k n := by
  induction k generalizing n with
  | zero => simp [hexN]
  | succ k ih =>
    rw [← Nat.add_assoc, hexN, ih, hexN, Nat.div_div_eq_div_mul, ← List.append_assoc]
    congr 3
    rw [Nat.pow_succ, Nat.mul_comm]

theorem hexN_inj (k a b : Nat) (h : hexN k a = hexN k b) : a % 16 ^ k = b % 16 ^ k := by
  induction k generalizing a b with
  | zero => simp [Nat.mod_one]
  | succ k ih =>
    simp only [hexN] at h
    obtain ⟨h1, h2⟩ := List.append_inj' h rfl
    have := ih _ _ h1
    have hd : a % 16 = b % 16 := by simpa using h2
    rw [Nat.pow_succ, Nat.mul_comm, Nat.mod_mul, Nat.mod_mul, this, hd]

theorem hexLenGo_spec : ∀ f n, n < 16 ^ (f + 1) → n < 16 ^ hexLenGo f n ∧ 1 ≤ hexLenGo f n ∧ (hexLenGo f n = 1 ∨ 16 ^ (hexLenGo f n - 1) ≤ n) := by
  intro f
  induction f with
  | zero => intro n h; exact ⟨by simpa [hexLenGo] using h, by simp [hexLenGo], Or.inl rfl⟩
  | succ f ih =>
    intro n h
    rw [hexLenGo]
    by_cases c : n < 16
    · rw [if_pos c]; exact ⟨by simpa using c, by omega, Or.inl rfl⟩
    · rw [if_neg c]
      have h' : n / 16 < 16 ^ (f + 1) := by
        rw [Nat.div_lt_iff_lt_mul (by decide)]; rw [Nat.pow_succ] at h; exact h
      obtain ⟨h1, h2, h3⟩ := ih (n / 16) h'
      refine ⟨?_, by omega, Or.inr ?_⟩
      · rw [Nat.pow_succ]; exact (Nat.div_lt_iff_lt_mul (by decide)).mp h1
      · rw [Nat.add_sub_cancel]
        rcases h3 with h3 | h3
        · rw [h3]; omega
        · have e : hexLenGo f (n / 16) = hexLenGo f (n / 16) - 1 + 1 := by omega
          rw [e, Nat.pow_succ]
          have := Nat.mul_le_mul_right 16 h3
          omega

theorem hexLen_spec (n : Nat) (h : n < W) : n < 16 ^ hexLen n ∧ 1 ≤ hexLen n ∧ (hexLen n = 1 ∨ 16 ^ (hexLen n - 1) ≤ n) := by
  apply hexLenGo_spec 16
  have : W ≤ 16 ^ (16 + 1) := by decide
  omega

theorem hexLen_mono (a b : Nat) (h : a ≤ b) (hb : b < W) : hexLen a ≤ hexLen b := by
  obtain ⟨a1, a2, a3⟩ := hexLen_spec a (by omega)
  obtain ⟨b1, b2, _⟩ := hexLen_spec b hb
  rcases a3 with a3 | a3
  · omega
  · have : 16 ^ (hexLen a - 1) < 16 ^ hexLen b := by omega
    have := (Nat.pow_lt_pow_iff_right (by decide : 1 < 16)).mp this
    omega

theorem common_spec : ∀ a b : List Nat, a.take (common a b) = b.take (common a b) ∧ common a b ≤ a.length ∧ common a b ≤ b.length := by
  intro a
  induction a with
  | nil => intro b; cases b <;> simp [common]
  | cons x xs ih =>
    intro b
    cases b with
    | nil => simp [common]
    | cons y ys =>
      simp only [common]
      by_cases c : x = y
      · rw [if_pos c]
        obtain ⟨h1, h2, h3⟩ := ih ys
        refine ⟨by simp [c, h1], by simp; omega, by simp; omega⟩
      · rw [if_neg c]; simp

theorem common_cons (x : Nat) (a b : List Nat) : common (x :: a) (x :: b) = common a b + 1 := by simp [common]

/-- **C102 (addresses), partial.** When the first and the last address of the segment have equally many digits, every address in it can be shortened, and two shortened addresses are equal only for equal addresses. -/
theorem C102_labels_partial (base size : Nat) (hw : base + size < W) (hl : hexLen base = hexLen (base + size)) (p : Nat) (hp : base ≤ p) (hp' : p ≤ base + size) :
    ∃ l, minPtr p (calcDigits base size) = some l ∧
      ∀ q, base ≤ q → q ≤ base + size → minPtr q (calcDigits base size) = some l → q = p := by
  -- all have k digits
  obtain ⟨k, hk⟩ : ∃ k, k = hexLen base := ⟨_, rfl⟩
  have len : ∀ q, base ≤ q → q ≤ base + size → hexLen q = k := by
    intro q h1 h2
    have := hexLen_mono base q h1 (by omega)
    have := hexLen_mono q (base + size) h2 hw
    omega
  have eD : calcDigits base size = common (hexN k base) (hexN k (base + size)) + 2 := by
    rw [calcDigits, ptrText, ptrText, ← hl, ← hk]
    simp only [List.cons_append, List.nil_append, common_cons]
  obtain ⟨h1, h2, _⟩ := common_spec (hexN k base) (hexN k (base + size))
  rw [hexN_length] at h2
  generalize common (hexN k base) (hexN k (base + size)) = c at eD h1 h2
  obtain ⟨r, hr⟩ : ∃ r, k = c + r := ⟨k - c, by omega⟩
  -- the common beginning is that of everything between
  have pre : ∀ n, (hexN k n).take c = hexN c (n / 16 ^ r) := by
    intro n; rw [hr, hexN_split, List.take_append_of_le_length (by rw [hexN_length]; omega), List.take_of_length_le (by rw [hexN_length]; omega)]
  have post : ∀ n, (hexN k n).drop c = hexN r n := by
    intro n; rw [hr, hexN_split, List.drop_append_of_le_length (by rw [hexN_length]; omega), List.drop_of_length_le (by rw [hexN_length]; omega), List.nil_append]
  have lt : ∀ q, base ≤ q → q ≤ base + size → q / 16 ^ r < 16 ^ c := by
    intro q a b
    rw [Nat.div_lt_iff_lt_mul (Nat.pow_pos (by decide)), ← Nat.pow_add, ← hr, ← len q a b]
    exact (hexLen_spec q (by omega)).1
  have hq0 : base / 16 ^ r = (base + size) / 16 ^ r := by
    rw [pre, pre] at h1
    have := hexN_inj _ _ _ h1
    rwa [Nat.mod_eq_of_lt (lt base (by omega) (by omega)), Nat.mod_eq_of_lt (lt (base + size) (by omega) (by omega))] at this
  have hq : ∀ q, base ≤ q → q ≤ base + size → q / 16 ^ r = base / 16 ^ r := by
    intro q a b
    have := Nat.div_le_div_right (c := 16 ^ r) a
    have := Nat.div_le_div_right (c := 16 ^ r) b
    omega
  have mp : ∀ q, base ≤ q → q ≤ base + size → minPtr q (calcDigits base size) = some (hexN r q) := by
    intro q a b
    rw [minPtr, eD, if_pos (by simp only [ptrText, List.length_append, hexN_length, len q a b, List.length_cons, List.length_nil]; omega)]
    rw [ptrText, len q a b, ← post]
    rfl
  refine ⟨_, mp p hp hp', ?_⟩
  intro q a b e
  rw [mp q a b] at e
  have h3 := hexN_inj _ _ _ (Option.some.inj e)
  have h4 := hq q a b
  have h5 := hq p hp hp'
  rw [← Nat.div_add_mod q (16 ^ r), ← Nat.div_add_mod p (16 ^ r), h3, h4, h5]

example : minPtr 0x7f5012345678 (calcDigits 0x7f5012000000 0x1000000) = some [2, 3, 4, 5, 6, 7, 8] := by decide
example : hexLen 0x7f5012000000 = hexLen (0x7f5012000000 + 0x1000000) := by decide

theorem hexN_lt (k n : Nat) : ∀ d ∈ hexN k n, d < 16 := by
  induction k generalizing n with
  | zero => intro d h; cases h
  | succ k ih =>
    intro d h
    rcases List.mem_append.mp h with h | h
    · exact ih _ d h
    · simp at h; omega

theorem digitChar_inj (a b : Nat) (ha : a < 16) (hb : b < 16) (h : digitChar a = digitChar b) : a = b := by
  have : ∀ a b : Fin 16, digitChar a.1 = digitChar b.1 → a = b := by decide
  exact congrArg Fin.val (this ⟨a, ha⟩ ⟨b, hb⟩ h)

/-- The digits are printed as different characters, none of which means anything to a browser: a shortened address is a plain text, and texts of different digits differ. -/
theorem C102_label_text (k n m : Nat) : Plain ((hexN k n).map digitChar) ∧ '>' ∉ (hexN k n).map digitChar ∧
    ((hexN k n).map digitChar = (hexN k m).map digitChar → hexN k n = hexN k m) := by
  have ok : ∀ a : Fin 16, digitChar a.1 ≠ '<' ∧ digitChar a.1 ≠ '&' ∧ digitChar a.1 ≠ '>' := by decide
  have no : ∀ c, (∀ a : Fin 16, digitChar a.1 ≠ c) → c ∉ (hexN k n).map digitChar := by
    intro c hc h
    obtain ⟨d, hd, e⟩ := List.mem_map.mp h
    exact hc ⟨d, hexN_lt k n d hd⟩ e
  refine ⟨⟨no _ (fun a => (ok a).1), no _ (fun a => (ok a).2.1)⟩, no _ (fun a => (ok a).2.2), ?_⟩
  intro h
  have len : (hexN k n).length = (hexN k m).length := by rw [hexN_length, hexN_length]
  apply List.ext_getElem len
  intro i h1 h2
  have e : ((hexN k n).map digitChar)[i]'(by simpa using h1) = ((hexN k m).map digitChar)[i]'(by simpa using h2) := by
    simp only [h]
  simp only [List.getElem_map] at e
  exact digitChar_inj _ _ (hexN_lt k n _ (List.getElem_mem h1)) (hexN_lt k m _ (List.getElem_mem h2)) e

/-- **C102 is violated (addresses).** When the end of the segment has more digits than its beginning, different objects can have the same shortened address. -/
theorem C102_violated_labels : minPtr 0x2000 (calcDigits 0x1000 0xffff) = minPtr 0x3000 (calcDigits 0x1000 0xffff) ∧ (minPtr 0x2000 (calcDigits 0x1000 0xffff)).isSome = true := by decide

/-! ## The table: proofs -/

theorem rd_fold (a b : Str) (r : Rd) : (a ++ b).foldl rd r = b.foldl rd (a.foldl rd r) := by simp

theorem rd_tag (s : Str) (h : '>' ∉ s) : ∀ (cur : Str) (out : List Tok),
    (s ++ ['>']).foldl rd { inTag := true, cur := cur, out := out } = { inTag := false, cur := [], out := out ++ [.tag (cur.reverse ++ s)] } := by
  induction s with
  | nil => intro cur out; simp [rd]
  | cons x xs ih =>
    intro cur out
    have hx : x ≠ '>' := fun e => h (by simp [e])
    have hxs : '>' ∉ xs := fun e => h (by simp [e])
    simp only [List.cons_append, List.foldl_cons]
    rw [show rd { inTag := true, cur := cur, out := out } x = { inTag := true, cur := x :: cur, out := out } by simp [rd, hx], ih hxs]
    simp

theorem rd_text (s : Str) (h : '<' ∉ s) : ∀ (cur : Str) (out : List Tok),
    s.foldl rd { inTag := false, cur := cur, out := out } = { inTag := false, cur := s.reverse ++ cur, out := out } := by
  induction s with
  | nil => intro cur out; rfl
  | cons x xs ih =>
    intro cur out
    have hx : x ≠ '<' := fun e => h (by simp [e])
    have hxs : '<' ∉ xs := fun e => h (by simp [e])
    simp only [List.foldl_cons]
    rw [show rd { inTag := false, cur := cur, out := out } x = { inTag := false, cur := x :: cur, out := out } by simp [rd, hx], ih hxs]
    simp

/-- A stretch of the page that begins and ends between tags adds `toks`. -/
def Adds (s : Str) (toks : List Tok) : Prop := ∀ out, s.foldl rd { out := out } = { out := out ++ toks }

theorem adds_app {a b : Str} {x y : List Tok} (ha : Adds a x) (hb : Adds b y) : Adds (a ++ b) (x ++ y) := by
  intro out; rw [rd_fold, ha, hb, List.append_assoc]

theorem adds_nil : Adds [] [] := by intro out; simp

/-- Text and then a tag. -/
def textTok (s : Str) : List Tok := if s = [] then [] else [.text s]

theorem adds_text_tag (s t : Str) (hs : '<' ∉ s) (ht : '>' ∉ t) : Adds (s ++ ['<'] ++ t ++ ['>']) (textTok s ++ [.tag t]) := by
  intro out
  rw [List.append_assoc, List.append_assoc, rd_fold]
  have e := rd_text s hs [] out
  rw [e]
  simp only [List.append_nil, List.singleton_append, List.foldl_cons]
  by_cases c : s = []
  · subst c
    rw [show rd { inTag := false, cur := ([] : Str).reverse, out := out } '<' = { inTag := true, cur := [], out := out } by simp [rd, flush]]
    rw [rd_tag t ht]; simp [textTok]
  · rw [show rd { inTag := false, cur := s.reverse, out := out } '<' = { inTag := true, cur := [], out := out ++ [.text s] } by simp [rd, flush, c]]
    rw [rd_tag t ht]; simp [textTok, c]

theorem adds_tag (t : Str) (ht : '>' ∉ t) : Adds (['<'] ++ t ++ ['>']) [.tag t] := by
  have := adds_text_tag [] t (by simp) ht
  simpa [textTok] using this

/-- An element with plain text. -/
theorem adds_elem (tag inner attrs : Str) (h1 : '>' ∉ tag) (h2 : '<' ∉ inner) (h3 : '>' ∉ attrs) :
    Adds (tagGen tag inner attrs) ([.tag (tag ++ (if attrs ≠ [] then [' '] else []) ++ attrs)] ++ (textTok inner ++ [.tag ('/' :: tag)])) := by
  have a := adds_tag (tag ++ (if attrs ≠ [] then [' '] else []) ++ attrs) (by
    intro c
    rcases List.mem_append.mp c with c | c
    · rcases List.mem_append.mp c with c | c
      · exact h1 c
      · split at c <;> simp at c
    · exact h3 c)
  have b := adds_text_tag inner ('/' :: tag) h2 (by
    intro c
    rcases List.mem_cons.mp c with c | c
    · exact absurd c (by decide)
    · exact h1 c)
  have := adds_app a b
  rw [tagGen]
  rw [show ['<'] ++ tag ++ (if attrs ≠ [] then [' '] else []) ++ attrs ++ ['>'] ++ inner ++ ['<', '/'] ++ tag ++ ['>']
      = (['<'] ++ (tag ++ (if attrs ≠ [] then [' '] else []) ++ attrs) ++ ['>']) ++ (inner ++ ['<'] ++ ('/' :: tag) ++ ['>']) by simp [List.append_assoc]]
  exact this

/-- Tokens that add the cells `cs` when read outside of a cell, and end outside. -/
def Cells (toks : List Tok) (cs : List Str) : Prop := ∀ r, cellsGo none (toks ++ r) = cs ++ cellsGo none r

theorem cells_app {a b : List Tok} {x y : List Str} (ha : Cells a x) (hb : Cells b y) : Cells (a ++ b) (x ++ y) := by
  intro r; rw [List.append_assoc, ha, hb, List.append_assoc]

theorem cells_nil : Cells [] [] := by intro r; simp

theorem cells_other (t : Str) (h : opens t = false) : Cells [.tag t] [] := by intro r; simp [cellsGo, h]

theorem cells_text (s : Str) : Cells (textTok s) [] := by
  intro r; unfold textTok; split
  · simp
  · simp [cellsGo]

theorem cells_elem (o c s : Str) (ho : opens o = true) (hc : closes c = true) : Cells ([.tag o] ++ (textTok s ++ [.tag c])) [s] := by
  intro r
  unfold textTok
  split
  · rename_i e; subst e; simp [cellsGo, ho, hc]
  · simp [cellsGo, ho, hc]

/-- What a stretch of the page that begins and ends between tags contributes to the cells. -/
def Shows (s : Str) (cs : List Str) : Prop := ∃ toks, Adds s toks ∧ Cells toks cs

theorem shows_app {a b : Str} {x y : List Str} (ha : Shows a x) (hb : Shows b y) : Shows (a ++ b) (x ++ y) := by
  obtain ⟨t, h1, h2⟩ := ha
  obtain ⟨u, h3, h4⟩ := hb
  exact ⟨t ++ u, adds_app h1 h3, cells_app h2 h4⟩

theorem shows_nil : Shows [] [] := ⟨[], adds_nil, cells_nil⟩

theorem shows_tag (t : Str) (ht : '>' ∉ t) (ho : opens t = false) : Shows (['<'] ++ t ++ ['>']) [] := ⟨_, adds_tag t ht, cells_other t ho⟩

theorem shows_textTag (s t : Str) (hs : '<' ∉ s) (ht : '>' ∉ t) (ho : opens t = false) : Shows (s ++ ['<'] ++ t ++ ['>']) [] :=
  ⟨_, adds_text_tag s t hs ht, by have := cells_app (cells_text s) (cells_other t ho); simpa using this⟩

theorem shows_td (s : Str) (h : '<' ∉ s) : Shows (td s) [s] :=
  ⟨_, adds_elem _ s [] (by decide) h (by simp), cells_elem _ _ s (by decide) (by decide)⟩

theorem shows_th (s : Str) (h : '<' ∉ s) : Shows (th s) [s] :=
  ⟨_, adds_elem _ s [] (by decide) h (by simp), cells_elem _ _ s (by decide) (by decide)⟩

theorem shows_thspan (s : Str) (h : '<' ∉ s) : Shows (tagGen ['t', 'h'] s (S "colspan=5")) [s] :=
  ⟨_, adds_elem _ s _ (by decide) h (by decide), cells_elem _ _ s (by decide) (by decide)⟩

/-- Something in `<tr>`…`</tr>`. -/
theorem shows_tr {s : Str} {cs : List Str} (h : Shows s cs) : Shows (tr s) cs := by
  have a := shows_tag ['t', 'r'] (by decide) (by decide)
  have b := shows_tag ['/', 't', 'r'] (by decide) (by decide)
  have := shows_app (shows_app a h) b
  simp only [List.nil_append, List.append_nil] at this
  rw [show tr s = ['<'] ++ ['t', 'r'] ++ ['>'] ++ s ++ (['<'] ++ ['/', 't', 'r'] ++ ['>']) by simp [tr, tagGen]]
  exact this

/-- A row, with a preceding text without tags (the end of the line before). -/
theorem shows_row (o : Obj) (h : PlainObj o) (pre : Str) (hp : '<' ∉ pre) :
    Shows (pre ++ (row o).dropLast) (facts o) := by
  obtain ⟨⟨l1, _⟩, l2, ⟨n1, _⟩, ⟨r1, _⟩, ⟨k1, _⟩, ⟨e1, _⟩⟩ := h
  have a := shows_textTag pre ((S "tr onmouseover=\"highlight_same(this)\" name=\"alloc") ++ o.label ++ ['"']) hp (by
    intro c
    rcases List.mem_append.mp c with c | c
    · rcases List.mem_append.mp c with c | c
      · revert c; decide
      · exact l2 c
    · revert c; decide) (by
    have e : ∀ x : Str, (S "tr onmouseover=\"highlight_same(this)\" name=\"alloc" ++ x).take 3 = ['t', 'r', ' '] := by
      intro x
      rw [List.take_append_of_le_length (by decide)]; decide
    rw [List.append_assoc]
    simp only [opens, e]; decide)
  have b := shows_app (shows_app (shows_app (shows_app (shows_app (shows_app a (shows_th o.label l1)) (shows_td o.name n1)) (shows_td o.refs r1)) (shows_td o.kind k1)) (shows_td o.extra e1))
    (shows_tag ['/', 't', 'r'] (by decide) (by decide))
  have e : pre ++ (row o).dropLast = pre ++ ['<'] ++ (S "tr onmouseover=\"highlight_same(this)\" name=\"alloc" ++ o.label ++ ['"']) ++ ['>'] ++ th o.label ++ td o.name ++ td o.refs ++ td o.kind ++ td o.extra
      ++ (['<'] ++ ['/', 't', 'r'] ++ ['>']) := by
    rw [row, List.dropLast_concat]
    simp only [List.append_assoc]
  rw [e]
  simpa [facts] using b

theorem row_last (o : Obj) : row o = (row o).dropLast ++ ['\n'] := by
  rw [row, List.dropLast_concat]

theorem shows_rows (os : List Obj) : ∀ (pre : Str), '<' ∉ pre → (∀ o ∈ os, PlainObj o) → ∃ body, pre ++ os.flatMap row = body ++ (if os = [] then pre else ['\n']) ∧ Shows body (os.flatMap facts) := by
  induction os with
  | nil => intro pre _ _; exact ⟨[], by simp, by simpa using shows_nil⟩
  | cons o os ih =>
    intro pre hp h
    obtain ⟨body, e, sh⟩ := ih ['\n'] (by decide) (fun o' h' => h o' (by simp [h']))
    refine ⟨(pre ++ (row o).dropLast) ++ body, ?_, ?_⟩
    · have e2 : ['\n'] ++ os.flatMap row = body ++ ['\n'] := by
        rw [e]; split <;> rfl
      have e3 : row o ++ os.flatMap row = (row o).dropLast ++ (['\n'] ++ os.flatMap row) := by
        rw [← List.append_assoc, ← row_last]
      rw [List.flatMap_cons, e3, e2, if_neg (by simp)]
      simp only [List.append_assoc]
    · rw [List.flatMap_cons]
      exact shows_app (shows_row o (h o (by simp)) pre hp) sh

theorem tokens_of (s : Str) (toks : List Tok) (h : Adds s toks) (t : Str) (ht : '<' ∉ t) : tokens (s ++ t) = toks ++ textTok t := by
  have := h []
  rw [tokens, rd_fold, show ({ } : Rd) = { out := [] } from rfl, this, List.nil_append, rd_text t ht]
  simp only [flush, textTok, List.append_nil]
  by_cases c : t = []
  · simp [c]
  · simp [c]

theorem cells_of {s : Str} {cs : List Str} (h : Shows s cs) (t : Str) (ht : '<' ∉ t) : cells (s ++ t) = cs := by
  obtain ⟨toks, h1, h2⟩ := h
  rw [cells, tokens_of s toks h1 t ht, h2]
  unfold textTok; split
  · simp [cellsGo]
  · simp [cellsGo]

theorem entities_plain (s : Str) (h : '&' ∉ s) : entities s = s := by
  induction s with
  | nil => rfl
  | cons c r ih =>
    have hc : c ≠ '&' := fun e => h (by simp [e])
    have hr : '&' ∉ r := fun e => h (by simp [e])
    rw [entities.eq_def]
    split
    · rename_i e; exact absurd (List.cons.inj e).1 hc
    · rename_i e; exact absurd (List.cons.inj e).1 hc
    · rename_i e; exact absurd (List.cons.inj e).1 hc
    · rename_i e
      obtain ⟨e1, e2⟩ := List.cons.inj e
      subst e1; subst e2
      rw [ih hr]
    · rename_i e; cases e

/-- The heading every table has. -/
def heading (type count : Str) : List Str := [type ++ ['['] ++ count ++ [']'], (S "Address"), (S "Name"), (S "Refs"), (S "Type"), (S "Extra")]

/-- **C102 (objects), partial.** If no text in it contains `<` or `&`, the table of a type shows its heading with the number of objects, and then for every object, in the order of the list, its address, name, references and the two cells for its type;
or that there are none. -/
theorem C102_table_partial (type count : Str) (os : List Obj) (ht : Plain type) (hc : Plain count) (h : ∀ o ∈ os, PlainObj o) :
    shown (table type count os) = heading type count ++ (if os = [] then [(S "No ") ++ type] else os.flatMap facts) := by
  have t1 : '<' ∉ type ++ ['['] ++ count ++ [']'] := by
    intro c
    simp only [List.mem_append, List.mem_singleton] at c
    rcases c with ((c | c) | c) | c
    · exact ht.1 c
    · exact absurd c (by decide)
    · exact hc.1 c
    · exact absurd c (by decide)
  have s0 : Shows (['<'] ++ S "table" ++ ['>']) [] := shows_tag (S "table") (by decide) (by decide)
  have nl : ∀ {s cs}, Shows (tr s) cs → Shows ('\n' :: tr s) cs := by
    intro s cs ⟨toks, a, b⟩
    -- a line break before a tag is a text outside of the cells
    have : tr s = ['<'] ++ ['t', 'r'] ++ ['>'] ++ (s ++ ['<', '/'] ++ ['t', 'r'] ++ ['>']) := by simp [tr, tagGen]
    have ad : ∀ out, ('\n' :: tr s).foldl rd { out := out } = (tr s).foldl rd { cur := ['\n'], out := out } := by
      intro out; simp [rd]
    have ad2 : ∀ out, (tr s).foldl rd { cur := ['\n'], out := out } = (tr s).foldl rd { out := out ++ [.text ['\n']] } := by
      intro out
      rw [this]
      simp [rd, flush]
    refine ⟨[.text ['\n']] ++ toks, ?_, ?_⟩
    · intro out; rw [ad, ad2, a]; simp
    · intro r
      have := b r
      simpa [cellsGo] using this
  have s1 := nl (shows_tr (shows_thspan _ t1))
  have s2 := nl (shows_tr (shows_app (shows_app (shows_app (shows_app (shows_th (S "Address") (by decide)) (shows_th (S "Name") (by decide))) (shows_th (S "Refs") (by decide))) (shows_th (S "Type") (by decide))) (shows_th (S "Extra") (by decide))))
  have send : ∀ pre : Str, '<' ∉ pre → Shows (pre ++ ['<'] ++ (S "/table") ++ ['>']) [] := by
    intro pre hp
    exact shows_textTag pre (S "/table") hp (by decide) (by decide)
  have key : cells (table type count os) = heading type count ++ (if os = [] then [(S "No ") ++ type] else os.flatMap facts) := by
    by_cases c : os = []
    · subst c
      have t2 : '<' ∉ (S "No ") ++ type := by
        intro c
        rcases List.mem_append.mp c with c | c
        · revert c; decide
        · exact ht.1 c
      have s3 := nl (shows_tr (shows_thspan _ t2))
      have all := shows_app (shows_app (shows_app (shows_app s0 s1) s2) s3) (send ['\n'] (by decide))
      have e : table type count [] = (['<'] ++ S "table" ++ ['>'] ++ '\n' :: tr (tagGen ['t', 'h'] (type ++ ['['] ++ count ++ [']']) (S "colspan=5"))
          ++ '\n' :: tr (th (S "Address") ++ th (S "Name") ++ th (S "Refs") ++ th (S "Type") ++ th (S "Extra"))
          ++ '\n' :: tr (tagGen ['t', 'h'] ((S "No ") ++ type) (S "colspan=5")) ++ (['\n'] ++ ['<'] ++ (S "/table") ++ ['>'])) ++ ['\n'] := by
        simp [table]
      rw [e, cells_of all ['\n'] (by decide)]
      simp [heading]
    · obtain ⟨body, eb, sb⟩ := shows_rows os ['\n'] (by decide) h
      rw [if_neg c] at eb
      have all := shows_app (shows_app (shows_app (shows_app s0 s1) s2) sb) (send ['\n'] (by decide))
      have e : table type count os = (['<'] ++ S "table" ++ ['>'] ++ '\n' :: tr (tagGen ['t', 'h'] (type ++ ['['] ++ count ++ [']']) (S "colspan=5"))
          ++ '\n' :: tr (th (S "Address") ++ th (S "Name") ++ th (S "Refs") ++ th (S "Type") ++ th (S "Extra"))
          ++ body ++ (['\n'] ++ ['<'] ++ (S "/table") ++ ['>'])) ++ ['\n'] := by
        rw [table, if_neg c]
        have : ∀ x y : Str, x ++ ['\n'] ++ os.flatMap row ++ y = x ++ body ++ ['\n'] ++ y := by
          intro x y; rw [List.append_assoc x, eb]; simp [List.append_assoc]
        rw [this]
        simp [List.append_assoc]
      rw [e, cells_of all ['\n'] (by decide)]
      simp [heading, c]
  rw [shown, key]
  have pl : ∀ x ∈ heading type count ++ (if os = [] then [(S "No ") ++ type] else os.flatMap facts), '&' ∉ x := by
    intro x hx
    rcases List.mem_append.mp hx with hx | hx
    · simp only [heading, List.mem_cons, List.not_mem_nil, or_false] at hx
      rcases hx with e | e | e | e | e | e
      · subst e
        intro c
        simp only [List.mem_append, List.mem_singleton] at c
        rcases c with ((c | c) | c) | c
        · exact ht.2 c
        · exact absurd c (by decide)
        · exact hc.2 c
        · exact absurd c (by decide)
      all_goals (subst e; decide)
    · split at hx
      · simp only [List.mem_singleton] at hx
        subst hx
        intro c
        rcases List.mem_append.mp c with c | c
        · revert c; decide
        · exact ht.2 c
      · obtain ⟨o, ho, hx⟩ := List.mem_flatMap.mp hx
        obtain ⟨⟨_, a⟩, _, ⟨_, b⟩, ⟨_, c⟩, ⟨_, d⟩, ⟨_, e⟩⟩ := h o ho
        simp only [facts, List.mem_cons, List.not_mem_nil, or_false] at hx
        rcases hx with hx | hx | hx | hx | hx <;> subst hx <;> assumption
  calc (heading type count ++ (if os = [] then [(S "No ") ++ type] else os.flatMap facts)).map entities
      = (heading type count ++ (if os = [] then [(S "No ") ++ type] else os.flatMap facts)).map id := by
        apply List.map_congr_left
        intro x hx
        exact entities_plain x (pl x hx)
    _ = _ := List.map_id _

/-- **C102 is violated (names).** Names are not quoted: an object called `<b>x` is shown as `x`, `a&lt;b` as `a<b`, and one called `</td></tr></table>` ends the table. -/
theorem C102_violated_names :
    shown (table (S "Data") (S "1") [⟨(S "a0"), (S "<b>x"), (S "1"), (S "8"), []⟩]) = heading (S "Data") (S "1") ++ [(S "a0"), (S "x"), (S "1"), (S "8"), []] ∧
    shown (table (S "Data") (S "1") [⟨(S "a0"), (S "a&lt;b"), (S "1"), (S "8"), []⟩]) = heading (S "Data") (S "1") ++ [(S "a0"), (S "a<b"), (S "1"), (S "8"), []] ∧
    Tok.tag (S "/table") ∈ tokens (row ⟨(S "a0"), (S "</td></tr></table>"), (S "1"), (S "8"), []⟩) := by decide +kernel

example : PlainObj ⟨(S "a0"), (S "vector_add"), (S "1"), (S "8"), []⟩ := by unfold PlainObj Plain; decide

end Arax.Vdf
