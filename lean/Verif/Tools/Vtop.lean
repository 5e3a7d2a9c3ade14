/-!
# C100: vtop's amounts, bars and graph tell the truth

*Property.* The amount `vtop` prints for a memory is the amount in use, rounded down a little and with the right unit; the bar beside it is filled in the proportion of the used to the whole; the graph has the last
observations of the chosen counter, in order, each at the height of its value.

Simplifications: floating-point numbers are exact rationals. (`double`: exact in `siFormat` for values below 2^46; `float max`: exact below 2^24.) A decimal number `m/100` stands for the text `operator<<` prints, which has at most five digits.
-/
namespace Arax.Vtop

/-- `size_t` has 64 bits. (/repo/vtop/ValueBar.h:16, instantiated with `size_t` at /repo/vtop/MainView.cpp:30.) -/
def W : Nat := 2 ^ 64

/-! ## Amounts -/

/-- The loop of `siFormat`: while `val / 1024^mag > 999` count one more division. `fuel` bounds the divisions; 64 are more than a `size_t` allows. (/repo/vtop/Utils.h:13-16.) -/
def magGo (val : Nat) : Nat → Nat → Nat
  | 0, mag => mag
  | fuel + 1, mag => if val > 999 * 1024 ^ mag then magGo val fuel (mag + 1) else mag

/-- `mag` after the loop. (/repo/vtop/Utils.h:11-16.) -/
def mag (val : Nat) : Nat := magGo val 64 0

/-- The letters of the magnitudes. (/repo/vtop/Utils.h:17.) -/
def mags : List Char := [' ', 'k', 'm', 'g', 't', 'p', 'e', 'z', 'y']

/-- `(T) (fv * 100)` and the letter: the number printed is the first divided by 100 (/repo/vtop/Utils.h:20). `none`: the letter is beyond the string. -/
def siFormat (val : Nat) : Option (Nat × Char) :=
  (mags[mag val]?).map (fun l => (val * 100 / 1024 ^ mag val, l))

/-- `ValueBar::Memory`: the amount in use and the whole. (/repo/vtop/ValueBar.h:58-69; `mult` is 1 or 4096, /repo/vtop/MainView.cpp:32-36.) -/
def memory (mult value max : Nat) (complement : Bool) : Option (Nat × Char) × Option (Nat × Char) :=
  let v := if complement then (max + W - value) % W else value
  (siFormat (v * mult % W), siFormat (max * mult % W))

/-! ## Bars -/

/-- The glyphs a partly filled cell of a bar is drawn with, as code points. (/repo/vtop/Utils.h:29.) -/
def barMap : List Nat := [0x2840, 0x2844, 0x2846, 0x2847, 0x28C7, 0x28E7, 0x28F7, 0x28FF]

/-- `hbraile_line`: the glyphs drawn, left to right (/repo/vtop/Utils.h:27-41). The blank after every full cell (:38) is overdrawn by the next cell or remains blank. `none`: division by zero. -/
def bar (width val max : Nat) : Option (List Nat) :=
  if max = 0 then none
  else
    let n := (width * val * 8 % W) / max
    let md := n % 8
    let w := n / 8
    some (List.replicate w 0x28FF ++ (if md = 0 then [] else [barMap.getD md 0]))

/-- `ValueBar::Draw`: the bar of a value (/repo/vtop/ValueBar.h:38-43). -/
def drawBar (barW value max : Nat) (complement : Bool) : Option (List Nat) :=
  let v := if complement then (max + W - value) % W else value
  if barW > 0 then bar barW v max else some []

/-! ## The graph -/

/-- `toBraile`: the byte of dots of the left and the right column. A position of 64 or more has no dot. (/repo/vtop/Graph.cpp:22-33; a position in 32..63 is never passed: `1 << a` would be undefined.) -/
def braile (a b : Nat) : Nat :=
  let a := if a < 64 then 1 <<< a else 0
  let b := if b < 64 then 1 <<< b else 0
  ((a &&& 7) + ((a &&& 8) <<< 3) + ((b &&& 7) <<< 3) + ((b &&& 8) <<< 4)) % 256

/-- The three bytes `toBraile` returns, in memory order (the word is little-endian). (/repo/vtop/Graph.cpp:34.) -/
def brailleBytes (val : Nat) : List Nat :=
  let w := 0x80A0E2 + ((val &&& 63) <<< 16) + ((val >>> 6) <<< 8)
  [w % 256, w / 256 % 256, w / 65536 % 256]

/-- What the graph remembers. (/repo/vtop/Graph.h:20-24.) -/
structure Graph where
  max : Nat := 1
  samples : List Nat := []
  deriving DecidableEq, Repr

/-- `Graph::addSample`, `pw` the width of the whole terminal. (/repo/vtop/Graph.cpp:93-100.) -/
def addSample (pw : Nat) (g : Graph) (v : Nat) : Graph :=
  let s := g.samples ++ [v]
  { max := if v > g.max then v else g.max, samples := if s.length > pw * 2 then s.drop 1 else s }

/-- `Graph::Reset`. (/repo/vtop/Graph.cpp:77-81.) -/
def reset (_ : Graph) : Graph := { max := 1, samples := [] }

/-- `visible_data` and the samples from `end - visible_data` on, `gw` the width of the graph. `none`: a negative number makes `std::vector` throw. (/repo/vtop/Graph.cpp:46-48.) -/
def visible (gw : Nat) (g : Graph) : Option (List Nat) :=
  if gw < 3 then none
  else
    let n := min ((gw - 3) * 2) g.samples.length
    some (g.samples.drop (g.samples.length - n))

/-- `norms[x]`: how many dots below the top the sample is: 2.8 · height · (1 − s / max). (/repo/vtop/Graph.cpp:50-51.) -/
def norm (h mx s : Nat) : Nat := 14 * h * (mx - s) / (5 * mx)

/-- What is written into one column, in order: row and dots. `n0`, `n1`: the one or two samples of the column. (/repo/vtop/Graph.cpp:54-64.) -/
def colWrites (h n0 : Nat) (n1 : Option Nat) : List (Nat × Nat) :=
  let a := n0 % 4
  let pts :=
    match n1 with
    | some m =>
      if n0 / 4 = m / 4 then [(1 + n0 / 4, braile a (m % 4))]
      else [(1 + n0 / 4, braile a 100), (1 + m / 4, braile 100 (m % 4))]
    | none => [(1 + n0 / 4, braile a 100)]
  pts ++ ((List.range (h - 2)).filter (fun y => decide (y ≠ a))).map (fun y => (y + 1, braile 100 100))

/-- The last write to a row counts. (Effect of `printw` on a window, called at /repo/vtop/Graph.cpp:56-64; the window was erased before, /repo/vtop/MainView.cpp:173.) -/
def last (ws : List (Nat × Nat)) (r : Nat) : Nat :=
  ws.foldl (fun c w => if w.1 = r then w.2 else c) 0

/-- What column `1 + j` of the graph shows in row `r` of a window of height `h`. (/repo/vtop/Graph.cpp:53-65.) The name printed over the second row (:67) and the border are left out. -/
def cell (h mx : Nat) (vis : List Nat) (j r : Nat) : Nat :=
  match vis[2 * j]? with
  | some s => if r < h then last (colWrites h (norm h mx s) ((vis[2 * j + 1]?).map (norm h mx))) r else 0
  | none => 0

/-! ## Specification -/

/-- The factor a letter stands for. -/
def factor (l : Char) : Nat :=
  match l with
  | ' ' => 1 | 'k' => 2 ^ 10 | 'm' => 2 ^ 20 | 'g' => 2 ^ 30 | 't' => 2 ^ 40 | 'p' => 2 ^ 50 | 'e' => 2 ^ 60 | 'z' => 2 ^ 70 | 'y' => 2 ^ 80
  | _ => 0

/-- Number of dots of a glyph of the Braille block U+2800..U+28FF: one for each bit of its low byte. -/
def dots (cp : Nat) : Nat := ((List.range 8).filter (fun i => cp.testBit i)).length

/-- Dots of a bar. -/
def barDots (b : List Nat) : Nat := (b.map dots).sum

/-- Dots a bar of `width` cells of eight should have. -/
def fair (width val max : Nat) : Nat := width * 8 * val / max

/-- Bit of the dot `k` from the top in the left column of a Braille cell (dots 1, 2, 3, 7). -/
def leftBit (k : Nat) : Nat := if k = 3 then 6 else k
/-- The same for the right column (dots 4, 5, 6, 8). -/
def rightBit (k : Nat) : Nat := if k = 3 then 7 else k + 3

/-- UTF-8 of a code point of three bytes. -/
def utf8 (cp : Nat) : List Nat := [0xE0 + cp / 4096, 0x80 + cp / 64 % 64, 0x80 + cp % 64]

/-- Visible sample `x` (value at height `norm`) has its dot on the screen. -/
def onScreen (h mx : Nat) (vis : List Nat) (x : Nat) : Prop :=
  ∃ s, vis[x]? = some s ∧
    (cell h mx vis (x / 2) (1 + norm h mx s / 4)).testBit (if x % 2 = 0 then leftBit (norm h mx s % 4) else rightBit (norm h mx s % 4)) = true

/-! ## Amounts: proofs -/

theorem magGo_spec (val : Nat) : ∀ fuel m, (m = 0 ∨ 999 * 1024 ^ (m - 1) < val) → val ≤ 999 * 1024 ^ (m + fuel) →
    val ≤ 999 * 1024 ^ (magGo val fuel m) ∧ (magGo val fuel m = 0 ∨ 999 * 1024 ^ (magGo val fuel m - 1) < val) := by
  intro fuel
  induction fuel with
  | zero => intro m hl hu; exact ⟨by simpa [magGo] using hu, by simpa [magGo] using hl⟩
  | succ n ih =>
    intro m hl hu
    rw [magGo]
    by_cases c : val > 999 * 1024 ^ m
    · rw [if_pos c]
      exact ih (m + 1) (Or.inr (by simpa using c)) (by rw [show m + 1 + n = m + (n + 1) by omega]; exact hu)
    · rw [if_neg c]; exact ⟨by omega, hl⟩

theorem mag_spec (val : Nat) (h : val < W) :
    val ≤ 999 * 1024 ^ mag val ∧ (mag val = 0 ∨ 999 * 1024 ^ (mag val - 1) < val) := by
  apply magGo_spec val 64 0 (Or.inl rfl)
  have : W ≤ 999 * 1024 ^ (0 + 64) := by decide
  omega

theorem mag_le (val : Nat) (h : val < W) : mag val ≤ 6 := by
  obtain ⟨_, hl⟩ := mag_spec val h
  rcases hl with e | hl
  · omega
  · by_cases c : mag val ≤ 6
    · exact c
    · exfalso
      have h1 : 1024 ^ 6 ≤ 1024 ^ (mag val - 1) := Nat.pow_le_pow_right (by decide) (by omega)
      have h2 : W ≤ 999 * 1024 ^ 6 := by decide
      have h3 : 999 * 1024 ^ 6 ≤ 999 * 1024 ^ (mag val - 1) := Nat.mul_le_mul_left _ h1
      omega

theorem factor_mags (m : Nat) (h : m ≤ 6) : ∃ l, mags[m]? = some l ∧ factor l = 1024 ^ m := by
  match m, h with
  | 0, _ => exact ⟨' ', rfl, by decide⟩
  | 1, _ => exact ⟨'k', rfl, by decide⟩
  | 2, _ => exact ⟨'m', rfl, by decide⟩
  | 3, _ => exact ⟨'g', rfl, by decide⟩
  | 4, _ => exact ⟨'t', rfl, by decide⟩
  | 5, _ => exact ⟨'p', rfl, by decide⟩
  | 6, _ => exact ⟨'e', rfl, by decide⟩

/-- **C100 (amounts).** For every 64-bit amount a letter is printed, and the number `c/100` before it: not more than the amount, short of it by less than a hundredth of the unit and by less than one part in 97,
exact below a thousand, and never more than 999. -/
theorem C100_amount_partial (val : Nat) (h : val < W) :
    ∃ c l, siFormat val = some (c, l) ∧ c * factor l ≤ 100 * val ∧ 100 * val < (c + 1) * factor l ∧
      97 * (100 * val - c * factor l) ≤ 100 * val ∧ c ≤ 99900 ∧ (val ≤ 999 → c * factor l = 100 * val) := by
  obtain ⟨hu, hl⟩ := mag_spec val h
  obtain ⟨l, e, ef⟩ := factor_mags (mag val) (mag_le val h)
  have hp : 0 < 1024 ^ mag val := Nat.pow_pos (by decide)
  refine ⟨val * 100 / 1024 ^ mag val, l, ?_, ?_, ?_, ?_, ?_, ?_⟩
  · simp [siFormat, e]
  · rw [ef, Nat.mul_comm 100]; exact Nat.div_mul_le_self _ _
  · rw [ef, Nat.mul_comm 100, Nat.mul_comm (_ + 1)]; exact Nat.lt_mul_div_succ _ hp
  · rw [ef]
    have hlt : val * 100 < 1024 ^ mag val * (val * 100 / 1024 ^ mag val + 1) := Nat.lt_mul_div_succ _ hp
    rw [Nat.mul_add, Nat.mul_one, Nat.mul_comm (1024 ^ mag val)] at hlt
    rcases hl with e0 | hl
    · rw [e0]; simp; omega
    · by_cases c0 : mag val = 0
      · rw [c0]; simp; omega
      · have hm : 1024 ^ mag val = 1024 ^ (mag val - 1) * 1024 := by
          rw [← Nat.pow_succ]; congr 1; omega
        generalize val * 100 / 1024 ^ mag val * 1024 ^ mag val = q at *
        generalize 1024 ^ (mag val - 1) = r at *
        omega
  · rw [Nat.div_le_iff_le_mul hp]
    have : 99900 * 1024 ^ mag val = (999 * 1024 ^ mag val) * 100 := by
      rw [Nat.mul_right_comm]
    have : val * 100 ≤ 999 * 1024 ^ mag val * 100 := Nat.mul_le_mul_right _ hu
    omega
  · intro hv
    have : mag val = 0 := by
      rcases hl with e0 | hl
      · exact e0
      · by_cases c0 : mag val = 0
        · exact c0
        · exfalso
          have : 1 ≤ 1024 ^ (mag val - 1) := Nat.pow_pos (by decide)
          omega
    rw [ef, this]; simp; omega

/-- For a throttle (`complement`, factor 1) the line shows the amounts in use and in all. -/
theorem C100_memory (avail cap : Nat) (h : avail ≤ cap) (hc : cap < W) :
    memory 1 avail cap true = (siFormat (cap - avail), siFormat cap) := by
  have e : (cap + W - avail) % W = cap - avail := by
    rw [show cap + W - avail = (cap - avail) + W by omega, Nat.add_mod_right, Nat.mod_eq_of_lt (by omega)]
  simp only [memory, if_true, e, Nat.mul_one]
  rw [Nat.mod_eq_of_lt (by omega), Nat.mod_eq_of_lt hc]

/-- For the pages (factor 4096) likewise. -/
theorem C100_pages (used bits : Nat) (h : used ≤ bits) (hc : bits * 4096 < W) :
    memory 4096 used bits false = (siFormat (used * 4096), siFormat (bits * 4096)) := by
  have : used * 4096 ≤ bits * 4096 := Nat.mul_le_mul_right _ h
  simp only [memory]
  rw [Nat.mod_eq_of_lt hc]
  simp only [Bool.false_eq_true, if_false]
  rw [Nat.mod_eq_of_lt (Nat.lt_of_le_of_lt this hc)]

/-- 1.5 GiB of 4 GiB. -/
example : memory 1 (4 * 2 ^ 30 - 3 * 2 ^ 29) (4 * 2 ^ 30) true = (some (150, 'g'), some (400, 'g')) := by decide
example : siFormat (W - 1) = some (1600, 'e') ∨ siFormat (W - 1) = some (1599, 'e') := by decide +kernel

/-- A larger amount can be shown as a smaller one: 999 as `999`, 1000 as `0.97k`. -/
theorem C100_violated_order : siFormat 999 = some (99900, ' ') ∧ siFormat 1000 = some (97, 'k') ∧ 97 * factor 'k' < 99900 * factor ' ' := by decide

/-! ## Bars: proofs -/

theorem dots_full : dots 0x28FF = 8 := by decide
theorem dots_barMap (i : Nat) (h : i < 8) : dots (barMap.getD i 0) = i + 1 := by
  match i, h with
  | 0, _ | 1, _ | 2, _ | 3, _ | 4, _ | 5, _ | 6, _ | 7, _ => decide

theorem barDots_app (a b : List Nat) : barDots (a ++ b) = barDots a + barDots b := by simp [barDots]
theorem barDots_full (w : Nat) : barDots (List.replicate w 0x28FF) = 8 * w := by
  induction w with
  | zero => rfl
  | succ n ih => rw [List.replicate_succ]; simp only [barDots, List.map_cons, List.sum_cons] at *; rw [ih, dots_full]; omega

theorem fair_eq (width val max : Nat) (h : width * val * 8 < W) : (width * val * 8 % W) / max = fair width val max := by
  rw [Nat.mod_eq_of_lt h, fair, Nat.mul_right_comm]

/-- **C100 (bars), partial.** A bar that does not overflow stays inside its `width` cells, and has the dots it should have, or one more when it ends inside a cell. -/
theorem C100_bar_partial (width val max : Nat) (hm : 0 < max) (hv : val ≤ max) (ho : width * val * 8 < W) :
    ∃ b, bar width val max = some b ∧ b.length ≤ width ∧
      barDots b = fair width val max + (if fair width val max % 8 = 0 then 0 else 1) := by
  have hb : fair width val max ≤ width * 8 := by
    rw [fair, Nat.div_le_iff_le_mul hm]
    have := Nat.mul_le_mul_left (width * 8) hv
    omega
  refine ⟨_, by rw [bar, if_neg (by omega)], ?_, ?_⟩
  · rw [fair_eq _ _ _ ho, List.length_append, List.length_replicate]
    split
    · simp; omega
    · rename_i h8; simp; omega
  · rw [fair_eq _ _ _ ho, barDots_app, barDots_full]
    split
    · rename_i h8; simp [barDots]; omega
    · rename_i h8
      have := dots_barMap (fair width val max % 8) (Nat.mod_lt _ (by decide))
      simp only [barDots, List.map_cons, List.map_nil, List.sum_cons, List.sum_nil, this]
      omega

/-- A fuller memory never has a shorter bar. -/
theorem C100_bar_mono (width v1 v2 max : Nat) (hm : 0 < max) (h12 : v1 ≤ v2) (hv : v2 ≤ max) (ho : width * v2 * 8 < W) :
    ∃ b1 b2, bar width v1 max = some b1 ∧ bar width v2 max = some b2 ∧ barDots b1 ≤ barDots b2 := by
  have ho1 : width * v1 * 8 < W := by
    have := Nat.mul_le_mul_right 8 (Nat.mul_le_mul_left width h12)
    omega
  obtain ⟨b1, e1, _, d1⟩ := C100_bar_partial width v1 max hm (by omega) ho1
  obtain ⟨b2, e2, _, d2⟩ := C100_bar_partial width v2 max hm hv ho
  have : fair width v1 max ≤ fair width v2 max := Nat.div_le_div_right (Nat.mul_le_mul_left _ h12)
  refine ⟨b1, b2, e1, e2, ?_⟩
  rw [d1, d2]
  split <;> split <;> omega

/-- **C100 is violated (bars).** A bar that ends inside a cell has one dot too many: `bar_map` starts at one dot, and is indexed from one. -/
theorem C100_violated_bar (width val max : Nat) (hm : 0 < max) (ho : width * val * 8 < W) (hv : val ≤ max) (h8 : fair width val max % 8 ≠ 0) :
    ∃ b, bar width val max = some b ∧ barDots b = fair width val max + 1 := by
  obtain ⟨b, e, _, d⟩ := C100_bar_partial width val max hm hv ho
  exact ⟨b, e, by rw [d, if_neg h8]⟩

/-- A memory used to seven eighths looks full, in a bar of one cell, and to 79 eightieths in one of ten. -/
theorem C100_violated_full : bar 1 7 8 = bar 1 8 8 ∧ bar 10 79 80 = bar 10 80 80 ∧ fair 10 79 80 = 79 := by decide

/-- The bar of a memory of no size, or one too wide for the product, is not that: division by zero, and a bar that starts again. -/
theorem C100_violated_bar_edges : bar 20 0 0 = none ∧ bar 32 (2 ^ 56) (2 ^ 56) = some [] ∧ fair 32 (2 ^ 56) (2 ^ 56) = 256 := by decide +kernel

example : (bar 10 3 8).map barDots = some (fair 10 3 8 + 1 - 1 + (if fair 10 3 8 % 8 = 0 then 0 else 1)) := by decide
example : drawBar 20 (3 * 2 ^ 28) (2 ^ 30) true = some (List.replicate 5 0x28FF) := by decide

/-! ## The graph: proofs -/

/-- The dots of a glyph are the ones asked for. -/
theorem braile_bits (a b : Nat) (ha : a < 4 ∨ 64 ≤ a) (hb : b < 4 ∨ 64 ≤ b) (i : Nat) :
    (braile a b).testBit i = true ↔ (a < 4 ∧ i = leftBit a) ∨ (b < 4 ∧ i = rightBit b) := by
  have small : ∀ a' b' : Nat, (a' ≤ 4) → (b' ≤ 4) → ∀ j, j < 8 →
      ((braile (if a' < 4 then a' else 100) (if b' < 4 then b' else 100)).testBit j = true ↔ (a' < 4 ∧ j = leftBit a') ∨ (b' < 4 ∧ j = rightBit b')) := by
    intro a' b' h1 h2 j hj
    have : ∀ a' : Fin 5, ∀ b' : Fin 5, ∀ j : Fin 8,
      ((braile (if a'.1 < 4 then a'.1 else 100) (if b'.1 < 4 then b'.1 else 100)).testBit j.1 = true ↔ (a'.1 < 4 ∧ j.1 = leftBit a'.1) ∨ (b'.1 < 4 ∧ j.1 = rightBit b'.1)) := by decide
    exact this ⟨a', by omega⟩ ⟨b', by omega⟩ ⟨j, hj⟩
  have ea : braile a b = braile (if (if a < 4 then a else 4) < 4 then (if a < 4 then a else 4) else 100) (if (if b < 4 then b else 4) < 4 then (if b < 4 then b else 4) else 100) := by
    rcases ha with h | h <;> rcases hb with h' | h'
    · simp [h, h']
    · have n : ¬ b < 4 := by omega
      have n6 : ¬ b < 64 := by omega
      simp [h, n, braile, n6]
    · have n : ¬ a < 4 := by omega
      have n6 : ¬ a < 64 := by omega
      simp [h', n, braile, n6]
    · have n : ¬ b < 4 := by omega
      have n6 : ¬ b < 64 := by omega
      have m : ¬ a < 4 := by omega
      have m6 : ¬ a < 64 := by omega
      simp [n, m, braile, n6, m6]
  by_cases hi : i < 8
  · rw [ea, small (if a < 4 then a else 4) (if b < 4 then b else 4) (by split <;> omega) (by split <;> omega) i hi]
    by_cases c1 : a < 4 <;> by_cases c2 : b < 4 <;> simp [c1, c2]
  · have lt : braile a b < 2 ^ i := by
      have : braile a b < 256 := Nat.mod_lt _ (by decide)
      have : 2 ^ 8 ≤ 2 ^ i := Nat.pow_le_pow_right (by decide) (by omega)
      omega
    rw [Nat.testBit_lt_two_pow lt]
    simp only [leftBit, rightBit]
    constructor
    · intro c; cases c
    · rintro (⟨h1, h2⟩ | ⟨h1, h2⟩) <;> split at h2 <;> omega

/-- What is printed is the UTF-8 of the glyph with these dots. -/
theorem C100_glyph (a b : Nat) : brailleBytes (braile a b) = utf8 (0x2800 + braile a b) := by
  have : ∀ v : Fin 256, brailleBytes v.1 = utf8 (0x2800 + v.1) := by decide +kernel
  exact this ⟨braile a b, Nat.mod_lt _ (by decide)⟩

/-! ### The samples kept and shown -/

/-- The graph after the observations `vs`. (No code of its own.) -/
def after (pw : Nat) (vs : List Nat) : Graph := vs.foldl (addSample pw) {}

theorem after_snoc (pw : Nat) (vs : List Nat) (v : Nat) : after pw (vs ++ [v]) = addSample pw (after pw vs) v := by simp [after]

theorem snoc_ind {P : List Nat → Prop} (h0 : P []) (hs : ∀ l a, P l → P (l ++ [a])) (l : List Nat) : P l := by
  have : ∀ n (l : List Nat), l.length = n → P l := by
    intro n
    induction n with
    | zero => intro l e; rw [List.length_eq_zero_iff.mp e]; exact h0
    | succ n ih =>
      intro l e
      have hne : l ≠ [] := by intro c; rw [c] at e; simp at e
      rw [← List.dropLast_concat_getLast hne]
      exact hs _ _ (ih _ (by simp [e]))
  exact this _ l rfl

theorem after_spec (pw : Nat) (vs : List Nat) :
    (after pw vs).samples = vs.drop (vs.length - pw * 2) ∧ (∀ v ∈ vs, v ≤ (after pw vs).max) ∧ 1 ≤ (after pw vs).max ∧
      ((after pw vs).max = 1 ∨ (after pw vs).max ∈ vs) := by
  induction vs using snoc_ind with
  | h0 => simp [after]
  | hs l a ih =>
    obtain ⟨h1, h2, h3, h4⟩ := ih
    rw [after_snoc]
    refine ⟨?_, ?_, ?_, ?_⟩
    · simp only [addSample]
      rw [h1]
      by_cases c : l.length ≤ pw * 2
      · rw [show l.length - pw * 2 = 0 by omega]
        by_cases c2 : l.length = pw * 2
        · rw [if_pos (by simp; omega)]
          simp only [List.drop_zero, List.length_append, List.length_cons, List.length_nil]
          congr 1; omega
        · rw [if_neg (by simp; omega)]
          simp only [List.drop_zero, List.length_append, List.length_cons, List.length_nil]
          rw [show l.length + (0 + 1) - pw * 2 = 0 by omega, List.drop_zero]
      · rw [if_pos (by simp; omega)]
        rw [← List.drop_append_of_le_length (by omega), List.drop_drop]
        simp only [List.length_append, List.length_cons, List.length_nil]
        congr 1; omega
    · intro v hv
      simp only [addSample]
      rcases List.mem_append.mp hv with hv | hv
      · have := h2 v hv; split <;> omega
      · simp at hv; subst hv; split <;> omega
    · simp only [addSample]; split <;> omega
    · simp only [addSample]; split
      · exact Or.inr (by simp)
      · rcases h4 with h | h
        · exact Or.inl h
        · exact Or.inr (List.mem_append_left _ h)

/-- **C100 (window).** Of the observations `vs` since the counter was chosen the graph shows the last ones, in order: as many as fit, two in each of its columns. `max` is the greatest observed, or 1. -/
theorem C100_window_partial (pw gw : Nat) (hg : 3 ≤ gw) (hw : gw ≤ pw) (vs : List Nat) :
    ∃ vis, visible gw (after pw vs) = some vis ∧ (∃ old, vs = old ++ vis) ∧ vis.length = min ((gw - 3) * 2) vs.length ∧
      (∀ v ∈ vs, v ≤ (after pw vs).max) ∧ ((after pw vs).max = 1 ∨ (after pw vs).max ∈ vs) := by
  obtain ⟨h1, h2, _, h4⟩ := after_spec pw vs
  have e : visible gw (after pw vs) = some (vs.drop (vs.length - min ((gw - 3) * 2) vs.length)) := by
    simp only [visible]
    rw [if_neg (by omega), h1, List.drop_drop]
    congr 2
    simp only [List.length_drop]
    omega
  refine ⟨_, e, ⟨vs.take (vs.length - min ((gw - 3) * 2) vs.length), (List.take_append_drop _ _).symm⟩, ?_, h2, h4⟩
  simp only [List.length_drop]; omega

/-- **C100 (another counter).** After another counter was chosen (/repo/vtop/Graph.cpp:77-91), only observations made since are shown, at the heights of these. -/
theorem C100_reset (pw gw : Nat) (hg : 3 ≤ gw) (hw : gw ≤ pw) (g : Graph) (vs : List Nat) :
    ∃ vis, visible gw (vs.foldl (addSample pw) (reset g)) = some vis ∧ (∃ old, vs = old ++ vis) ∧ vis.length = min ((gw - 3) * 2) vs.length ∧
      ((vs.foldl (addSample pw) (reset g)).max = 1 ∨ (vs.foldl (addSample pw) (reset g)).max ∈ vs) := by
  obtain ⟨vis, h1, h2, h3, _, h5⟩ := C100_window_partial pw gw hg hw vs
  exact ⟨vis, h1, h2, h3, h5⟩

/-- Non-vacuity: the samples of the other counter are gone. -/
example : visible 5 ([2].foldl (addSample 20) (reset (after 20 [3, 1, 4]))) = some [2] := by decide

/-- In a terminal too narrow for the graph drawing ends `vtop`: a vector of a negative length. -/
theorem C100_violated_narrow (gw : Nat) (h : gw < 3) (g : Graph) : visible gw g = none := by simp [visible, h]

example : visible 5 (after 20 [3, 1, 4, 1, 5, 9]) = some [4, 1, 5, 9] ∧ (after 20 [3, 1, 4, 1, 5, 9]).max = 9 := by decide

/-! ### The dots -/

theorem last_append (a b : List (Nat × Nat)) (r : Nat) : last (a ++ b) r = b.foldl (fun c w => if w.1 = r then w.2 else c) (last a r) := by
  simp [last, List.foldl_append]

theorem fold_blank (l : List Nat) (c r v : Nat) :
    (l.map (fun y => (y + 1, v))).foldl (fun c (w : Nat × Nat) => if w.1 = r then w.2 else c) c = if (∃ y ∈ l, y + 1 = r) then v else c := by
  induction l generalizing c with
  | nil => simp
  | cons x xs ih =>
    simp only [List.map_cons, List.foldl_cons]
    rw [ih]
    by_cases h : x + 1 = r
    · simp [h]
    · simp [h]

/-- The two points of a column before the blanks: what stands in row `r`. (No code of its own.) -/
def points (n0 : Nat) (n1 : Option Nat) (r : Nat) : Nat :=
  let a := if r = 1 + n0 / 4 then n0 % 4 else 100
  let b := match n1 with | some m => if r = 1 + m / 4 then m % 4 else 100 | none => 100
  if a < 64 ∨ b < 64 then braile a b else 0

theorem braile_none : braile 100 100 = 0 := by decide

/-- Which rows are blanked again. -/
theorem last_col (h n0 : Nat) (n1 : Option Nat) (r : Nat) :
    last (colWrites h n0 n1) r = if (1 ≤ r ∧ r - 1 < h - 2 ∧ r - 1 ≠ n0 % 4) then 0 else points n0 n1 r := by
  unfold colWrites
  dsimp only
  rw [last_append, fold_blank, braile_none]
  have eb : (∃ y ∈ (List.range (h - 2)).filter (fun y => decide (y ≠ n0 % 4)), y + 1 = r) ↔ (1 ≤ r ∧ r - 1 < h - 2 ∧ r - 1 ≠ n0 % 4) := by
    constructor
    · rintro ⟨y, hy, e⟩
      simp only [List.mem_filter, List.mem_range, decide_eq_true_eq] at hy
      subst e
      exact ⟨by omega, by simpa using hy.1, by simpa using hy.2⟩
    · rintro ⟨h1, h2, h3⟩
      refine ⟨r - 1, ?_, by omega⟩
      simp only [List.mem_filter, List.mem_range, decide_eq_true_eq]
      exact ⟨h2, h3⟩
  by_cases c : (1 ≤ r ∧ r - 1 < h - 2 ∧ r - 1 ≠ n0 % 4)
  · rw [if_pos (eb.mpr c), if_pos c]
  · rw [if_neg (fun x => c (eb.mp x)), if_neg c]
    have m0 : n0 % 4 < 64 := by omega
    cases n1 with
    | none =>
      simp only [points, last, List.foldl_cons, List.foldl_nil]
      by_cases h1 : 1 + n0 / 4 = r
      · simp [h1, m0]
      · have : ¬ r = 1 + n0 / 4 := fun x => h1 x.symm
        simp [h1, this]
    | some m =>
      have m1 : m % 4 < 64 := by omega
      simp only [points]
      by_cases hq : n0 / 4 = m / 4
      · rw [if_pos hq]
        simp only [last, List.foldl_cons, List.foldl_nil]
        by_cases h1 : 1 + n0 / 4 = r
        · have e1 : r = 1 + n0 / 4 := h1.symm
          have e2 : r = 1 + m / 4 := by omega
          rw [if_pos h1, if_pos e1, if_pos e2, if_pos (Or.inl m0)]
        · have n1' : ¬ r = 1 + n0 / 4 := fun x => h1 x.symm
          have n2' : ¬ r = 1 + m / 4 := by omega
          rw [if_neg h1, if_neg n1', if_neg n2', if_neg (by omega)]
      · rw [if_neg hq]
        simp only [last, List.foldl_cons, List.foldl_nil]
        by_cases h1 : 1 + n0 / 4 = r
        · have e1 : r = 1 + n0 / 4 := h1.symm
          have e2 : ¬ r = 1 + m / 4 := by omega
          have e3 : ¬ 1 + m / 4 = r := by omega
          rw [if_neg e3, if_pos h1, if_pos e1, if_neg e2, if_pos (Or.inl m0)]
        · have e1 : ¬ r = 1 + n0 / 4 := fun x => h1 x.symm
          rw [if_neg h1, if_neg e1]
          by_cases h2 : 1 + m / 4 = r
          · have e2 : r = 1 + m / 4 := h2.symm
            rw [if_pos h2, if_pos e2, if_pos (Or.inr m1)]
          · have e2 : ¬ r = 1 + m / 4 := fun x => h2 x.symm
            rw [if_neg h2, if_neg e2, if_neg (by omega)]

theorem points_bits (n0 : Nat) (n1 : Option Nat) (r i : Nat) :
    (points n0 n1 r).testBit i = true ↔ (r = 1 + n0 / 4 ∧ i = leftBit (n0 % 4)) ∨ (∃ m, n1 = some m ∧ r = 1 + m / 4 ∧ i = rightBit (m % 4)) := by
  have m0 : n0 % 4 < 4 := Nat.mod_lt _ (by decide)
  cases n1 with
  | none =>
    simp only [points]
    by_cases c : r = 1 + n0 / 4
    · rw [if_pos c, if_pos (Or.inl (by omega)), braile_bits _ _ (Or.inl m0) (Or.inr (by decide))]
      simp [c, m0]
    · rw [if_neg c, if_neg (by omega)]; simp [c]
  | some m =>
    have m1 : m % 4 < 4 := Nat.mod_lt _ (by decide)
    simp only [points]
    by_cases c : r = 1 + n0 / 4 <;> by_cases d : r = 1 + m / 4
    · rw [if_pos c, if_pos d, if_pos (Or.inl (by omega)), braile_bits _ _ (Or.inl m0) (Or.inl m1)]
      simp [m0, m1, ← d, ← c]
    · rw [if_pos c, if_neg d, if_pos (Or.inl (by omega)), braile_bits _ _ (Or.inl m0) (Or.inr (by decide))]
      simp [m0, ← c, d]
    · rw [if_neg c, if_pos d, if_pos (Or.inr (by omega)), braile_bits _ _ (Or.inr (by decide)) (Or.inl m1)]
      simp [m1, c, ← d]
    · rw [if_neg c, if_neg d, if_neg (by omega)]
      simp [c, d]

theorem norm_le (h mx s : Nat) (hm : 0 < mx) : norm h mx s * 5 ≤ 14 * h := by
  have : norm h mx s ≤ 14 * h * mx / (5 * mx) := Nat.div_le_div_right (Nat.mul_le_mul_left _ (Nat.sub_le _ _))
  rw [Nat.mul_div_mul_right _ _ hm] at this
  omega

/-- **C100 (graph), partial: nothing is invented.** Every dot of the graph is the dot of a visible sample, in the column, the half of the column and the height of that sample. -/
theorem C100_graph_sound_partial (h mx : Nat) (vis : List Nat) (j r i : Nat) (hd : (cell h mx vis j r).testBit i = true) :
    ∃ x s, vis[x]? = some s ∧ x / 2 = j ∧ r = 1 + norm h mx s / 4 ∧
      i = (if x % 2 = 0 then leftBit (norm h mx s % 4) else rightBit (norm h mx s % 4)) := by
  unfold cell at hd
  cases e : vis[2 * j]? with
  | none => rw [e] at hd; simp at hd
  | some s =>
    rw [e] at hd
    dsimp only at hd
    split at hd
    · rw [last_col] at hd
      split at hd
      · simp at hd
      · rcases (points_bits _ _ _ _).mp hd with ⟨h1, h2⟩ | ⟨m, hm, h1, h2⟩
        · exact ⟨2 * j, s, e, by omega, h1, by rw [if_pos (by omega)]; exact h2⟩
        · cases e2 : vis[2 * j + 1]? with
          | none => rw [e2] at hm; simp at hm
          | some t =>
            rw [e2] at hm; simp at hm; subst hm
            exact ⟨2 * j + 1, t, e2, by omega, h1, by rw [if_neg (by omega)]; exact h2⟩
    · simp at hd

/-- **C100 is violated (graph).** A visible sample keeps its dot exactly when its row, counted from the top, happens to be the number of the *dot* of the first sample of its column, or is below the rows that are blanked; the blanks are
written over all other points. -/
theorem C100_violated_graph (h mx : Nat) (vis : List Nat) (x s s0 : Nat) (hx : vis[x]? = some s) (h0 : vis[2 * (x / 2)]? = some s0) (hin : 1 + norm h mx s / 4 < h) :
    onScreen h mx vis x ↔ (norm h mx s / 4 = norm h mx s0 % 4 ∨ h - 2 ≤ norm h mx s / 4) := by
  have hv : ∀ s', vis[x]? = some s' → s' = s := fun s' e => by rw [hx] at e; exact (Option.some.inj e).symm
  have hc : cell h mx vis (x / 2) (1 + norm h mx s / 4) =
      if (norm h mx s / 4 < h - 2 ∧ norm h mx s / 4 ≠ norm h mx s0 % 4) then 0
      else points (norm h mx s0) ((vis[2 * (x / 2) + 1]?).map (norm h mx)) (1 + norm h mx s / 4) := by
    unfold cell
    rw [h0]
    dsimp only
    rw [if_pos hin, last_col]
    have e1 : 1 + norm h mx s / 4 - 1 = norm h mx s / 4 := by omega
    rw [e1]
    by_cases c : norm h mx s / 4 < h - 2 ∧ norm h mx s / 4 ≠ norm h mx s0 % 4
    · rw [if_pos ⟨by omega, c⟩, if_pos c]
    · rw [if_neg (fun y => c y.2), if_neg c]
  have hp : (points (norm h mx s0) ((vis[2 * (x / 2) + 1]?).map (norm h mx)) (1 + norm h mx s / 4)).testBit
      (if x % 2 = 0 then leftBit (norm h mx s % 4) else rightBit (norm h mx s % 4)) = true := by
    rw [points_bits]
    by_cases c : x % 2 = 0
    · left
      have : 2 * (x / 2) = x := by omega
      rw [this, hx] at h0
      have := Option.some.inj h0
      subst this
      simp [c]
    · right
      have : 2 * (x / 2) + 1 = x := by omega
      rw [this, hx]
      exact ⟨norm h mx s, rfl, rfl, by rw [if_neg c]⟩
  constructor
  · rintro ⟨s', e, hb⟩
    have := hv s' e
    subst this
    rw [hc] at hb
    by_cases c : norm h mx s' / 4 < h - 2 ∧ norm h mx s' / 4 ≠ norm h mx s0 % 4
    · rw [if_pos c] at hb; simp at hb
    · omega
  · intro c
    refine ⟨s, hx, ?_⟩
    rw [hc, if_neg (by omega)]
    exact hp

/-- An idle counter is not drawn: in every window of at least ten rows the dot of a zero is overwritten. -/
theorem C100_violated_idle (h mx : Nat) (hm : 0 < mx) (hh : 10 ≤ h) (vis : List Nat) (x : Nat) (hx : vis[x]? = some 0) (h0 : vis[2 * (x / 2)]? = some 0) :
    ¬ onScreen h mx vis x := by
  have hn : norm h mx 0 = 14 * h / 5 := by
    simp only [norm, Nat.sub_zero]; exact Nat.mul_div_mul_right _ _ hm
  rw [C100_violated_graph h mx vis x 0 0 hx h0 (by rw [hn]; omega), hn]
  omega

/-- The greatest value is drawn when it is alone in its column. -/
example : onScreen 12 7 [7] 0 := by
  rw [C100_violated_graph 12 7 [7] 0 7 7 rfl rfl (by decide)]; decide
/-- 7 and then 3: the second has no dot. -/
example : ¬ onScreen 12 7 [7, 3] 1 := by
  rw [C100_violated_graph 12 7 [7, 3] 1 3 7 rfl rfl (by decide)]; decide
example : (after 80 [7, 3]).max = 7 ∧ visible 40 (after 80 [7, 3]) = some [7, 3] := by decide

end Arax.Vtop
