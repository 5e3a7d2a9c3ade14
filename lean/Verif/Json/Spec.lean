import Verif.Json.Model
/-!
# JSON (RFC 8259), as bytes

The grammar, independent of the parser: `Val N t v` says that the text `t` is a JSON value that denotes `v`, where `N` is the grammar of
numbers: `Strict` (RFC 8259) or `Lax` (what the controller takes as well).
-/
namespace Arax.Json

/-- White space. -/
def Ws (w : List Nat) : Prop := ∀ c ∈ w, c = 32 ∨ c = 9 ∨ c = 10 ∨ c = 13

/-- The UTF-8 encoding of a code point. -/
def utf8 (u : Nat) : List Nat :=
  if u < 0x80 then [u]
  else if u < 0x800 then [0xc0 + u / 64, 0x80 + u % 64]
  else if u < 0x10000 then [0xe0 + u / 4096, 0x80 + u / 64 % 64, 0x80 + u % 64]
  else [0xf0 + u / 262144, 0x80 + u / 4096 % 64, 0x80 + u / 64 % 64, 0x80 + u % 64]

/-- The hexadecimal digit `c` stands for `d`: 0-9, A-F, a-f. -/
def Hex (c d : Nat) : Prop := (d < 10 ∧ c = 48 + d) ∨ (10 ≤ d ∧ d < 16 ∧ (c = 65 + (d - 10) ∨ c = 97 + (d - 10)))

/-- Four hexadecimal digits and their value. -/
inductive Hex4 : List Nat → Nat → Prop where
  | mk {c1 c2 c3 c4 d1 d2 d3 d4} : Hex c1 d1 → Hex c2 d2 → Hex c3 d3 → Hex c4 d4 → Hex4 [c1, c2, c3, c4] (4096 * d1 + 256 * d2 + 16 * d3 + d4)

/-- The two-character escapes: character after the backslash, meaning. -/
def escapes : List (Nat × Nat) := [(34, 34), (92, 92), (47, 47), (98, 8), (102, 12), (110, 10), (114, 13), (116, 9)]

/-- The text between the quotes of a string, and the bytes of the string (`\u` escapes in UTF-8; surrogates only in pairs). -/
inductive Chars : List Nat → List Nat → Prop where
  | nil : Chars [] []
  | raw {c t s} : 32 ≤ c → c ≠ 34 → c ≠ 92 → Chars t s → Chars (c :: t) (c :: s)
  | esc {c x t s} : (c, x) ∈ escapes → Chars t s → Chars (92 :: c :: t) (x :: s)
  | uni {h u t s} : Hex4 h u → ¬ (0xd800 ≤ u ∧ u ≤ 0xdfff) → Chars t s → Chars ([92, 117] ++ h ++ t) (utf8 u ++ s)
  | pair {h u l w t s} : Hex4 h u → 0xd800 ≤ u → u < 0xdc00 → Hex4 l w → 0xdc00 ≤ w → w ≤ 0xdfff → Chars t s →
      Chars ([92, 117] ++ h ++ ([92, 117] ++ l ++ t)) (utf8 (0x10000 + (u - 0xd800) * 0x400 + (w - 0xdc00)) ++ s)

/-- Decimal digits. -/
def Digs (ds : List Nat) : Prop := ∀ d ∈ ds, 48 ≤ d ∧ d ≤ 57

/-- The parts of a number: sign, integer digits, fraction digits, exponent (letter, sign character or none, digits). -/
structure NumParts where
  neg : Bool
  ip : List Nat
  fp : Option (List Nat)
  ex : Option (Nat × List Nat × List Nat)

/-- The text of a number. -/
def NumParts.text (p : NumParts) : List Nat :=
  (if p.neg then [45] else []) ++ p.ip ++ (match p.fp with | none => [] | some f => 46 :: f) ++
    (match p.ex with | none => [] | some (l, sg, ds) => l :: (sg ++ ds))

/-- The digits of a number in decimal. -/
def decimal : List Nat → Nat
  | [] => 0
  | d :: ds => (d - 48) * 10 ^ ds.length + decimal ds

/-- The exponent, less the number of fraction digits. -/
def NumParts.exp (p : NumParts) : Int :=
  (match p.ex with | none => 0 | some (_, sg, ds) => if sg = [45] then -(decimal ds : Int) else decimal ds) - ((p.fp.getD []).length : Int)

/-- All digits, with the sign. -/
def NumParts.mant (p : NumParts) : Int := if p.neg then -(decimal (p.ip ++ p.fp.getD []) : Int) else decimal (p.ip ++ p.fp.getD [])

/-- What the number denotes: an integer if it is written as one and fits 64 bits, else the decimal number `mant · 10 ^ exp`. -/
def NumParts.Denotes (p : NumParts) (v : JVal) : Prop :=
  if p.fp = none ∧ p.ex = none ∧ -(2 ^ 63) ≤ p.mant ∧ p.mant < 2 ^ 63 then v = .int p.mant else v = .dec p.mant p.exp

/-- A `double` can hold the number: it is below `2^1024` (when rounded). -/
def NumParts.Holds (p : NumParts) : Prop := finite p.mant p.exp = true

/-- The grammar of the exponent. -/
def NumParts.ExOk (p : NumParts) : Prop :=
  ∀ l sg ds, p.ex = some (l, sg, ds) → (l = 101 ∨ l = 69) ∧ (sg = [] ∨ sg = [43] ∨ sg = [45]) ∧ ds ≠ [] ∧ Digs ds

/-- Numbers of RFC 8259: no leading zeros, digits before and after the point. -/
def Strict (t : List Nat) (v : JVal) : Prop :=
  ∃ p : NumParts, t = p.text ∧ Digs p.ip ∧ (p.ip = [48] ∨ (p.ip ≠ [] ∧ p.ip.head? ≠ some 48)) ∧ (∀ f, p.fp = some f → f ≠ [] ∧ Digs f) ∧ p.ExOk ∧
    p.Holds ∧ p.Denotes v

/-- Numbers that the controller takes: leading zeros, and digits missing before or after the point, are allowed. -/
def Lax (t : List Nat) (v : JVal) : Prop :=
  ∃ p : NumParts, t = p.text ∧ Digs p.ip ∧ (∀ f, p.fp = some f → Digs f) ∧ (p.ip = [] → p.neg = true ∧ p.fp.getD [] ≠ []) ∧ p.ExOk ∧
    (p.Holds ∨ (p.fp = none ∧ p.ex = none ∧ -(2 ^ 63) ≤ p.mant ∧ p.mant < 2 ^ 63)) ∧ p.Denotes v

/-- The value of a key: that of the last member with it. -/
def lastOf (ms : List (List Nat × JVal)) (k : List Nat) : Option JVal := ((ms.filter (fun m => m.1 == k)).getLast?).map (·.2)

/-- The entry of a key. -/
def entry (o : List (List Nat × JVal)) (k : List Nat) : Option JVal := (o.find? (fun m => m.1 == k)).map (·.2)

/-- `o` is the object with the members `ms`: entries sorted by key (so that there is one order), the last member of each key. -/
def IsMap (o ms : List (List Nat × JVal)) : Prop := o.Pairwise (fun a b => lt a.1 b.1 = true) ∧ ∀ k, entry o k = lastOf ms k

/-- What a piece of text denotes: a value, the items of an array, the members of an object. -/
inductive Sem where
  | val (v : JVal)
  | items (l : List JVal)
  | members (ms : List (List Nat × JVal))

/-- The grammar of JSON. -/
inductive G (N : List Nat → JVal → Prop) : List Nat → Sem → Prop where
  | null : G N [110, 117, 108, 108] (.val .null)
  | false : G N [102, 97, 108, 115, 101] (.val (.bool false))
  | true : G N [116, 114, 117, 101] (.val (.bool true))
  | num {t v} : N t v → G N t (.val v)
  | str {t s} : Chars t s → G N ([34] ++ t ++ [34]) (.val (.str s))
  | arr0 {w} : Ws w → G N ([91] ++ w ++ [93]) (.val (.arr []))
  | arr {t l} : G N t (.items l) → G N ([91] ++ t ++ [93]) (.val (.arr l))
  | obj0 {w} : Ws w → G N ([123] ++ w ++ [125]) (.val (.obj []))
  | obj {t ms o} : G N t (.members ms) → IsMap o ms → G N ([123] ++ t ++ [125]) (.val (.obj o))
  | item {w t w' v} : Ws w → G N t (.val v) → Ws w' → G N (w ++ t ++ w') (.items [v])
  | items {w t w' v u l} : Ws w → G N t (.val v) → Ws w' → G N u (.items l) → G N (w ++ t ++ w' ++ [44] ++ u) (.items (v :: l))
  | member {w k s w' w'' t v w'''} : Ws w → Chars k s → Ws w' → Ws w'' → G N t (.val v) → Ws w''' →
      G N (w ++ [34] ++ k ++ [34] ++ w' ++ [58] ++ w'' ++ t ++ w''') (.members [(s, v)])
  | members {w k s w' w'' t v w''' u ms} : Ws w → Chars k s → Ws w' → Ws w'' → G N t (.val v) → Ws w''' → G N u (.members ms) →
      G N (w ++ [34] ++ k ++ [34] ++ w' ++ [58] ++ w'' ++ t ++ w''' ++ [44] ++ u) (.members ((s, v) :: ms))

/-- The text `t` is a JSON document that denotes `v`. -/
def Doc (N : List Nat → JVal → Prop) (t : List Nat) (v : JVal) : Prop := ∃ w u w', t = w ++ u ++ w' ∧ Ws w ∧ G N u (.val v) ∧ Ws w'

end Arax.Json
