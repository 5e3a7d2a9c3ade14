/-!
# C85: the JSON reader of the controller (`/repo/controller/include/picojson.h`)

Text is a list of bytes (natural numbers below 256; `getc` returns `*cur_ & 0xff`).  Decimal numbers are exact (`m · 10 ^ e`): rounding
to `double` is not modelled, except for whether the result is infinite.  The locale is "C" (the controller does not call `setlocale`), so
that the decimal point is `.`.  Memory and stack are unbounded.
-/
namespace Arax.Json

/-- `picojson::value` (picojson.h:119-208) of types null, boolean, int64, number, string, array and object.  An object (`std::map`) is
its list of entries. -/
inductive JVal where
  | null
  | bool (b : Bool)
  | int (i : Int)
  | dec (m : Int) (e : Int)
  | str (s : List Nat)
  | arr (l : List JVal)
  | obj (o : List (List Nat × JVal))

/-- `class input` (picojson.h:723-731): the characters from `cur_` to `end_`, `consumed_`, `line_`. -/
structure In where
  cur : List Nat
  con : Bool
  line : Nat

/-- `input::getc` (picojson.h:733-747); `none` is -1. -/
def getc (i : In) : Option Nat × In :=
  let i1 : In := if i.con then { cur := i.cur.tail, con := i.con, line := if i.cur.head? = some 10 then i.line + 1 else i.line } else i
  match i1.cur with
  | [] => (none, { i1 with con := false })
  | c :: _ => (some c, { i1 with con := true })

/-- `input::ungetc` (picojson.h:749). -/
def ungetc (i : In) : In := { i with con := false }

/-- The characters that `skip_ws` skips (picojson.h:767). -/
def isWs (c : Nat) : Bool := c == 32 || c == 9 || c == 10 || c == 13

/-- The loop of `input::skip_ws` (picojson.h:765-771), at most `n` rounds. -/
def skipLoop : Nat → In → In
  | 0, i => i
  | n + 1, i => match getc i with
    | (none, i1) => ungetc i1
    | (some c, i1) => if isWs c then skipLoop n i1 else ungetc i1

/-- `input::skip_ws` (picojson.h:763-772). -/
def skipWs (i : In) : In := skipLoop (i.cur.length + 1) i

/-- `input::expect` (picojson.h:774-782). -/
def expect (i : In) (c : Nat) : Bool × In :=
  match getc (skipWs i) with
  | (none, i1) => (false, ungetc i1)
  | (some d, i1) => if d = c then (true, i1) else (false, ungetc i1)

/-- `input::match` (picojson.h:784-795). -/
def matchP : List Nat → In → Bool × In
  | [], i => (true, i)
  | p :: ps, i => match getc i with
    | (none, i1) => (false, ungetc i1)
    | (some d, i1) => if d = p then matchP ps i1 else (false, ungetc i1)

/-- The value of a hexadecimal digit (picojson.h:806-815). -/
def hexVal (c : Nat) : Option Nat :=
  if 48 ≤ c ∧ c ≤ 57 then some (c - 48) else if 65 ≤ c ∧ c ≤ 70 then some (c - 65 + 10) else if 97 ≤ c ∧ c ≤ 102 then some (c - 97 + 10) else none

/-- The loop of `_parse_quadhex` (picojson.h:798-819) with `n` rounds left. -/
def quadhex : Nat → Nat → In → Option Nat × In
  | 0, u, i => (some u, i)
  | n + 1, u, i => match getc i with
    | (none, i1) => (none, i1)
    | (some c, i1) => match hexVal c with
      | none => (none, ungetc i1)
      | some h => quadhex n (u * 16 + h) i1

/-- The bytes pushed for a code point (picojson.h:846-861). -/
def encode (u : Nat) : List Nat :=
  if u < 0x80 then [u]
  else
    (if u < 0x800 then [0xc0 ||| (u >>> 6)]
     else (if u < 0x10000 then [0xe0 ||| (u >>> 12)] else [0xf0 ||| (u >>> 18), 0x80 ||| ((u >>> 12) &&& 0x3f)]) ++ [0x80 ||| ((u >>> 6) &&& 0x3f)])
    ++ [0x80 ||| (u &&& 0x3f)]

/-- `_parse_codepoint` (picojson.h:821-863): the pushed bytes, or failure. -/
def codepoint (i : In) : Option (List Nat) × In :=
  match quadhex 4 0 i with
  | (none, i1) => (none, i1)
  | (some u, i1) =>
    if 0xd800 ≤ u ∧ u ≤ 0xdfff then
      if 0xdc00 ≤ u then (none, i1)
      else match getc i1 with
        | (none, i2) => (none, ungetc i2)
        | (some c, i2) =>
          if c ≠ 92 then (none, ungetc i2)
          else match getc i2 with
            | (none, i3) => (none, ungetc i3)
            | (some c, i3) =>
              if c ≠ 117 then (none, ungetc i3)
              else match quadhex 4 0 i3 with
                | (none, i4) => (none, i4)
                | (some s, i4) =>
                  if 0xdc00 ≤ s ∧ s ≤ 0xdfff then (some (encode ((((u - 0xd800) <<< 10) ||| ((s - 0xdc00) &&& 0x3ff)) + 0x10000)), i4)
                  else (none, i4)
    else (some (encode u), i1)

/-- The simple escapes (picojson.h:884-891). -/
def escChar (c : Nat) : Option Nat :=
  if c = 34 then some 34 else if c = 92 then some 92 else if c = 47 then some 47 else if c = 98 then some 8
  else if c = 102 then some 12 else if c = 110 then some 10 else if c = 114 then some 13 else if c = 116 then some 9 else none

/-- The loop of `_parse_string` (picojson.h:865-905), at most `n` rounds; `out` is the string so far. -/
def strLoop : Nat → List Nat → In → Option (List Nat) × In
  | 0, _, i => (none, i)
  | n + 1, out, i => match getc i with
    | (none, i1) => (none, ungetc i1)
    | (some c, i1) =>
      if c < 32 then (none, ungetc i1)
      else if c = 34 then (some out, i1)
      else if c = 92 then
        match getc i1 with
        | (none, i2) => (none, i2)
        | (some d, i2) => match escChar d with
          | some x => strLoop n (out ++ [x]) i2
          | none =>
            if d = 117 then match codepoint i2 with
              | (none, i3) => (none, i3)
              | (some bs, i3) => strLoop n (out ++ bs) i3
            else (none, i2)
      else strLoop n (out ++ [c]) i1

/-- `_parse_string` (picojson.h:865-905). -/
def parseStr (i : In) : Option (List Nat) × In := strLoop (i.cur.length + 1) [] i

/-- The characters that `_parse_number` takes (picojson.h:954-958). -/
def isNum (c : Nat) : Bool := (48 ≤ c && c ≤ 57) || c == 43 || c == 45 || c == 101 || c == 69 || c == 46

/-- The loop of `_parse_number` (picojson.h:948-970), at most `n` rounds. -/
def numLoop : Nat → List Nat → In → List Nat × In
  | 0, s, i => (s, i)
  | n + 1, s, i => match getc i with
    | (none, i1) => (s, ungetc i1)
    | (some c, i1) => if isNum c then numLoop n (s ++ [c]) i1 else (s, ungetc i1)

/-- A decimal digit. (`strtoimax`, `strtod`; picojson.h:1012, 1022.) -/
def isDig (c : Nat) : Bool := 48 ≤ c && c ≤ 57

/-- The number that digits stand for (`strtoimax`, `strtod`; picojson.h:1012, 1022). -/
def digVal (ds : List Nat) : Nat := ds.foldl (fun a d => a * 10 + (d - 48)) 0

/-- Sign and rest (`strtoimax`, `strtod`; picojson.h:1012, 1022). -/
def sign : List Nat → Bool × List Nat
  | 45 :: t => (true, t)
  | 43 :: t => (false, t)
  | t => (false, t)

/-- Apply the sign (`strtoimax`, `strtod`; picojson.h:1012, 1022). -/
def signed (neg : Bool) (n : Nat) : Int := if neg then -(n : Int) else n

/-- `strtoimax(s, &endp, 10)` when `endp` is the end of `s` and `errno` stays 0 (picojson.h:1011-1015). -/
def strtoimax (s : List Nat) : Option Int :=
  let (neg, t) := sign s
  if t ≠ [] ∧ t.all isDig then
    let v := signed neg (digVal t)
    if -(2 ^ 63) ≤ v ∧ v < 2 ^ 63 then some v else none
  else none

/-- The exponent part of a number to its end (`strtod`, picojson.h:1022). -/
def strtodExp (t : List Nat) : Option Int :=
  match t with
  | [] => some 0
  | c :: t =>
    if c = 101 ∨ c = 69 then
      let (neg, ds) := sign t
      if ds ≠ [] ∧ ds.all isDig then some (signed neg (digVal ds)) else none
    else none

/-- The fraction digits, if there is a point, and the rest (`strtod`, picojson.h:1022). -/
def strtodFrac (t : List Nat) : List Nat × List Nat :=
  match t with
  | 46 :: u => (u.takeWhile isDig, u.dropWhile isDig)
  | u => ([], u)

/-- `strtod(s, &endp)` when `endp` is the end of `s` (picojson.h:1022-1023), for strings of the characters of `isNum`: mantissa and exponent. -/
def strtod (s : List Nat) : Option (Int × Int) :=
  let (neg, t) := sign s
  let ip := t.takeWhile isDig
  let (fp, u) := strtodFrac (t.dropWhile isDig)
  if ip = [] ∧ fp = [] then none
  else match strtodExp u with
    | none => none
    | some e => some (signed neg (digVal (ip ++ fp)), e - fp.length)

/-- Does `m · 10 ^ e` round to a finite `double`? (`std::isinf`, picojson.h:245-256; round to nearest.) -/
def finite (m e : Int) : Bool :=
  if 0 ≤ e then decide (m.natAbs * 10 ^ e.toNat < 2 ^ 1024 - 2 ^ 970) else decide (m.natAbs < (2 ^ 1024 - 2 ^ 970) * 10 ^ (-e).toNat)

/-- Outcome of reading a value: a value, `false`, or an exception (`std::overflow_error`). (/repo/controller/include/picojson.h.) -/
inductive Res where
  | ok (v : JVal) (i : In)
  | bad (i : In)
  | thrown

/-- The number case of `_parse` (picojson.h:1001-1028). -/
def number (i : In) : Res :=
  let i0 := ungetc i
  match numLoop (i0.cur.length + 1) [] i0 with
  | (s, i1) =>
    if s = [] then .bad i1
    else match strtoimax s with
      | some v => .ok (.int v) i1
      | none => match strtod s with
        | none => .bad i1
        | some (m, e) => if finite m e then .ok (.dec m e) i1 else .thrown

/-- `operator <` of `std::string` (order of `std::map<std::string, value>`, picojson.h:140). -/
def lt : List Nat → List Nat → Bool
  | [], [] => false
  | [], _ :: _ => true
  | _ :: _, [] => false
  | a :: s, b :: t => if a < b then true else if b < a then false else lt s t

/-- `o[key] = v` for a `std::map` (picojson.h:1130-1137). -/
def mset : List (List Nat × JVal) → List Nat → JVal → List (List Nat × JVal)
  | [], k, v => [(k, v)]
  | (k', v') :: o, k, v => if k = k' then (k, v) :: o else if lt k k' then (k, v) :: (k', v') :: o else (k', v') :: mset o k v

/-- The literals (picojson.h:979-989). -/
def literal (p : List Nat) (v : JVal) (i : In) : Res :=
  match matchP p i with
  | (true, i1) => .ok v i1
  | (false, i1) => .bad i1

mutual
/-- `_parse` with `default_parse_context` (picojson.h:972-1033, 1067-1142), nesting bounded by `n`. -/
def parseV : Nat → In → Res
  | 0, i => .bad i
  | n + 1, i =>
    match getc (skipWs i) with
    | (none, i1) => .bad (ungetc i1)
    | (some c, i1) =>
      if c = 110 then literal [117, 108, 108] .null i1
      else if c = 102 then literal [97, 108, 115, 101] (.bool false) i1
      else if c = 116 then literal [114, 117, 101] (.bool true) i1
      else if c = 34 then
        match parseStr i1 with
        | (some s, i2) => .ok (.str s) i2
        | (none, i2) => .bad i2
      else if c = 91 then
        match expect i1 93 with
        | (true, i2) => .ok (.arr []) i2
        | (false, i2) => arrLoop n [] i2
      else if c = 123 then
        match expect i1 125 with
        | (true, i2) => .ok (.obj []) i2
        | (false, i2) => objLoop n [] i2
      else if isDig c || c == 45 then number i1
      else .bad (ungetc i1)

/-- The loop of `_parse_array` (picojson.h:907-925, with 1112-1122); `a` holds the items so far. -/
def arrLoop : Nat → List JVal → In → Res
  | 0, _, i => .bad i
  | n + 1, a, i =>
    match parseV n i with
    | .ok v i1 => match expect i1 44 with
      | (true, i2) => arrLoop n (a ++ [v]) i2
      | (false, i2) => match expect i2 93 with
        | (true, i3) => .ok (.arr (a ++ [v])) i3
        | (false, i3) => .bad i3
    | r => r

/-- The loop of `_parse_object` (picojson.h:927-946, with 1130-1137); `o` holds the members so far. -/
def objLoop : Nat → List (List Nat × JVal) → In → Res
  | 0, _, i => .bad i
  | n + 1, o, i =>
    match expect i 34 with
    | (false, i1) => .bad i1
    | (true, i1) => match parseStr i1 with
      | (none, i2) => .bad i2
      | (some k, i2) => match expect i2 58 with
        | (false, i3) => .bad i3
        | (true, i3) => match parseV n i3 with
          | .ok v i4 => match expect i4 44 with
            | (true, i5) => objLoop n (mset o k v) i5
            | (false, i5) => match expect i5 125 with
              | (true, i6) => .ok (.obj (mset o k v)) i6
              | (false, i6) => .bad i6
          | r => r
end

/-- `picojson::parse` (picojson.h:1203-1248): the text is read from its start; whatever follows the value is left alone.  Every level of
nesting needs a character, so that the bound is not reached (`C85_reads`). -/
def parse (t : List Nat) : Res := parseV (t.length + 2) { cur := t, con := false, line := 1 }

end Arax.Json
