import Verif.Outcome
/-!
# Model of `/repo/src/utils/config.c` (string and integer configuration access)

A configuration (file contents, or the `ARAX_CONF` environment variable: `conf_get`/`conf_set`,
config.c:13-69, choose the store and move the whole text) is a list of characters without NUL.
Simplifications: `conf_get` reads the whole file (the `fread` loop returns everything in its first
round), memory allocation succeeds, `char` is Lean `Char`.
-/
namespace Arax.Config

/-- C strings and texts of /repo/src/utils/config.c, without the terminator. -/
abbrev Str := List Char

/-- The terminating character of a C string. /repo/src/utils/config.c:75, 149. -/
def NUL : Char := '\x00'

/-- `isspace` in the C locale, as used by `sscanf` and `strtol`. /repo/src/utils/config.c:146, 214. -/
def isSpace (c : Char) : Bool :=
  c == ' ' || c == '\t' || c == '\n' || c == '\x0b' || c == '\x0c' || c == '\r'

/-- `sscanf`'s `%<n>s`: skip white space, then take at most `n` non-space characters (at least one).
Returns the token and the unread rest. /repo/src/utils/config.c:146. -/
def scanTok (n : Nat) (s : Str) : Option (Str × Str) :=
  let s := s.dropWhile isSpace
  let t := (s.takeWhile (fun c => !isSpace c)).take n
  if t = [] then none else some (t, s.drop t.length)

/-- /repo/src/utils/config.c:146 `sscanf(conf, "%127s %895s%n", ckey, cval, &len) < 2` : key, value
and the text after `len` characters. (The blank in the format skips white space, as `%s` does anyway.) -/
def scanPair (conf : Str) : Option (Str × Str × Str) := do
  let (k, r) ← scanTok 127 conf
  let (v, r) ← scanTok 895 r
  pure (k, v, r)

/-- `!strncmp(a, b, n)` on C strings: the first `n` characters, terminator included, agree. /repo/src/utils/config.c:149. -/
def strncmpEq (a b : Str) (n : Nat) : Bool := (a ++ [NUL]).take n == (b ++ [NUL]).take n

/-- `strncpy(dst, s, n)`: exactly `n` characters are written, padded with NUL, and no NUL when `s` is
longer than `n - 1`. The result is the contents of the `n` character array. (C library; used in /repo/src/utils/config.c:13-69.) -/
def strncpy (s : Str) (n : Nat) : Str := s.take n ++ List.replicate (n - s.length) NUL

/-- config.c:145-157: the `while (++line)` loop. `fuel` bounds the number of entries; each consumes at
least two characters, so `conf.length + 1` is enough. -/
def getLoop : Nat → Str → Str → Option Str
  | 0, _, _ => none
  | fuel + 1, conf, key =>
    match scanPair conf with
    | none => none
    | some (ckey, cval, rest) => if strncmpEq ckey key 128 then some cval else getLoop fuel rest key

/-- /repo/src/utils/config.c:133-162 `_utils_config_get_str`: returned length and contents written to
`value` (`none` = not written). -/
def getRaw (conf key : Str) (valueSize : Nat) : Nat × Option Str :=
  match getLoop (conf.length + 1) conf key with
  | none => (0, none)
  | some cval => (cval.length, some (strncpy cval valueSize))

/-- /repo/src/utils/config.c:71-83 `utils_config_write_str`: the new text. -/
def writeStr (conf key value : Str) : Str := conf ++ (key ++ ' ' :: (value ++ ['\n']))

/-- `sprintf("%ld", value)`. /repo/src/utils/config.c:89. -/
def fmtLong (n : Int) : Str :=
  if n < 0 then '-' :: Nat.toDigits 10 n.natAbs else Nat.toDigits 10 n.natAbs

/-- /repo/src/utils/config.c:85-92 `utils_config_write_long`. -/
def writeLong (conf key : Str) (n : Int) : Str := writeStr conf key (fmtLong n)

/-- Result of a getter: returned int, `*value` (`none` = left as it was), configuration text afterwards. /repo/src/utils/config.c:164-300. -/
structure Got (α : Type) where
  ret   : Nat
  value : Option α
  conf  : Str
  deriving DecidableEq

/-- /repo/src/utils/config.c:164-176 `utils_config_get_str`. -/
def getStr (conf key : Str) (valueSize : Nat) (dflt : Option Str) : Got Str :=
  match getRaw conf key valueSize with
  | (0, v) =>
    match dflt with
    | some d => { ret := 0, value := some (strncpy d valueSize), conf := writeStr conf key d }
    | none => { ret := 0, value := v, conf := conf }
  | (_ + 1, v) => { ret := 1, value := v, conf := conf }

/-- Value of a digit character in bases up to 36 (`none`: not a digit). (C library.) -/
def digitVal (c : Char) : Option Nat :=
  if '0' ≤ c ∧ c ≤ '9' then some (c.toNat - 48)
  else if 'a' ≤ c ∧ c ≤ 'z' then some (c.toNat - 87)
  else if 'A' ≤ c ∧ c ≤ 'Z' then some (c.toNat - 55)
  else none

/-- Digit of the given base. (`strtol`, called in /repo/src/utils/config.c:214.) -/
def digitIn (base : Nat) (c : Char) : Option Nat :=
  match digitVal c with
  | some d => if d < base then some d else none
  | none => none

/-- The digit loop of `strtol` over a character array: value, and whether a digit was read. Reading past
the end of the array is undefined behaviour. (Called in /repo/src/utils/config.c:214.) -/
def digits (base : Nat) : Str → Nat → Bool → Res (Nat × Bool)
  | [], _, _ => .ub
  | c :: cs, acc, any =>
    match digitIn base c with
    | some d => digits base cs (acc * base + d) true
    | none => .ok (acc, any)

/-- `strtol` skipping white space (an array without terminator is overrun). (Called in /repo/src/utils/config.c:214.) -/
def skipSpace : Str → Res Str
  | [] => .ub
  | c :: cs => if isSpace c then skipSpace cs else .ok (c :: cs)

/-- Sign: (negative?, rest). (`strtol`, called in /repo/src/utils/config.c:214.) -/
def sign : Str → Bool × Str
  | '-' :: cs => (true, cs)
  | '+' :: cs => (false, cs)
  | cs => (false, cs)

/-- `strtol(…, 0)`: base selection and digits. A `0x` prefix counts only before a hexadecimal digit. (C library.) -/
def magnitude : Str → Res (Nat × Bool)
  | [] => .ub
  | ['0'] => .ub
  | '0' :: x :: cs =>
    if x = 'x' ∨ x = 'X' then
      match cs with
      | [] => .ub
      | c :: cs' => if (digitIn 16 c).isSome then digits 16 (c :: cs') 0 false else .ok (0, true)
    else digits 8 ('0' :: x :: cs) 0 false
  | cs => digits 10 cs 0 false

/-- `LONG_MAX + 1` (x86-64). (C.) -/
def longLim : Int := 9223372036854775808

/-- `errno = 0; *value = strtol(cval, &end, 0)` : value, `errno ≠ 0`, `end ≠ cval`. (/repo/src/utils/config.c:13-69.) -/
def strtol0 (buf : Str) : Res (Int × Bool × Bool) := do
  let s ← skipSpace buf
  let (neg, s) := sign s
  let (m, any) ← magnitude s
  let v : Int := if neg then -(m : Int) else m
  if v ≥ longLim then pure (longLim - 1, true, any)
  else if v < -longLim then pure (-longLim, true, any)
  else pure (v, false, any)

/-- /repo/src/utils/config.c:206-224 `utils_config_get_long` (`char cval[22]`). -/
def getLong (conf key : Str) (dflt : Int) : Res (Got Int) :=
  match getRaw conf key 22 with
  | (_ + 1, some buf) => do
    let (v, err, moved) ← strtol0 buf
    if err ∨ ¬ moved then pure { ret := 0, value := some dflt, conf := writeLong conf key dflt }
    else pure { ret := 1, value := some v, conf := conf }
  | _ => .ok { ret := 0, value := some dflt, conf := conf }

/-- /repo/src/utils/config.c:190-204 `utils_config_get_int`. -/
def getInt (conf key : Str) (dflt : Int) : Res (Got Int) := do
  let g ← getLong conf key dflt
  match g.ret, g.value with
  | 1, some cval =>
    if 2147483647 ≥ cval ∧ -2147483648 ≤ cval then pure { g with ret := 1 }
    else pure { g with ret := 0, value := some dflt }
  | _, _ => pure { g with ret := 0, value := some dflt }

/-- /repo/src/utils/config.c:178-188 `utils_config_get_bool`. -/
def getBool (conf key : Str) (dflt : Int) : Res (Got Int) := do
  let g ← getInt conf key dflt
  match g.ret, g.value with
  | 1, some v =>
    if v = 0 ∨ v = 1 then pure { g with ret := 1 } else pure { g with ret := 0, value := some dflt }
  | _, _ => pure { g with ret := 0, value := some dflt }

/-- Conversion of a `size_t` argument to `long` (config.c:230 passes `def_val`). -/
def sizeToLong (n : Nat) : Int := if (n : Int) < longLim then n else (n : Int) - 2 * longLim

/-- /repo/src/utils/config.c:226-240 `utils_config_get_size`: `SIZE_MAX >= cval` converts `cval` to
unsigned and is always true. -/
def getSize (conf key : Str) (dflt : Nat) : Res (Got Int) := do
  let g ← getLong conf key (sizeToLong dflt)
  match g.ret, g.value with
  | 1, some cval =>
    if 0 ≤ cval then pure { g with ret := 1 } else pure { g with ret := 0, value := some dflt }
  | _, _ => pure { g with ret := 0, value := some dflt }

end Arax.Config
