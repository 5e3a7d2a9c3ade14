import Verif.Config.Model
/-!
# Specification for C13–C15: what a configuration text says

A well-formed text is white space, or entries `key <blanks> value` each followed by white space
(/repo/src/utils/config.h:5-14: one `KEY VALUE\n` per line). Keys have at most 127 and values at most 895
characters (the buffers of the reader).
-/
namespace Arax.Config

def Blank (s : Str) : Prop := ∀ c ∈ s, isSpace c = true

/-- A non-empty word of at most `n` characters without white space or NUL. -/
structure Word (n : Nat) (s : Str) : Prop where
  nonempty : s ≠ []
  short    : s.length ≤ n
  noSpace  : ∀ c ∈ s, isSpace c = false
  noNul    : ∀ c ∈ s, c ≠ NUL

/-- `Text conf ps`: the text consists of exactly the entries `ps`, in this order. -/
inductive Text : Str → List (Str × Str) → Prop where
  | blank (w : Str) : Blank w → Text w []
  | entry (lead key sep val : Str) (c : Char) (rest : Str) (ps : List (Str × Str)) :
      Blank lead → Word 127 key → sep ≠ [] → Blank sep → Word 895 val → isSpace c = true →
      Text (c :: rest) ps → Text (lead ++ (key ++ (sep ++ (val ++ c :: rest)))) ((key, val) :: ps)

/-- The value a text defines for a key: that of its first entry with the key. -/
def valueOf (ps : List (Str × Str)) (key : Str) : Option Str := (ps.find? (fun p => p.1 = key)).map (·.2)

/-- What `get_str` should leave in a sufficiently large buffer for the value `v`. -/
def stored (v : Str) (n : Nat) : Str := v ++ List.replicate (n - v.length) NUL

end Arax.Config
