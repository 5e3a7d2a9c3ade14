import Verif.Outcome
/-!
# Model of `/repo/src/utils/Kv.c`

Keys and values are `void *`, modelled as `Nat` (0 = NULL). `cap` is the build option `ARAX_KV_CAP`
(/repo/cmake/Options.cmake; default 32). The calls run under the store's spinlock (C09), so each is
one step. The pair array is a C array of `cap` pairs: an index outside it is `ub`.
-/
namespace Arax.Kv

/-- /repo/src/utils/Kv.h `utils_kv_s` (lock omitted). Lines 10-19. -/
structure Kv where
  key   : Nat → Nat
  value : Nat → Nat
  pairs : Nat

/-- /repo/src/utils/Kv.c:5-9 `utils_kv_init`: the memset. -/
def init : Kv := { key := fun _ => 0, value := fun _ => 0, pairs := 0 }

/-- Kv.c:18-24, 40-45: the loop over `itr` (from `itr`, `n` iterations left) looking for the key. The array
bound is checked at each access. -/
def scan (cap : Nat) (kv : Kv) (k : Nat) : Nat → Nat → Res (Option Nat)
  | _, 0 => .ok none
  | itr, n + 1 =>
    if cap ≤ itr then .ub
    else if kv.key itr = k then .ok (some itr)
    else scan cap kv k (itr + 1) n

/-- /repo/src/utils/Kv.c:11-33 `utils_kv_set`. -/
def set (cap : Nat) (kv : Kv) (k v : Nat) : Res Kv := do
  match ← scan cap kv k 0 kv.pairs with
  | some i => pure { kv with value := fun j => if j = i then v else kv.value j }
  | none =>
    if kv.pairs < cap then
      pure { key := fun j => if j = kv.pairs then k else kv.key j,
             value := fun j => if j = kv.pairs then v else kv.value j,
             pairs := kv.pairs + 1 }
    else .abort

/-- /repo/src/utils/Kv.c:35-48 `utils_kv_get`: the slot whose address is returned, `none` = NULL. -/
def getSlot (cap : Nat) (kv : Kv) (k : Nat) : Res (Option Nat) := scan cap kv k 0 kv.pairs

/-- The value a caller sees: `*utils_kv_get(kv, k)`, `none` when NULL was returned. Kv.c:35-48. -/
def get (cap : Nat) (kv : Kv) (k : Nat) : Res (Option Nat) := do
  match ← getSlot cap kv k with
  | some i => pure (some (kv.value i))
  | none => pure none

/-- A sequence of `utils_kv_set` calls from a fresh store. Kv.c:11-33. -/
def run (cap : Nat) : List (Nat × Nat) → Kv → Res Kv
  | [], kv => .ok kv
  | (k, v) :: rest, kv => do run cap rest (← set cap kv k v)

end Arax.Kv
