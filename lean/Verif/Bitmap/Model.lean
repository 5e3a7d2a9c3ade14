import Verif.Outcome
/-!
# Model of `/repo/src/utils/bitmap.c` (page bitmap used by `arax_mmap`)

The `uint64_t bits[]` array is modelled as a *total* memory `Nat → BitVec 64` indexed by chunk
number: a store outside the `nchunks` chunks that belong to the bitmap is therefore visible (it changes
`mem` there) and is not silently dropped.  Pointers `chunk`, `free_p`, `end` are chunk indices.
`size_t` values are `Nat`; every subtraction that may wrap is written with `subSz`.
The spinlock around `alloc_bits`/`free_bits` makes the calls atomic (see `Spinlock`), so each call
is one function.
-/
namespace Arax.Bitmap

/-- `size_t` subtraction of values below 2^64 (wraps modulo 2^64). (C rule; used in /repo/src/utils/bitmap.c.) -/
def subSz (a b : Nat) : Nat := if b ≤ a then a - b else a + 2 ^ 64 - b

/-- /repo/src/utils/bitmap.h:6-14 `utils_bitmap_s` (the spinlock word is not part of the state of the
sequential model). `endc` is the field `end` as a chunk index. -/
structure Bmp where
  mem   : Nat → BitVec 64
  freeP : Nat
  endc  : Nat
  used  : Nat
  size  : Nat

/-- Storing a chunk: `*chunk = v`. bitmap.c:69, 88-90, 114, 129, 167, 198 and others. -/
def Bmp.store (b : Bmp) (c : Nat) (v : BitVec 64) : Bmp :=
  { b with mem := fun i => if i = c then v else b.mem i }

/-- /repo/src/utils/bitmap.c:25-41 `utils_bitmap_init`. `mem0` is the previous contents of the memory;
only the bitmap's own chunks are cleared. -/
def init (mem0 : Nat → BitVec 64) (sizeBits : Nat) : Bmp :=
  let n := (sizeBits + 63) / 64
  { mem := fun i => if i < n then 0 else mem0 i, freeP := 0, endc := n, used := 0, size := sizeBits }

/-- /repo/src/utils/bitmap.c:43-46 `utils_bitmap_size`. -/
def sizeBits (b : Bmp) : Nat := b.size

/-- /repo/src/utils/bitmap.c:48-51 `utils_bitmap_used`. -/
def usedBits (b : Bmp) : Nat := b.used

/-- /repo/src/utils/bitmap.c:53-56 `utils_bitmap_free`. -/
def freeBits (b : Bmp) : Nat := subSz b.size b.used

/-- `(uint64_t) -1` (`BITMAP_NOT_FOUND` used as a mask, bitmap.h:18). -/
def ones : BitVec 64 := BitVec.allOnes 64

/-- `((uint64_t)1 << bits) - 1`, only evaluated for `bits < 64` in the code. (/repo/src/utils/bitmap.c.) -/
def lowMask (bits : Nat) : BitVec 64 := ((1 : BitVec 64) <<< bits) - 1

/-- The mask expression with the special case for 64, bitmap.c:63-66, 87-90. -/
def lowMask64 (bits : Nat) : BitVec 64 := if bits ≠ 64 then lowMask bits else ones

/-- `__builtin_popcountl`. Used at bitmap.c:98, 305. -/
def popcount (x : BitVec 64) : Nat := (List.range 64).countP (fun i => x.getLsbD i)

/-- `__builtin_clzl` on a non-zero argument: number of leading zero bits, found by scanning from the
top; `clzFrom k` looks at bits `k-1 … 0`. (GCC; used in /repo/src/utils/bitmap.c.) -/
def clzFrom (x : BitVec 64) : Nat → Nat
  | 0 => 0
  | k + 1 => if x.getLsbD k then 0 else clzFrom x k + 1
/-- `__builtin_clzl` of a chunk (bitmap.c:119, 151). -/
def clz (x : BitVec 64) : Nat := clzFrom x 64

/-- /repo/src/utils/bitmap.c:61-74 `find_end_small(bits, chunk)`. -/
def findEndSmall (b : Bmp) (bits : Nat) (chunk : Nat) : Option Bmp :=
  let mask := lowMask64 bits
  if mask &&& b.mem chunk = 0 then some (b.store chunk (b.mem chunk ||| mask)) else none

/-- /repo/src/utils/bitmap.c:102-108: the sliding-mask loop (`left` = iterations left). -/
def slide (usable : BitVec 64) : (left shift : Nat) → (mask : BitVec 64) → Option (Nat × BitVec 64)
  | 0, _, _ => none
  | k + 1, shift, mask =>
    if mask &&& usable = 0 then some (shift, mask) else slide usable k (shift + 1) (mask <<< 1)

/-- /repo/src/utils/bitmap.c:78-84: bits of the chunk that may not be used. -/
def usableOf (b : Bmp) (chunk : Nat) : BitVec 64 :=
  if chunk + 1 = b.endc then
    let shift := b.size % 64
    if shift ≠ 0 then b.mem chunk ||| (ones <<< shift) else b.mem chunk
  else b.mem chunk

/-- /repo/src/utils/bitmap.c:76-135 `find_start_small` (`bits ≤ 64`). `none` is `BITMAP_NOT_FOUND`
(no store happened); `some (b', s)` is the updated bitmap and the returned bit index. -/
def findStartSmall (b : Bmp) (bits chunk : Nat) : Option (Bmp × Nat) :=
  let usable := usableOf b chunk
  if usable = 0 then
    some ({ b.store chunk (lowMask64 bits) with used := b.used + bits }, chunk * 64)
  else if b.mem chunk = ones then none
  else
    let free := 64 - popcount usable
    if free ≥ bits then
      match slide usable (64 - bits + 1) 0 (lowMask bits) with
      | none => none
      | some (shift, mask) =>
        some ({ b.store chunk (b.mem chunk ||| mask) with used := b.used + bits }, chunk * 64 + shift)
    else
      let freeEnd := if b.mem chunk ≠ 0 then clz (b.mem chunk) else 64
      if freeEnd = 0 then none
      else if chunk + 1 = b.endc then none
      else
        let remainder := bits - freeEnd
        match findEndSmall b remainder (chunk + 1) with
        | none => none
        | some b' =>
          some ({ b'.store chunk (b'.mem chunk ||| (ones <<< (64 - freeEnd))) with used := b'.used + bits },
            chunk * 64 + (64 - freeEnd))

/-- /repo/src/utils/bitmap.c:180-187: the `span` chunks from `citr` on are all zero. -/
def spanFree (b : Bmp) : (span citr : Nat) → Bool
  | 0, _ => true
  | k + 1, citr => if b.mem citr ≠ 0 then false else spanFree b k (citr + 1)

/-- `memset(bits + from, v, 8*span)` with `v` = 0xFF or 0 (bitmap.c:196, 290). -/
def fill (b : Bmp) (start span : Nat) (v : BitVec 64) : Bmp :=
  { b with mem := fun i => if start ≤ i ∧ i < start + span then v else b.mem i }

/-- /repo/src/utils/bitmap.c:157-204: the part of `find_start_big` after `first_mask`, `remainder`, `free_end` are computed. -/
def bigTail (b : Bmp) (bits chunk : Nat) (firstMask : BitVec 64) (remainder freeEnd : Nat) : Option (Bmp × Nat) :=
    if firstMask = 0 then none
    else if chunk + 1 = b.endc then none
    else if remainder < 65 then
      match findEndSmall b remainder (chunk + 1) with
      | none => none
      | some b' =>
        some ({ b'.store chunk (b'.mem chunk ||| firstMask) with used := b'.used + bits },
          chunk * 64 + freeEnd)
    else
      let span := remainder / 64
      let lastRem := remainder % 64
      let lastMask := lowMask lastRem
      if chunk + span + (if lastRem ≠ 0 then 1 else 0) ≥ b.endc then none
      else if spanFree b span (chunk + 1) = false then none
      else if lastRem ≠ 0 ∧ b.mem (chunk + 1 + span) &&& lastMask ≠ 0 then none
      else
        let b1 := if lastRem ≠ 0
          then b.store (chunk + 1 + span) (b.mem (chunk + 1 + span) ||| lastMask) else b
        let b2 := fill b1 (chunk + 1) span ones
        let b3 := b2.store chunk (b2.mem chunk ||| firstMask)
        some ({ b3 with used := b3.used + bits }, chunk * 64 + freeEnd)

/-- /repo/src/utils/bitmap.c:137-205 `find_start_big` (`bits ≥ 65`). -/
def findStartBig (b : Bmp) (bits chunk : Nat) : Option (Bmp × Nat) :=
  if b.mem chunk = ones then none
  else if b.mem chunk = 0 then bigTail b bits chunk ones (bits - 64) 0
  else
    let fe := clz (b.mem chunk)
    bigTail b bits chunk (if fe ≠ 0 then ones <<< (64 - fe) else 0) (bits - fe) (64 - fe)

/-- /repo/src/utils/bitmap.c:207-215 `find_start`. -/
def findStart (b : Bmp) (bits chunk : Nat) : Option (Bmp × Nat) :=
  if bits < 65 then findStartSmall b bits chunk else findStartBig b bits chunk

/-- The loops of bitmap.c:231-241: try `n` chunks starting at `chunk`. -/
def scan (b : Bmp) (bits : Nat) : (n chunk : Nat) → Option (Bmp × Nat)
  | 0, _ => none
  | n + 1, chunk =>
    match findStart b bits chunk with
    | some r => some r
    | none => scan b bits n (chunk + 1)

/-- /repo/src/utils/bitmap.c:224-226: reset the cursor when it points at the end. -/
def resetCursor (b : Bmp) : Bmp := if b.freeP = b.endc then { b with freeP := 0 } else b

/-- /repo/src/utils/bitmap.c:228-252: the search from the cursor on, then from the beginning. -/
def allocFrom (b : Bmp) (bits : Nat) : Bmp × Option Nat :=
  if freeBits b < bits then (b, none)
  else
    match scan b bits (b.endc - b.freeP) b.freeP with
    | some (b', found) => ({ b' with freeP := found / 64 }, some found)
    | none =>
      match scan b bits b.freeP 0 with
      | some (b', found) => ({ b' with freeP := found / 64 }, some found)
      | none => (b, none)

/-- /repo/src/utils/bitmap.c:217-253 `utils_bitmap_alloc_bits`. Returns the new bitmap and
`none` for `BITMAP_NOT_FOUND`. -/
def alloc (b : Bmp) (bits : Nat) : Bmp × Option Nat := allocFrom (resetCursor b) bits

/-- /repo/src/utils/bitmap.c:255-296 `utils_bitmap_free_bits`. An access to a chunk that does not
belong to the bitmap (or a `memset` of a wrapped length) is `ub`; a failing `arax_assert` is `abort`. -/
def free (b : Bmp) (start bits : Nat) : Res Bmp :=
  if bits = 1 then
    if start / 64 ≥ b.endc then .ub
    else .ok { b.store (start / 64) (b.mem (start / 64) &&& ~~~((1 : BitVec 64) <<< (start % 64)))
               with used := subSz b.used 1 }
  else
    let endb := (start + bits) % 2 ^ 64
    let startChunk := start / 64
    let endChunk := subSz endb 1 / 64
    let s := start % 64
    let e := endb % 64
    if startChunk ≥ b.endc then .ub
    else if startChunk = endChunk then
      let mask := if bits ≠ 64 then lowMask bits <<< s else ones
      if b.mem startChunk &&& mask ≠ mask then .abort
      else .ok { b.store startChunk (b.mem startChunk &&& ~~~mask) with used := subSz b.used bits }
    else
      let startMask := ones <<< s
      let endMask := if e ≠ 0 then ones >>> (64 - e) else ones
      if b.mem startChunk &&& startMask ≠ startMask then .abort
      else if endChunk ≥ b.endc then .ub
      else if b.mem endChunk &&& endMask ≠ endMask then .abort
      else
        let b1 := b.store startChunk (b.mem startChunk &&& ~~~startMask)
        let b2 := b1.store endChunk (b1.mem endChunk &&& ~~~endMask)
        if endChunk < startChunk then .ub   -- `span` wraps: `memset` of 2^67 bytes
        else
          let b3 := fill b2 (startChunk + 1) (endChunk - startChunk - 1) 0
          .ok { b3 with used := subSz b3.used bits }

/-- /repo/src/utils/bitmap.c:298-307 `utils_bitmap_count_allocated`. -/
def countAllocated (b : Bmp) : Nat :=
  ((List.range ((b.size + 63) / 64)).map (fun i => if b.mem i ≠ 0 then popcount (b.mem i) else 0)).sum

end Arax.Bitmap
