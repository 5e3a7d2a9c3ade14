import Verif.Outcome
import Verif.Bitmap.Spec
/-!
# Model of the address arithmetic: data buffers, task host data, segment layout (C38–C41)

Addresses are `Nat`s below 2^64; memory is a *byte* memory, so that a user store into a buffer that is
later read as a back pointer is visible.  Multi-byte accesses are little endian.
-/
namespace Arax.Layout

/-- Byte memory. (The shared segment, mapped at /repo/src/arch/shm/impl.c:76, 93.) -/
abbrev Mem := Nat → BitVec 8

/-- Little-endian load of `n` bytes. (A load of the compiled code on x86-64, e.g. /repo/src/core/arax_data.c:271.) -/
def readLE (m : Mem) (a : Nat) : Nat → Nat
  | 0 => 0
  | n + 1 => (m a).toNat + 256 * readLE m (a + 1) n

/-- Little-endian store of `n` bytes. (A store of the compiled code on x86-64, e.g. /repo/src/core/arax_data.c:41-46.) -/
def writeLE (m : Mem) (a n v : Nat) : Mem :=
  fun x => if a ≤ x ∧ x < a + n then BitVec.ofNat 8 (v / 256 ^ (x - a)) else m x

/-- Store of one byte. (A store of the user into a buffer obtained from `arax_data_deref`, /repo/src/core/arax_data.c:260-272.) -/
def writeByte (m : Mem) (x : Nat) (v : BitVec 8) : Mem := fun y => if y = x then v else m y

/-- Compile-time constants of `struct arax_data_s` (/repo/src/core/arax_data.h:36-51, the object header in
/repo/src/core/arax_object.h) and the segment `[base, base+len)`.
`hdr` = `sizeof(arax_data_s)`, `offType`, `offSize`, `offBuf` = offsets of `obj.type` (4 bytes), `size`,
`buffer` (8 bytes each); `tyData` = the enumerator `ARAX_TYPE_DATA`. -/
structure Lay where
  base : Nat
  len : Nat
  hdr : Nat
  offType : Nat
  offSize : Nat
  offBuf : Nat
  tyData : Nat

/-- What the compiler and the mapping guarantee about the constants. (Order of the fields in /repo/src/core/arax_data.h:36-51.) -/
structure Lay.Valid (L : Lay) : Prop where
  base_pos : 0 < L.base
  seg_end : L.base + L.len < 2 ^ 64
  ty : L.tyData < 2 ^ 32
  type_size : L.offType + 4 ≤ L.offSize
  size_buf : L.offSize + 8 ≤ L.offBuf
  buf_end : L.offBuf + 8 ≤ L.hdr

/-- /repo/src/core/arax_data.c:24 with the macro of /repo/src/core/arax_data.h:16, in `size_t` arithmetic. -/
def allocSize (L : Lay) (size align : Nat) : Nat := (L.hdr + (size + align + 8)) % 2 ^ 64

/-- /repo/src/core/arax_data.c:35-38: the buffer address for an object at `a`. -/
def bufAddr (L : Lay) (a align : Nat) : Nat :=
  let p := a + L.hdr + 8
  (p + align - p % align) % 2 ^ 64

/-- /repo/src/core/arax_data.c:26-47 `arax_data_init_aligned` after `arax_object_register` returned block `a`
(non-NULL; the type field is stored by /repo/src/core/arax_object.c:113).  `m` is the memory right after
the block was obtained.  Fields that no modelled function reads (`flags`, `phys`, `align`, name, list
node) are not represented; they lie in the header, which user code does not write. -/
def initAligned (L : Lay) (m : Mem) (a size align : Nat) : Res Mem :=
  if align = 0 then .abort
  else
    let m := writeLE m (a + L.offType) 4 L.tyData
    let buf := bufAddr L a align
    let m := writeLE m (buf - 8) 8 a
    let m := writeLE m (a + L.offSize) 8 size
    .ok (writeLE m (a + L.offBuf) 8 buf)

/-- /repo/src/core/arax_ptr.c:4-18 (the side effect of calling `arax_init` is C43's subject). -/
def ptrValid (L : Lay) (p : Nat) : Bool := decide (L.base ≤ p ∧ p < L.base + L.len)

/-- `obj.type` as read from memory. /repo/src/core/arax_object.h:40-48. -/
def typeOf (L : Lay) (m : Mem) (d : Nat) : Nat := readLE m (d + L.offType) 4

/-- /repo/src/core/arax_data.c:260-272 `arax_data_deref`. -/
def deref (L : Lay) (m : Mem) (d : Nat) : Res Nat :=
  if typeOf L m d ≠ L.tyData then .abort else .ok (readLE m (d + L.offBuf) 8)

/-- /repo/src/core/arax_data.c:251-258 `arax_data_size`. -/
def dataSize (L : Lay) (m : Mem) (d : Nat) : Res Nat :=
  if typeOf L m d ≠ L.tyData then .abort else .ok (readLE m (d + L.offSize) 8)

/-- /repo/src/core/arax_data.c:274-293 `arax_data_ref`; `none` is NULL. -/
def dataRef (L : Lay) (m : Mem) (p : Nat) : Res (Option Nat) :=
  if p = 0 then .abort
  else
    let v := readLE m (p - 8) 8
    if v = 0 then .ok none
    else if ptrValid L v = false then .ok none
    else if typeOf L m v ≠ L.tyData then .ok none
    else .ok (some v)

/-- /repo/src/core/arax_data.c:308-318: the scan of the list of registered data. -/
def scan (L : Lay) (m : Mem) (p : Nat) : List Nat → Res (Option Nat)
  | [] => .ok none
  | d :: ds => do
    let start ← deref L m d
    let sz ← dataSize L m d
    if start < p ∧ p < start + sz then .ok (some d) else scan L m p ds

/-- /repo/src/core/arax_data.c:295-323 `arax_data_ref_offset`; `datas` = the addresses in the repository's
list of data objects. -/
def refOffset (L : Lay) (m : Mem) (datas : List Nat) (p : Nat) : Res (Option Nat) :=
  if p = 0 then .abort
  else if ptrValid L p = false then .abort
  else do
    let r ← dataRef L m p
    match r with
    | some d => .ok (some d)
    | none => scan L m p datas

/-! ## Task block -/

/-- Compile-time constants of `struct arax_task_msg` (/repo/include/core/arax_task.h:9-23):
`hdr` = `sizeof(arax_task_msg_s)`, `offIo` = offset of the flexible array `io[]`. -/
structure TaskLay where
  hdr : Nat
  offIo : Nat

/-- `(size_t)(int)x * 8`: the sum of two `int`s; signed overflow is undefined behaviour. (/repo/src/core/arax_task.c.) -/
def ioSize (ins outs : Int) : Res Nat :=
  let n := ins + outs
  if n < -(2 ^ 31) ∨ 2 ^ 31 ≤ n then .ub
  else .ok ((n % 2 ^ 64).toNat * 8 % 2 ^ 64)

/-- /repo/src/core/arax_task.c:13-19: bytes requested for a task. -/
def taskAllocSize (T : TaskLay) (ins outs : Int) (host : Nat) : Res Nat := do
  let io ← ioSize ins outs
  .ok ((T.hdr + io + host) % 2 ^ 64)

/-- The address of `task->io[i]` (arax_task.c:33-46, `dest` is advanced over the array). -/
def ioSlot (T : TaskLay) (t : Nat) (i : Nat) : Nat := t + T.offIo + 8 * i

/-- /repo/src/core/arax_task.c:51-62 `arax_task_host_data`; `none` is NULL. The fields `in_count`,
`out_count`, `host_size` are those of the task. -/
def hostData (T : TaskLay) (t : Nat) (ins outs : Int) (host size : Nat) : Res (Option Nat) :=
  if size ≠ host then .abort
  else if host = 0 then .ok none
  else do
    let io ← ioSize ins outs
    .ok (some ((t + T.hdr + io) % 2 ^ 64))

/-! ## Segment layout -/

/-- Result of `arch_alloc_init_once`: `bits` = address of the bitmap's chunk array, `start` = first page,
`pages` = number of pages. /repo/src/alloc/dlmalloc/alloc.c:27-55. -/
structure AllocLay where
  bits : Nat
  start : Nat
  pages : Nat

/-- /repo/src/alloc/dlmalloc/alloc.c:27-55 `arch_alloc_init_once(alloc, size)`; `inner` =
`sizeof(struct arch_alloc_inner_s)`, whose last member ends with the flexible chunk array
(/repo/src/utils/bitmap.h:6-14), so the chunks start at `alloc + 1`.  `(x + mask) & ~mask` is rounding up
to the next multiple of 4096.  `size_t` subtraction wraps. -/
def allocInit (inner alloc size : Nat) : AllocLay :=
  let usable := alloc + inner
  let start0 := (usable + 4095) / 4096 * 4096
  let asize := Bitmap.subSz size (start0 - alloc)
  let apages := asize / 4096
  let bpages := (apages + 32767) / 32768
  { bits := usable, start := start0 + 4096 * bpages, pages := apages - bpages }

/-- Compile-time constants of `struct arax_pipe` (/repo/include/arax_pipe.h:24-50): size and the offset of the
member `allocator`. -/
structure PipeLay where
  sizeof : Nat
  offAlloc : Nat
  inner : Nat

/-- /repo/src/core/arax_pipe.c:35-37: the allocator of a segment of `size` bytes at `base`. -/
def pipeAlloc (P : PipeLay) (base size : Nat) : AllocLay :=
  allocInit P.inner (base + P.offAlloc) (Bitmap.subSz size P.sizeof)

/-- /repo/src/alloc/dlmalloc/alloc.c:143-152 `arax_mmap`. -/
def mmap (A : AllocLay) (b : Bitmap.Bmp) (s : Nat) : Res (Bitmap.Bmp × Nat) :=
  if s % 4096 ≠ 0 then .abort
  else match Bitmap.alloc b (s / 4096) with
    | (_, none) => .abort
    | (b', some off) => .ok (b', A.start + off * 4096)

/-- /repo/src/alloc/dlmalloc/alloc.c:154-161 `arax_ummap`. -/
def ummap (A : AllocLay) (b : Bitmap.Bmp) (a s : Nat) : Res Bitmap.Bmp :=
  Bitmap.free b ((Bitmap.subSz a A.start) / 4096) (s / 4096)

end Arax.Layout
