import Verif.Bitmap.Model
import Verif.Bitmap.Spec
/-!
# Model of the shared-memory allocator: /repo/src/alloc/dlmalloc/malloc.c (dlmalloc 2.8.6) and alloc.c

`arch_alloc_allocate` / `arch_alloc_free` on one `mspace`, down to the boundary tags: memory is words at byte addresses, a chunk at `p` has its `prev_foot` at `p` and its `head` at `p + 8`
(malloc.c:2231-2237), block addresses are `p + 16` (2266). Pages come from the bitmap of `Verif.Bitmap.Model` (arax_mmap, arax_ummap: alloc.c:143-161).

As compiled (dlmalloc/CMakeLists.txt:19): `ONLY_MSPACES`, `MSPACES`, `USE_SPIN_LOCKS`, `HAVE_MMAP=1`, `HAVE_MORECORE=0`, no `FOOTERS`, no `INSECURE`, no `PROCEED_ON_ERROR`; x86-64 (8-byte words,
16-byte alignment), pages of 4096 bytes, granularity 64 KiB (678), trim threshold 2 MiB (683), mmap threshold 256 KiB (690), `MAX_RELEASE_CHECK_RATE` 4095 (697).

Simplifications.
* A call holds the lock of its mspace from `PREACTION` to `POSTACTION` (2801-2802), so each call is one function. Other mspaces and other callers of `arax_mmap` are the environment (`Act.env*`).
* The bins: the two kinds of bins are one list of free chunks, the most recently binned first. A small bin gives its most recent chunk (`B->fd`, 3672); the trees give some chunk of least sufficient
  size - which of several of one size is left to the parameter `pick`. The links, which lie in the bodies of the free chunks and in the `malloc_state`, are arbitrary words (`Act.links`).
* The record of a segment (2518-2524) is its entry in `segs`, in list order, with the address `link` the record has in memory.
* Sizes are multiples of 16 (proved), so `size | flags` is written `size + flags`.
-/
namespace Arax.Dl

/-- Outcome of a call: it returned; `arax_mmap` found no room and aborted (alloc.c:149); or a consistency check failed or memory was corrupted (`USAGE_ERROR_ACTION`, `CORRUPTION_ERROR_ACTION`
(malloc.c:2836-2842), a failing assertion or undefined behaviour in the bitmap, unlinking a chunk that is in no bin). -/
inductive Out (α : Type) where
  | ok (a : α)
  | noMem
  | corrupt

/-- Sequencing. (No code of its own.) -/
def Out.bind {α β : Type} (r : Out α) (f : α → Out β) : Out β :=
  match r with
  | .ok a => f a
  | .noMem => .noMem
  | .corrupt => .corrupt

@[simp] theorem Out.bind_ok {α β : Type} (a : α) (f : α → Out β) : (Out.ok a).bind f = f a := rfl
@[simp] theorem Out.bind_noMem {α β : Type} (f : α → Out β) : (Out.noMem : Out α).bind f = .noMem := rfl
@[simp] theorem Out.bind_corrupt {α β : Type} (f : α → Out β) : (Out.corrupt : Out α).bind f = .corrupt := rfl

/-- Number of values of `size_t`; `MAX_SIZE_T` (malloc.c:587) is `W - 1`. -/
def W : Nat := 2 ^ 64

/-- `MAX_REQUEST` = `(-MIN_CHUNK_SIZE) << 2`, with `MIN_CHUNK_SIZE` = 32. malloc.c:2262-2272. -/
def maxRequest : Nat := 2 ^ 64 - 128

/-- `malloc_segment` (malloc.c:2518-2524); `link` is the address of the record itself. All segments are `USE_MMAP_BIT` and not `EXTERN_BIT` (4261, 5567). -/
structure Seg where
  base : Nat
  size : Nat
  link : Nat
  deriving DecidableEq

/-- Where page 0 of the bitmap is (alloc.c:48), and whether `CALL_MREMAP` is the system's `mremap` (malloc.c:648-655, 1784-1792: it is when the macro `linux` is defined, which GNU dialects do).
`groups` is the number of groups of 64 pages in the bitmap (alloc.c:46; no function below uses it). -/
structure Conf where
  start : Nat
  mremap : Bool
  groups : Nat

/-- `malloc_state` (malloc.c:2629-2653), the memory and the bitmap. `bins` stands for `smallmap`, `treemap`, `smallbins` and `treebins`: (address, size) of every binned chunk. `mst` is the chunk that
holds the `malloc_state`. Not modelled: `magic`, `mflags`, `mutex`, `extp`, `exts`; `footprint_limit` is 0. -/
structure Heap where
  mem : Nat → Nat
  bmp : Bitmap.Bmp
  segs : List Seg
  bins : List (Nat × Nat)
  dv : Nat
  dvsize : Nat
  top : Nat
  topsize : Nat
  least : Nat
  trim : Nat
  checks : Nat
  foot : Nat
  maxFoot : Nat
  mst : Nat

/-- Storing a word. (No code of its own.) -/
def put (m : Nat → Nat) (a v : Nat) : Nat → Nat := fun x => if x = a then v else m x

/-- The `head` word of the chunk at `p`. malloc.c:2234. -/
def Heap.hd (s : Heap) (p : Nat) : Nat := s.mem (p + 8)

/-- `chunksize`. malloc.c:2310. -/
def csize (w : Nat) : Nat := w / 8 * 8
/-- `cinuse`. malloc.c:2304. -/
def cinuse (w : Nat) : Bool := w / 2 % 2 == 1
/-- `pinuse`. malloc.c:2305. -/
def pinuse (w : Nat) : Bool := w % 2 == 1
/-- `is_inuse`: the two bits are not 01. malloc.c:2307. -/
def isInuse (w : Nat) : Bool := w % 4 != 1
/-- `is_mmapped`: both bits are 0. malloc.c:2308. -/
def isMmapped (w : Nat) : Bool := w % 4 == 0
/-- `head |= PINUSE_BIT`. malloc.c:3111, 3116. -/
def setP (w : Nat) : Nat := w / 2 * 2 + 1
/-- `clear_pinuse`. malloc.c:2312. -/
def clrP (w : Nat) : Nat := w / 2 * 2

/-- `align_offset`. malloc.c:1630-1632. -/
def alignOff (a : Nat) : Nat := if a % 16 = 0 then 0 else (16 - a % 16) % 16

/-- `pad_request`. malloc.c:2276-2277. -/
def padReq (b : Nat) : Nat := (b + 23) / 16 * 16

/-- `granularity_align`, on `size_t`. malloc.c:2725-2727. -/
def granAlign (n : Nat) : Nat := (n % W + 65535) % W / 65536 * 65536

/-- `page_align` (`mmap_align`), on `size_t`. malloc.c:2721-2722, 2734. -/
def pageAlign (n : Nat) : Nat := (n % W + 4095) % W / 4096 * 4096

/-- `TOP_FOOT_SIZE`: 0 + 48 + 32. malloc.c:2788-2789. -/
def topFoot : Nat := 80

/-- `pad_request(sizeof(struct malloc_state))`: the structure has 936 bytes. malloc.c:2629-2653, 5530. -/
def mstSize : Nat := 944

/-- The address of `m->seg`, the record of the first segment of the list: 888 bytes into the `malloc_state`, which starts 16 bytes into its chunk. malloc.c:2650, 5533. -/
def Heap.hrec (s : Heap) : Nat := s.mst + 16 + 888

/-- `arax_mmap`. /repo/src/alloc/dlmalloc/alloc.c:143-152. -/
def mmap (cf : Conf) (s : Heap) (n : Nat) : Out (Heap × Nat) :=
  if n % 4096 ≠ 0 then .corrupt
  else
    match Bitmap.alloc s.bmp (n / 4096) with
    | (_, none) => .noMem
    | (b, some off) => .ok ({ s with bmp := b }, cf.start + off * 4096)

/-- `arax_ummap`. /repo/src/alloc/dlmalloc/alloc.c:154-161. -/
def munmap (cf : Conf) (s : Heap) (a n : Nat) : Out Heap :=
  match Bitmap.free s.bmp ((a - cf.start) / 4096) (n / 4096) with
  | .ok b => .ok { s with bmp := b }
  | _ => .corrupt

/-- `init_top`. malloc.c:3996-4010. -/
def initTop (s : Heap) (p psize : Nat) : Heap :=
  let off := alignOff (p + 16)
  let p := p + off
  let psize := psize - off
  { s with top := p, topsize := psize, mem := put (put s.mem (p + 8) (psize + 1)) (p + psize + 8) topFoot, trim := 2097152 }

/-- `insert_chunk`, `insert_small_chunk`, `insert_large_chunk`. malloc.c:3659-3676, 3741-3791, 3884-3886. -/
def insertChunk (s : Heap) (p n : Nat) : Heap := { s with bins := (p, n) :: s.bins }

/-- `unlink_chunk`, `unlink_small_chunk`, `unlink_large_chunk`. malloc.c:3679-3703, 3810-3880, 3888-3890. -/
def unlinkChunk (s : Heap) (p n : Nat) : Out Heap := if (p, n) ∈ s.bins then .ok { s with bins := s.bins.erase (p, n) } else .corrupt

/-- `set_inuse_and_pinuse`. malloc.c:3114-3116. -/
def setInuse (m : Nat → Nat) (p n : Nat) : Nat → Nat :=
  let m1 := put m (p + 8) (n + 3)
  put m1 (p + n + 8) (setP (m1 (p + n + 8)))

/-- `set_size_and_pinuse_of_free_chunk`. malloc.c:2332-2333. -/
def setFree (m : Nat → Nat) (p n : Nat) : Nat → Nat := put (put m (p + 8) (n + 1)) (p + n) n

/-- `set_free_with_pinuse`. malloc.c:2336-2337. -/
def setFreeP (m : Nat → Nat) (p n nx : Nat) : Nat → Nat := setFree (put m (nx + 8) (clrP (m (nx + 8)))) p n

/-- `replace_dv`. malloc.c:3726-3736. -/
def replaceDv (s : Heap) (p n : Nat) : Heap :=
  let s := if s.dvsize ≠ 0 then insertChunk s s.dv s.dvsize else s
  { s with dv := p, dvsize := n }

/-- The bins: a chunk of least size in `l`; of several the one `pick` says. malloc.c:4543-4591 (with `l` the binned chunks of at least `nb` bytes), 4616-4633, 5673-5677. -/
def best (l : List (Nat × Nat)) (pick : Nat) : Option (Nat × Nat) :=
  match (l.map Prod.snd).min? with
  | none => none
  | some m => (l.filter (fun c => c.2 == m))[pick % (l.filter (fun c => c.2 == m)).length]?

/-- Taking the unlinked chunk `c` for `nb` bytes; the remainder becomes the designated victim. malloc.c:5680-5690, 4639-4647. -/
def takeDv (s : Heap) (c : Nat × Nat) (nb : Nat) : Heap × Nat :=
  let s := { s with bins := s.bins.erase c }
  if c.2 - nb < 32 then ({ s with mem := setInuse s.mem c.1 c.2 }, c.1 + 16)
  else
    let s := { s with mem := setFree (put s.mem (c.1 + 8) (nb + 3)) (c.1 + nb) (c.2 - nb) }
    (replaceDv s (c.1 + nb) (c.2 - nb), c.1 + 16)

/-- Taking the unlinked chunk `c` for `nb` bytes; the remainder goes to a bin. malloc.c:4599-4607. -/
def takeBin (s : Heap) (c : Nat × Nat) (nb : Nat) : Heap × Nat :=
  let s := { s with bins := s.bins.erase c }
  if c.2 - nb < 32 then ({ s with mem := setInuse s.mem c.1 c.2 }, c.1 + 16)
  else
    let s := { s with mem := setFree (put s.mem (c.1 + 8) (nb + 3)) (c.1 + nb) (c.2 - nb) }
    (insertChunk s (c.1 + nb) (c.2 - nb), c.1 + 16)

/-- Splitting the top chunk. malloc.c:5726-5734 and 4340-4347. -/
def takeTop (s : Heap) (nb : Nat) : Heap × Nat :=
  ({ s with topsize := s.topsize - nb, top := s.top + nb, mem := put (put s.mem (s.top + nb + 8) (s.topsize - nb + 1)) (s.top + 8) (nb + 3) }, s.top + 16)

/-- Using the designated victim. malloc.c:5709-5724. -/
def takeVictim (s : Heap) (nb : Nat) : Heap × Nat :=
  if s.dvsize - nb ≥ 32 then
    ({ s with dv := s.dv + nb, dvsize := s.dvsize - nb, mem := put (setFree s.mem (s.dv + nb) (s.dvsize - nb)) (s.dv + 8) (nb + 3) }, s.dv + 16)
  else ({ s with dvsize := 0, dv := 0, mem := setInuse s.mem s.dv s.dvsize }, s.dv + 16)

/-- `mmap_alloc`. malloc.c:3921-3952. The result 0 is NULL. -/
def mmapAlloc (cf : Conf) (s : Heap) (nb : Nat) : Out (Heap × Nat) :=
  let mmsize := pageAlign (nb + 48 + 15)
  if mmsize > nb then
    (mmap cf s mmsize).bind fun (s, mm) =>
      let off := alignOff (mm + 16)
      let psize := mmsize - off - 32
      let p := mm + off
      let m := put (put (put (put s.mem p off) (p + 8) psize) (p + psize + 8) 11) (p + psize + 8 + 8) 0
      .ok ({ s with mem := m, least := (if s.least = 0 ∨ mm < s.least then mm else s.least), foot := s.foot + mmsize, maxFoot := max s.maxFoot (s.foot + mmsize) }, p + 16)
  else .ok (s, 0)

/-- `prepend_alloc`. malloc.c:4047-4086. -/
def prependAlloc (s : Heap) (newbase oldbase nb : Nat) : Out (Heap × Nat) :=
  let p := newbase + alignOff (newbase + 16)
  let oldfirst := oldbase + alignOff (oldbase + 16)
  let q := p + nb
  let qsize := oldfirst - p - nb
  let s := { s with mem := put s.mem (p + 8) (nb + 3) }
  if oldfirst = s.top then .ok ({ s with topsize := s.topsize + qsize, top := q, mem := put s.mem (q + 8) (s.topsize + qsize + 1) }, p + 16)
  else if oldfirst = s.dv then .ok ({ s with dvsize := s.dvsize + qsize, dv := q, mem := setFree s.mem q (s.dvsize + qsize) }, p + 16)
  else if isInuse (s.hd oldfirst) then .ok (insertChunk { s with mem := setFreeP s.mem q qsize oldfirst } q qsize, p + 16)
  else
    let nsize := csize (s.hd oldfirst)
    (unlinkChunk s oldfirst nsize).bind fun s =>
      .ok (insertChunk { s with mem := setFreeP s.mem q (qsize + nsize) (oldfirst + nsize) } q (qsize + nsize), p + 16)

/-- The loop that writes fenceposts from `p` on, at most `n` of them. malloc.c:4119-4127. -/
def fences (m : Nat → Nat) (e : Nat) : Nat → Nat → (Nat → Nat)
  | 0, _ => m
  | n + 1, p => if p + 16 < e then put (fences m e n (p + 8)) (p + 8) 11 else put m (p + 8) 11

/-- `segment_holds`. malloc.c:2746-2747. -/
def Seg.holds (g : Seg) (a : Nat) : Bool := g.base ≤ a && a < g.base + g.size

/-- `add_segment`. malloc.c:4089-4140. The old top is in the first segment of the list (proved), but it is looked up as in the code. -/
def addSegment (s : Heap) (tbase tsize : Nat) : Out Heap :=
  match s.segs.find? (·.holds s.top), s.segs with
  | some oldsp, h :: t =>
    let oldTop := s.top
    let oldEnd := oldsp.base + oldsp.size
    let rawsp := oldEnd - (48 + 32 + 15)
    let asp := rawsp + alignOff (rawsp + 16)
    let csp := if asp < oldTop + 32 then oldTop else asp
    let s := initTop s tbase (tsize - topFoot)
    let s := { s with mem := put s.mem (csp + 8) (48 + 3), segs := ⟨tbase, tsize, h.link⟩ :: ⟨h.base, h.size, csp + 16⟩ :: t }
    let s := { s with mem := fences s.mem oldEnd (oldEnd - (csp + 48)) (csp + 48) }
    if csp ≠ oldTop then .ok (insertChunk { s with mem := setFreeP s.mem oldTop (csp - oldTop) csp } oldTop (csp - oldTop)) else .ok s
  | _, _ => .corrupt

/-- /repo/src/alloc/dlmalloc/malloc.c:4339-4352 of `sys_alloc`. -/
def fromNewTop (s : Heap) (nb : Nat) : Heap × Nat := if nb < s.topsize then takeTop s nb else (s, 0)

/-- The segment the new space extends, if it holds the top. malloc.c:4306-4315. -/
def appendSeg (s : Heap) (tbase : Nat) : Option Seg :=
  match s.segs.find? (fun g => tbase == g.base + g.size) with
  | some g => if g.holds s.top then some g else none
  | none => none

/-- `sys_alloc` from line 4283 on, with `tsize` new bytes at `tbase`. (`is_initialized` holds: `create_mspace` set `top`.) malloc.c:4283-4353. -/
def growBy (s : Heap) (tbase tsize nb : Nat) : Out (Heap × Nat) :=
  let s := { s with foot := s.foot + tsize, maxFoot := max s.maxFoot (s.foot + tsize) }
  match appendSeg s tbase with
  | some g =>
    let s := { s with segs := s.segs.map (fun x => if x.base = g.base then { x with size := x.size + tsize } else x) }
    .ok (fromNewTop (initTop s s.top (s.topsize + tsize)) nb)
  | none =>
    let s := { s with least := (if tbase < s.least then tbase else s.least) }
    match s.segs.find? (fun g => g.base == tbase + tsize) with
    | some g =>
      let s := { s with segs := s.segs.map (fun x => if x.base = g.base then { x with base := tbase, size := x.size + tsize } else x) }
      prependAlloc s tbase g.base nb
    | none => (addSegment s tbase tsize).bind fun s => .ok (fromNewTop s nb)

/-- `sys_alloc`. malloc.c:4145-4353. -/
def sysAlloc (cf : Conf) (s : Heap) (nb : Nat) : Out (Heap × Nat) :=
  let rest := fun (s : Heap) =>
    let asize := granAlign (nb + (topFoot + 16))
    if asize ≤ nb then .ok (s, 0)
    else (mmap cf s asize).bind fun (s, tbase) => growBy s tbase asize nb
  if nb ≥ 262144 ∧ s.topsize ≠ 0 then (mmapAlloc cf s nb).bind fun (s, m) => if m ≠ 0 then .ok (s, m) else rest s
  else rest s

/-- The designated victim, else the top, else the system. malloc.c:5708-5737. -/
def lastResort (cf : Conf) (s : Heap) (nb : Nat) : Out (Heap × Nat) :=
  if nb ≤ s.dvsize then .ok (takeVictim s nb)
  else if nb < s.topsize then .ok (takeTop s nb)
  else sysAlloc cf s nb

/-- Remainderless fit: a binned chunk of `nb` bytes, else of `nb + 8`. malloc.c:5655-5661. -/
def exactFit (s : Heap) (nb : Nat) : Option (Nat × Nat) :=
  match s.bins.find? (fun c => c.2 == nb) with
  | some c => some c
  | none => s.bins.find? (fun c => c.2 == nb + 8)

/-- `mspace_malloc` (`arch_alloc_allocate`, alloc.c:62-81). malloc.c:5639-5745. The result 0 is NULL. -/
def malloc (cf : Conf) (s : Heap) (bytes pick : Nat) : Out (Heap × Nat) :=
  if bytes ≤ 232 then
    let nb := if bytes < 23 then 32 else padReq bytes
    match exactFit s nb with
    | some c => .ok ({ s with bins := s.bins.erase c, mem := setInuse s.mem c.1 c.2 }, c.1 + 16)
    | none =>
      if nb > s.dvsize then
        match best (s.bins.filter (fun c => nb < c.2 && c.2 < 256)) 0 with
        | some c => .ok (takeDv s c nb)
        | none =>
          match best (s.bins.filter (fun c => 256 ≤ c.2)) pick with
          | some c => .ok (takeDv s c nb)
          | none => lastResort cf s nb
      else lastResort cf s nb
  else if bytes ≥ maxRequest then lastResort cf s (W - 1)
  else
    let nb := padReq bytes
    match best (s.bins.filter (fun c => 256 ≤ c.2 && nb ≤ c.2)) pick with
    | some c => if c.2 - nb < (W + s.dvsize - nb) % W then .ok (takeBin s c nb) else lastResort cf s nb
    | none => lastResort cf s nb

/-- The loop of `release_unused_segments` over the segments after the first. malloc.c:4365-4398. -/
def releaseLoop (cf : Conf) : List Seg → Heap → Out (List Seg × Heap)
  | [], s => .ok ([], s)
  | g :: t, s =>
    let p := g.base + alignOff (g.base + 16)
    let psize := csize (s.hd p)
    if !isInuse (s.hd p) && g.base + g.size - topFoot ≤ p + psize then
      (if p = s.dv then .ok { s with dv := 0, dvsize := 0 } else unlinkChunk s p psize).bind fun s =>
      (munmap cf s g.base g.size).bind fun s =>
      releaseLoop cf t { s with foot := s.foot - g.size }
    else (releaseLoop cf t s).bind fun (t', s) => .ok (g :: t', s)

/-- `release_unused_segments`. malloc.c:4358-4403. -/
def releaseUnused (cf : Conf) (s : Heap) : Out Heap :=
  match s.segs with
  | [] => .corrupt
  | h :: t => (releaseLoop cf t s).bind fun (t', s') => .ok { s' with segs := h :: t', checks := max t.length 4095 }

/-- The part of `sys_trim` that shrinks the top. malloc.c:4411-4459 with `pad` = 0. -/
def trimTop (cf : Conf) (s : Heap) : Out (Heap × Nat) :=
  if s.topsize > topFoot then
    let extra := ((s.topsize - topFoot + 65535) / 65536 - 1) * 65536
    match s.segs.find? (·.holds s.top) with
    | none => .corrupt
    | some g =>
      if extra ≤ g.size && !s.segs.any (fun x => g.holds x.link) then
        (if cf.mremap then .ok s else munmap cf s (g.base + (g.size - extra)) extra).bind fun s =>
        if extra ≠ 0 then
          let s := { s with segs := s.segs.map (fun x => if x.base = g.base then { x with size := x.size - extra } else x), foot := s.foot - extra }
          .ok (initTop s s.top (s.topsize - extra), extra)
        else .ok (s, 0)
      else .ok (s, 0)
  else .ok (s, 0)

/-- `sys_trim` with `pad` = 0. malloc.c:4405-4471. Whether anything was released: by the footprint. -/
def sysTrim (cf : Conf) (s : Heap) : Out Heap :=
  (trimTop cf s).bind fun (s1, r) =>
  (releaseUnused cf s1).bind fun s2 =>
  .ok (if r = 0 ∧ s2.foot = s1.foot ∧ s2.topsize > s2.trim then { s2 with trim := W - 1 } else s2)

/-- Binning the freed chunk. malloc.c:5823-5833. -/
def binFreed (cf : Conf) (s : Heap) (p n : Nat) : Out Heap :=
  if n < 256 then .ok (insertChunk s p n)
  else
    let s := insertChunk s p n
    let s := { s with checks := s.checks - 1 }
    if s.checks = 0 then releaseUnused cf s else .ok s

/-- Consolidating forward. malloc.c:5791-5834. -/
def freeFwd (cf : Conf) (s : Heap) (p psize nx : Nat) : Out Heap :=
  if !(p < nx && pinuse (s.hd nx)) then .corrupt
  else if cinuse (s.hd nx) then binFreed cf { s with mem := setFreeP s.mem p psize nx } p psize
  else if nx = s.top then
    let tsize := s.topsize + psize
    let s := { s with topsize := tsize, top := p, mem := put s.mem (p + 8) (tsize + 1) }
    let s := if p = s.dv then { s with dv := 0, dvsize := 0 } else s
    if tsize > s.trim then sysTrim cf s else .ok s
  else if nx = s.dv then
    .ok { s with dvsize := s.dvsize + psize, dv := p, mem := setFree s.mem p (s.dvsize + psize) }
  else
    let nsize := csize (s.hd nx)
    (unlinkChunk s nx nsize).bind fun s =>
    let s := { s with mem := setFree s.mem p (psize + nsize) }
    if p = s.dv then .ok { s with dvsize := psize + nsize } else binFreed cf s p (psize + nsize)

/-- `mspace_free` (`_arch_alloc_free`, alloc.c:83-100). malloc.c:5747-5842. -/
def free (cf : Conf) (s : Heap) (a : Nat) : Out Heap :=
  if a = 0 then .ok s
  else
    let p := a - 16
    if !(s.least ≤ p && isInuse (s.hd p)) then .corrupt
    else
      let psize := csize (s.hd p)
      let nx := p + psize
      if pinuse (s.hd p) then freeFwd cf s p psize nx
      else
        let prevsize := s.mem p
        if isMmapped (s.hd p) then
          (munmap cf s (p - prevsize) (psize + prevsize + 32)).bind fun s => .ok { s with foot := s.foot - (psize + prevsize + 32) }
        else
          let prev := p - prevsize
          if !(s.least ≤ prev) then .corrupt
          else if prev ≠ s.dv then (unlinkChunk s prev prevsize).bind fun s => freeFwd cf s prev (psize + prevsize) nx
          else if s.hd nx % 4 = 3 then .ok { s with dvsize := psize + prevsize, mem := setFreeP s.mem prev (psize + prevsize) nx }
          else freeFwd cf s prev (psize + prevsize) nx

/-- `create_mspace(0, 1)` with `init_user_mstate`, on memory `mem0` and bitmap `b`. malloc.c:5528-5572. (That the `malloc_state` is cleared is not modelled: its words are arbitrary.) -/
def create (cf : Conf) (mem0 : Nat → Nat) (b : Bitmap.Bmp) : Out Heap :=
  (mmap cf { mem := mem0, bmp := b, segs := [], bins := [], dv := 0, dvsize := 0, top := 0, topsize := 0, least := 0, trim := 0, checks := 0, foot := 0, maxFoot := 0, mst := 0 } 65536).bind
    fun (s, tbase) =>
  let msp := tbase + alignOff (tbase + 16)
  let s := { s with mem := put s.mem (msp + 8) (mstSize + 3), least := tbase, foot := 65536, maxFoot := 65536, checks := 4095, mst := msp }
  let s := { s with segs := [⟨tbase, 65536, s.hrec⟩] }
  let mn := msp + mstSize
  .ok (initTop s mn (tbase + 65536 - mn - topFoot))

end Arax.Dl
