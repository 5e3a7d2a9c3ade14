import Verif.Dl.Links
/-!
# The allocator on its bins: /repo/src/alloc/dlmalloc/malloc.c

`mspace_malloc` and `mspace_free` once more, with the bins as the rings, tries and bit maps of `Verif.Dl.Links` in place of the list of `Verif.Dl.Model`. Nothing is left to choice here: which of several
free chunks a request gets is what the loops of the code find. `Verif.Dl.Sim*` proves that every call does what the call of `Verif.Dl.Model` does for some choice.

Functions that do not touch the bins (`mmap`, `munmap`, `initTop`, `takeTop`, `takeVictim`, `mmapAlloc`, `trimTop`) are those of `Verif.Dl.Model`.
-/
namespace Arax.Dl

/-- The allocator: everything but the bins (the field `bins` of `h` is not used: no function below reads it), and the bins. malloc.c:2629-2653. -/
structure LHeap where
  h : Heap
  l : Links

/-- What the bins read of the rest: sizes from the heads of chunks, `least_addr`, and where the `malloc_state` is. malloc.c:2310, 2635, 5533. -/
def LHeap.ctx (b : LHeap) : Ctx := ⟨fun p => csize (b.h.hd p), b.h.least, b.h.mst + 16⟩

/-- `insert_chunk`. malloc.c:3884-3886. -/
def LHeap.insert (b : LHeap) (p n : Nat) : Out LHeap := (b.l.insert b.ctx p n).bind fun l => .ok ⟨b.h, l⟩
/-- `insert_small_chunk`. malloc.c:3659-3676. -/
def LHeap.insertSmall (b : LHeap) (p n : Nat) : Out LHeap := (b.l.insertSmall b.ctx p n).bind fun l => .ok ⟨b.h, l⟩
/-- `insert_large_chunk`. malloc.c:3741-3791. -/
def LHeap.insertLarge (b : LHeap) (p n : Nat) : Out LHeap := (b.l.insertLarge b.ctx p n).bind fun l => .ok ⟨b.h, l⟩
/-- `unlink_chunk`. malloc.c:3888-3890. -/
def LHeap.unlink (b : LHeap) (p n : Nat) : Out LHeap := (b.l.unlink b.ctx p n).bind fun l => .ok ⟨b.h, l⟩
/-- `unlink_large_chunk`. malloc.c:3810-3880. -/
def LHeap.unlinkLarge (b : LHeap) (p : Nat) : Out LHeap := (b.l.unlinkLarge b.ctx p).bind fun l => .ok ⟨b.h, l⟩
/-- `p = b->fd; unlink_first_small_chunk(M, B, P, I)`: the chunk, and the bins without it. malloc.c:5660-5663, 5676-5679. -/
def LHeap.unlinkFirst (b : LHeap) (i : Nat) : Out (LHeap × Nat) :=
  let p := b.l.fd (b.ctx.sbin i)
  (b.l.unlinkFirst b.ctx (b.ctx.sbin i) p i).bind fun l => .ok (⟨b.h, l⟩, p)

/-- `replace_dv`. malloc.c:3726-3736. -/
def LHeap.replaceDv (b : LHeap) (p n : Nat) : Out LHeap :=
  (if b.h.dvsize ≠ 0 then b.insertSmall b.h.dv b.h.dvsize else .ok b).bind fun b => .ok ⟨{ b.h with dv := p, dvsize := n }, b.l⟩

/-- Using the unlinked chunk `v` of `nb + rsize` bytes for `nb` bytes; the remainder becomes the designated victim. malloc.c:5680-5690, 4640-4647. -/
def LHeap.splitDv (b : LHeap) (v nb rsize : Nat) : Out (LHeap × Nat) :=
  if rsize < 32 then .ok (⟨{ b.h with mem := setInuse b.h.mem v (rsize + nb) }, b.l⟩, v + 16)
  else (LHeap.replaceDv ⟨{ b.h with mem := setFree (put b.h.mem (v + 8) (nb + 3)) (v + nb) rsize }, b.l⟩ (v + nb) rsize).bind fun b => .ok (b, v + 16)

/-- Using the unlinked chunk `v` of `nb + rsize` bytes for `nb` bytes; the remainder goes to a bin. malloc.c:4600-4607. -/
def LHeap.splitBin (b : LHeap) (v nb rsize : Nat) : Out (LHeap × Nat) :=
  if rsize < 32 then .ok (⟨{ b.h with mem := setInuse b.h.mem v (rsize + nb) }, b.l⟩, v + 16)
  else (LHeap.insert ⟨{ b.h with mem := setFree (put b.h.mem (v + 8) (nb + 3)) (v + nb) rsize }, b.l⟩ (v + nb) rsize).bind fun b => .ok (b, v + 16)

/-- `tmalloc_small`. malloc.c:4616-4653. -/
def LHeap.tmallocSmall (b : LHeap) (nb : Nat) : Out (LHeap × Nat) :=
  (b.l.searchSmall b.ctx nb).bind fun (v, rsize) =>
  if b.h.least ≤ v ∧ v < v + nb then (b.unlinkLarge v).bind fun b => b.splitDv v nb rsize else .corrupt

/-- `tmalloc_large`. `none`: it returns 0. malloc.c:4543-4613. -/
def LHeap.tmallocLarge (b : LHeap) (nb : Nat) : Out (Option (LHeap × Nat)) :=
  (b.l.searchLarge b.ctx nb).bind fun (v, rsize) =>
  if v ≠ 0 ∧ rsize < sub64 b.h.dvsize nb then
    if b.h.least ≤ v ∧ v < v + nb then (b.unlinkLarge v).bind fun b => (b.splitBin v nb rsize).bind fun r => .ok (some r) else .corrupt
  else .ok none

/-- `prepend_alloc`. malloc.c:4047-4086. -/
def LHeap.prependAlloc (b : LHeap) (newbase oldbase nb : Nat) : Out (LHeap × Nat) :=
  let p := newbase + alignOff (newbase + 16)
  let oldfirst := oldbase + alignOff (oldbase + 16)
  let q := p + nb
  let qsize := oldfirst - p - nb
  let h := { b.h with mem := put b.h.mem (p + 8) (nb + 3) }
  if oldfirst = h.top then .ok (⟨{ h with topsize := h.topsize + qsize, top := q, mem := put h.mem (q + 8) (h.topsize + qsize + 1) }, b.l⟩, p + 16)
  else if oldfirst = h.dv then .ok (⟨{ h with dvsize := h.dvsize + qsize, dv := q, mem := setFree h.mem q (h.dvsize + qsize) }, b.l⟩, p + 16)
  else
    (if isInuse (h.hd oldfirst) then .ok (⟨h, b.l⟩, oldfirst, qsize)
      else (LHeap.unlink ⟨h, b.l⟩ oldfirst (csize (h.hd oldfirst))).bind fun b => .ok (b, oldfirst + csize (h.hd oldfirst), qsize + csize (h.hd oldfirst)) : Out (LHeap × Nat × Nat)).bind fun (b, next, n) =>
    (LHeap.insert ⟨{ b.h with mem := setFreeP b.h.mem q n next }, b.l⟩ q n).bind fun b => .ok (b, p + 16)

/-- `add_segment`. malloc.c:4089-4140. -/
def LHeap.addSegment (b : LHeap) (tbase tsize : Nat) : Out LHeap :=
  match b.h.segs.find? (·.holds b.h.top), b.h.segs with
  | some oldsp, g :: t =>
    let oldTop := b.h.top
    let oldEnd := oldsp.base + oldsp.size
    let rawsp := oldEnd - (48 + 32 + 15)
    let asp := rawsp + alignOff (rawsp + 16)
    let csp := if asp < oldTop + 32 then oldTop else asp
    let h := initTop b.h tbase (tsize - topFoot)
    let h := { h with mem := put h.mem (csp + 8) (48 + 3), segs := ⟨tbase, tsize, g.link⟩ :: ⟨g.base, g.size, csp + 16⟩ :: t }
    let h := { h with mem := fences h.mem oldEnd (oldEnd - (csp + 48)) (csp + 48) }
    if csp ≠ oldTop then LHeap.insert ⟨{ h with mem := setFreeP h.mem oldTop (csp - oldTop) csp }, b.l⟩ oldTop (csp - oldTop) else .ok ⟨h, b.l⟩
  | _, _ => .corrupt

/-- The bins stay, the rest changes. (No code of its own.) -/
def LHeap.put (b : LHeap) (r : Heap × Nat) : LHeap × Nat := (⟨r.1, b.l⟩, r.2)

/-- `sys_alloc` from line 4283 on, with `tsize` new bytes at `tbase`. malloc.c:4283-4353. -/
def LHeap.growBy (b : LHeap) (tbase tsize nb : Nat) : Out (LHeap × Nat) :=
  let h := { b.h with foot := b.h.foot + tsize, maxFoot := max b.h.maxFoot (b.h.foot + tsize) }
  match appendSeg h tbase with
  | some g =>
    let h := { h with segs := h.segs.map (fun x => if x.base = g.base then { x with size := x.size + tsize } else x) }
    .ok (b.put (fromNewTop (initTop h h.top (h.topsize + tsize)) nb))
  | none =>
    let h := { h with least := (if tbase < h.least then tbase else h.least) }
    match h.segs.find? (fun g => g.base == tbase + tsize) with
    | some g => LHeap.prependAlloc ⟨{ h with segs := h.segs.map (fun x => if x.base = g.base then { x with base := tbase, size := x.size + tsize } else x) }, b.l⟩ tbase g.base nb
    | none => (LHeap.addSegment ⟨h, b.l⟩ tbase tsize).bind fun b => .ok (b.put (fromNewTop b.h nb))

/-- `sys_alloc`. malloc.c:4145-4353. -/
def LHeap.sysAlloc (cf : Conf) (b : LHeap) (nb : Nat) : Out (LHeap × Nat) :=
  let rest := fun (b : LHeap) =>
    let asize := granAlign (nb + (topFoot + 16))
    if asize ≤ nb then .ok (b, 0)
    else (mmap cf b.h asize).bind fun (h, tbase) => LHeap.growBy ⟨h, b.l⟩ tbase asize nb
  if nb ≥ 262144 ∧ b.h.topsize ≠ 0 then (mmapAlloc cf b.h nb).bind fun (h, m) => if m ≠ 0 then .ok (⟨h, b.l⟩, m) else rest ⟨h, b.l⟩
  else rest b

/-- The designated victim, else the top, else the system. malloc.c:5708-5737. -/
def LHeap.lastResort (cf : Conf) (b : LHeap) (nb : Nat) : Out (LHeap × Nat) :=
  if nb ≤ b.h.dvsize then .ok (b.put (takeVictim b.h nb))
  else if nb < b.h.topsize then .ok (b.put (takeTop b.h nb))
  else LHeap.sysAlloc cf b nb

/-- `mspace_malloc`. malloc.c:5639-5745. The result 0 is NULL. -/
def LHeap.malloc (cf : Conf) (b : LHeap) (bytes : Nat) : Out (LHeap × Nat) :=
  if bytes ≤ 232 then
    let nb := if bytes < 23 then 32 else padReq bytes
    match b.l.exactBin nb with
    | some i => (b.unlinkFirst i).bind fun (b, p) => .ok (⟨{ b.h with mem := setInuse b.h.mem p (8 * i) }, b.l⟩, p + 16)
    | none =>
      if nb > b.h.dvsize then
        match b.l.nextBin nb with
        | some i => (b.unlinkFirst i).bind fun (b, p) => b.splitDv p nb (8 * i - nb)
        | none => if b.l.treemap ≠ 0 then b.tmallocSmall nb else LHeap.lastResort cf b nb
      else LHeap.lastResort cf b nb
  else if bytes ≥ maxRequest then LHeap.lastResort cf b (W - 1)
  else
    let nb := padReq bytes
    (if b.l.treemap ≠ 0 then b.tmallocLarge nb else .ok none).bind fun r =>
    match r with
    | some r => .ok r
    | none => LHeap.lastResort cf b nb

/-- The loop of `release_unused_segments` over the segments after the first. malloc.c:4365-4398. -/
def LHeap.releaseLoop (cf : Conf) : List Seg → LHeap → Out (List Seg × LHeap)
  | [], b => .ok ([], b)
  | g :: t, b =>
    let p := g.base + alignOff (g.base + 16)
    let psize := csize (b.h.hd p)
    if !isInuse (b.h.hd p) && g.base + g.size - topFoot ≤ p + psize then
      (if p = b.h.dv then .ok ⟨{ b.h with dv := 0, dvsize := 0 }, b.l⟩ else b.unlinkLarge p).bind fun b =>
      (munmap cf b.h g.base g.size).bind fun h =>
      LHeap.releaseLoop cf t ⟨{ h with foot := h.foot - g.size }, b.l⟩
    else (LHeap.releaseLoop cf t b).bind fun (t', b) => .ok (g :: t', b)

/-- `release_unused_segments`. malloc.c:4358-4403. -/
def LHeap.releaseUnused (cf : Conf) (b : LHeap) : Out LHeap :=
  match b.h.segs with
  | [] => .corrupt
  | g :: t => (LHeap.releaseLoop cf t b).bind fun (t', b') => .ok ⟨{ b'.h with segs := g :: t', checks := max t.length 4095 }, b'.l⟩

/-- `sys_trim` with `pad` = 0. malloc.c:4405-4471. -/
def LHeap.sysTrim (cf : Conf) (b : LHeap) : Out LHeap :=
  (trimTop cf b.h).bind fun (h1, r) =>
  (LHeap.releaseUnused cf ⟨h1, b.l⟩).bind fun b2 =>
  .ok (if r = 0 ∧ b2.h.foot = h1.foot ∧ b2.h.topsize > b2.h.trim then ⟨{ b2.h with trim := W - 1 }, b2.l⟩ else b2)

/-- Binning the freed chunk. malloc.c:5823-5833. -/
def LHeap.binFreed (cf : Conf) (b : LHeap) (p n : Nat) : Out LHeap :=
  if n / 8 < 32 then b.insertSmall p n
  else (b.insertLarge p n).bind fun b =>
    let b : LHeap := ⟨{ b.h with checks := b.h.checks - 1 }, b.l⟩
    if b.h.checks = 0 then LHeap.releaseUnused cf b else .ok b

/-- Consolidating forward. malloc.c:5791-5834. -/
def LHeap.freeFwd (cf : Conf) (b : LHeap) (p psize nx : Nat) : Out LHeap :=
  if !(p < nx && pinuse (b.h.hd nx)) then .corrupt
  else if cinuse (b.h.hd nx) then LHeap.binFreed cf ⟨{ b.h with mem := setFreeP b.h.mem p psize nx }, b.l⟩ p psize
  else if nx = b.h.top then
    let tsize := b.h.topsize + psize
    let h := { b.h with topsize := tsize, top := p, mem := Dl.put b.h.mem (p + 8) (tsize + 1) }
    let h := if p = h.dv then { h with dv := 0, dvsize := 0 } else h
    if tsize > h.trim then LHeap.sysTrim cf ⟨h, b.l⟩ else .ok ⟨h, b.l⟩
  else if nx = b.h.dv then
    .ok ⟨{ b.h with dvsize := b.h.dvsize + psize, dv := p, mem := setFree b.h.mem p (b.h.dvsize + psize) }, b.l⟩
  else
    let nsize := csize (b.h.hd nx)
    (b.unlink nx nsize).bind fun b =>
    let h := { b.h with mem := setFree b.h.mem p (psize + nsize) }
    if p = h.dv then .ok ⟨{ h with dvsize := psize + nsize }, b.l⟩ else LHeap.binFreed cf ⟨h, b.l⟩ p (psize + nsize)

/-- `mspace_free`. malloc.c:5747-5842. -/
def LHeap.free (cf : Conf) (b : LHeap) (a : Nat) : Out LHeap :=
  if a = 0 then .ok b
  else
    let p := a - 16
    if !(b.h.least ≤ p && isInuse (b.h.hd p)) then .corrupt
    else
      let psize := csize (b.h.hd p)
      let nx := p + psize
      if pinuse (b.h.hd p) then LHeap.freeFwd cf b p psize nx
      else
        let prevsize := b.h.mem p
        if isMmapped (b.h.hd p) then
          (munmap cf b.h (p - prevsize) (psize + prevsize + 32)).bind fun h => .ok ⟨{ h with foot := h.foot - (psize + prevsize + 32) }, b.l⟩
        else
          let prev := p - prevsize
          if !(b.h.least ≤ prev) then .corrupt
          else if prev ≠ b.h.dv then (b.unlink prev prevsize).bind fun b => LHeap.freeFwd cf b prev (psize + prevsize) nx
          else if b.h.hd nx % 4 = 3 then .ok ⟨{ b.h with dvsize := psize + prevsize, mem := setFreeP b.h.mem prev (psize + prevsize) nx }, b.l⟩
          else LHeap.freeFwd cf b prev (psize + prevsize) nx

/-- `create_mspace(0, 1)`; `l0` is what the link fields of all memory were before. malloc.c:5528-5572. -/
def LHeap.create (cf : Conf) (mem0 : Nat → Nat) (bm : Bitmap.Bmp) (l0 : Links) : Out LHeap :=
  (Dl.create cf mem0 bm).bind fun h => .ok ⟨h, l0.init (LHeap.ctx ⟨h, l0⟩)⟩

end Arax.Dl
