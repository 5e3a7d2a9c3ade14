import Verif.Dl.Model
/-!
# Model of the bins of the shared-memory allocator: /repo/src/alloc/dlmalloc/malloc.c

The small bins (rings of chunks of one size), the tree bins (bitwise tries of chunks), their two bit maps, and the macros and loops that insert, unlink and search - at the level of the link fields.
`Verif.Dl.Model` has in their place a list of (address, size) pairs; `Verif.Dl.Bins*` proves that the links implement the list.

Simplifications.
* One map per link field (`fd`, `bk`, `child`, `parent`, `index`) from the address of a chunk to the value of the field, in place of words at offsets 16 to 56 of the chunk (malloc.c:2231-2237,
  2441-2452). A bin of small chunks is a chunk whose `fd` and `bk` are two words of the array `smallbins` (2885-2886).
* The loops have a bound on the number of rounds, 70; running out of it (`corrupt`) is proved not to happen.
* As compiled, `DEBUG` is 0 and `assert` is empty (1452-1463); `RTCHECK` tests its argument (3090-3095).
-/
namespace Arax.Dl

/-- The link fields of chunks and bins, and the fields `smallmap`, `treemap`, `treebins` of the `malloc_state`. malloc.c:2231-2237, 2441-2452, 2631-2632, 2641-2642. -/
structure Links where
  fd : Nat → Nat
  bk : Nat → Nat
  child : Nat → Bool → Nat
  parent : Nat → Nat
  index : Nat → Nat
  smallmap : BitVec 32
  treemap : BitVec 32
  root : Nat → Nat

/-- What the bins read of the rest: `chunksize` of a chunk (its `head`, malloc.c:2310), `least_addr` (2635) and the address of the `malloc_state`. -/
structure Ctx where
  sz : Nat → Nat
  least : Nat
  ms : Nat

/-- `smallbin_at(M, i)`: `smallbins` is 72 bytes into the structure. malloc.c:2631-2641, 2888. -/
def Ctx.sbin (c : Ctx) (i : Nat) : Nat := c.ms + 72 + 16 * i
/-- `treebin_at(M, i)`: `treebins` is 600 bytes into the structure. malloc.c:2631-2642, 2889. -/
def Ctx.tbin (c : Ctx) (i : Nat) : Nat := c.ms + 600 + 8 * i

/-- Assigning to `child[b]` of `a`. (No code of its own.) -/
def putC (f : Nat → Bool → Nat) (a : Nat) (b : Bool) (v : Nat) : Nat → Bool → Nat := fun x y => if x = a ∧ y = b then v else f x y

/-- `idx2bit`. malloc.c:2973. -/
def idx2bit (i : Nat) : BitVec 32 := 1#32 <<< i
/-- `least_bit`. malloc.c:2985. -/
def leastBit (x : BitVec 32) : BitVec 32 := x &&& -x
/-- `left_bits`. malloc.c:2988. -/
def leftBits (x : BitVec 32) : BitVec 32 := (x <<< 1) ||| -(x <<< 1)
/-- `compute_bit2idx` (`__builtin_ctz`): the position of the lowest bit that is set. malloc.c:2996-3001. -/
def bit2idx (x : BitVec 32) : Nat := ((List.range 32).find? fun i => x.getLsbD i).getD 32

/-- `compute_tree_index`. `X` is an `unsigned int`: bits 40 and up of the size are dropped. malloc.c:2893-2904. -/
def treeIndex (s : Nat) : Nat :=
  let x := s / 256 % 2 ^ 32
  if x = 0 then 0
  else if x > 0xFFFF then 31
  else 2 * Nat.log2 x + s / 2 ^ (Nat.log2 x + 7) % 2

/-- `leftshift_for_tree_index`. malloc.c:2960-2962. -/
def treeShift (i : Nat) : Nat := if i = 31 then 0 else 63 - (i / 2 + 6)

/-- `S << leftshift_for_tree_index(I)`, on `size_t`. malloc.c:3757, 4553. -/
def sizeBits (s i : Nat) : Nat := s * 2 ^ treeShift i % 2 ^ 64
/-- `(K >> (SIZE_T_BITSIZE - SIZE_T_ONE)) & 1`, as an index into `child`. malloc.c:3760, 4564. -/
def topBit (k : Nat) : Bool := k / 2 ^ 63 % 2 == 1
/-- `K <<= 1`, on `size_t`. malloc.c:3761, 4571. -/
def shl1 (k : Nat) : Nat := 2 * k % 2 ^ 64

/-- `insert_small_chunk`. malloc.c:3659-3676. -/
def Links.insertSmall (l : Links) (c : Ctx) (p n : Nat) : Out Links :=
  let i := n / 8
  let b := c.sbin i
  (if !l.smallmap.getLsbD i then .ok ({ l with smallmap := l.smallmap ||| idx2bit i }, b)
    else if c.least ≤ l.fd b then .ok (l, l.fd b)
    else .corrupt : Out (Links × Nat)).bind fun (l, f) =>
  .ok { l with fd := put (put l.fd b p) p f, bk := put (put l.bk f p) p b }

/-- `unlink_small_chunk`. malloc.c:3679-3703. -/
def Links.unlinkSmall (l : Links) (c : Ctx) (p n : Nat) : Out Links :=
  let f := l.fd p
  let b := l.bk p
  let i := n / 8
  if f = c.sbin i ∨ (c.least ≤ f ∧ l.bk f = p) then
    if b = f then .ok { l with smallmap := l.smallmap &&& ~~~idx2bit i }
    else if b = c.sbin i ∨ (c.least ≤ b ∧ l.fd b = p) then .ok { l with bk := put l.bk f b, fd := put l.fd b f }
    else .corrupt
  else .corrupt

/-- `unlink_first_small_chunk`. malloc.c:3706-3722. -/
def Links.unlinkFirst (l : Links) (c : Ctx) (b p i : Nat) : Out Links :=
  let f := l.fd p
  if b = f then .ok { l with smallmap := l.smallmap &&& ~~~idx2bit i }
  else if c.least ≤ f ∧ l.bk f = p then .ok { l with bk := put l.bk f b, fd := put l.fd b f }
  else .corrupt

/-- The loop of `insert_large_chunk`, at the chunk `t` with the shifted size `k`. malloc.c:3758-3789. -/
def insertLoop (c : Ctx) (p n : Nat) : Nat → Links → Nat → Nat → Out Links
  | 0, _, _, _ => .corrupt
  | r + 1, l, t, k =>
    if c.sz t ≠ n then
      let b := topBit k
      if l.child t b ≠ 0 then insertLoop c p n r l (l.child t b) (shl1 k)
      else if c.least ≤ t + 32 + 8 * b.toNat then .ok { l with child := putC l.child t b p, parent := put l.parent p t, fd := put l.fd p p, bk := put l.bk p p }
      else .corrupt
    else
      let f := l.fd t
      if c.least ≤ t ∧ c.least ≤ f then .ok { l with fd := put (put l.fd t p) p f, bk := put (put l.bk f p) p t, parent := put l.parent p 0 }
      else .corrupt

/-- `insert_large_chunk`. malloc.c:3741-3791. -/
def Links.insertLarge (l : Links) (c : Ctx) (p n : Nat) : Out Links :=
  let i := treeIndex n
  let l := { l with index := put l.index p i, child := putC (putC l.child p true 0) p false 0 }
  if !l.treemap.getLsbD i then
    .ok { l with treemap := l.treemap ||| idx2bit i, root := put l.root i p, parent := put l.parent p (c.tbin i), fd := put l.fd p p, bk := put l.bk p p }
  else insertLoop c p n 70 l (l.root i) (sizeBits n i)

/-- The loop that looks for a leaf below `r`, which is the child `b` of `q`: the leaf with its place. malloc.c:3830-3833. -/
def leafLoop (l : Links) : Nat → Nat → Nat → Bool → Out (Nat × Nat × Bool)
  | 0, _, _, _ => .corrupt
  | k + 1, r, q, b =>
    if l.child r true ≠ 0 then leafLoop l k (l.child r true) r true
    else if l.child r false ≠ 0 then leafLoop l k (l.child r false) r false
    else .ok (r, q, b)

/-- The first part of `unlink_large_chunk`: the replacement of `x`, taken out of its place. malloc.c:3812-3840. -/
def Links.replacement (l : Links) (c : Ctx) (x : Nat) : Out (Links × Nat) :=
  if l.bk x ≠ x then
    let f := l.fd x
    let r := l.bk x
    if c.least ≤ f ∧ l.bk f = x ∧ l.fd r = x then .ok ({ l with bk := put l.bk f r, fd := put l.fd r f }, r) else .corrupt
  else
    let take := fun (b : Bool) => (leafLoop l 70 (l.child x b) x b).bind fun (r, q, b) =>
      if c.least ≤ q + 32 + 8 * b.toNat then .ok ({ l with child := putC l.child q b 0 }, r) else .corrupt
    if l.child x true ≠ 0 then take true
    else if l.child x false ≠ 0 then take false
    else .ok (l, 0)

/-- `*H = R`, or the assignment to the child of `XP`. malloc.c:3842-3854. -/
def Links.relinkParent (l : Links) (c : Ctx) (x xp r : Nat) : Out Links :=
  let i := l.index x
  if x = l.root i then .ok { l with root := put l.root i r, treemap := if r = 0 then l.treemap &&& ~~~idx2bit i else l.treemap }
  else if c.least ≤ xp then
    if l.child xp false = x then .ok { l with child := putC l.child xp false r } else .ok { l with child := putC l.child xp true r }
  else .corrupt

/-- One child of `x` goes to its replacement `r`. malloc.c:3859-3866 and 3867-3874. -/
def Links.moveChild (l : Links) (c : Ctx) (x r : Nat) (b : Bool) : Out Links :=
  let ch := l.child x b
  if ch ≠ 0 then
    if c.least ≤ ch then .ok { l with child := putC l.child r b ch, parent := put l.parent ch r } else .corrupt
  else .ok l

/-- The replacement `r` of `x` gets the parent and the children of `x`. malloc.c:3855-3878. -/
def Links.adopt (l : Links) (c : Ctx) (x xp r : Nat) : Out Links :=
  if r ≠ 0 then
    if c.least ≤ r then (({ l with parent := put l.parent r xp } : Links).moveChild c x r false).bind fun l => l.moveChild c x r true else .corrupt
  else .ok l

/-- `unlink_large_chunk`. malloc.c:3810-3880. -/
def Links.unlinkLarge (l : Links) (c : Ctx) (x : Nat) : Out Links :=
  let xp := l.parent x
  (l.replacement c x).bind fun (l, r) => if xp ≠ 0 then (l.relinkParent c x xp r).bind fun l => l.adopt c x xp r else .ok l

/-- `insert_chunk`. malloc.c:3884-3886. -/
def Links.insert (l : Links) (c : Ctx) (p n : Nat) : Out Links := if n / 8 < 32 then l.insertSmall c p n else l.insertLarge c p n

/-- `unlink_chunk`. malloc.c:3888-3890. -/
def Links.unlink (l : Links) (c : Ctx) (p n : Nat) : Out Links := if n / 8 < 32 then l.unlinkSmall c p n else l.unlinkLarge c p

/-- `leftmost_child`. malloc.c:2459. -/
def Links.leftmost (l : Links) (t : Nat) : Nat := if l.child t false ≠ 0 then l.child t false else l.child t true

/-- Unsigned subtraction. (No code of its own.) -/
def sub64 (a b : Nat) : Nat := (W + a - b % W) % W

/-- The loop that finds the smallest chunk of a tree: from `t`, with the best so far `v` and what it leaves. malloc.c:4584-4591; 4627-4633 is the same from `leftmost_child(t)` on. -/
def smallestLoop (c : Ctx) (l : Links) (nb : Nat) : Nat → Nat → Nat → Nat → Out (Nat × Nat)
  | 0, _, _, _ => .corrupt
  | k + 1, t, v, rsize =>
    if t ≠ 0 then
      let trem := sub64 (c.sz t) nb
      if trem < rsize then smallestLoop c l nb k (l.leftmost t) t trem else smallestLoop c l nb k (l.leftmost t) v rsize
    else .ok (v, rsize)

/-- The loop of `tmalloc_large` in the bin of the request: `t`, the untaken right subtree `rst`, the best so far, and the shifted size. The result is `t` after the loop, `v` and `rsize`.
malloc.c:4555-4572. -/
def pathLoop (c : Ctx) (l : Links) (nb : Nat) : Nat → Nat → Nat → Nat → Nat → Nat → Out (Nat × Nat × Nat)
  | 0, _, _, _, _, _ => .corrupt
  | k + 1, t, rst, v, rsize, bits =>
    let trem := sub64 (c.sz t) nb
    if trem < rsize ∧ trem = 0 then .ok (t, t, 0)
    else
      let v' := if trem < rsize then t else v
      let rsize' := if trem < rsize then trem else rsize
      let rt := l.child t true
      let t' := l.child t (topBit bits)
      let rst' := if rt ≠ 0 ∧ rt ≠ t' then rt else rst
      if t' = 0 then .ok (rst', v', rsize') else pathLoop c l nb k t' rst' v' rsize' (shl1 bits)

/-- `tmalloc_large` up to the choice of the chunk: the chunk (0: none) and what it leaves. malloc.c:4545-4591. -/
def Links.searchLarge (l : Links) (c : Ctx) (nb : Nat) : Out (Nat × Nat) :=
  let idx := treeIndex nb
  (if l.root idx ≠ 0 then pathLoop c l nb 70 (l.root idx) 0 0 (sub64 0 nb) (sizeBits nb idx) else .ok (0, 0, sub64 0 nb)).bind fun (t, v, rsize) =>
  let bits := leftBits (idx2bit idx) &&& l.treemap
  let t := if t = 0 ∧ v = 0 then (if bits ≠ 0 then l.root (bit2idx (leastBit bits)) else 0) else t
  smallestLoop c l nb 70 t v rsize

/-- `tmalloc_small` up to the choice of the chunk. malloc.c:4618-4633. -/
def Links.searchSmall (l : Links) (c : Ctx) (nb : Nat) : Out (Nat × Nat) :=
  let t := l.root (bit2idx (leastBit l.treemap))
  smallestLoop c l nb 70 (l.leftmost t) t (sub64 (c.sz t) nb)

/-- The bin of a remainderless fit for a small request. malloc.c:5654-5659. -/
def Links.exactBin (l : Links) (nb : Nat) : Option Nat :=
  let idx := nb / 8
  let smallbits := l.smallmap >>> idx
  if smallbits &&& 3#32 ≠ 0 then some (idx + (~~~smallbits &&& 1#32).toNat) else none

/-- The next small bin in use after that of the request. malloc.c:5669-5675. -/
def Links.nextBin (l : Links) (nb : Nat) : Option Nat :=
  let idx := nb / 8
  let smallbits := l.smallmap >>> idx
  if smallbits ≠ 0 then some (bit2idx (leastBit ((smallbits <<< idx) &&& leftBits (idx2bit idx)))) else none

/-- `init_bins`, on a `malloc_state` that is zeroed out. malloc.c:4013-4022, 5535. -/
def Links.init (l : Links) (c : Ctx) : Links :=
  { l with
    fd := fun a => if (List.range 32).any (fun i => a == c.sbin i) then a else l.fd a
    bk := fun a => if (List.range 32).any (fun i => a == c.sbin i) then a else l.bk a
    smallmap := 0
    treemap := 0
    root := fun _ => 0 }

end Arax.Dl
