import Verif.Dl.Inspect
import Verif.Dl.LinkHeap
/-!
# All allocators of a segment, with the bins they really have

As `Verif.Dl.System`, but every allocator has its small bins, tree bins and bit maps (`Links`), and finds chunks by following them: nothing is chosen for it. The field `bins` of the heaps is not used (it is
empty).
-/
namespace Arax.Dl
open Arax.Bitmap (bit Bmp)

/-- The shared segment, and the bins of each allocator. malloc.c:2629-2653. -/
structure LSys where
  sys : Sys
  links : Nat → Links

/-- Allocator `i`. (No code of its own.) -/
def LSys.lheap (κ : LSys) (i : Nat) : LHeap := ⟨{ κ.sys.heap i with mem := κ.sys.mem, bmp := κ.sys.bmp }, κ.links i⟩

/-- The segment when allocator `i` has become `b`, and its users hold `live`. (No code of its own.) -/
def LSys.after (κ : LSys) (i : Nat) (b : LHeap) (live : List (Nat × Nat)) : LSys := ⟨κ.sys.after i ⟨b.h, live, fun _ => false⟩, fun j => if j = i then b.l else κ.links j⟩

/-- The values of the link fields at one address. (No code of its own.) -/
structure Fields where
  fd : Nat
  bk : Nat
  child0 : Nat
  child1 : Nat
  parent : Nat
  index : Nat

/-- Writing all link fields at `p`. (No code of its own.) -/
def Links.scribble (l : Links) (p : Nat) (f : Fields) : Links :=
  { l with fd := put l.fd p f.fd, bk := put l.bk p f.bk, child := putC (putC l.child p false f.child0) p true f.child1, parent := put l.parent p f.parent, index := put l.index p f.index }

/-- Is the word range of the link fields at `p` in use by the bins of allocator `i`: is `p` a free chunk, found by walking the segments, or a small bin? malloc.c:2888, 3582-3593. -/
def LSys.linked (cf : Conf) (κ : LSys) (i p : Nat) : Bool :=
  (List.range 32).any (fun k => p == ((κ.sys.heap i).mst + 16) + 72 + 16 * k) ||
  match countSegs κ.sys.mem (κ.sys.heap i).top (4096 * (64 * cf.groups) + 1) (κ.sys.heap i).segs with
  | some l => l.any fun c => c.1 == p && !isInuse c.2
  | none => true

/-- Events. As `SAct`; and `junk i p f`: what is at `p` - no free chunk of allocator `i`, and none of its bins - was written over, by the users, by other allocators, or by boundary tags, so that the words that
would be link fields if a free chunk were there now are `f`. (No code of its own.) -/
inductive LAct where
  | create (i : Nat)
  | alloc (i bytes : Nat)
  | free (i a : Nat)
  | write (i x v : Nat)
  | junk (i p : Nat) (f : Fields)
  | destroy (i : Nat)

/-- One event. alloc.c:62-107, 163-170; malloc.c:5549-5572, 5612-5637, 5639-5842. -/
def lstep (cf : Conf) (κ : LSys) : LAct → Out LSys
  | .create i => if κ.sys.up i then .ok κ else (LHeap.create cf κ.sys.mem κ.sys.bmp (κ.links i)).bind fun b => .ok (κ.after i b [])
  | .alloc i bytes =>
    if κ.sys.up i then (LHeap.malloc cf (κ.lheap i) bytes).bind fun (b, a) => .ok (κ.after i b (if a = 0 then κ.sys.live i else (a, bytes) :: κ.sys.live i)) else .ok κ
  | .free i a =>
    if κ.sys.up i then
      if a = 0 ∨ (κ.sys.live i).any (·.1 == a) then (LHeap.free cf (κ.lheap i) a).bind fun b => .ok (κ.after i b ((κ.sys.live i).filter (·.1 != a))) else .ok (κ.after i (κ.lheap i) (κ.sys.live i))
    else .ok κ
  | .write i x v =>
    if κ.sys.up i then
      let b := κ.lheap i
      .ok (κ.after i (if holdsByte (κ.sys.live i) x then ⟨{ b.h with mem := put b.h.mem x v }, b.l⟩ else b) (κ.sys.live i))
    else .ok κ
  | .junk i p f => .ok (if κ.sys.up i ∧ κ.linked cf i p then κ else { κ with links := fun j => if j = i then (κ.links i).scribble p f else κ.links j })
  | .destroy i => (sstep cf κ.sys (.destroy i)).bind fun σ => .ok ⟨σ, κ.links⟩

/-- A history. (No code of its own.) -/
def lrun (cf : Conf) : List LAct → LSys → Out LSys
  | [], κ => .ok κ
  | a :: t, κ => (lstep cf κ a).bind (lrun cf t)

/-- The states that histories reach, from any contents of the memory. (No code of its own.) -/
def LReached (g : Seat) (mremap : Bool) (κ : LSys) : Prop := g.Ok ∧ ∃ mem0 bmem links0 acts, lrun (g.conf mremap) acts ⟨fresh mem0 bmem g.pages, links0⟩ = .ok κ

end Arax.Dl
