import Verif.Dl.Model
/-!
# Chunks in memory: a run of adjacent chunks and the boundary tags that describe it

The proof's view of a segment: a list of chunks that tile it. `Chain` says that the words of memory describe the list. A chunk at `a` of `n` bytes owns the words from `a + 8` (its head) to
`a + n` (the `prev_foot` of its successor), so what happens inside a stretch of chunks does not concern the chunks around it.
-/
namespace Arax.Dl

/-- What a chunk is: in use, free, the top chunk, or the record of a segment. /repo/src/alloc/dlmalloc/malloc.c:2231-2237, 2295-2304. -/
inductive Kind where
  | used | free | top | link
  deriving DecidableEq

/-- A chunk: its size and what it is. /repo/src/alloc/dlmalloc/malloc.c:2231-2237. -/
structure Ck where
  n : Nat
  k : Kind
  deriving DecidableEq

/-- Is the chunk marked in use (`CINUSE_BIT`)? (/repo/src/alloc/dlmalloc/malloc.c:2295, 2304.) -/
def Kind.live : Kind → Bool
  | .used | .link => true
  | .free | .top => false

/-- The head word of a chunk, with the flag for its predecessor. (The word `head`; /repo/src/alloc/dlmalloc/malloc.c:2231-2237, 2293-2298.) -/
def enc (c : Ck) (pin : Bool) : Nat := c.n + (if c.k.live then 2 else 0) + (if pin then 1 else 0)

/-- The words of one chunk at `a`; no free chunk or top follows a free chunk. (What the words of /repo/src/alloc/dlmalloc/malloc.c:2231-2237 hold.) -/
structure CkOK (m : Nat → Nat) (a : Nat) (pin : Bool) (c : Ck) : Prop where
  head : m (a + 8) = enc c pin
  foot : c.k = .free → m (a + c.n) = c.n
  mul : c.n % 16 = 0
  pos : 16 ≤ c.n
  min : c.k ≠ .top → 32 ≤ c.n
  adj : pin = false → c.k.live = true

/-- The predecessor flag after the chunk. (/repo/src/alloc/dlmalloc/malloc.c:2294-2304 (`PINUSE_BIT`).) -/
def Ck.pin (c : Ck) : Bool := decide (c.k ≠ .free)

/-- The chunks of a segment, one after the other. What the words of /repo/src/alloc/dlmalloc/malloc.c:2231-2237 hold. -/
def Chain (m : Nat → Nat) : Nat → Bool → List Ck → Prop
  | _, _, [] => True
  | a, pin, c :: cs => CkOK m a pin c ∧ Chain m (a + c.n) c.pin cs

/-- Total size of a list of chunks. (No code of its own.) -/
def sz : List Ck → Nat
  | [] => 0
  | c :: cs => c.n + sz cs

/-- The predecessor flag after a list of chunks. (No code of its own.) -/
def lastPin (pin : Bool) : List Ck → Bool
  | [] => pin
  | c :: cs => lastPin c.pin cs

/-- The chunks with their addresses. (No code of its own.) -/
def addrs : Nat → List Ck → List (Nat × Ck)
  | _, [] => []
  | a, c :: cs => (a, c) :: addrs (a + c.n) cs

@[simp] theorem sz_nil : sz [] = 0 := rfl
@[simp] theorem sz_cons (c : Ck) (cs) : sz (c :: cs) = c.n + sz cs := rfl
@[simp] theorem sz_append (xs ys : List Ck) : sz (xs ++ ys) = sz xs + sz ys := by
  induction xs with
  | nil => simp
  | cons c cs ih => simp [ih]; omega

@[simp] theorem lastPin_nil (p : Bool) : lastPin p [] = p := rfl
@[simp] theorem lastPin_cons (p : Bool) (c : Ck) (cs) : lastPin p (c :: cs) = lastPin c.pin cs := rfl
@[simp] theorem lastPin_append (p : Bool) (xs ys : List Ck) : lastPin p (xs ++ ys) = lastPin (lastPin p xs) ys := by
  induction xs generalizing p with
  | nil => rfl
  | cons c cs ih => simp [ih]

@[simp] theorem addrs_nil (a : Nat) : addrs a [] = [] := rfl
@[simp] theorem addrs_cons (a : Nat) (c : Ck) (cs) : addrs a (c :: cs) = (a, c) :: addrs (a + c.n) cs := rfl
@[simp] theorem addrs_append (a : Nat) (xs ys : List Ck) : addrs a (xs ++ ys) = addrs a xs ++ addrs (a + sz xs) ys := by
  induction xs generalizing a with
  | nil => simp
  | cons c cs ih => simp [ih, Nat.add_assoc]

@[simp] theorem chain_nil (m : Nat → Nat) (a : Nat) (p : Bool) : Chain m a p [] = True := rfl
@[simp] theorem chain_cons (m : Nat → Nat) (a : Nat) (p : Bool) (c : Ck) (cs) : Chain m a p (c :: cs) = (CkOK m a p c ∧ Chain m (a + c.n) c.pin cs) := rfl

theorem chain_append (m : Nat → Nat) (a : Nat) (p : Bool) (xs ys : List Ck) : Chain m a p (xs ++ ys) ↔ Chain m a p xs ∧ Chain m (a + sz xs) (lastPin p xs) ys := by
  induction xs generalizing a p with
  | nil => simp
  | cons c cs ih => simp [ih, Nat.add_assoc, and_assoc]

/-- A run of chunks depends on its own words only. -/
theorem chain_frame {m m' : Nat → Nat} : ∀ {a : Nat} {p : Bool} {cs : List Ck}, Chain m a p cs → (∀ x, a + 8 ≤ x → x < a + sz cs + 8 → m' x = m x) → Chain m' a p cs
  | _, _, [], _, _ => trivial
  | a, p, c :: cs, h, hf => by
    obtain ⟨h1, h2⟩ := h
    have hp := h1.pos
    refine ⟨⟨?_, ?_, h1.mul, h1.pos, h1.min, h1.adj⟩, chain_frame h2 fun x hx hx' => hf x (by omega) (by simp; omega)⟩
    · rw [hf _ (by omega) (by simp; omega)]; exact h1.head
    · intro hk; rw [hf _ (by omega) (by simp; omega)]; exact h1.foot hk

/-- Where the chunks of a run are. -/
theorem addrs_bounds {a : Nat} {cs : List Ck} {x : Nat × Ck} (h : x ∈ addrs a cs) : a ≤ x.1 ∧ x.1 + x.2.n ≤ a + sz cs := by
  induction cs generalizing a with
  | nil => cases h
  | cons c cs ih =>
    simp only [addrs_cons, List.mem_cons] at h
    rcases h with rfl | h
    · simp
    · have := ih h; simp; omega

/-- Two chunks of one run do not overlap. -/
theorem addrs_disj (a : Nat) (cs : List Ck) : (addrs a cs).Pairwise (fun x y => x.1 + x.2.n ≤ y.1) := by
  induction cs generalizing a with
  | nil => exact List.Pairwise.nil
  | cons c cs ih => exact List.Pairwise.cons (fun y hy => (addrs_bounds hy).1) (ih _)

/-- Finding a chunk of a run. -/
theorem addrs_split {a : Nat} {cs : List Ck} {x : Nat × Ck} (h : x ∈ addrs a cs) : ∃ xs ys, cs = xs ++ x.2 :: ys ∧ x.1 = a + sz xs := by
  induction cs generalizing a with
  | nil => cases h
  | cons c cs ih =>
    simp only [addrs_cons, List.mem_cons] at h
    rcases h with rfl | h
    · exact ⟨[], cs, rfl, rfl⟩
    · obtain ⟨xs, ys, rfl, h2⟩ := ih h
      exact ⟨c :: xs, ys, rfl, by simp; omega⟩

theorem chain_mem {m : Nat → Nat} {a : Nat} {p : Bool} {cs : List Ck} (h : Chain m a p cs) {x : Nat × Ck} (hx : x ∈ addrs a cs) : ∃ q, CkOK m x.1 q x.2 := by
  obtain ⟨xs, ys, rfl, e⟩ := addrs_split hx
  rw [chain_append] at h
  rw [e]; exact ⟨_, h.2.1⟩

/-- The chunk before a chunk whose predecessor flag is clear. -/
theorem chain_prev {m : Nat → Nat} {a : Nat} {xs : List Ck} (h : Chain m a true xs) (hp : lastPin true xs = false) :
    ∃ ys n, xs = ys ++ [⟨n, .free⟩] ∧ m (a + sz xs) = n ∧ lastPin true ys = true := by
  rcases List.eq_nil_or_concat xs with rfl | ⟨ys, c, rfl⟩
  · simp at hp
  · rw [List.concat_eq_append] at h hp ⊢
    rw [chain_append] at h
    obtain ⟨n, k⟩ := c
    rw [lastPin_append] at hp
    have hk : k = .free := by simpa [Ck.pin] using hp
    subst hk
    have h2 := h.2.1
    refine ⟨ys, n, rfl, ?_, ?_⟩
    · have := h2.foot rfl; simp only [sz_append, sz_cons, sz_nil] at this ⊢; simpa [Nat.add_assoc] using this
    · cases hl : lastPin true ys with
      | true => rfl
      | false => have := h2.adj hl; simp [Kind.live] at this

/-! ## Reading a head -/

theorem csize_enc (c : Ck) (p : Bool) (h : c.n % 16 = 0) : csize (enc c p) = c.n := by unfold csize enc; split <;> split <;> omega
theorem cinuse_enc (c : Ck) (p : Bool) (h : c.n % 16 = 0) : cinuse (enc c p) = c.k.live := by
  unfold cinuse enc
  cases c.k.live <;> cases p <;> simp <;> omega
theorem pinuse_enc (c : Ck) (p : Bool) (h : c.n % 16 = 0) : pinuse (enc c p) = p := by
  unfold pinuse enc
  cases c.k.live <;> cases p <;> simp <;> omega
theorem isInuse_enc (c : Ck) (p : Bool) (h : c.n % 16 = 0) : isInuse (enc c p) = !(!c.k.live && p) := by
  unfold isInuse enc
  cases c.k.live <;> cases p <;> simp <;> omega
theorem isMmapped_enc (c : Ck) (p : Bool) (h : c.n % 16 = 0) : isMmapped (enc c p) = (!c.k.live && !p) := by
  unfold isMmapped enc
  cases c.k.live <;> cases p <;> simp <;> omega
theorem setP_enc (c : Ck) (p : Bool) (h : c.n % 16 = 0) : setP (enc c p) = enc c true := by unfold setP enc; cases c.k.live <;> cases p <;> simp <;> omega
theorem clrP_enc (c : Ck) (p : Bool) (h : c.n % 16 = 0) : clrP (enc c p) = enc c false := by unfold clrP enc; cases c.k.live <;> cases p <;> simp <;> omega
theorem mod4_enc (c : Ck) (p : Bool) (h : c.n % 16 = 0) : enc c p % 4 = 3 ↔ c.k.live = true ∧ p = true := by
  unfold enc
  cases c.k.live <;> cases p <;> simp <;> omega

theorem alignOff_zero {a : Nat} (h : a % 16 = 0) : alignOff a = 0 := if_pos h

theorem put_same (m : Nat → Nat) (a v : Nat) : put m a v a = v := if_pos rfl
theorem put_other (m : Nat → Nat) {a x : Nat} (v : Nat) (h : x ≠ a) : put m a v x = m x := if_neg h

end Arax.Dl
