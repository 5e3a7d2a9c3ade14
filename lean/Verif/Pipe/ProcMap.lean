import Verif.Layout.Props
/-!
# The process map of the pipe (C42)

The array `uint64_t proc_map[N]` is modelled as bytes (`Layout.Mem`, the array starts at address 0), because
`arax_pipe_mark_unmap` passes a number of *elements* to `memmove`, which counts bytes.
Both functions run under `proc_lock`, so each call is one atomic function.
-/
namespace Arax.ProcMap
open Arax.Layout (Mem readLE writeLE readLE_congr readLE_bytes read_write read_write_ne)

/-- `proc_map[c]`. /repo/include/arax_pipe.h:31. -/
def cell (m : Mem) (c : Nat) : Nat := readLE m (8 * c) 8

/-- `proc_map[c] = v`. /repo/src/core/arax_pipe.c:140, 161. -/
def setCell (m : Mem) (c v : Nat) : Mem := writeLE m (8 * c) 8 v

/-- `memmove(dst, src, len)` on bytes (source read before the destination is written). Called at /repo/src/core/arax_pipe.c:160. -/
def memmove (m : Mem) (dst src len : Nat) : Mem :=
  fun x => if dst ≤ x ∧ x < dst + len then m (src + (x - dst)) else m x

/-- /repo/src/core/arax_pipe.c:133-143: the loop from cell `c` on, `left` cells to go. -/
def haveLoop (m : Mem) (pid : Nat) : (left c : Nat) → Mem × Nat
  | 0, _ => (m, 1)
  | k + 1, c =>
    if cell m c = pid then (m, 0)
    else if cell m c = 0 then (setCell m c pid, 1)
    else haveLoop m pid k (c + 1)

/-- /repo/src/core/arax_pipe.c:126-146 `arax_pipe_have_to_mmap`. -/
def haveToMmap (N : Nat) (m : Mem) (pid : Nat) : Res (Mem × Nat) :=
  if pid = 0 then .abort else .ok (haveLoop m pid N 0)

/-- /repo/src/core/arax_pipe.c:154-157: index of the first cell holding `pid`, `c + left` if none. -/
def findCell (m : Mem) (pid : Nat) : (left c : Nat) → Nat
  | 0, c => c
  | k + 1, c => if cell m c = pid then c else findCell m pid k (c + 1)

/-- /repo/src/core/arax_pipe.c:148-163 `arax_pipe_mark_unmap`. The third argument of `memmove` is
`ARAX_PROC_MAP_SIZE - (c + 1)` *bytes*. -/
def markUnmap (N : Nat) (m : Mem) (pid : Nat) : Res Mem :=
  if pid = 0 then .abort
  else
    let c := findCell m pid N 0
    if c < N then .ok (setCell (memmove m (8 * c) (8 * (c + 1)) (N - (c + 1))) (N - 1) 0)
    else .abort

/-! ## Specification -/

/-- One call by process `pid`. -/
inductive Op where
  | have (pid : Nat)
  | unmap (pid : Nat)
  deriving DecidableEq

/-- The processes that are mapped after a call, given those mapped before (newest last). -/
def specStep (l : List Nat) : Op → List Nat
  | .have pid => if pid ∈ l then l else l ++ [pid]
  | .unmap pid => l.erase pid

/-- The answer the property demands: 1 iff the process is not mapped. -/
def specAnswer (l : List Nat) (pid : Nat) : Nat := if pid ∈ l then 0 else 1

/-- A legal call: a positive 32-bit pid, only mapped processes unmap, and at most `B` processes
are mapped afterwards. -/
def Legal (B : Nat) (l : List Nat) : Op → Prop
  | .have pid => 0 < pid ∧ pid < 2 ^ 32 ∧ (pid ∈ l ∨ l.length < B)
  | .unmap pid => pid ∈ l

/-- `Reach N B m l`: memory `m` results from a legal history on a zeroed map and `l` are the mapped processes. -/
inductive Reach (N B : Nat) : Mem → List Nat → Prop where
  | init {m : Mem} : (∀ x, x < 8 * N → m x = 0) → Reach N B m []
  | have {m m' l pid r} : Reach N B m l → Legal B l (.have pid) → haveToMmap N m pid = .ok (m', r) →
      Reach N B m' (specStep l (.have pid))
  | unmap {m m' l pid} : Reach N B m l → Legal B l (.unmap pid) → markUnmap N m pid = .ok m' →
      Reach N B m' (specStep l (.unmap pid))

/-! ## Proofs -/

/-- The array holds exactly `l`, then zeros. -/
def Rep (N : Nat) (m : Mem) (l : List Nat) : Prop := ∀ i, i < N → cell m i = l.getD i 0

theorem cell_setCell (m : Mem) (c v : Nat) (hv : v < 2 ^ 64) : cell (setCell m c v) c = v := by
  unfold cell setCell
  rw [read_write]
  exact Nat.mod_eq_of_lt (by omega)

theorem cell_setCell_ne (m : Mem) (c v i : Nat) (h : i ≠ c) : cell (setCell m c v) i = cell m i := by
  unfold cell setCell
  rw [read_write_ne _ _ _ _ _ _ (by omega)]

theorem cell_move_in (m : Mem) (c len i : Nat) (h1 : c ≤ i) (h2 : 8 * (i + 1) ≤ 8 * c + len) :
    cell (memmove m (8 * c) (8 * (c + 1)) len) i = cell m (i + 1) := by
  unfold cell
  have : ∀ n a, 8 * c ≤ a → a + n ≤ 8 * c + len → readLE (memmove m (8 * c) (8 * (c + 1)) len) a n = readLE m (a + 8) n := by
    intro n
    induction n with
    | zero => intro a _ _; rfl
    | succ n ih =>
      intro a ha1 ha2
      simp only [readLE]
      rw [ih (a + 1) (by omega) (by omega), show a + 1 + 8 = a + 8 + 1 by omega]
      congr 2
      simp only [memmove]
      rw [if_pos ⟨ha1, by omega⟩]
      congr 1
      omega
  rw [this 8 (8 * i) (by omega) (by omega)]
  rfl

theorem cell_move_out (m : Mem) (c len i : Nat) (h : i < c ∨ 8 * c + len ≤ 8 * i) :
    cell (memmove m (8 * c) (8 * (c + 1)) len) i = cell m i := by
  unfold cell
  apply readLE_congr
  intro x h1 h2
  simp only [memmove]
  rw [if_neg (by omega)]

theorem readLE_zero (m : Mem) (n : Nat) : ∀ a, (∀ x, a ≤ x → x < a + n → m x = 0) → readLE m a n = 0 := by
  induction n with
  | zero => intro a _; rfl
  | succ n ih =>
    intro a h
    simp only [readLE]
    rw [h a (by omega) (by omega), ih (a + 1) (fun x h1 h2 => h x (by omega) (by omega))]
    rfl

theorem readLE_eq_zero (m : Mem) (n : Nat) : ∀ a, readLE m a n = 0 → ∀ x, a ≤ x → x < a + n → m x = 0 := by
  induction n with
  | zero => intro a _ x h1 h2; omega
  | succ n ih =>
    intro a h x h1 h2
    simp only [readLE] at h
    by_cases hx : x = a
    · subst hx
      apply BitVec.eq_of_toNat_eq
      show (m x).toNat = 0
      omega
    · exact ih (a + 1) (by omega) x (by omega) (by omega)

/-- If a cell and its right neighbour are both zero, the cell is zero after any shift. -/
theorem cell_move_zero (m : Mem) (c len i : Nat) (h0 : cell m i = 0) (h1 : cell m (i + 1) = 0) :
    cell (memmove m (8 * c) (8 * (c + 1)) len) i = 0 := by
  unfold cell at *
  apply readLE_zero
  intro x hx1 hx2
  simp only [memmove]
  split
  · rename_i h
    exact readLE_eq_zero m 8 _ h1 _ (by omega) (by omega)
  · exact readLE_eq_zero m 8 _ h0 _ hx1 hx2

/-- The high bytes of a small cell are zero. -/
theorem high_bytes_zero (m : Mem) (n : Nat) : ∀ a k, readLE m a n < 256 ^ k → ∀ x, a + k ≤ x → x < a + n → m x = 0 := by
  induction n with
  | zero => intro a k _ x h1 h2; omega
  | succ n ih =>
    intro a k h x h1 h2
    cases k with
    | zero =>
      exact readLE_eq_zero m (n + 1) a (by simpa using h) x (by omega) h2
    | succ k =>
      simp only [readLE] at h
      apply ih (a + 1) k _ x (by omega) (by omega)
      rw [Nat.pow_succ] at h
      omega

/-- If the cell at the ragged end of the shift and its right neighbour have less than 57 bits and 7 bytes are
copied, the cell becomes its right neighbour. -/
theorem cell_move_ragged (m : Mem) (c len i k : Nat) (h1 : c ≤ i) (hk : 8 * c + len = 8 * i + k) (hk8 : k ≤ 8)
    (ha : cell m i < 256 ^ k) (hb : cell m (i + 1) < 256 ^ k) :
    cell (memmove m (8 * c) (8 * (c + 1)) len) i = cell m (i + 1) := by
  have hi := high_bytes_zero m 8 (8 * i) k ha
  have hi1 := high_bytes_zero m 8 (8 * (i + 1)) k hb
  have : ∀ n a, 8 * i ≤ a → a + n = 8 * i + 8 →
      readLE (memmove m (8 * c) (8 * (c + 1)) len) a n = readLE m (a + 8) n := by
    intro n
    induction n with
    | zero => intro a _ _; rfl
    | succ n ih =>
      intro a ha1 ha2
      simp only [readLE]
      rw [ih (a + 1) (by omega) (by omega), show a + 1 + 8 = a + 8 + 1 by omega]
      congr 2
      simp only [memmove]
      split
      · congr 1; omega
      · rename_i hx
        rw [hi a (by omega) (by omega), hi1 (a + 8) (by omega) (by omega)]
  unfold cell
  rw [this 8 (8 * i) (by omega) (by omega)]
  rfl

theorem getD_append_one (l : List Nat) (x i : Nat) : (l ++ [x]).getD i 0 = if i = l.length then x else l.getD i 0 := by
  simp only [List.getD_eq_getElem?_getD]
  rw [List.getElem?_append]
  by_cases h : i < l.length
  · rw [if_pos h, if_neg (by omega)]
  · rw [if_neg h]
    by_cases h2 : i = l.length
    · subst h2; simp
    · rw [if_neg h2, List.getElem?_eq_none (by simp; omega), List.getElem?_eq_none (by omega)]

theorem getD_mem {l : List Nat} {i : Nat} (h : i < l.length) : l.getD i 0 ∈ l := by
  rw [List.getD_eq_getElem?_getD, List.getElem?_eq_getElem h]; simp

theorem getD_zero {l : List Nat} {i : Nat} (h : l.length ≤ i) : l.getD i 0 = 0 := by
  rw [List.getD_eq_getElem?_getD, List.getElem?_eq_none h]; rfl

/-- The loop of `have_to_mmap` on a represented list. -/
theorem haveLoop_spec {N : Nat} {m : Mem} {l : List Nat} (hrep : Rep N m l) (hpos : ∀ p ∈ l, p ≠ 0)
    (hlen : l.length ≤ N) {pid : Nat} (hp : 0 < pid) : ∀ k c, c + k = N → (∀ i, i < c → l.getD i 0 ≠ pid) → c ≤ l.length →
    haveLoop m pid k c = if pid ∈ l then (m, 0) else if l.length < N then (setCell m l.length pid, 1) else (m, 1) := by
  intro k
  induction k with
  | zero =>
    intro c hc hno hcl
    have hl : l.length = c := by omega
    have : pid ∉ l := by
      intro hm
      obtain ⟨i, hi, he⟩ := List.mem_iff_getElem.mp hm
      apply hno i (by omega)
      rw [List.getD_eq_getElem?_getD, List.getElem?_eq_getElem hi]; exact he
    simp only [haveLoop]
    rw [if_neg this, if_neg (by omega)]
  | succ k ih =>
    intro c hc hno hcl
    simp only [haveLoop]
    rw [hrep c (by omega)]
    by_cases hce : c = l.length
    · rw [getD_zero (by omega), if_neg (by omega), if_pos rfl]
      have : pid ∉ l := by
        intro hm
        obtain ⟨i, hi, he⟩ := List.mem_iff_getElem.mp hm
        apply hno i (by omega)
        rw [List.getD_eq_getElem?_getD, List.getElem?_eq_getElem hi]; exact he
      rw [if_neg this, if_pos (by omega), hce]
    · have hm := getD_mem (l := l) (i := c) (by omega)
      by_cases he : l.getD c 0 = pid
      · rw [if_pos he, if_pos (he ▸ hm)]
      · rw [if_neg he, if_neg (hpos _ hm)]
        apply ih (c + 1) (by omega) _ (by omega)
        intro i hi
        by_cases hic : i = c
        · subst hic; exact he
        · exact hno i (by omega)

/-- `findCell` finds the first index of `pid`. -/
theorem findCell_spec {N : Nat} {m : Mem} {l : List Nat} (hrep : Rep N m l)
    {pid : Nat} (hm : pid ∈ l) (hlen : l.length ≤ N) : ∀ k c, c + k = N → (∀ i, i < c → l.getD i 0 ≠ pid) →
    findCell m pid k c = l.idxOf pid := by
  have hlt := List.idxOf_lt_length_of_mem hm
  have hat : l.getD (l.idxOf pid) 0 = pid := by
    rw [List.getD_eq_getElem?_getD, List.getElem?_eq_getElem hlt]; simp [List.getElem_idxOf]
  intro k
  induction k with
  | zero =>
    intro c hc hno
    exact absurd hat (hno _ (by omega))
  | succ k ih =>
    intro c hc hno
    simp only [findCell]
    rw [hrep c (by omega)]
    by_cases he : l.getD c 0 = pid
    · rw [if_pos he]
      by_cases hlt2 : l.idxOf pid < c
      · exact absurd hat (hno _ hlt2)
      · -- the first index cannot be larger than an index that holds pid
        by_cases hgt : c < l.idxOf pid
        · exfalso
          have h2 : l[c]'(by omega) = pid := by
            have := he
            rw [List.getD_eq_getElem?_getD, List.getElem?_eq_getElem (by omega)] at this; exact this
          have := List.not_of_lt_findIdx (p := fun x => x == pid) (xs := l) (i := c) hgt
          simp [h2] at this
        · omega
    · rw [if_neg he]
      apply ih (c + 1) (by omega)
      intro i hi
      by_cases hic : i = c
      · subst hic; exact he
      · exact hno i (by omega)

theorem getD_erase (l : List Nat) (pid i : Nat) (hm : pid ∈ l) :
    (l.erase pid).getD i 0 = if i < l.idxOf pid then l.getD i 0 else l.getD (i + 1) 0 := by
  rw [List.erase_eq_eraseIdx_of_idxOf rfl]
  simp only [List.getD_eq_getElem?_getD, List.getElem?_eraseIdx]
  split <;> rfl

theorem eraseLen (l : List Nat) (pid : Nat) (hm : pid ∈ l) : (l.erase pid).length = l.length - 1 :=
  List.length_erase_of_mem hm

/-- Unmapping is correct as long as the cells that need to move are covered by the `N - (c+1)` bytes. -/
theorem markUnmap_spec {N : Nat} {m : Mem} {l : List Nat} (hrep : Rep N m l) (hlen : l.length ≤ N) (hpos : ∀ p ∈ l, p ≠ 0)
    (hsm : ∀ p ∈ l, p < 2 ^ 32)
    {pid : Nat} (hm : pid ∈ l) (hcov : l.length ≤ l.idxOf pid + (N - 1 - l.idxOf pid + 4) / 8 ∨ l.length = l.idxOf pid + 1 ∧ l.length = N) :
    ∃ m', markUnmap N m pid = .ok m' ∧ Rep N m' (l.erase pid) := by
  have hf := findCell_spec hrep hm hlen N 0 (by omega) (by intro i hi; omega)
  have hlt := List.idxOf_lt_length_of_mem hm
  unfold markUnmap
  rw [if_neg (hpos _ hm)]
  dsimp only
  rw [hf, if_pos (by omega)]
  refine ⟨_, rfl, ?_⟩
  intro i hi
  rw [getD_erase l pid i hm]
  generalize hc : l.idxOf pid = c at *
  by_cases hlast : i = N - 1
  · subst hlast
    rw [cell_setCell _ _ _ (by decide)]
    rcases hcov with hcov | ⟨h1, h2⟩
    · rw [if_neg (by omega), getD_zero (by omega)]
    · rw [if_neg (by omega), getD_zero (by omega)]
  · rw [cell_setCell_ne _ _ _ _ hlast]
    by_cases hic : i < c
    · rw [if_pos hic, cell_move_out _ _ _ _ (Or.inl hic)]
      exact hrep i hi
    · rw [if_neg hic]
      rcases hcov with hcov | ⟨h1, h2⟩
      · by_cases hin : 8 * (i + 1) ≤ 8 * c + (N - (c + 1))
        · rw [cell_move_in _ _ _ _ (by omega) hin]
          exact hrep (i + 1) (by omega)
        · by_cases hz : i < l.length
          · rw [cell_move_ragged m c (N - (c + 1)) i (8 * c + (N - (c + 1)) - 8 * i) (by omega) (by omega) (by omega)]
            · exact hrep (i + 1) (by omega)
            · rw [hrep i hi]
              have h1 := hsm _ (getD_mem (l := l) (i := i) (by omega))
              have h2 : (256 : Nat) ^ 4 ≤ 256 ^ (8 * c + (N - (c + 1)) - 8 * i) := Nat.pow_le_pow_right (by decide) (by omega)
              have h3 : (256 : Nat) ^ 4 = 2 ^ 32 := by decide
              omega
            · rw [hrep (i + 1) (by omega), getD_zero (by omega)]
              exact Nat.pow_pos (by decide)
          · rw [getD_zero (l := l) (i := i + 1) (by omega)]
            apply cell_move_zero
            · rw [hrep i hi, getD_zero (by omega)]
            · rw [hrep (i + 1) (by omega), getD_zero (by omega)]
      · omega

structure Inv (N B : Nat) (m : Mem) (l : List Nat) : Prop where
  rep : Rep N m l
  pos : ∀ p ∈ l, 0 < p ∧ p < 2 ^ 32
  nodup : l.Nodup
  len : l.length ≤ B

theorem have_spec {N B : Nat} {m : Mem} {l : List Nat} (hB : B ≤ N) (inv : Inv N B m l) {pid : Nat} (hp : 0 < pid) (hp2 : pid < 2 ^ 32)
    (hroom : pid ∈ l ∨ l.length < B) :
    ∃ m', haveToMmap N m pid = .ok (m', specAnswer l pid) ∧ Inv N B m' (specStep l (.have pid)) := by
  have hpos : ∀ p ∈ l, p ≠ 0 := fun p h => by have := (inv.pos p h).1; omega
  have hlen := inv.len
  have hl := haveLoop_spec inv.rep hpos (by omega) hp N 0 (by omega) (by intro i hi; omega) (by omega)
  unfold haveToMmap specAnswer specStep
  rw [if_neg (by omega), hl]
  by_cases hm : pid ∈ l
  · simp only [if_pos hm]
    exact ⟨m, rfl, inv⟩
  · simp only [if_neg hm]
    have hr : l.length < B := by
      rcases hroom with h | h
      · exact absurd h hm
      · exact h
    rw [if_pos (by omega)]
    refine ⟨_, rfl, ⟨?_, ?_, ?_, by simp; omega⟩⟩
    · intro i hi
      rw [getD_append_one]
      by_cases h : i = l.length
      · subst h; rw [if_pos rfl, cell_setCell _ _ _ (by omega)]
      · rw [if_neg h, cell_setCell_ne _ _ _ _ h]; exact inv.rep i hi
    · intro p hpm
      rcases List.mem_append.mp hpm with h | h
      · exact inv.pos p h
      · rw [List.mem_singleton] at h; subst h; exact ⟨hp, hp2⟩
    · rw [List.nodup_append]
      refine ⟨inv.nodup, by simp, ?_⟩
      intro a ha b hb
      rw [List.mem_singleton] at hb; subst hb
      rintro rfl; exact hm ha

theorem unmap_spec {N B : Nat} {m : Mem} {l : List Nat} (hN : 0 < N) (hB : 8 * B ≤ N + 3) (inv : Inv N B m l) {pid : Nat} (hm : pid ∈ l) :
    ∃ m', markUnmap N m pid = .ok m' ∧ Inv N B m' (specStep l (.unmap pid)) := by
  have hpos : ∀ p ∈ l, p ≠ 0 := fun p h => by have := (inv.pos p h).1; omega
  have hlen := inv.len
  have hlt := List.idxOf_lt_length_of_mem hm
  obtain ⟨m', hok, hrep⟩ := markUnmap_spec inv.rep (by omega) hpos (fun p h => (inv.pos p h).2) hm (by omega)
  refine ⟨m', hok, ⟨hrep, ?_, ?_, ?_⟩⟩
  · intro p hp; exact inv.pos p (List.mem_of_mem_erase hp)
  · exact inv.nodup.erase _
  · show (l.erase pid).length ≤ B
    rw [eraseLen l pid hm]; omega

theorem rep_init {N : Nat} {m : Mem} (h : ∀ x, x < 8 * N → m x = 0) : Rep N m [] := by
  intro i hi
  rw [getD_zero (by simp)]
  exact readLE_zero m 8 _ (fun x h1 h2 => h x (by omega))

theorem inv_of_reach {N B : Nat} (hN : 0 < N) (hB : 8 * B ≤ N + 3) {m : Mem} {l : List Nat} (h : Reach N B m l) : Inv N B m l := by
  induction h with
  | init h => exact ⟨rep_init h, by simp, List.nodup_nil, by simp⟩
  | @«have» m m' l pid r _ hl he ih =>
    obtain ⟨m2, hok, inv2⟩ := have_spec (by omega) ih hl.1 hl.2.1 hl.2.2
    rw [he] at hok
    have e := (Prod.mk.inj (Res.ok.inj hok)).1
    subst e; exact inv2
  | @unmap m m' l pid _ hl he ih =>
    obtain ⟨m2, hok, inv2⟩ := unmap_spec hN hB ih hl
    rw [he] at hok
    have e := Res.ok.inj hok
    subst e; exact inv2

/-- **C42** (partial) In every history in which at most `B` processes are mapped at a time, with
`8·B ≤ N + 3` (for the configured `N = 1024`: at most 128 processes), `arax_pipe_have_to_mmap(pid)` answers
1 exactly when `pid` is not currently mapped, and `arax_pipe_mark_unmap` of a mapped process succeeds;
by `Reach`, "currently mapped" is the set obtained by adding/removing only the calling process.
Missing: more processes at a time, where it is false (`C42_violated_stale`, `C42_violated_lost`). -/
theorem C42_partial {N B : Nat} (hN : 0 < N) (hB : 8 * B ≤ N + 3) {m : Mem} {l : List Nat} (h : Reach N B m l) (pid : Nat) :
    (Legal B l (.have pid) → ∃ m', haveToMmap N m pid = .ok (m', specAnswer l pid)) ∧
    (Legal B l (.unmap pid) → ∃ m', markUnmap N m pid = .ok m') := by
  have inv := inv_of_reach hN hB h
  constructor
  · intro hl
    obtain ⟨m', h1, -⟩ := have_spec (by omega) inv hl.1 hl.2.1 hl.2.2
    exact ⟨m', h1⟩
  · intro hl
    obtain ⟨m', h1, -⟩ := unmap_spec hN hB inv hl
    exact ⟨m', h1⟩

/-- Unmapping a process that is not mapped, or pid 0, aborts. -/
theorem C42_unmap_unknown {N B : Nat} (hN : 0 < N) (hB : 8 * B ≤ N + 3) {m : Mem} {l : List Nat} (h : Reach N B m l) {pid : Nat}
    (hm : pid ∉ l) : markUnmap N m pid = .abort := by
  have inv := inv_of_reach hN hB h
  unfold markUnmap
  by_cases h0 : pid = 0
  · rw [if_pos h0]
  · rw [if_neg h0]
    dsimp only
    have : ∀ k c, c + k = N → findCell m pid k c = N := by
      intro k
      induction k with
      | zero => intro c hc; simp only [findCell]; omega
      | succ k ih =>
        intro c hc
        simp only [findCell]
        rw [if_neg, ih (c + 1) (by omega)]
        rw [inv.rep c (by omega)]
        by_cases hcl : c < l.length
        · intro he; exact hm (he ▸ getD_mem hcl)
        · rw [getD_zero (by omega)]; omega
    rw [this N 0 (by omega), if_neg (by omega)]

/-! ## Violations with many processes -/

theorem haveLoop_at {m : Mem} {pid c : Nat} (hne : ∀ i, i < c → cell m i ≠ pid ∧ cell m i ≠ 0) :
    ∀ k d, d ≤ c → c < d + k →
      haveLoop m pid k d = if cell m c = pid then (m, 0) else if cell m c = 0 then (setCell m c pid, 1) else
        haveLoop m pid (d + k - 1 - c) (c + 1) := by
  intro k
  induction k with
  | zero => intro d h1 h2; omega
  | succ k ih =>
    intro d h1 h2
    by_cases hd : d = c
    · subst hd
      simp only [haveLoop]
      rw [show d + (k + 1) - 1 - d = k by omega]
    · simp only [haveLoop]
      rw [if_neg (hne d (by omega)).1, if_neg (hne d (by omega)).2, ih (d + 1) (by omega) (by omega),
        show d + 1 + k - 1 - c = d + (k + 1) - 1 - c by omega]

theorem findCell_at {m : Mem} {pid c : Nat} (hne : ∀ i, i < c → cell m i ≠ pid) (hc : cell m c = pid) :
    ∀ k d, d ≤ c → c < d + k → findCell m pid k d = c := by
  intro k
  induction k with
  | zero => intro d h1 h2; omega
  | succ k ih =>
    intro d h1 h2
    by_cases hd : d = c
    · subst hd; simp only [findCell]; rw [if_pos hc]
    · simp only [findCell]
      rw [if_neg (hne d (by omega)), ih (d + 1) (by omega) (by omega)]

/-- Any list of distinct pids can be registered. -/
theorem register_all (N : Nat) (l : List Nat) : ∀ pre, (pre ++ l).Nodup → (pre ++ l).length ≤ N → (∀ p ∈ pre ++ l, 0 < p ∧ p < 2 ^ 32) →
    ∀ m, Reach N N m pre → Inv N N m pre → ∃ m', Reach N N m' (pre ++ l) ∧ Rep N m' (pre ++ l) := by
  induction l with
  | nil => intro pre _ _ _ m hr inv; rw [List.append_nil]; exact ⟨m, hr, inv.rep⟩
  | cons a l ih =>
    intro pre hnd hlen hpos m hr inv
    have hna : a ∉ pre := by
      intro h
      have := (List.nodup_append.mp hnd).2.2 a h a (by simp)
      exact this rfl
    have hpa := hpos a (by simp)
    simp only [List.length_append, List.length_cons] at hlen
    have hroom : a ∈ pre ∨ pre.length < N := Or.inr (by omega)
    obtain ⟨m', hok, inv'⟩ := have_spec (Nat.le_refl N) inv hpa.1 hpa.2 hroom
    have hs : specStep pre (.have a) = pre ++ [a] := by simp [specStep, hna]
    have hr' := Reach.have hr ⟨hpa.1, hpa.2, hroom⟩ hok
    rw [hs] at hr' inv'
    have happ : pre ++ a :: l = (pre ++ [a]) ++ l := by simp
    rw [happ]
    exact ih (pre ++ [a]) (by rw [← happ]; exact hnd) (by rw [← happ]; simp; omega) (by rw [← happ]; exact hpos) m' hr' inv'

/-- The pids 1, …, k. (No code of its own.) -/
def pids (k : Nat) : List Nat := List.range' 1 k

theorem pids_get (k i : Nat) : (pids k).getD i 0 = if i < k then i + 1 else 0 := by
  rw [List.getD_eq_getElem?_getD]
  by_cases h : i < k
  · rw [if_pos h, List.getElem?_eq_getElem (by simp [pids, h])]
    simp [pids, Nat.add_comm]
  · rw [if_neg h, List.getElem?_eq_none (by simp [pids]; omega)]; rfl

theorem register_pids (N k : Nat) (hk : k ≤ N) (hN : N < 2 ^ 31) : ∃ m, Reach N N m (pids k) ∧ ∀ i, i < N → cell m i = if i < k then i + 1 else 0 := by
  obtain ⟨m, hr, hrep⟩ := register_all N (pids k) [] (by simp [pids, List.nodup_range']) (by simp [pids]; omega)
    (by intro p hp; simp only [pids, List.nil_append, List.mem_range'_1] at hp; omega) (fun _ => 0) (.init (by simp)) ⟨rep_init (by simp), by simp, List.nodup_nil, by simp⟩
  refine ⟨m, hr, ?_⟩
  intro i hi
  rw [hrep i hi]
  exact pids_get k i

theorem pids_mem (k p : Nat) : p ∈ pids k ↔ 1 ≤ p ∧ p < k + 1 := by
  simp only [pids, List.mem_range'_1]; omega

theorem pids_nodup (k : Nat) : (pids k).Nodup := by simp [pids, List.nodup_range']

/-- After unmapping the first of at least 129 processes, the map of 1024 cells. -/
theorem unmap_first (k : Nat) (hk : 129 ≤ k) (hk2 : k ≤ 1024) : ∃ m, Reach 1024 1024 m ((pids k).erase 1) ∧
    (∀ i, i < 128 → cell m i = i + 2) ∧ (∀ i, 128 ≤ i → i < 1023 → cell m i = if i < k then i + 1 else 0) ∧
    cell m 1023 = 0 := by
  obtain ⟨m, hr, hc⟩ := register_pids 1024 k hk2 (by decide)
  have hf : findCell m 1 1024 0 = 0 :=
    findCell_at (c := 0) (by intro i hi; omega) (by rw [hc 0 (by omega), if_pos (by omega)]) 1024 0 (by omega) (by omega)
  have hok : markUnmap 1024 m 1 = .ok (setCell (memmove m (8 * 0) (8 * (0 + 1)) (1024 - (0 + 1))) (1024 - 1) 0) := by
    unfold markUnmap
    rw [if_neg (by decide)]
    dsimp only
    rw [hf, if_pos (by decide)]
  refine ⟨_, Reach.unmap hr (by show 1 ∈ pids k; rw [pids_mem]; omega) hok, ?_, ?_, ?_⟩
  · intro i hi
    rw [cell_setCell_ne _ _ _ _ (by omega)]
    by_cases h : i < 127
    · rw [cell_move_in _ _ _ _ (by omega) (by omega), hc _ (by omega), if_pos (by omega)]
    · have hi : i = 127 := by omega
      subst hi
      rw [cell_move_ragged m 0 _ 127 7 (by omega) (by omega) (by omega), hc _ (by omega), if_pos (by omega)]
      · rw [hc _ (by omega), if_pos (by omega)]; decide
      · rw [hc _ (by omega), if_pos (by omega)]; decide
  · intro i h1 h2
    rw [cell_setCell_ne _ _ _ _ (by omega), cell_move_out _ _ _ _ (by omega), hc _ (by omega)]
  · rw [show (1024 - 1 : Nat) = 1023 from rfl, cell_setCell _ _ _ (by decide)]

/-- **C42 is violated by the code** (stale entry): 129 processes map the segment, process 1 unmaps and process 129 unmaps.
Process 129 is still in the map: the next `arax_pipe_have_to_mmap(129)` answers 0, although the process
is not mapped. (`memmove` is given a number of cells where it wants bytes.) -/
theorem C42_violated_stale : ∃ m l pid m' r, Reach 1024 1024 m l ∧ Legal 1024 l (.have pid) ∧
    haveToMmap 1024 m pid = .ok (m', r) ∧ r = 0 ∧ specAnswer l pid = 1 := by
  obtain ⟨m, hr, h1, h2, -⟩ := unmap_first 129 (by decide) (by decide)
  have hf : findCell m 129 1024 0 = 127 :=
    findCell_at (c := 127) (by intro i hi; rw [h1 i (by omega)]; omega) (h1 127 (by omega)) 1024 0 (by omega) (by omega)
  have hok : markUnmap 1024 m 129 = .ok (setCell (memmove m (8 * 127) (8 * (127 + 1)) (1024 - (127 + 1))) (1024 - 1) 0) := by
    unfold markUnmap
    rw [if_neg (by decide)]
    dsimp only
    rw [hf, if_pos (by decide)]
  have hmem : 129 ∈ (pids 129).erase 1 := by
    rw [List.Nodup.mem_erase_iff (pids_nodup _), pids_mem]; omega
  have hr2 := Reach.unmap hr hmem hok
  have hnot : 129 ∉ specStep ((pids 129).erase 1) (.unmap 129) := by
    show 129 ∉ ((pids 129).erase 1).erase 129
    rw [List.Nodup.mem_erase_iff ((pids_nodup _).erase _)]; simp
  have hlen : (specStep ((pids 129).erase 1) (.unmap 129)).length < 1024 := by
    show (((pids 129).erase 1).erase 129).length < 1024
    have a1 := List.length_erase_le (a := 129) (l := (pids 129).erase 1)
    have a2 := List.length_erase_le (a := 1) (l := pids 129)
    have a3 : (pids 129).length = 129 := by simp [pids]
    omega
  generalize hm2 : setCell (memmove m (8 * 127) (8 * (127 + 1)) (1024 - (127 + 1))) (1024 - 1) 0 = m2 at hr2
  refine ⟨m2, _, 129, m2, 0, hr2, ⟨by decide, by decide, Or.inr hlen⟩, ?_, rfl, ?_⟩
  · unfold haveToMmap
    rw [if_neg (by decide), haveLoop_at (c := 127) _ 1024 0 (by omega) (by omega), if_pos]
    · rw [← hm2, cell_setCell_ne _ _ _ _ (by omega), cell_move_in _ _ _ _ (by omega) (by omega), h2 128 (by omega) (by omega), if_pos (by omega)]
    · intro i hi
      rw [← hm2, cell_setCell_ne _ _ _ _ (by omega), cell_move_out _ _ _ _ (by omega), h1 i (by omega)]
      omega
  · unfold specAnswer; rw [if_neg hnot]

/-- **C42 is violated by the code** (lost entry): with 1024 mapped processes, unmapping process 1 makes the map forget process
1024, which is answered 1 ("you have to mmap") while it is mapped. -/
theorem C42_violated_lost : ∃ m l pid m' r, Reach 1024 1024 m l ∧ Legal 1024 l (.have pid) ∧
    haveToMmap 1024 m pid = .ok (m', r) ∧ r = 1 ∧ specAnswer l pid = 0 := by
  obtain ⟨m, hr, h1, h2, h3⟩ := unmap_first 1024 (by decide) (by decide)
  have hmem : 1024 ∈ (pids 1024).erase 1 := by
    rw [List.Nodup.mem_erase_iff (pids_nodup _), pids_mem]; omega
  refine ⟨m, _, 1024, setCell m 1023 1024, 1, hr, ⟨by decide, by decide, Or.inl hmem⟩, ?_, rfl, ?_⟩
  · unfold haveToMmap
    rw [if_neg (by decide), haveLoop_at (c := 1023) _ 1024 0 (by omega) (by omega), h3, if_neg (by decide), if_pos rfl]
    intro i hi
    by_cases h : i < 128
    · rw [h1 i h]; omega
    · rw [h2 i (by omega) hi, if_pos (by omega)]; omega
  · unfold specAnswer; rw [if_pos hmem]

/-- A full map (1024 processes) does not register any further process: it is told to mmap every time. -/
theorem C42_full_map_not_registered (N : Nat) (m : Mem) (pid : Nat) (hp : 0 < pid) (hfull : ∀ i, i < N → cell m i ≠ 0 ∧ cell m i ≠ pid) :
    haveToMmap N m pid = .ok (m, 1) := by
  unfold haveToMmap
  rw [if_neg (by omega)]
  have : ∀ k c, c + k = N → haveLoop m pid k c = (m, 1) := by
    intro k
    induction k with
    | zero => intro c _; rfl
    | succ k ih =>
      intro c hc
      simp only [haveLoop]
      rw [if_neg (hfull c (by omega)).2, if_neg (hfull c (by omega)).1, ih (c + 1) (by omega)]
  rw [this N 0 (by omega)]

/-- Non-vacuity of `C42_partial`: for the configured size, a history that maps three processes and unmaps the
second one, leaving `[5, 9]` mapped; 8·128 ≤ 1024 + 3. -/
example : ∃ m, Reach 1024 128 m [5, 9] ∧ 8 * 128 ≤ 1024 + 3 ∧ Legal 128 [5, 9] (.have 7) ∧ specAnswer [5, 9] 7 = 1 := by
  have i0 : Inv 1024 128 (fun _ => 0) [] := ⟨rep_init (by simp), by simp, List.nodup_nil, by simp⟩
  have r0 : Reach 1024 128 (fun _ => 0) [] := .init (by simp)
  obtain ⟨m1, e1, i1⟩ := have_spec (by decide) i0 (pid := 5) (by decide) (by decide) (Or.inr (by decide))
  have r1 := Reach.have r0 ⟨by decide, by decide, Or.inr (by decide)⟩ e1
  obtain ⟨m2, e2, i2⟩ := have_spec (by decide) i1 (pid := 7) (by decide) (by decide) (Or.inr (by decide))
  have r2 := Reach.have r1 ⟨by decide, by decide, Or.inr (by decide)⟩ e2
  obtain ⟨m3, e3, i3⟩ := have_spec (by decide) i2 (pid := 9) (by decide) (by decide) (Or.inr (by decide))
  have r3 := Reach.have r2 ⟨by decide, by decide, Or.inr (by decide)⟩ e3
  obtain ⟨m4, e4, i4⟩ := unmap_spec (by decide) (by decide) i3 (pid := 7) (by decide)
  have r4 := Reach.unmap r3 (show 7 ∈ [5, 7, 9] by decide) e4
  exact ⟨m4, r4, by decide, ⟨by decide, by decide, Or.inr (by decide)⟩, by decide⟩

end Arax.ProcMap
