/-!
# C117: the other allocator keeps the allocator's promises

With the build option `SHM_ALLOCATOR=tlsf` the memory of the segment is managed by the library TLSF, which is not in /repo, behind /repo/src/alloc/tlsf/alloc.c, which is. Modelled: all of that file. TLSF itself is a parameter: any
program that manages a pool when its calls do not overlap (`Good`); a call of it is two steps, its begin and its end, so that calls that overlap can be seen. Any number of threads of any number of processes call, walk, and die at any step.

Simplified: the spinlock is taken in one step (C09, C83); statistics of `ALLOC_STATS` are left out (they are counters of their own, C75).
-/
namespace Arax.Tlsf

/-- TLSF: `tlsf_malloc`, `tlsf_free` as functions of the state of the pool. (Called at /repo/src/alloc/tlsf/alloc.c:37, 59.) -/
structure Pool (σ : Type) where
  malloc : σ → Nat → σ × Option Nat
  free : σ → Nat → σ

/-- A call. (/repo/src/alloc/tlsf/alloc.c:26, 49.) -/
inductive Op where
  | alloc (n : Nat)
  | free (p : Nat)
deriving DecidableEq, Repr

/-- Where a thread is. -/
inductive Pc where
  /-- in no call -/
  | idle
  /-- spins for the lock [36, 58] -/
  | want (o : Op)
  /-- has the lock [37, 59] -/
  | has (o : Op)
  /-- in TLSF [37, 59] -/
  | inside (o : Op)
  /-- back from TLSF, still with the lock [38, 60] -/
  | back (o : Op) (r : Option Nat)
  /-- in `tlsf_walk_pool` [111] -/
  | walking
  /-- killed, with the lock or without -/
  | dead
deriving DecidableEq, Repr

/-- The segment and its users. `held p`: the size of block `p`, if a caller got it and has not begun to free it. `log`: the calls of TLSF that have ended, the latest first. (`alloc->lock`, `alloc->root`: /repo/src/alloc/tlsf/alloc.c:4-9.) -/
structure St (σ : Type) where
  lock : Bool
  pool : σ
  pc : Nat → Pc
  held : Nat → Option Nat
  log : List (Op × Option Nat)

/-- Sets one place. (No code of its own.) -/
def upd {α : Type} (f : Nat → α) (i : Nat) (v : α) : Nat → α := fun j => if j = i then v else f j

/-- What TLSF does for a call. (/repo/src/alloc/tlsf/alloc.c:37, 59.) -/
def Pool.call {σ : Type} (P : Pool σ) (t : σ) : Op → σ × Option Nat
  | .alloc n => P.malloc t n
  | .free p => (P.free t p, none)

/-- What can happen. -/
inductive Ev where
  /-- thread `i` calls `arch_alloc_allocate` or `_arch_alloc_free` -/
  | call (i : Nat) (o : Op)
  /-- thread `i` calls `arch_alloc_inspect` -/
  | inspect (i : Nat)
  /-- a step of thread `i` -/
  | step (i : Nat)
  /-- thread `i` is killed -/
  | die (i : Nat)
deriving DecidableEq

/-- What a caller keeps when it calls: a block it begins to free is its no longer. (No code of its own.) -/
def given (h : Nat → Option Nat) : Op → Nat → Option Nat
  | .alloc _ => h
  | .free p => upd h p none

/-- What a caller has when a call returns. (No code of its own; `return data`, /repo/src/alloc/tlsf/alloc.c:46.) -/
def taken (h : Nat → Option Nat) : Op → Option Nat → Nat → Option Nat
  | .alloc n, some p => upd h p (some n)
  | _, _ => h

/-- A step of thread `i` (/repo/src/alloc/tlsf/alloc.c:36-38, 58-60, 111). -/
def stepOf {σ : Type} (P : Pool σ) (s : St σ) (i : Nat) : St σ :=
  match s.pc i with
  | .idle => s
  | .want o => if s.lock then s else { s with lock := true, pc := upd s.pc i (.has o) }
  | .has o => { s with pc := upd s.pc i (.inside o) }
  | .inside o => { s with pool := (P.call s.pool o).1, pc := upd s.pc i (.back o (P.call s.pool o).2), log := (o, (P.call s.pool o).2) :: s.log }
  | .back o r => { s with lock := false, held := taken s.held o r, pc := upd s.pc i .idle }
  | .walking => { s with pc := upd s.pc i .idle }
  | .dead => s

/-- Callers free only what they hold, or null. (No code of its own: the use the header asks for, /repo/src/alloc/alloc.h:64-69.) -/
def may {σ : Type} (s : St σ) : Op → Bool
  | .alloc _ => true
  | .free p => p == 0 || (s.held p).isSome

/-- All that can happen; a thread makes one call at a time. (/repo/src/alloc/tlsf/alloc.c:26-75, 105-112.) -/
def step {σ : Type} (P : Pool σ) (s : St σ) : Ev → St σ
  | .call i o => if s.pc i = .idle ∧ may s o = true then { s with pc := upd s.pc i (.want o), held := given s.held o } else s
  | .inspect i => if s.pc i = .idle then { s with pc := upd s.pc i .walking } else s
  | .step i => stepOf P s i
  | .die i => { s with pc := upd s.pc i .dead }

/-- After `arch_alloc_init_once` (/repo/src/alloc/tlsf/alloc.c:11-21): `t` is what `tlsf_create_with_pool` made. -/
def start {σ : Type} (t : σ) : St σ := ⟨false, t, fun _ => .idle, fun _ => none, []⟩

/-- A history. (No code of its own.) -/
def run {σ : Type} (P : Pool σ) (t : σ) (evs : List Ev) : St σ := evs.foldl (step P) (start t)

/-- Bytes of the segment and in use, as told: `arch_alloc_stats` (/repo/src/alloc/tlsf/alloc.c:77-90). -/
def stats {σ : Type} (_ : St σ) : Nat × Nat := (0, 0)

/-- `arax_mmap`, `arch_alloc_get_bitmap`: null (/repo/src/alloc/tlsf/alloc.c:114-117, 129-132). -/
def mmap (_ : Nat) : Nat := 0

/-- 2^64. -/
def W : Nat := 18446744073709551616

/-- The area TLSF gets, begin and length: `alloc` is at `off` in a segment of `shm` bytes at `base`, whose header has `hdr` bytes; the allocator's own record has 24. (/repo/src/alloc/tlsf/alloc.c:15, 18; /repo/src/core/arax_pipe.c:35, 37.) -/
def area (base off hdr shm : Nat) : Nat × Nat := (base + off + 24, ((shm + W - hdr) % W + W - 24) % W)

/-! ### Specification -/

/-- Block `p` of `n` bytes is in the pool from `lo` to `hi`, aligned, and meets none of the blocks `L`. -/
def Fresh (lo hi : Nat) (L : Nat → Option Nat) (p n : Nat) : Prop :=
  0 < p ∧ 0 < n ∧ p % 8 = 0 ∧ lo ≤ p ∧ p + n ≤ hi ∧ L p = none ∧ ∀ q m, L q = some m → p + n ≤ q ∨ q + m ≤ p

/-- What is asked of TLSF when its calls do not overlap: there is a relation between its state and the blocks in use such that a successful `malloc` gives a fresh block, and only blocks in use are given back. -/
structure Good {σ : Type} (P : Pool σ) (t0 : σ) (lo hi : Nat) (Ok : σ → (Nat → Option Nat) → Prop) : Prop where
  init : Ok t0 (fun _ => none)
  none_ : ∀ t L n, Ok t L → (P.malloc t n).2 = none → Ok (P.malloc t n).1 L
  some_ : ∀ t L n p, Ok t L → (P.malloc t n).2 = some p → Fresh lo hi L p n ∧ Ok (P.malloc t n).1 (upd L p (some n))
  free_ : ∀ t L p n, Ok t L → L p = some n → Ok (P.free t p) (upd L p none)
  null_ : ∀ t, P.free t 0 = t

/-- The calls of `log` one after the other, the oldest first: the state of the pool, and whether all answers are those of the log. -/
def replay {σ : Type} (P : Pool σ) (t : σ) : List (Op × Option Nat) → σ × Prop
  | [] => (t, True)
  | (o, r) :: l => ((P.call (replay P t l).1 o).1, (replay P t l).2 ∧ r = (P.call (replay P t l).1 o).2)

/-! ### Proofs -/

theorem upd_same {α : Type} (f : Nat → α) (i : Nat) (v : α) : upd f i v i = v := by simp [upd]
theorem upd_ne {α : Type} (f : Nat → α) {i j : Nat} (v : α) (h : j ≠ i) : upd f i v j = f j := by simp [upd, h]

/-- The thread has the lock. -/
def Pc.holds : Pc → Bool
  | .has _ | .inside _ | .back _ _ => true
  | _ => false

/-- At most one living thread has the lock, and only while it is taken. -/
structure Lk {σ : Type} (s : St σ) : Prop where
  one : ∀ i j, (s.pc i).holds = true → (s.pc j).holds = true → i = j
  lk : ∀ i, (s.pc i).holds = true → s.lock = true

theorem lk_move {σ : Type} {s s' : St σ} (h : Lk s) (i : Nat) (v : Pc) (e : s'.pc = upd s.pc i v) (el : s'.lock = s.lock) (hv : v.holds = true → (s.pc i).holds = true) : Lk s' := by
  have key : ∀ j, (s'.pc j).holds = true → (s.pc j).holds = true := by
    intro j hj
    rw [e] at hj
    by_cases hij : j = i
    · subst hij; rw [upd_same] at hj; exact hv hj
    · rw [upd_ne _ _ hij] at hj; exact hj
  exact ⟨fun a b ha hb => h.one a b (key a ha) (key b hb), fun a ha => by rw [el]; exact h.lk a (key a ha)⟩

theorem lk_step {σ : Type} (P : Pool σ) {s : St σ} (h : Lk s) (e : Ev) : Lk (step P s e) := by
  cases e with
  | call i o =>
    simp only [step]; split
    · exact lk_move h i (.want o) rfl rfl (by simp [Pc.holds])
    · exact h
  | inspect i =>
    simp only [step]; split
    · exact lk_move h i .walking rfl rfl (by simp [Pc.holds])
    · exact h
  | die i => exact lk_move h i .dead rfl rfl (by simp [Pc.holds])
  | step i =>
    show Lk (stepOf P s i)
    cases hp : s.pc i with
    | idle => have e : stepOf P s i = s := by simp [stepOf, hp]
              rw [e]; exact h
    | dead => have e : stepOf P s i = s := by simp [stepOf, hp]
              rw [e]; exact h
    | want o =>
      cases hl : s.lock with
      | true => have e : stepOf P s i = s := by simp [stepOf, hp, hl]
                rw [e]; exact h
      | false =>
        have e : stepOf P s i = { s with lock := true, pc := upd s.pc i (.has o) } := by simp [stepOf, hp, hl]
        rw [e]
        have nobody : ∀ j, (s.pc j).holds = true → False := fun j hj => by have := h.lk j hj; rw [hl] at this; cases this
        have only : ∀ j, (upd s.pc i (.has o) j).holds = true → j = i := fun j hj => by
          by_cases hij : j = i
          · exact hij
          · rw [upd_ne _ _ hij] at hj; exact (nobody j hj).elim
        exact ⟨fun a b ha hb => by rw [only a ha, only b hb], fun _ _ => rfl⟩
    | has o =>
      have e : stepOf P s i = { s with pc := upd s.pc i (.inside o) } := by simp [stepOf, hp]
      rw [e]; exact lk_move h i _ rfl rfl (fun _ => by rw [hp]; rfl)
    | inside o =>
      have e : stepOf P s i = { s with pool := (P.call s.pool o).1, pc := upd s.pc i (.back o (P.call s.pool o).2), log := (o, (P.call s.pool o).2) :: s.log } := by simp [stepOf, hp]
      rw [e]; exact lk_move h i _ rfl rfl (fun _ => by rw [hp]; rfl)
    | back o r =>
      have e : stepOf P s i = { s with lock := false, held := taken s.held o r, pc := upd s.pc i .idle } := by simp [stepOf, hp]
      rw [e]
      have hi : (s.pc i).holds = true := by rw [hp]; rfl
      have nobody : ∀ j, (upd s.pc i .idle j).holds = true → False := fun j hj => by
        by_cases hij : j = i
        · subst hij; rw [upd_same] at hj; cases hj
        · rw [upd_ne _ _ hij] at hj; exact hij (h.one j i hj hi)
      exact ⟨fun a b ha _ => (nobody a ha).elim, fun a ha => (nobody a ha).elim⟩
    | walking =>
      have e : stepOf P s i = { s with pc := upd s.pc i .idle } := by simp [stepOf, hp]
      rw [e]; exact lk_move h i _ rfl rfl (by simp [Pc.holds])

theorem lk_run {σ : Type} (P : Pool σ) (t : σ) (evs : List Ev) : Lk (run P t evs) := by
  have : ∀ (evs : List Ev) (s : St σ), Lk s → Lk (evs.foldl (step P) s) := by
    intro evs
    induction evs with
    | nil => intro s h; exact h
    | cons e es ih => intro s h; exact ih _ (lk_step P h e)
  exact this evs _ ⟨fun i j hi _ => (by cases hi), fun i hi => (by cases hi)⟩

/-- **C117 (one at a time).** Whatever the threads do, and wherever they are killed, no two calls of TLSF by `arch_alloc_allocate` and `_arch_alloc_free` overlap. -/
theorem C117_one_at_a_time {σ : Type} (P : Pool σ) (t : σ) (evs : List Ev) (i j : Nat) (o o' : Op) (hi : (run P t evs).pc i = .inside o) (hj : (run P t evs).pc j = .inside o') : i = j :=
  (lk_run P t evs).one i j (by rw [hi]; rfl) (by rw [hj]; rfl)

/-- **C117 (order).** The state of the pool and all answers are those of the calls made one after the other, in the order they ended in. -/
theorem C117_order {σ : Type} (P : Pool σ) (t : σ) (evs : List Ev) :
    (run P t evs).pool = (replay P t (run P t evs).log).1 ∧ (replay P t (run P t evs).log).2 := by
  have : ∀ (evs : List Ev) (s : St σ), (s.pool = (replay P t s.log).1 ∧ (replay P t s.log).2) →
      ((evs.foldl (step P) s).pool = (replay P t (evs.foldl (step P) s).log).1 ∧ (replay P t (evs.foldl (step P) s).log).2) := by
    intro evs
    induction evs with
    | nil => intro s h; exact h
    | cons e es ih =>
      intro s h
      refine ih _ ?_
      cases e with
      | call i o => simp only [step]; split <;> exact h
      | inspect i => simp only [step]; split <;> exact h
      | die i => exact h
      | step i =>
        show (stepOf P s i).pool = (replay P t (stepOf P s i).log).1 ∧ (replay P t (stepOf P s i).log).2
        unfold stepOf
        split
        · exact h
        · split <;> exact h
        · exact h
        · dsimp only [replay]
          rw [← h.1]
          exact ⟨rfl, h.2, rfl⟩
        · exact h
        · exact h
        · exact h
  exact this evs _ ⟨rfl, trivial⟩

/-- What holds all the time. `L` are the blocks in use according to the pool. Some of them nobody has any more: their thread was killed. -/
structure Inv {σ : Type} (Ok : σ → (Nat → Option Nat) → Prop) (lo hi : Nat) (s : St σ) (L : Nat → Option Nat) : Prop where
  ok : Ok s.pool L
  /-- what is held is in use -/
  sub : ∀ q n, s.held q = some n → L q = some n
  /-- what is being freed is in use and not held -/
  fr : ∀ i q, (s.pc i = .want (.free q) ∨ s.pc i = .has (.free q) ∨ s.pc i = .inside (.free q)) → q = 0 ∨ ((L q).isSome ∧ s.held q = none)
  /-- by one thread -/
  one : ∀ i j q, q ≠ 0 → (s.pc i = .want (.free q) ∨ s.pc i = .has (.free q) ∨ s.pc i = .inside (.free q)) → (s.pc j = .want (.free q) ∨ s.pc j = .has (.free q) ∨ s.pc j = .inside (.free q)) → i = j
  /-- what is about to be returned is in use, not held and not being freed -/
  ret : ∀ i n q, s.pc i = .back (.alloc n) (some q) → L q = some n ∧ s.held q = none ∧ ∀ j, ¬ (s.pc j = .want (.free q) ∨ s.pc j = .has (.free q) ∨ s.pc j = .inside (.free q))
  /-- blocks in use are in the pool, aligned, apart -/
  fit : ∀ q n, L q = some n → 0 < q ∧ 0 < n ∧ q % 8 = 0 ∧ lo ≤ q ∧ q + n ≤ hi
  apart : ∀ q n q' n', L q = some n → L q' = some n' → q ≠ q' → q + n ≤ q' ∨ q' + n' ≤ q

/-- A thread is about to free `q`. -/
def Frees (q : Nat) (c : Pc) : Prop := c = .want (.free q) ∨ c = .has (.free q) ∨ c = .inside (.free q)

/-- A step of a thread that neither changes what is in use nor what is held, and takes up nothing. -/
theorem inv_move {σ : Type} {Ok : σ → (Nat → Option Nat) → Prop} {lo hi : Nat} {s s' : St σ} {L : Nat → Option Nat} (h : Inv Ok lo hi s L) (i : Nat) (v : Pc)
    (ep : s'.pc = upd s.pc i v) (el : s'.pool = s.pool) (eh : s'.held = s.held)
    (h1 : ∀ q, Frees q v → Frees q (s.pc i)) (h2 : ∀ n q, v = .back (.alloc n) (some q) → s.pc i = v) : Inv Ok lo hi s' L := by
  have key : ∀ j q, Frees q (s'.pc j) → Frees q (s.pc j) := by
    intro j q hj
    rw [ep] at hj
    by_cases hij : j = i
    · subst hij; rw [upd_same] at hj; exact h1 q hj
    · rw [upd_ne _ _ hij] at hj; exact hj
  have key2 : ∀ j n q, s'.pc j = .back (.alloc n) (some q) → s.pc j = .back (.alloc n) (some q) := by
    intro j n q hj
    rw [ep] at hj
    by_cases hij : j = i
    · subst hij; rw [upd_same] at hj; rw [h2 n q hj]; exact hj
    · rw [upd_ne _ _ hij] at hj; exact hj
  refine ⟨by rw [el]; exact h.ok, by rw [eh]; exact h.sub, fun j q hj => ?_, fun j k q hq hj hk => h.one j k q hq (key j q hj) (key k q hk), fun j n q hj => ?_, h.fit, h.apart⟩
  · rw [eh]; exact h.fr j q (key j q hj)
  · have := h.ret j n q (key2 j n q hj)
    rw [eh]
    exact ⟨this.1, this.2.1, fun k hk => this.2.2 k (key k q hk)⟩

theorem inv_step {σ : Type} {P : Pool σ} {t0 : σ} {lo hi : Nat} {Ok : σ → (Nat → Option Nat) → Prop} (g : Good P t0 lo hi Ok) {s : St σ} (hlk : Lk s) {L : Nat → Option Nat}
    (h : Inv Ok lo hi s L) (e : Ev) : ∃ L', Inv Ok lo hi (step P s e) L' := by
  cases e with
  | inspect i =>
    refine ⟨L, ?_⟩
    simp only [step]; split
    · exact inv_move h i .walking rfl rfl rfl (by simp [Frees]) (by simp)
    · exact h
  | die i => exact ⟨L, inv_move h i .dead rfl rfl rfl (by simp [Frees]) (by simp)⟩
  | call i o =>
    refine ⟨L, ?_⟩
    simp only [step]
    split
    · rename_i hc
      cases o with
      | alloc n => exact inv_move h i (.want (.alloc n)) rfl rfl rfl (by simp [Frees]) (by simp)
      | free p =>
        by_cases hp0 : p = 0
        · subst hp0
          -- null: nothing is held at null
          have h0 : s.held 0 = none := by
            cases hh : s.held 0 with
            | none => rfl
            | some n => have := (h.fit 0 n (h.sub 0 n hh)).1; omega
          have eg : given s.held (.free 0) = s.held := by
            funext q
            by_cases hq : q = 0
            · subst hq; simp [given, upd, h0]
            · simp [given, upd, hq]
          refine ⟨h.ok, by dsimp only; rw [eg]; exact h.sub, fun j q hj => ?_, fun j k q hq hj hk => ?_, fun j n q hj => ?_, h.fit, h.apart⟩
          · dsimp only at hj ⊢
            rw [eg]
            by_cases hij : j = i
            · subst hij; rw [upd_same] at hj
              rcases hj with hj | hj | hj
              · injection hj with hj; injection hj with hj; exact .inl hj.symm
              · cases hj
              · cases hj
            · rw [upd_ne _ _ hij] at hj; exact h.fr j q hj
          · dsimp only at hj hk
            have ni : ∀ j, (upd s.pc i (.want (.free 0)) j = .want (.free q) ∨ upd s.pc i (.want (.free 0)) j = .has (.free q) ∨ upd s.pc i (.want (.free 0)) j = .inside (.free q)) → j ≠ i := by
              intro j hj hij
              subst hij; rw [upd_same] at hj
              rcases hj with hj | hj | hj
              · injection hj with hj; injection hj with hj; exact hq hj.symm
              · cases hj
              · cases hj
            have nj := ni j hj
            have nk := ni k hk
            rw [upd_ne _ _ nj] at hj; rw [upd_ne _ _ nk] at hk
            exact h.one j k q hq hj hk
          · dsimp only at hj ⊢
            rw [eg]
            by_cases hij : j = i
            · subst hij; rw [upd_same] at hj; cases hj
            · rw [upd_ne _ _ hij] at hj
              have := h.ret j n q hj
              refine ⟨this.1, this.2.1, fun k hk => ?_⟩
              by_cases hik : k = i
              · subst hik; rw [upd_same] at hk
                rcases hk with hk | hk | hk
                · injection hk with hk; injection hk with hk
                  have := (h.fit q n this.1).1; omega
                · cases hk
                · cases hk
              · rw [upd_ne _ _ hik] at hk; exact this.2.2 k hk
        · -- a block that is held
          obtain ⟨m, hm⟩ : ∃ m, s.held p = some m := by
            have := hc.2
            simp only [may, Bool.or_eq_true, beq_iff_eq, hp0, false_or, Option.isSome_iff_exists] at this
            exact this
          have hL := h.sub p m hm
          have nf : ∀ j, ¬ (s.pc j = .want (.free p) ∨ s.pc j = .has (.free p) ∨ s.pc j = .inside (.free p)) := by
            intro j hj
            rcases h.fr j p hj with h0 | h0
            · exact hp0 h0
            · rw [hm] at h0; cases h0.2
          have nr : ∀ j n, s.pc j ≠ .back (.alloc n) (some p) := by
            intro j n hj
            have := (h.ret j n p hj).2.1
            rw [hm] at this; cases this
          have up : ∀ j q, (upd s.pc i (.want (.free p)) j = .want (.free q) ∨ upd s.pc i (.want (.free p)) j = .has (.free q) ∨ upd s.pc i (.want (.free p)) j = .inside (.free q)) →
              (j = i ∧ q = p) ∨ (j ≠ i ∧ (s.pc j = .want (.free q) ∨ s.pc j = .has (.free q) ∨ s.pc j = .inside (.free q))) := by
            intro j q hj
            by_cases hij : j = i
            · subst hij; rw [upd_same] at hj
              rcases hj with hj | hj | hj
              · injection hj with hj; injection hj with hj; exact .inl ⟨rfl, hj.symm⟩
              · cases hj
              · cases hj
            · rw [upd_ne _ _ hij] at hj; exact .inr ⟨hij, hj⟩
          refine ⟨h.ok, fun q n hq => ?_, fun j q hj => ?_, fun j k q hq hj hk => ?_, fun j n q hj => ?_, h.fit, h.apart⟩
          · dsimp only [given] at hq
            by_cases hqp : q = p
            · subst hqp; rw [upd_same] at hq; cases hq
            · rw [upd_ne _ _ hqp] at hq; exact h.sub q n hq
          · rcases up j q hj with ⟨_, rfl⟩ | ⟨_, hj⟩
            · right; exact ⟨by rw [hL]; rfl, by dsimp only [given]; exact upd_same _ _ _⟩
            · rcases h.fr j q hj with h0 | h0
              · exact .inl h0
              · right
                refine ⟨h0.1, ?_⟩
                dsimp only [given]
                by_cases hqp : q = p
                · subst hqp; exact upd_same _ _ _
                · rw [upd_ne _ _ hqp]; exact h0.2
          · rcases up j q hj with ⟨ej, eq⟩ | ⟨_, hj2⟩
            · rcases up k q hk with ⟨ek, _⟩ | ⟨_, hk2⟩
              · rw [ej, ek]
              · exact absurd (eq ▸ hk2) (nf k)
            · rcases up k q hk with ⟨_, eq⟩ | ⟨_, hk2⟩
              · exact absurd (eq ▸ hj2) (nf j)
              · exact h.one j k q hq hj2 hk2
          · dsimp only at hj
            by_cases hij : j = i
            · subst hij; rw [upd_same] at hj; cases hj
            · rw [upd_ne _ _ hij] at hj
              have := h.ret j n q hj
              have hqp : q ≠ p := fun c => nr j n (c ▸ hj)
              refine ⟨this.1, by dsimp only [given]; rw [upd_ne _ _ hqp]; exact this.2.1, fun k hk => ?_⟩
              rcases up k q hk with ⟨_, hx⟩ | ⟨_, hk⟩
              · exact hqp hx
              · exact this.2.2 k hk
    · exact h
  | step i =>
    show ∃ L', Inv Ok lo hi (stepOf P s i) L'
    cases hp : s.pc i with
    | idle => have e : stepOf P s i = s := by simp [stepOf, hp]
              rw [e]; exact ⟨L, h⟩
    | dead => have e : stepOf P s i = s := by simp [stepOf, hp]
              rw [e]; exact ⟨L, h⟩
    | walking =>
      have e : stepOf P s i = { s with pc := upd s.pc i .idle } := by simp [stepOf, hp]
      rw [e]; exact ⟨L, inv_move h i .idle rfl rfl rfl (by simp [Frees]) (by simp)⟩
    | want o =>
      cases hl : s.lock with
      | true => have e : stepOf P s i = s := by simp [stepOf, hp, hl]
                rw [e]; exact ⟨L, h⟩
      | false =>
        have e : stepOf P s i = { s with lock := true, pc := upd s.pc i (.has o) } := by simp [stepOf, hp, hl]
        rw [e]
        refine ⟨L, inv_move h i (.has o) rfl rfl rfl (fun q hq => ?_) (by simp)⟩
        rcases hq with hq | hq | hq
        · cases hq
        · injection hq with hq; subst hq; exact .inl hp
        · cases hq
    | has o =>
      have e : stepOf P s i = { s with pc := upd s.pc i (.inside o) } := by simp [stepOf, hp]
      rw [e]
      refine ⟨L, inv_move h i (.inside o) rfl rfl rfl (fun q hq => ?_) (by simp)⟩
      rcases hq with hq | hq | hq
      · cases hq
      · cases hq
      · injection hq with hq; subst hq; exact .inr (.inl hp)
    | back o r =>
      have e : stepOf P s i = { s with lock := false, held := taken s.held o r, pc := upd s.pc i .idle } := by simp [stepOf, hp]
      rw [e]
      have other : (∀ q, taken s.held o r q = s.held q) → Inv Ok lo hi { s with lock := false, held := taken s.held o r, pc := upd s.pc i .idle } L := fun ht =>
        inv_move h i .idle rfl rfl (funext ht) (by simp [Frees]) (by simp)
      cases o with
      | free p => exact ⟨L, other (fun q => by simp [taken])⟩
      | alloc n =>
        cases r with
        | none => exact ⟨L, other (fun q => by simp [taken])⟩
        | some p =>
          refine ⟨L, ?_⟩
          have hr := h.ret i n p hp
          have fe : ∀ j q, (upd s.pc i .idle j = .want (.free q) ∨ upd s.pc i .idle j = .has (.free q) ∨ upd s.pc i .idle j = .inside (.free q)) →
              (s.pc j = .want (.free q) ∨ s.pc j = .has (.free q) ∨ s.pc j = .inside (.free q)) := by
            intro j q hj
            by_cases hij : j = i
            · subst hij; rw [upd_same] at hj; rcases hj with hj | hj | hj <;> cases hj
            · rw [upd_ne _ _ hij] at hj; exact hj
          refine ⟨h.ok, fun q m hq => ?_, fun j q hj => ?_, fun j k q hq hj hk => h.one j k q hq (fe j q hj) (fe k q hk), fun j m q hj => ?_, h.fit, h.apart⟩
          · dsimp only [taken] at hq
            by_cases hqp : q = p
            · subst hqp; rw [upd_same] at hq; injection hq with hq; subst hq; exact hr.1
            · rw [upd_ne _ _ hqp] at hq; exact h.sub q m hq
          · have hj' := fe j q hj
            rcases h.fr j q hj' with h0 | h0
            · exact .inl h0
            · right
              refine ⟨h0.1, ?_⟩
              have hqp : q ≠ p := fun c => hr.2.2 j (c ▸ hj')
              dsimp only [taken]
              rw [upd_ne _ _ hqp]; exact h0.2
          · dsimp only at hj
            by_cases hij : j = i
            · subst hij; rw [upd_same] at hj; cases hj
            · rw [upd_ne _ _ hij] at hj
              exact absurd (hlk.one j i (by rw [hj]; rfl) (by rw [hp]; rfl)) hij
    | inside o =>
      have e : stepOf P s i = { s with pool := (P.call s.pool o).1, pc := upd s.pc i (.back o (P.call s.pool o).2), log := (o, (P.call s.pool o).2) :: s.log } := by simp [stepOf, hp]
      rw [e]
      have alone : ∀ j, (s.pc j).holds = true → j = i := fun j hj => hlk.one j i hj (by rw [hp]; rfl)
      cases o with
      | alloc n =>
        have fe : ∀ j q v, (upd s.pc i (.back (.alloc n) v) j = .want (.free q) ∨ upd s.pc i (.back (.alloc n) v) j = .has (.free q) ∨ upd s.pc i (.back (.alloc n) v) j = .inside (.free q)) →
            (s.pc j = .want (.free q) ∨ s.pc j = .has (.free q) ∨ s.pc j = .inside (.free q)) := by
          intro j q v hj
          by_cases hij : j = i
          · subst hij; rw [upd_same] at hj; rcases hj with hj | hj | hj <;> cases hj
          · rw [upd_ne _ _ hij] at hj; exact hj
        cases hr : (P.malloc s.pool n).2 with
        | none =>
          refine ⟨L, ?_⟩
          have ec : (P.call s.pool (.alloc n)).2 = none := hr
          rw [ec]
          refine ⟨g.none_ _ _ _ h.ok hr, h.sub, fun j q hj => h.fr j q (fe j q _ hj), fun j k q hq hj hk => h.one j k q hq (fe j q _ hj) (fe k q _ hk), fun j m q hj => ?_, h.fit, h.apart⟩
          dsimp only at hj
          by_cases hij : j = i
          · subst hij; rw [upd_same] at hj; cases hj
          · rw [upd_ne _ _ hij] at hj
            exact absurd (alone j (by rw [hj]; rfl)) hij
        | some p =>
          obtain ⟨hf, hok⟩ := g.some_ _ _ _ _ h.ok hr
          refine ⟨upd L p (some n), ?_⟩
          have ec : (P.call s.pool (.alloc n)).2 = some p := hr
          rw [ec]
          have old : ∀ q m, L q = some m → q ≠ p := fun q m hq c => by subst c; rw [hf.2.2.2.2.2.1] at hq; cases hq
          refine ⟨hok, fun q m hq => ?_, fun j q hj => ?_, fun j k q hq hj hk => h.one j k q hq (fe j q _ hj) (fe k q _ hk), fun j m q hj => ?_, fun q m hq => ?_, fun q m q' m' hq hq' hne => ?_⟩
          · have := h.sub q m hq
            rw [upd_ne _ _ (old q m this)]; exact this
          · rcases h.fr j q (fe j q _ hj) with h0 | h0
            · exact .inl h0
            · right
              obtain ⟨m, hm⟩ := Option.isSome_iff_exists.1 h0.1
              rw [upd_ne _ _ (old q m hm)]; exact h0
          · dsimp only at hj
            by_cases hij : j = i
            · subst hij; rw [upd_same] at hj
              injection hj with h1 h2
              injection h1 with h1; injection h2 with h2
              subst h1; subst h2
              refine ⟨upd_same _ _ _, ?_, fun k hk => ?_⟩
              · cases hh : s.held p with
                | none => rfl
                | some m => exact absurd rfl (old p m (h.sub p m hh))
              · rcases h.fr k p (fe k p _ hk) with h0 | h0
                · have := hf.1; omega
                · obtain ⟨m, hm⟩ := Option.isSome_iff_exists.1 h0.1
                  exact absurd rfl (old p m hm)
            · rw [upd_ne _ _ hij] at hj
              exact absurd (alone j (by rw [hj]; rfl)) hij
          · by_cases hqp : q = p
            · subst hqp; rw [upd_same] at hq; injection hq with hq; subst hq
              exact ⟨hf.1, hf.2.1, hf.2.2.1, hf.2.2.2.1, hf.2.2.2.2.1⟩
            · rw [upd_ne _ _ hqp] at hq; exact h.fit q m hq
          · have hap := hf.2.2.2.2.2.2
            by_cases h1 : q = p
            · subst h1
              rw [upd_same] at hq; injection hq with hq; subst hq
              rw [upd_ne _ _ (fun c => hne c.symm)] at hq'
              exact hap q' m' hq'
            · rw [upd_ne _ _ h1] at hq
              by_cases h2 : q' = p
              · subst h2
                rw [upd_same] at hq'; injection hq' with hq'; subst hq'
                exact (hap q m hq).symm
              · rw [upd_ne _ _ h2] at hq'; exact h.apart q m q' m' hq hq' hne
      | free p =>
        have fe : ∀ j q, (upd s.pc i (.back (.free p) none) j = .want (.free q) ∨ upd s.pc i (.back (.free p) none) j = .has (.free q) ∨ upd s.pc i (.back (.free p) none) j = .inside (.free q)) →
            j ≠ i ∧ (s.pc j = .want (.free q) ∨ s.pc j = .has (.free q) ∨ s.pc j = .inside (.free q)) := by
          intro j q hj
          by_cases hij : j = i
          · subst hij; rw [upd_same] at hj; rcases hj with hj | hj | hj <;> cases hj
          · rw [upd_ne _ _ hij] at hj; exact ⟨hij, hj⟩
        have back : ∀ j m q, upd s.pc i (.back (.free p) none) j = .back (.alloc m) (some q) → False := by
          intro j m q hj
          by_cases hij : j = i
          · subst hij; rw [upd_same] at hj; cases hj
          · rw [upd_ne _ _ hij] at hj
            exact absurd (alone j (by rw [hj]; rfl)) hij
        show ∃ L', Inv Ok lo hi { s with pool := P.free s.pool p, pc := upd s.pc i (.back (.free p) none), log := (.free p, none) :: s.log } L'
        have hfi : s.pc i = .want (.free p) ∨ s.pc i = .has (.free p) ∨ s.pc i = .inside (.free p) := .inr (.inr hp)
        by_cases hp0 : p = 0
        · subst hp0
          refine ⟨L, ?_⟩
          refine ⟨by dsimp only; rw [g.null_]; exact h.ok, h.sub, fun j q hj => h.fr j q (fe j q hj).2, fun j k q hq hj hk => h.one j k q hq (fe j q hj).2 (fe k q hk).2, fun j m q hj => (back j m q hj).elim, h.fit, h.apart⟩
        · rcases h.fr i p hfi with h0 | h0
          · exact absurd h0 hp0
          · obtain ⟨n, hn⟩ := Option.isSome_iff_exists.1 h0.1
            refine ⟨upd L p none, ?_⟩
            have sub' : ∀ q m, upd L p none q = some m → q ≠ p ∧ L q = some m := by
              intro q m hq
              by_cases hqp : q = p
              · subst hqp; rw [upd_same] at hq; cases hq
              · rw [upd_ne _ _ hqp] at hq; exact ⟨hqp, hq⟩
            refine ⟨g.free_ _ _ _ _ h.ok hn, fun q m hq => ?_, fun j q hj => ?_, fun j k q hq hj hk => h.one j k q hq (fe j q hj).2 (fe k q hk).2, fun j m q hj => (back j m q hj).elim,
              fun q m hq => h.fit q m (sub' q m hq).2, fun q m q' m' hq hq' hne => h.apart q m q' m' (sub' q m hq).2 (sub' q' m' hq').2 hne⟩
            · have hqp : q ≠ p := fun c => by subst c; dsimp only at hq; rw [h0.2] at hq; cases hq
              rw [upd_ne _ _ hqp]; exact h.sub q m hq
            · obtain ⟨hji, hj2⟩ := fe j q hj
              rcases h.fr j q hj2 with h1 | h1
              · exact .inl h1
              · right
                have hqp : q ≠ p := fun c => hji (h.one j i p hp0 (c ▸ hj2) hfi)
                rw [upd_ne _ _ hqp]; exact h1

theorem inv_run {σ : Type} {P : Pool σ} {t0 : σ} {lo hi : Nat} {Ok : σ → (Nat → Option Nat) → Prop} (g : Good P t0 lo hi Ok) (evs : List Ev) : ∃ L, Inv Ok lo hi (run P t0 evs) L := by
  have : ∀ (evs : List Ev) (s : St σ), Lk s → (∃ L, Inv Ok lo hi s L) → ∃ L, Inv Ok lo hi (evs.foldl (step P) s) L := by
    intro evs
    induction evs with
    | nil => intro s _ h; exact h
    | cons e es ih => intro s hl ⟨L, h⟩; exact ih _ (lk_step P hl e) (inv_step g hl h e)
  refine this evs _ (lk_run P t0 []) ⟨fun _ => none, g.init, fun q n hq => (by cases hq), fun i q hj => ?_, fun i j q _ hj _ => ?_, fun i n q hj => (by cases hj), fun q n hq => (by cases hq), fun q n q' n' hq => (by cases hq)⟩
  · rcases hj with hj | hj | hj <;> cases hj
  · rcases hj with hj | hj | hj <;> cases hj

/-- **C117 (blocks).** Whatever the threads do, and wherever they are killed: all blocks that callers hold are in the pool, aligned to 8 bytes, not empty, and no two overlap, as long as callers free only what they hold. -/
theorem C117_blocks {σ : Type} {P : Pool σ} {t0 : σ} {lo hi : Nat} {Ok : σ → (Nat → Option Nat) → Prop} (g : Good P t0 lo hi Ok) (evs : List Ev) :
    (∀ p n, (run P t0 evs).held p = some n → 0 < n ∧ p % 8 = 0 ∧ lo ≤ p ∧ p + n ≤ hi) ∧
    ∀ p n q m, (run P t0 evs).held p = some n → (run P t0 evs).held q = some m → p ≠ q → p + n ≤ q ∨ q + m ≤ p := by
  obtain ⟨L, h⟩ := inv_run g evs
  exact ⟨fun p n hp => (h.fit p n (h.sub p n hp)).2, fun p n q m hp hq hne => h.apart p n q m (h.sub p n hp) (h.sub q m hq) hne⟩

/-- What a caller that gets a block holds: the call asked for that size, and nobody held any part of the block before. -/
theorem C117_fresh {σ : Type} {P : Pool σ} {t0 : σ} {lo hi : Nat} {Ok : σ → (Nat → Option Nat) → Prop} (g : Good P t0 lo hi Ok) (evs : List Ev) (i n p : Nat)
    (hb : (run P t0 evs).pc i = .back (.alloc n) (some p)) :
    (run P t0 (evs ++ [.step i])).held p = some n ∧ ∀ q m, (run P t0 evs).held q = some m → p + n ≤ q ∨ q + m ≤ p := by
  obtain ⟨L, h⟩ := inv_run g evs
  have hr := h.ret i n p hb
  constructor
  · have e : run P t0 (evs ++ [.step i]) = stepOf P (run P t0 evs) i := by simp [run, List.foldl_append, step]
    rw [e]; simp [stepOf, hb, taken, upd]
  · intro q m hq
    refine h.apart p n q m hr.1 (h.sub q m hq) (fun c => ?_)
    subst c
    rw [hr.2.1] at hq; cases hq

/-- **C117 (returns).** The lock is never left taken by living threads: if the lock is taken and nobody was killed, the thread that has it needs at most three steps of its own to give it back. -/
theorem C117_released_partial {σ : Type} (P : Pool σ) (t : σ) (evs : List Ev) (hd : ∀ i, Ev.die i ∉ evs) (hl : (run P t evs).lock = true) :
    ∃ i k, k ≤ 3 ∧ (run P t (evs ++ List.replicate k (.step i))).lock = false := by
  have key : ∀ (evs : List Ev) (s : St σ), (∀ i, Ev.die i ∉ evs) → (s.lock = true → ∃ i, (s.pc i).holds = true) → ((evs.foldl (step P) s).lock = true → ∃ i, ((evs.foldl (step P) s).pc i).holds = true) := by
    intro evs
    induction evs with
    | nil => intro s _ h; exact h
    | cons e es ih =>
      intro s hd h
      refine ih _ (fun i hi => hd i (List.mem_cons_of_mem _ hi)) ?_
      have keep : ∀ (i : Nat) (v : Pc) (s' : St σ), s'.lock = s.lock → s'.pc = upd s.pc i v → ((s.pc i).holds = true → v.holds = true) → s'.lock = true → ∃ j, (s'.pc j).holds = true := by
        intro i v s' el ep hv hl
        rw [el] at hl
        obtain ⟨j, hj⟩ := h hl
        refine ⟨j, ?_⟩
        rw [ep]
        by_cases hij : j = i
        · subst hij; rw [upd_same]; exact hv hj
        · rw [upd_ne _ _ hij]; exact hj
      cases e with
      | die i => exact absurd List.mem_cons_self (hd i)
      | call i o =>
        simp only [step]; split
        · rename_i hc; exact keep i (.want o) _ rfl rfl (by rw [hc.1]; simp [Pc.holds])
        · exact h
      | inspect i =>
        simp only [step]; split
        · rename_i hc; exact keep i .walking _ rfl rfl (by rw [hc]; simp [Pc.holds])
        · exact h
      | step i =>
        show (stepOf P s i).lock = true → _
        cases hp : s.pc i with
        | idle => have e : stepOf P s i = s := by simp [stepOf, hp]
                  simp only [step]; rw [e]; exact h
        | dead => have e : stepOf P s i = s := by simp [stepOf, hp]
                  simp only [step]; rw [e]; exact h
        | want o =>
          cases hl : s.lock with
          | true => have e : stepOf P s i = s := by simp [stepOf, hp, hl]
                    simp only [step]; rw [e]; exact h
          | false =>
            intro _
            refine ⟨i, ?_⟩
            have e : stepOf P s i = { s with lock := true, pc := upd s.pc i (.has o) } := by simp [stepOf, hp, hl]
            simp only [step]; rw [e]; dsimp only; rw [upd_same]; rfl
        | has o =>
          have e : stepOf P s i = { s with pc := upd s.pc i (.inside o) } := by simp [stepOf, hp]
          simp only [step]; rw [e]; exact keep i _ _ rfl rfl (fun _ => rfl)
        | inside o =>
          have e : stepOf P s i = { s with pool := (P.call s.pool o).1, pc := upd s.pc i (.back o (P.call s.pool o).2), log := (o, (P.call s.pool o).2) :: s.log } := by simp [stepOf, hp]
          simp only [step]; rw [e]; exact keep i _ _ rfl rfl (fun _ => rfl)
        | back o r =>
          have e : stepOf P s i = { s with lock := false, held := taken s.held o r, pc := upd s.pc i .idle } := by simp [stepOf, hp]
          rw [e]; intro hc; cases hc
        | walking =>
          have e : stepOf P s i = { s with pc := upd s.pc i .idle } := by simp [stepOf, hp]
          simp only [step]; rw [e]; exact keep i _ _ rfl rfl (by rw [hp]; simp [Pc.holds])
  obtain ⟨i, hi⟩ := key evs (start t) hd (fun h => by cases h) hl
  have happ : ∀ k, run P t (evs ++ List.replicate k (.step i)) = (List.replicate k (Ev.step i)).foldl (step P) (run P t evs) := fun k => by simp [run, List.foldl_append]
  refine ⟨i, ?_⟩
  change ((run P t evs).pc i).holds = true at hi
  generalize run P t evs = s at hi happ
  have bk : ∀ (s : St σ) o r, s.pc i = .back o r → (stepOf P s i).lock = false := fun s o r h => by simp [stepOf, h]
  have ins : ∀ (s : St σ) o, s.pc i = .inside o → ∃ r, (stepOf P s i).pc i = .back o r := fun s o h => ⟨_, by simp [stepOf, h, upd]; rfl⟩
  have hs : ∀ (s : St σ) o, s.pc i = .has o → (stepOf P s i).pc i = .inside o := fun s o h => by simp [stepOf, h, upd]
  cases hp : s.pc i with
  | has o =>
    refine ⟨3, Nat.le_refl _, ?_⟩
    rw [happ]
    obtain ⟨r, hr⟩ := ins _ o (hs s o hp)
    exact bk _ o r hr
  | inside o =>
    refine ⟨2, by omega, ?_⟩
    rw [happ]
    obtain ⟨r, hr⟩ := ins s o hp
    exact bk _ o r hr
  | back o r => exact ⟨1, by omega, by rw [happ]; exact bk s o r hp⟩
  | idle => rw [hp] at hi; cases hi
  | want o => rw [hp] at hi; cases hi
  | walking => rw [hp] at hi; cases hi
  | dead => rw [hp] at hi; cases hi

/-! ### A pool -/

/-- For the examples: a pool from 64 to 1024 that gives blocks one behind the other and takes none back. -/
def bump : Pool Nat where
  malloc t n := if 0 < n ∧ t + n ≤ 1024 then (t + (n + 7) / 8 * 8, some t) else (t, none)
  free t _ := t

/-- For the examples: all blocks are before `t`. -/
def BumpOk (t : Nat) (L : Nat → Option Nat) : Prop := 64 ≤ t ∧ t % 8 = 0 ∧ ∀ q n, L q = some n → q + n ≤ t ∧ q < t

theorem bump_good : Good bump 64 64 1024 BumpOk where
  init := ⟨by omega, by omega, fun q n h => by cases h⟩
  none_ t L n h hn := by
    simp only [bump] at hn ⊢
    split at hn
    · cases hn
    · rename_i hc; rw [if_neg hc]; exact h
  some_ t L n p h hs := by
    simp only [bump] at hs ⊢
    split at hs
    · rename_i hc
      injection hs with hs; subst hs
      rw [if_pos hc]
      obtain ⟨h1, h2, h3⟩ := h
      refine ⟨⟨by omega, hc.1, h2, h1, hc.2, ?_, fun q m hq => .inr (h3 q m hq).1⟩, by dsimp only; omega, by dsimp only; omega, fun q m hq => ?_⟩
      · cases hL : L t with
        | none => rfl
        | some m => have := (h3 t m hL).2; omega
      · dsimp only
        by_cases hqt : q = t
        · subst hqt; rw [upd_same] at hq; injection hq with hq; subst hq; omega
        · rw [upd_ne _ _ hqt] at hq
          have := h3 q m hq; omega
    · cases hs
  free_ t L p n h _ := by
    refine ⟨h.1, h.2.1, fun q m hq => ?_⟩
    by_cases hqp : q = p
    · subst hqp; rw [upd_same] at hq; cases hq
    · rw [upd_ne _ _ hqp] at hq; exact h.2.2 q m hq
  null_ t := rfl

/-- Non-vacuity: two threads, whose calls overlap, get blocks of their own. -/
def twoCalls : List Ev := [.call 0 (.alloc 10), .call 1 (.alloc 20), .step 1, .step 0, .step 1, .step 1, .step 0, .step 1, .step 0, .step 0, .step 0, .step 0]
example : (run bump 64 twoCalls).held 64 = some 20 ∧ (run bump 64 twoCalls).held 88 = some 10 ∧ (run bump 64 twoCalls).lock = false := by decide

/-! ### What is violated -/

/-- **C117 is violated: looking.** `arch_alloc_inspect`, which vdf calls for each of its pages, takes no lock: it walks the pool while another thread changes it. -/
theorem C117_violated_inspect : ∃ evs, (run bump 64 evs).pc 0 = .walking ∧ (run bump 64 evs).pc 1 = .inside (.alloc 10) :=
  ⟨[.inspect 0, .call 1 (.alloc 10), .step 1, .step 1], by decide, by decide⟩

/-- **C117 is violated: a killed caller.** If a thread is killed between taking the lock and giving it back, then, whatever happens afterwards, the lock stays taken, and no call gets into TLSF any more. -/
theorem C117_violated_killed {σ : Type} (P : Pool σ) (t : σ) (evs : List Ev) (i : Nat) (hi : ((run P t evs).pc i).holds = true) (more : List Ev) :
    (run P t (evs ++ .die i :: more)).lock = true ∧ ∀ j o, (run P t (evs ++ .die i :: more)).pc j ≠ .inside o := by
  have hk := lk_run P t evs
  have stuck : ∀ (l : List Ev) (s : St σ), (s.lock = true ∧ ∀ j, (s.pc j).holds = false) → ((l.foldl (step P) s).lock = true ∧ ∀ j, ((l.foldl (step P) s).pc j).holds = false) := by
    intro l
    induction l with
    | nil => intro s h; exact h
    | cons e es ih =>
      intro s h
      refine ih _ ?_
      have move : ∀ (i : Nat) (v : Pc) (s' : St σ), s'.lock = s.lock → s'.pc = upd s.pc i v → v.holds = false → (s'.lock = true ∧ ∀ j, (s'.pc j).holds = false) := by
        intro i v s' el ep hv
        refine ⟨by rw [el]; exact h.1, fun j => ?_⟩
        rw [ep]
        by_cases hij : j = i
        · subst hij; rw [upd_same]; exact hv
        · rw [upd_ne _ _ hij]; exact h.2 j
      cases e with
      | call i o => simp only [step]; split
                    · exact move i (.want o) _ rfl rfl rfl
                    · exact h
      | inspect i => simp only [step]; split
                     · exact move i .walking _ rfl rfl rfl
                     · exact h
      | die i => exact move i .dead _ rfl rfl rfl
      | step i =>
        simp only [step]
        have hi := h.2 i
        cases hp : s.pc i with
        | idle => have e : stepOf P s i = s := by simp [stepOf, hp]
                  rw [e]; exact h
        | dead => have e : stepOf P s i = s := by simp [stepOf, hp]
                  rw [e]; exact h
        | want o => have e : stepOf P s i = s := by simp [stepOf, hp, h.1]
                    rw [e]; exact h
        | walking =>
          have e : stepOf P s i = { s with pc := upd s.pc i .idle } := by simp [stepOf, hp]
          rw [e]; exact move i .idle _ rfl rfl rfl
        | has o => rw [hp] at hi; cases hi
        | inside o => rw [hp] at hi; cases hi
        | back o r => rw [hp] at hi; cases hi
  have e : run P t (evs ++ .die i :: more) = more.foldl (step P) { run P t evs with pc := upd (run P t evs).pc i .dead } := by simp [run, List.foldl_append, step]
  rw [e]
  have := stuck more { run P t evs with pc := upd (run P t evs).pc i .dead } ⟨hk.lk i hi, fun j => by
    dsimp only
    by_cases hij : j = i
    · subst hij; rw [upd_same]; rfl
    · rw [upd_ne _ _ hij]
      cases hj : ((run P t evs).pc j).holds with
      | false => rfl
      | true => exact absurd (hk.one j i hj hi) hij⟩
  refine ⟨this.1, fun j o hj => ?_⟩
  have h2 := this.2 j
  rw [hj] at h2; cases h2

/-- Non-vacuity: such a thread. -/
example : ((run bump 64 [.call 0 (.alloc 10), .step 0]).pc 0).holds = true := by decide

/-- **C117 is violated: statistics.** 20 bytes are in use; `arch_alloc_stats` tells of none, in a segment of none. -/
theorem C117_violated_stats : ∃ evs, (run bump 64 evs).held 64 = some 20 ∧ stats (run bump 64 evs) = (0, 0) := ⟨twoCalls, by decide, rfl⟩

/-- **C117 is violated: pages.** `arax_mmap` gives null for every size, the bitmap of pages is null. -/
theorem C117_violated_pages (n : Nat) : mmap n = 0 := rfl

theorem area_eq (w hdr shm : Nat) (h0 : 0 < hdr) (h1 : hdr + 24 ≤ shm) (h3 : shm ≤ w) : ((shm + w - hdr) % w + w - 24) % w = shm - hdr - 24 := by
  have e1 : shm + w - hdr = (shm - hdr) + w := by omega
  rw [e1, Nat.add_mod_right, Nat.mod_eq_of_lt (show shm - hdr < w by omega)]
  have e2 : shm - hdr + w - 24 = (shm - hdr - 24) + w := by omega
  rw [e2, Nat.add_mod_right, Nat.mod_eq_of_lt (by omega)]

/-- **C117 (area).** In a segment that is larger than its header and the allocator's record, the pool lies in the segment behind both. -/
theorem C117_area (base off hdr shm : Nat) (h0 : 0 < hdr) (h1 : hdr + 24 ≤ shm) (h2 : off ≤ hdr) (h3 : base + shm ≤ W) :
    base + off + 24 ≤ (area base off hdr shm).1 ∧ (area base off hdr shm).1 + (area base off hdr shm).2 ≤ base + shm ∧ (area base off hdr shm).2 = shm - hdr - 24 := by
  have e : (area base off hdr shm).2 = shm - hdr - 24 := area_eq W hdr shm h0 h1 (by omega)
  refine ⟨Nat.le_refl _, ?_, e⟩
  rw [e]
  show base + off + 24 + (shm - hdr - 24) ≤ base + shm
  omega

/-- **C117 is violated: small segments.** If the segment is as large as its header (no check is made), TLSF is told that nearly 2^64 bytes are its own. -/
theorem C117_violated_small : (area 4096 3992 4000 4000).2 = 18446744073709551592 := by decide +kernel

end Arax.Tlsf
