/-!
# Spinlock-protected code on processors that delay stores

`/repo/src/utils/spinlock.h` protects plain (non-atomic) accesses with `__sync_*` builtins.  The other models take
memory to be sequentially consistent.  Here every thread has a store buffer: a plain store enters the buffer and reaches
memory later, stores to different addresses in any order (`TSO` machines, which keep the order, are among the schedules);
a load sees the thread's own buffered stores first.  The `__sync_*` builtins are full barriers: they wait until the buffer of their
thread is empty.

The code between `utils_spinlock_lock` and `utils_spinlock_unlock` is any program: it loads, decides by what it loaded, stores, and ends with a
result.  Loops are finite trees for each input read.
-/
namespace Arax.Tso

/-- Code between `utils_spinlock_lock` and `utils_spinlock_unlock` of one lock, e.g. /repo/src/utils/queue.c:99-120,
/repo/src/utils/Kv.c:12-30: plain loads and stores of shared words, then a result.  Private computation is part of the Lean functions. -/
inductive Sec (R : Type) where
  | done (r : R)
  | ld (a : Nat) (k : Nat → Sec R)
  | st (a v : Nat) (q : Sec R)

/-- Memory with one word changed (model bookkeeping, no code of its own). -/
def wr (m : Nat → Nat) (a v : Nat) : Nat → Nat := fun x => if x = a then v else m x

/-! ## Specification -/

/-- What the section does when it is executed alone and at once. -/
def Sec.alone {R : Type} : Sec R → (Nat → Nat) → (Nat → Nat) × R
  | .done r, m => (m, r)
  | .ld a k, m => (k (m a)).alone m
  | .st a v q, m => q.alone (wr m a v)

/-- Starting from memory `m`, executing the sections one after the other, each alone, gives exactly the recorded results and
leaves the memory `m'`. -/
inductive Serial {R : Type} (m : Nat → Nat) : List (Nat × Sec R × R) → (Nat → Nat) → Prop where
  | nil : Serial m [] m
  | snoc {l m'} (i : Nat) (q : Sec R) : Serial m l m' → Serial m (l ++ [(i, q, (q.alone m').2)]) (q.alone m').1

/-! ## The machine -/

/-- Control state of a thread; line numbers of spinlock.h in brackets. (/repo/src/utils/spinlock.h:32-52.) -/
inductive Pc (R : Type) where
  | idle
  | spin (q : Sec R)          -- about to read the lock word [35]
  | cas (q : Sec R)           -- about to compare-and-swap it [37]
  | inside (q0 q : Sec R)     -- holds the lock; `q0` is the section, `q` what is left of it
  | chk (q0 : Sec R) (r : R)  -- in unlock: about to read the lock word for the assertion [50]
  | rel (q0 : Sec R) (r : R)  -- about to fetch-and-and [51]

/-- Memory, lock word, store buffers (oldest first), threads.  `log` is a history variable: sections completed, in the order of
their releases.  `failed`: the assertion of spinlock.h:50 has fired. -/
structure St (R : Type) where
  mem : Nat → Nat
  lock : Nat
  buf : Nat → List (Nat × Nat)
  pc : Nat → Pc R
  log : List (Nat × Sec R × R)
  failed : Bool

/-- Everything written so far to the memory `m` and then the stores of buffer `b`: what its thread sees. (The processor (x86-TSO).) -/
def over (b : List (Nat × Nat)) (m : Nat → Nat) : Nat → Nat := b.foldl (fun m w => wr m w.1 w.2) m

/-- Model bookkeeping, no code of its own: thread `i` goes to `p`. -/
def St.goto {R : Type} (s : St R) (i : Nat) (p : Pc R) : St R := { s with pc := fun j => if j = i then p else s.pc j }

/-- Model bookkeeping, no code of its own: the buffer of `i` becomes `b`. -/
def St.setBuf {R : Type} (s : St R) (i : Nat) (b : List (Nat × Nat)) : St R :=
  { s with buf := fun j => if j = i then b else s.buf j }

/-- One instruction of thread `i`; an idle thread starts the section `q`.  /repo/src/utils/spinlock.h:32-52.  The lock word is
only written by atomic builtins, so it is in no buffer. -/
def step {R : Type} (s : St R) (i : Nat) (q : Sec R) : St R :=
  match s.pc i with
  | .idle => s.goto i (.spin q)
  | .spin q => if s.lock ≠ 0 then s else s.goto i (.cas q)
  | .cas q =>
    if s.buf i ≠ [] then s
    else if s.lock = 0 then { s with lock := 1 }.goto i (.inside q q) else s.goto i (.spin q)
  | .inside q0 (.done r) => s.goto i (.chk q0 r)
  | .inside q0 (.ld a k) => s.goto i (.inside q0 (k (over (s.buf i) s.mem a)))
  | .inside q0 (.st a v q) => (s.setBuf i (s.buf i ++ [(a, v)])).goto i (.inside q0 q)
  | .chk q0 r => if s.lock = 0 then { s with failed := true } else s.goto i (.rel q0 r)
  | .rel q0 r =>
    if s.buf i ≠ [] then s else { s with lock := 0, log := s.log ++ [(i, q0, r)] }.goto i .idle

/-- The processor of thread `i` writes the `n`-th buffered store to memory, if there is one and no older store to the same
address is waiting. (The processor (x86-TSO).) -/
def flush {R : Type} (s : St R) (i n : Nat) : St R :=
  match (s.buf i)[n]? with
  | none => s
  | some w =>
    if ((s.buf i).take n).all (fun u => u.1 != w.1) then
      { s with mem := wr s.mem w.1 w.2 }.setBuf i ((s.buf i).eraseIdx n)
    else s

/-- All threads idle, the lock free (spinlock.h:19-22), memory `m`. -/
def init (R : Type) (m : Nat → Nat) : St R :=
  { mem := m, lock := 0, buf := fun _ => [], pc := fun _ => .idle, log := [], failed := false }

/-- Every schedule of any number of threads executing any sections, and of their store buffers. (No code of its own.) -/
inductive Reach {R : Type} (m : Nat → Nat) : St R → Prop where
  | init : Reach m (init R m)
  | step {s} (i : Nat) (q : Sec R) : Reach m s → Reach m (step s i q)
  | flush {s} (i n : Nat) : Reach m s → Reach m (flush s i n)

/-! ## Proof -/

theorem wr_comm (m : Nat → Nat) {a b : Nat} (v w : Nat) (h : a ≠ b) : wr (wr m a v) b w = wr (wr m b w) a v := by
  funext x; simp only [wr]; split <;> split <;> simp_all

theorem over_append (b c : List (Nat × Nat)) (m : Nat → Nat) : over (b ++ c) m = over c (over b m) := by
  simp [over, List.foldl_append]

/-- Writing the `n`-th buffered store early changes nothing for the thread itself. -/
theorem over_flush (b : List (Nat × Nat)) : ∀ (m : Nat → Nat) (n : Nat) (w : Nat × Nat), b[n]? = some w →
    (b.take n).all (fun u => u.1 != w.1) = true → over (b.eraseIdx n) (wr m w.1 w.2) = over b m := by
  induction b with
  | nil => intro m n w h; simp at h
  | cons u b ih =>
    intro m n w h ha
    cases n with
    | zero => simp at h; subst h; rfl
    | succ n =>
      simp only [List.getElem?_cons_succ] at h
      simp only [List.take_succ_cons, List.all_cons, Bool.and_eq_true, bne_iff_ne] at ha
      show over (b.eraseIdx n) (wr (wr m w.1 w.2) u.1 u.2) = over b (wr m u.1 u.2)
      rw [wr_comm m _ _ (Ne.symm ha.1)]
      exact ih _ n w h ha.2

/-- The thread holds the lock, has section `q0`, and what is left is `q`. -/
def Holds {R : Type} (p : Pc R) (q0 q : Sec R) : Prop :=
  p = .inside q0 q ∨ (∃ r, q = .done r ∧ (p = .chk q0 r ∨ p = .rel q0 r))

structure Inv {R : Type} (m : Nat → Nat) (s : St R) : Prop where
  nofail : s.failed = false
  free : s.lock = 0 → (∀ i, s.buf i = []) ∧ (∀ i q0 q, ¬ Holds (s.pc i) q0 q) ∧ Serial m s.log s.mem
  held : s.lock ≠ 0 → ∃ i q0 q m', Holds (s.pc i) q0 q ∧ Serial m s.log m' ∧ q.alone (over (s.buf i) s.mem) = q0.alone m'
    ∧ ∀ j, j ≠ i → s.buf j = [] ∧ ∀ p0 p, ¬ Holds (s.pc j) p0 p

theorem inv_init {R : Type} (m : Nat → Nat) : Inv m (init R m) where
  nofail := rfl
  free _ := ⟨fun _ => rfl, fun _ q0 q h => (by rcases h with h | ⟨r, _, h | h⟩ <;> cases h), .nil⟩
  held h := absurd rfl h

theorem inv_flush {R : Type} (m : Nat → Nat) (s : St R) (h : Inv m s) (i n : Nat) : Inv m (flush s i n) := by
  unfold flush
  split
  · exact h
  · rename_i w hw
    split
    · rename_i ha
      have hl : s.lock ≠ 0 := by
        intro hl; rw [(h.free hl).1 i] at hw; simp at hw
      refine ⟨h.nofail, fun hl' => absurd hl' hl, fun _ => ?_⟩
      obtain ⟨k, q0, q, m', hk, hs, he, ho⟩ := h.held hl
      have hik : i = k := by
        by_cases hik : i = k
        · exact hik
        · rw [(ho i hik).1] at hw; simp at hw
      subst hik
      refine ⟨i, q0, q, m', hk, hs, ?_, fun j hj => ⟨?_, (ho j hj).2⟩⟩
      · show q.alone (over (if i = i then _ else _) (wr s.mem w.1 w.2)) = _
        rw [if_pos rfl, over_flush _ _ _ _ hw ha, he]
      · show (if j = i then _ else _) = _
        rw [if_neg hj]; exact (ho j hj).1
    · exact h

/-- A step of a thread without the lock that stays without it. -/
theorem inv_goto_out {R : Type} (m : Nat → Nat) (s : St R) (h : Inv m s) (i : Nat) (p : Pc R)
    (h1 : ∀ q0 q, ¬ Holds (s.pc i) q0 q) (h2 : ∀ q0 q, ¬ Holds p q0 q) : Inv m (s.goto i p) := by
  have hp : ∀ j q0 q, Holds ((s.goto i p).pc j) q0 q → Holds (s.pc j) q0 q ∧ j ≠ i := by
    intro j q0 q hh
    by_cases hj : j = i
    · subst hj; simp only [St.goto, if_pos] at hh; exact absurd hh (h2 _ _)
    · simp only [St.goto, if_neg hj] at hh; exact ⟨hh, hj⟩
  refine ⟨h.nofail, fun hl => ?_, fun hl => ?_⟩
  · obtain ⟨a, b, c⟩ := h.free hl
    exact ⟨a, fun j q0 q hh => b j q0 q (hp j q0 q hh).1, c⟩
  · obtain ⟨k, q0, q, m', hk, hs, he, ho⟩ := h.held hl
    have hki : k ≠ i := fun e => h1 _ _ (e ▸ hk)
    refine ⟨k, q0, q, m', ?_, hs, he, fun j hj => ⟨(ho j hj).1, fun p0 p' hh => (ho j hj).2 p0 p' (hp j _ _ hh).1⟩⟩
    simpa only [St.goto, if_neg hki] using hk

/-- A step of the thread with the lock that keeps it. -/
theorem inv_goto_in {R : Type} (m : Nat → Nat) (s : St R) (h : Inv m s) (i : Nat) (p : Pc R) (b : List (Nat × Nat)) (q0 q q1 : Sec R)
    (h1 : Holds (s.pc i) q0 q) (hu : ∀ p0 p', Holds (s.pc i) p0 p' → p0 = q0 ∧ p' = q) (h2 : Holds p q0 q1)
    (h3 : q1.alone (over b s.mem) = q.alone (over (s.buf i) s.mem)) : Inv m ((s.setBuf i b).goto i p) := by
  have hl : s.lock ≠ 0 := fun hl => (h.free hl).2.1 i q0 q h1
  refine ⟨h.nofail, fun hl' => absurd hl' hl, fun _ => ?_⟩
  obtain ⟨k, p0, p', m', hk, hs, he, ho⟩ := h.held hl
  have hik : i = k := by
    by_cases hik : i = k
    · exact hik
    · exact absurd h1 ((ho i hik).2 _ _)
  subst hik
  obtain ⟨e1, e2⟩ := hu _ _ hk
  subst e1 e2
  refine ⟨i, p0, q1, m', ?_, hs, ?_, fun j hj => ⟨?_, ?_⟩⟩
  · simp only [St.goto, St.setBuf, if_pos]; exact h2
  · simp only [St.goto, St.setBuf, if_pos]; rw [h3, he]
  · simp only [St.goto, St.setBuf, if_neg hj]; exact (ho j hj).1
  · simp only [St.goto, St.setBuf, if_neg hj]; exact (ho j hj).2

theorem setBuf_self {R : Type} (s : St R) (i : Nat) : s.setBuf i (s.buf i) = s := by
  cases s; simp only [St.setBuf, St.mk.injEq, true_and, and_true]
  funext j; split <;> simp_all

theorem not_holds_idle {R : Type} (q0 q : Sec R) : ¬ Holds .idle q0 q := by
  rintro (h | ⟨r, _, h | h⟩) <;> cases h
theorem not_holds_spin {R : Type} (p q0 q : Sec R) : ¬ Holds (.spin p) q0 q := by
  rintro (h | ⟨r, _, h | h⟩) <;> cases h
theorem not_holds_cas {R : Type} (p q0 q : Sec R) : ¬ Holds (.cas p) q0 q := by
  rintro (h | ⟨r, _, h | h⟩) <;> cases h

theorem holds_inside {R : Type} {p0 p q0 q : Sec R} (h : Holds (.inside p0 p) q0 q) : q0 = p0 ∧ q = p := by
  rcases h with h | ⟨r, _, h | h⟩ <;> cases h; exact ⟨rfl, rfl⟩
theorem holds_chk {R : Type} {p0 q0 q : Sec R} {r : R} (h : Holds (.chk p0 r) q0 q) : q0 = p0 ∧ q = .done r := by
  rcases h with h | ⟨r, e, h | h⟩ <;> cases h; exact ⟨rfl, e⟩
theorem holds_rel {R : Type} {p0 q0 q : Sec R} {r : R} (h : Holds (.rel p0 r) q0 q) : q0 = p0 ∧ q = .done r := by
  rcases h with h | ⟨r, e, h | h⟩ <;> cases h; exact ⟨rfl, e⟩

theorem inv_step {R : Type} (m : Nat → Nat) (s : St R) (h : Inv m s) (i : Nat) (cmd : Sec R) : Inv m (step s i cmd) := by
  unfold step
  split
  · rename_i hp
    exact inv_goto_out m s h i _ (by rw [hp]; exact not_holds_idle) (not_holds_spin _)
  · rename_i q hp
    split
    · exact h
    · exact inv_goto_out m s h i _ (by rw [hp]; exact not_holds_spin _) (not_holds_cas _)
  · rename_i q hp
    split
    · exact h
    · rename_i hb
      have hb : s.buf i = [] := Classical.not_not.1 hb
      split
      · rename_i hl
        obtain ⟨f1, f2, f3⟩ := h.free hl
        refine ⟨h.nofail, fun hl' => absurd hl' (by simp [St.goto]), fun _ => ⟨i, q, q, s.mem, ?_, f3, ?_, fun j hj => ⟨f1 j, ?_⟩⟩⟩
        · simp only [St.goto, if_pos]; exact .inl rfl
        · simp only [St.goto]; rw [hb]; rfl
        · simp only [St.goto, if_neg hj]; exact f2 j
      · exact inv_goto_out m s h i _ (by rw [hp]; exact not_holds_cas _) (not_holds_spin _)
  · rename_i q0 r hp
    rw [← setBuf_self s i]
    exact inv_goto_in m s h i _ _ q0 (.done r) (.done r) (by rw [hp]; exact .inl rfl) (by rw [hp]; exact fun _ _ => holds_inside)
      (.inr ⟨r, rfl, .inl rfl⟩) rfl
  · rename_i q0 a k hp
    have := inv_goto_in m s h i (.inside q0 (k (over (s.buf i) s.mem a))) (s.buf i) q0 (.ld a k) (k (over (s.buf i) s.mem a))
      (by rw [hp]; exact .inl rfl) (by rw [hp]; exact fun _ _ => holds_inside) (.inl rfl) rfl
    rwa [setBuf_self] at this
  · rename_i q0 a v q hp
    exact inv_goto_in m s h i _ _ q0 (.st a v q) q (by rw [hp]; exact .inl rfl) (by rw [hp]; exact fun _ _ => holds_inside)
      (.inl rfl) (by rw [over_append]; rfl)
  · rename_i q0 r hp
    have hh : Holds (s.pc i) q0 (.done r) := by rw [hp]; exact .inr ⟨r, rfl, .inl rfl⟩
    split
    · rename_i hl
      exact absurd hh ((h.free hl).2.1 i _ _)
    · have := inv_goto_in m s h i (.rel q0 r) (s.buf i) q0 (.done r) (.done r) hh (by rw [hp]; exact fun _ _ => holds_chk)
        (.inr ⟨r, rfl, .inr rfl⟩) rfl
      rwa [setBuf_self] at this
  · rename_i q0 r hp
    have hh : Holds (s.pc i) q0 (.done r) := by rw [hp]; exact .inr ⟨r, rfl, .inr rfl⟩
    split
    · exact h
    · rename_i hb
      have hb : s.buf i = [] := Classical.not_not.1 hb
      have hl : s.lock ≠ 0 := fun hl => (h.free hl).2.1 i _ _ hh
      obtain ⟨k, p0, p', m', hk, hs, he, ho⟩ := h.held hl
      have hik : i = k := by
        by_cases hik : i = k
        · exact hik
        · exact absurd hh ((ho i hik).2 _ _)
      subst hik
      rw [hp] at hk
      obtain ⟨e1, e2⟩ := holds_rel hk
      subst e1 e2
      rw [hb] at he
      refine ⟨h.nofail, fun _ => ⟨fun j => ?_, fun j a b => ?_, ?_⟩, fun hl' => absurd rfl hl'⟩
      · by_cases hj : j = i
        · subst hj; exact hb
        · exact (ho j hj).1
      · by_cases hj : j = i
        · subst hj; simp only [St.goto, if_pos]; exact not_holds_idle _ _
        · simp only [St.goto, if_neg hj]; exact (ho j hj).2 _ _
      · have e1 : s.mem = (p0.alone m').1 := congrArg Prod.fst he
        have e2 : r = (p0.alone m').2 := congrArg Prod.snd he
        show Serial m (s.log ++ [(i, p0, r)]) s.mem
        rw [e1, e2]
        exact .snoc i p0 hs

theorem inv_reach {R : Type} (m : Nat → Nat) (s : St R) (h : Reach m s) : Inv m s := by
  induction h with
  | init => exact inv_init m
  | step i q _ ih => exact inv_step m _ ih i q
  | flush i n _ ih => exact inv_flush m _ ih i n

/-- C83: with store buffers that write back in any order, sections protected by a spinlock still behave as if each were
executed alone and at once, in the order of their releases: same results; the memory, whenever the lock is free, is theirs; and
the assertion of `utils_spinlock_unlock` does not fire. -/
theorem C83_sections_serial {R : Type} (m : Nat → Nat) (s : St R) (h : Reach m s) :
    s.failed = false ∧ (∃ m', Serial m s.log m') ∧ (s.lock = 0 → Serial m s.log s.mem) := by
  have inv := inv_reach m s h
  refine ⟨inv.nofail, ?_, fun hl => (inv.free hl).2.2⟩
  by_cases hl : s.lock = 0
  · exact ⟨_, (inv.free hl).2.2⟩
  · obtain ⟨_, _, _, m', _, hs, _⟩ := inv.held hl
    exact ⟨m', hs⟩

/-- C83: and what a thread inside a section sees of memory is what it would see alone: the next value it loads is the one of
the execution one after the other. `q` is what is left of its section `q0`; `m'` is the memory left by the sections before it. -/
theorem C83_inside_serial {R : Type} (m : Nat → Nat) (s : St R) (h : Reach m s) (i : Nat) (q0 q : Sec R) (hp : s.pc i = .inside q0 q) :
    ∃ m', Serial m s.log m' ∧ q.alone (over (s.buf i) s.mem) = q0.alone m' ∧ ∀ j p0 p, s.pc j = .inside p0 p → j = i := by
  have inv := inv_reach m s h
  have hh : Holds (s.pc i) q0 q := .inl hp
  have hl : s.lock ≠ 0 := fun hl => (inv.free hl).2.1 i _ _ hh
  obtain ⟨k, p0, p', m', hk, hs, he, ho⟩ := inv.held hl
  have hik : i = k := by
    by_cases hik : i = k
    · exact hik
    · exact absurd hh ((ho i hik).2 _ _)
  subst hik
  rw [hp] at hk
  obtain ⟨e1, e2⟩ := holds_inside hk
  subst e1 e2
  refine ⟨m', hs, he, fun j a b hj => ?_⟩
  by_cases e : j = i
  · exact e
  · exact absurd (.inl hj) ((ho j e).2 a b)

end Arax.Tso
