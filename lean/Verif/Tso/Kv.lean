import Verif.Tso.Section
import Verif.Kv.Model
/-!
# `/repo/src/utils/Kv.c` as sections of a spinlock on processors that delay stores

`Verif/Kv` takes each call as one step.  Here the calls are the individual loads and stores of Kv.c between lock and
unlock, any number of threads call, every store goes through a store buffer, and the result is again the one-step store of `Verif/Kv`.
-/
namespace Arax.Tso.KvC
open Arax.Tso Arax.Kv

/-- The result of a call: `utils_kv_set` returned; `utils_kv_get` returned the address of this slot's value (`none` = NULL); the
call ended in the assertion of Kv.c:30; an access outside the array. -/
inductive Ret where
  | unit
  | slot (o : Option Nat)
  | abort
  | ub
  deriving DecidableEq

/-- Kv.c:18-24, 40-45: the loop; `kv->pairs` (word 0) is loaded for every test, `kv->kv[itr].key` is word `1 + 2 * itr`, its value word
`2 + 2 * itr`. `n` bounds the iterations (`cap + 1` is enough as long as `pairs` is not above `cap`; otherwise the array is left
first, `ub`). -/
def loop (cap k : Nat) (found : Nat → Sec Ret) (no : Sec Ret) : Nat → Nat → Sec Ret
  | _, 0 => .done .ub
  | itr, n + 1 =>
    .ld 0 fun p => if itr < p then
        if cap ≤ itr then .done .ub
        else .ld (1 + 2 * itr) fun x => if x = k then found itr else loop cap k found no (itr + 1) n
      else no

/-- Kv.c:18-32 `utils_kv_set` between lock and unlock (the unlocks of lines 21, 29 and 32 are the end of the section). -/
def setSec (cap k v : Nat) : Sec Ret :=
  loop cap k (fun i => .st (2 + 2 * i) v (.done .unit))
    (.ld 0 fun p => if p < cap then
        .ld 0 fun p => .st (1 + 2 * p) k (.ld 0 fun p => .st 0 (p + 1) (.st (2 + 2 * p) v (.done .unit)))
      else .done .abort) 0 (cap + 1)

/-- Kv.c:40-47 `utils_kv_get` between lock and unlock. -/
def getSec (cap k : Nat) : Sec Ret :=
  loop cap k (fun i => .done (.slot (some i))) (.done (.slot none)) 0 (cap + 1)

/-- A call. Kv.c:11, 35. -/
inductive Op where
  | set (k v : Nat)
  | get (k : Nat)

/-- The section of a call. Kv.c:11-48. -/
def sec (cap : Nat) : Op → Sec Ret
  | .set k v => setSec cap k v
  | .get k => getSec cap k

/-! ## Specification: the calls one after the other on the store of `Verif/Kv` -/

/-- One call on the store: the new store and the result. -/
def call (cap : Nat) (kv : Kv) : Op → Kv × Ret
  | .set k v =>
    match Kv.set cap kv k v with
    | .ok kv' => (kv', .unit)
    | .abort => (kv, .abort)
    | .ub => (kv, .ub)
  | .get k =>
    match Kv.getSlot cap kv k with
    | .ok o => (kv, .slot o)
    | .abort => (kv, .abort)
    | .ub => (kv, .ub)

/-- Calls one after the other, with their results. -/
def calls (cap : Nat) : Kv → List Op → Kv × List Ret
  | kv, [] => (kv, [])
  | kv, o :: l => ((calls cap (call cap kv o).1 l).1, (call cap kv o).2 :: (calls cap (call cap kv o).1 l).2)

/-- The store laid out in memory (Kv.h:10-19). -/
def view (m : Nat → Nat) : Kv := { key := fun j => m (1 + 2 * j), value := fun j => m (2 + 2 * j), pairs := m 0 }

/-! ## Proof -/

theorem loop_alone (cap k : Nat) (found : Nat → Sec Ret) (no : Sec Ret) (m : Nat → Nat) (hp : m 0 ≤ cap) :
    ∀ n itr, itr ≤ m 0 → m 0 < itr + n →
      (loop cap k found no itr n).alone m = (match Kv.scan cap (view m) k itr (m 0 - itr) with
        | .ok (some i) => (found i).alone m
        | .ok none => no.alone m
        | .abort => (m, .abort)
        | .ub => (m, .ub)) := by
  intro n
  induction n with
  | zero => intro itr h1 h2; omega
  | succ n ih =>
    intro itr h1 h2
    rw [loop]
    show (if itr < m 0 then _ else _ : Sec Ret).alone m = _
    by_cases h : itr < m 0
    · rw [if_pos h, if_neg (by omega)]
      obtain ⟨d, hd⟩ : ∃ d, m 0 - itr = d + 1 := ⟨m 0 - itr - 1, by omega⟩
      rw [hd, Kv.scan, if_neg (by omega)]
      show (if m (1 + 2 * itr) = k then _ else _ : Sec Ret).alone m = _
      by_cases hk : m (1 + 2 * itr) = k
      · rw [if_pos hk, if_pos (show (view m).key itr = k from hk)]
      · rw [if_neg hk, if_neg (show ¬ (view m).key itr = k from hk), ih (itr + 1) (by omega) (by omega)]
        rw [show m 0 - (itr + 1) = d by omega]
    · rw [if_neg h, show m 0 - itr = 0 by omega, Kv.scan]

theorem scan_lt (cap : Nat) (kv : Kv) (k : Nat) : ∀ n itr i, Kv.scan cap kv k itr n = .ok (some i) → i < itr + n ∧ itr ≤ i := by
  intro n
  induction n with
  | zero => intro itr i h; simp [Kv.scan] at h
  | succ n ih =>
    intro itr i h
    rw [Kv.scan] at h
    split at h
    · cases h
    · split at h
      · cases h; omega
      · have := ih _ _ h; omega

theorem view_value (m : Nat → Nat) (i v : Nat) :
    view (wr m (2 + 2 * i) v) = { view m with value := fun j => if j = i then v else m (2 + 2 * j) } := by
  simp only [view, wr, Kv.mk.injEq]
  refine ⟨?_, ?_, ?_⟩
  · funext j; rw [if_neg (by omega)]
  · funext j; by_cases h : j = i
    · subst h; simp
    · rw [if_neg (by omega), if_neg h]
  · rw [if_neg (by omega)]

theorem view_add (m : Nat → Nat) (k v : Nat) :
    view (wr (wr (wr m (1 + 2 * m 0) k) 0 (m 0 + 1)) (2 + 2 * m 0) v)
      = { key := fun j => if j = m 0 then k else m (1 + 2 * j),
          value := fun j => if j = m 0 then v else m (2 + 2 * j), pairs := m 0 + 1 } := by
  simp only [view, wr, Kv.mk.injEq]
  refine ⟨?_, ?_, ?_⟩
  · funext j
    rw [if_neg (by omega), if_neg (by omega)]
    by_cases h : j = m 0
    · subst h; simp
    · rw [if_neg (by omega), if_neg h]
  · funext j
    by_cases h : j = m 0
    · subst h; simp
    · rw [if_neg (by omega), if_neg (by omega), if_neg (by omega), if_neg h]
  · rw [if_neg (by omega)]; simp

/-- One call alone is the call of `Verif/Kv`. -/
theorem sec_alone (cap : Nat) (m : Nat → Nat) (hp : m 0 ≤ cap) (o : Op) :
    view ((sec cap o).alone m).1 = (call cap (view m) o).1 ∧ ((sec cap o).alone m).2 = (call cap (view m) o).2
      ∧ ((sec cap o).alone m).1 0 ≤ cap := by
  cases o with
  | get k =>
    have hl := loop_alone cap k (fun i => .done (.slot (some i))) (.done (.slot none)) m hp (cap + 1) 0 (by omega) (by omega)
    rw [Nat.sub_zero] at hl
    have hl' : (sec cap (.get k)).alone m = _ := hl
    rw [hl', call, Kv.getSlot]
    show _ ∧ _ ∧ _
    rw [show (view m).pairs = m 0 from rfl]
    cases Kv.scan cap (view m) k 0 (m 0) with
    | ok o => cases o <;> exact ⟨rfl, rfl, hp⟩
    | abort => exact ⟨rfl, rfl, hp⟩
    | ub => exact ⟨rfl, rfl, hp⟩
  | set k v =>
    have hl := loop_alone cap k (fun i => .st (2 + 2 * i) v (.done .unit))
      (.ld 0 fun p => if p < cap then
          .ld 0 fun p => .st (1 + 2 * p) k (.ld 0 fun p => .st 0 (p + 1) (.st (2 + 2 * p) v (.done .unit)))
        else .done .abort) m hp (cap + 1) 0 (by omega) (by omega)
    rw [Nat.sub_zero] at hl
    have hl' : (sec cap (.set k v)).alone m = _ := hl
    rw [hl', call, Kv.set]
    rw [show (view m).pairs = m 0 from rfl]
    cases hs : Kv.scan cap (view m) k 0 (m 0) with
    | abort => exact ⟨rfl, rfl, hp⟩
    | ub => exact ⟨rfl, rfl, hp⟩
    | ok o =>
      cases o with
      | some i =>
        refine ⟨?_, rfl, ?_⟩
        · exact view_value m i v
        · show (wr m (2 + 2 * i) v) 0 ≤ cap
          rw [wr, if_neg (by omega)]; exact hp
      | none =>
        by_cases hc : m 0 < cap
        · have e : (Sec.ld 0 fun p => if p < cap then
              .ld 0 fun p => .st (1 + 2 * p) k (.ld 0 fun p => .st 0 (p + 1) (.st (2 + 2 * p) v (.done .unit)))
              else .done .abort : Sec Ret).alone m
              = (wr (wr (wr m (1 + 2 * m 0) k) 0 (m 0 + 1)) (2 + 2 * m 0) v, Ret.unit) := by
            show (if m 0 < cap then _ else _ : Sec Ret).alone m = _
            rw [if_pos hc]
            have e0 : wr m (1 + 2 * m 0) k 0 = m 0 := by rw [wr, if_neg (by omega)]
            simp only [Sec.alone, e0]
          simp only [e, Bind.bind, Res.bind, if_pos hc]
          refine ⟨view_add m k v, rfl, ?_⟩
          show (wr (wr (wr m (1 + 2 * m 0) k) 0 (m 0 + 1)) (2 + 2 * m 0) v) 0 ≤ cap
          rw [wr, if_neg (by omega), wr, if_pos rfl]; omega
        · have e : (Sec.ld 0 fun p => if p < cap then
              .ld 0 fun p => .st (1 + 2 * p) k (.ld 0 fun p => .st 0 (p + 1) (.st (2 + 2 * p) v (.done .unit)))
              else .done .abort : Sec Ret).alone m = (m, Ret.abort) := by
            show (if m 0 < cap then _ else _ : Sec Ret).alone m = _
            rw [if_neg hc]; rfl
          simp only [e, Bind.bind, Res.bind, if_neg hc]
          exact ⟨trivial, trivial, hp⟩

theorem calls_snoc (cap : Nat) (o : Op) : ∀ (l : List Op) (kv : Kv),
    calls cap kv (l ++ [o]) = ((call cap (calls cap kv l).1 o).1, (calls cap kv l).2 ++ [(call cap (calls cap kv l).1 o).2]) := by
  intro l
  induction l with
  | nil => intro kv; rfl
  | cons a l ih => intro kv; simp only [List.cons_append, calls, ih]

theorem serial_calls (cap : Nat) (m : Nat → Nat) (hp : m 0 ≤ cap) (l : List (Nat × Sec Ret × Ret)) (m' : Nat → Nat)
    (h : Serial m l m') : ∀ ops : List Op, l.map (fun e => e.2.1) = ops.map (sec cap) →
      view m' = (calls cap (view m) ops).1 ∧ l.map (fun e => e.2.2) = (calls cap (view m) ops).2 ∧ m' 0 ≤ cap := by
  induction h with
  | nil =>
    intro ops ho
    cases ops with
    | nil => exact ⟨rfl, rfl, hp⟩
    | cons => simp at ho
  | @snoc l m' i q hs ih =>
    intro ops ho
    rcases List.eq_nil_or_concat ops with rfl | ⟨ops', o, rfl⟩
    · simp at ho
    · rw [List.concat_eq_append] at ho ⊢
      rw [List.map_append, List.map_append] at ho
      have hlen : (l.map (fun e => e.2.1)).length = (ops'.map (sec cap)).length := by
        have := congrArg List.length ho
        simp at this ⊢; exact this
      obtain ⟨h1, h2⟩ := List.append_inj ho hlen
      have hq : q = sec cap o := by simpa using h2
      obtain ⟨a, b, c⟩ := ih ops' h1
      obtain ⟨x, y, z⟩ := sec_alone cap m' c o
      rw [calls_snoc, hq, List.map_append, b, ← a]
      exact ⟨x, by simp [y], z⟩

/-- C83: any number of threads calling `utils_kv_set` and `utils_kv_get` on processors that delay and reorder stores: the
results are those of the same calls one after the other (in the order of their releases) on the store of `Verif/Kv`, and whenever
the lock is free the memory is that store.  `ops` are the calls completed. -/
theorem C83_kv_serial (cap : Nat) (s : Tso.St Ret) (h : Reach (fun _ => 0) s) (ops : List Op)
    (ho : s.log.map (fun e => e.2.1) = ops.map (sec cap)) :
    s.log.map (fun e => e.2.2) = (calls cap Kv.init ops).2 ∧ (s.lock = 0 → view s.mem = (calls cap Kv.init ops).1) := by
  obtain ⟨_, ⟨m', hm⟩, hf⟩ := C83_sections_serial _ s h
  refine ⟨(serial_calls cap _ (Nat.zero_le _) _ _ hm ops ho).2.1, fun hl => (serial_calls cap _ (Nat.zero_le _) _ _ (hf hl) ops ho).1⟩

/-! ## Cases -/

/-- A run of threads (`inl`: an instruction, starting the section when idle) and buffers (`inr`). (No code of its own.) -/
def run (s : Tso.St Ret) (acts : List (Nat × (Sec Ret ⊕ Nat))) : Tso.St Ret :=
  acts.foldl (fun s a => match a.2 with | .inl q => Tso.step s a.1 q | .inr n => Tso.flush s a.1 n) s

theorem run_reach (m : Nat → Nat) : ∀ (acts : List (Nat × (Sec Ret ⊕ Nat))) (s : Tso.St Ret), Reach m s → Reach m (run s acts) := by
  intro acts
  induction acts with
  | nil => intro s h; exact h
  | cons a l ih =>
    intro s h
    rcases a with ⟨i, q | n⟩
    · exact ih _ (.step i q h)
    · exact ih _ (.flush i n h)

/-- `n` instructions of thread `i`, the section being `q` if it is idle. (No code of its own.) -/
def go (n i : Nat) (q : Sec Ret) : List (Nat × (Sec Ret ⊕ Nat)) := List.replicate n (i, .inl q)

/-- Thread 0 sets key 7, its stores reach memory youngest first; thread 1, waiting meanwhile, then sees the key. (No code of its own.) -/
def caseActs : List (Nat × (Sec Ret ⊕ Nat)) :=
  go 6 0 (setSec 4 7 70) ++ go 2 1 (getSec 4 7) ++ go 7 0 (setSec 4 7 70) ++ [(0, .inr 2), (0, .inr 1), (0, .inr 0)] ++
    go 1 0 (setSec 4 7 70) ++ go 7 1 (getSec 4 7)

/-- The hypotheses of `C83_kv_serial` are met. -/
example : ∃ s : Tso.St Ret, Reach (fun _ => 0) s ∧ s.log.map (fun e => e.2.1) = [Op.set 7 70, .get 7].map (sec 4)
    ∧ s.log.map (fun e => e.2.2) = [.unit, .slot (some 0)] ∧ s.lock = 0 ∧ (view s.mem).value 0 = 70 :=
  ⟨run (Tso.init Ret fun _ => 0) caseActs, run_reach _ _ _ .init, rfl, rfl, rfl, rfl⟩

/-- While the stores are in the buffer memory does not show them, the thread itself does see them (`C83_inside_serial`). -/
example : ∃ (s : Tso.St Ret) (q : Sec Ret), Reach (fun _ => 0) s ∧ s.pc 0 = .inside (setSec 4 7 70) q ∧ s.mem 1 = 0 ∧ over (s.buf 0) s.mem 1 = 7 :=
  ⟨run (Tso.init Ret fun _ => 0) (go 8 0 (setSec 4 7 70)), _, run_reach _ _ _ .init, rfl, rfl, rfl⟩

end Arax.Tso.KvC
