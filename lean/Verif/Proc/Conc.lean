import Verif.Object.Lemmas
/-!
# C28 and C29 with concurrent clients

Any number `n` of clients call `arax_proc_register`, `arax_proc_get` and `arax_proc_put`. Looking a name up is atomic (it holds the list lock,
/repo/src/core/arax_pipe.c:225-234); creating the procedure (/repo/src/arch/shm/impl.c:393-395) and taking the reference (impl.c:405-406) are later, separate steps.
`arax_object_ref_dec` is one step (finer interleavings only add more windows). Allocation succeeds. Addresses are not reused, so that an access to
a destroyed procedure shows as `ub`.
-/
namespace Arax.ProcConc
open Arax.Object (sumTo sumTo_congr sumTo_update sumTo_ge sumTo_zero)

/-- Where a client is. Lines of /repo/src/arch/shm/impl.c behind each. -/
inductive PC where
  | idle
  | regMiss (name : List Char)     -- in arax_proc_register, the lookup found nothing (impl.c:391-393)
  | getHit (p : Nat)               -- in arax_proc_get, the lookup found `p` (impl.c:403-405)
  deriving DecidableEq

/-- The procedures (/repo/src/core/arax_proc.h:15-21), the list of the repository (/repo/src/core/arax_object.h:25-39), clients. -/
structure St where
  procs : Nat → Option (List Char × Nat)    -- live procedures: name and reference count
  list  : List Nat                          -- the repository's list, first element first
  next  : Nat
  held  : Nat → Nat → Nat                   -- ghost: references each client took and did not put
  pc    : Nat → PC

/-- After `arax_object_repo_init` (/repo/src/core/arax_object.c:60-69). -/
def init : St := { procs := fun _ => none, list := [], next := 0, held := fun _ _ => 0, pc := fun _ => .idle }

/-- arax_pipe.c:226-232. -/
def find (s : St) (name : List Char) : Option Nat := s.list.find? fun p => (s.procs p).any fun x => x.1 == name

/-- Model bookkeeping, no code of its own: client `i` goes to `c`. -/
def St.setPc (s : St) (i : Nat) (c : PC) : St := { s with pc := fun j => if j = i then c else s.pc j }
/-- Model bookkeeping, no code of its own: store to, allocation or release of a procedure. -/
def St.setProc (s : St) (p : Nat) (x : Option (List Char × Nat)) : St := { s with procs := fun j => if j = p then x else s.procs j }
/-- Model bookkeeping, no code of its own: ghost. -/
def St.setHeld (s : St) (i p : Nat) (n : Nat) : St := { s with held := fun j q => if j = i ∧ q = p then n else s.held j q }

/-- What a client can do next. Lines at `step`: /repo/src/arch/shm/impl.c:388-420. -/
inductive Ev where
  | findReg (name : List Char)
  | regInit
  | findGet (name : List Char)
  | getInc
  | put (p : Nat)
  deriving DecidableEq

/-- One step of client `i`; `none`: the client is not at that point (or, for `put`, holds no such reference). /repo/src/arch/shm/impl.c:388-420. -/
def step (s : St) (i : Nat) : Ev → Option (Res St)
  | .findReg name =>                                              -- impl.c:391-395
    if s.pc i = .idle then
      match find s name with
      | some _ => some (.ok s)                                    -- returned as it is: no reference taken
      | none => some (.ok (s.setPc i (.regMiss name)))
    else none
  | .regInit =>                                                   -- impl.c:394, arax_proc.c:4-14
    match s.pc i with
    | .regMiss name =>
      some (.ok (((({ s with list := s.next :: s.list, next := s.next + 1 }).setProc s.next (some (name, 1))).setHeld i s.next 1).setPc i .idle))
    | _ => none
  | .findGet name =>                                              -- impl.c:403
    if s.pc i = .idle then
      match find s name with
      | some p => some (.ok (s.setPc i (.getHit p)))
      | none => some (.ok s)
    else none
  | .getInc =>                                                    -- impl.c:406, arax_object.c:145-159
    match s.pc i with
    | .getHit p =>
      match s.procs p with
      | none => some .ub
      | some (name, r) => some (.ok (((s.setProc p (some (name, r + 1))).setHeld i p (s.held i p + 1)).setPc i .idle))
    | _ => none
  | .put p =>                                                     -- impl.c:413-420, arax_object.c:161-209
    if s.pc i = .idle ∧ 1 ≤ s.held i p then
      match s.procs p with
      | none => some .ub
      | some (name, r) =>
        if r = 0 then some .abort
        else if r = 1 then some (.ok { (s.setProc p none).setHeld i p (s.held i p - 1) with list := s.list.erase p })
        else some (.ok ((s.setProc p (some (name, r - 1))).setHeld i p (s.held i p - 1)))
    else none

/-- States reached by interleavings of `n` clients. (No code of its own.) -/
inductive Reach (n : Nat) : St → Prop where
  | init : Reach n init
  | step {s s' : St} {i : Nat} {e : Ev} : Reach n s → i < n → step s i e = some (.ok s') → Reach n s'

/-- The references the clients hold on `p`. (No code of its own.) -/
def total (s : St) (n p : Nat) : Nat := sumTo (fun i => s.held i p) n

/-- For statements and proofs; no code of its own. -/
structure Inv (n : Nat) (s : St) : Prop where
  live  : ∀ p name r, s.procs p = some (name, r) → p < s.next ∧ r = total s n p ∧ 0 < r
  dead  : ∀ p, s.procs p = none → total s n p = 0
  list  : ∀ p, p ∈ s.list ↔ (s.procs p).isSome
  nodup : s.list.Nodup

theorem total_setHeld (s : St) (n i p v q : Nat) (hi : i < n) :
    total (s.setHeld i p v) n q = if q = p then total s n p + v - s.held i p else total s n q := by
  unfold total
  by_cases e : q = p
  · subst e
    have := sumTo_update (fun j => s.held j q) (fun j => (s.setHeld i q v).held j q) i (by intro j hj; simp [St.setHeld, hj]) n hi
    have h2 : (s.setHeld i q v).held i q = v := by simp [St.setHeld]
    simp only [h2] at this
    simp only [if_true]; omega
  · simp only [e, if_false]
    exact sumTo_congr _ _ _ (by intro j _; simp [St.setHeld, e])

theorem find_some {s : St} {name : List Char} {p : Nat} (h : find s name = some p) : ∃ r, s.procs p = some (name, r) := by
  have := List.find?_some h
  cases hp : s.procs p with
  | none => simp [hp] at this
  | some x =>
    obtain ⟨a, r⟩ := x
    simp [hp] at this
    exact ⟨r, by rw [this]⟩

theorem find_none {n : Nat} {s : St} (hi : Inv n s) {name : List Char} (h : find s name = none) : ∀ p r, s.procs p ≠ some (name, r) := by
  intro p r hp
  have := List.find?_eq_none.mp h p ((hi.list p).mpr (by simp [hp]))
  simp [hp] at this

theorem inv_step {n : Nat} {s s' : St} {i : Nat} {e : Ev} (h : Inv n s) (hi : i < n) (hs : step s i e = some (.ok s')) : Inv n s' := by
  cases e with
  | findReg name =>
    simp only [step] at hs
    split at hs
    · split at hs <;> cases hs
      · exact h
      · exact ⟨h.live, h.dead, h.list, h.nodup⟩
    · cases hs
  | findGet name =>
    simp only [step] at hs
    split at hs
    · split at hs <;> cases hs
      · exact ⟨h.live, h.dead, h.list, h.nodup⟩
      · exact h
    · cases hs
  | regInit =>
    simp only [step] at hs
    split at hs
    · next name _ =>
      cases hs
      have hn : s.procs s.next = none := by
        cases hp : s.procs s.next with
        | none => rfl
        | some x => have := (h.live s.next x.1 x.2 hp).1; omega
      have h0 : total s n s.next = 0 := h.dead _ hn
      have hh : s.held i s.next = 0 := by
        have := sumTo_ge (fun j => s.held j s.next) i n hi
        unfold total at h0
        omega
      have ht : ∀ q, total ((((({ s with list := s.next :: s.list, next := s.next + 1 } : St).setProc s.next (some (name, 1))).setHeld i s.next 1).setPc i .idle)) n q =
          if q = s.next then 1 else total s n q := by
        intro q
        have := total_setHeld (({ s with list := s.next :: s.list, next := s.next + 1 } : St).setProc s.next (some (name, 1))) n i s.next 1 q hi
        have e1 : ∀ q, total (({ s with list := s.next :: s.list, next := s.next + 1 } : St).setProc s.next (some (name, 1))) n q = total s n q := fun _ => rfl
        have e2 : (({ s with list := s.next :: s.list, next := s.next + 1 } : St).setProc s.next (some (name, 1))).held i s.next = 0 := hh
        rw [e1, e1, e2, h0] at this
        exact this
      refine ⟨?_, ?_, ?_, ?_⟩
      · intro p nm r hp
        rw [ht]
        simp only [St.setPc, St.setHeld, St.setProc] at hp ⊢
        split at hp
        · next e => subst e; cases hp; simp
        · next e => have := h.live p nm r hp; rw [if_neg e]; omega
      · intro p hp
        rw [ht]
        simp only [St.setPc, St.setHeld, St.setProc] at hp
        split at hp
        · cases hp
        · next e => rw [if_neg e]; exact h.dead p hp
      · intro p
        simp only [St.setPc, St.setHeld, St.setProc, List.mem_cons]
        split
        · next e => simp [e]
        · next e => simp [e, h.list p]
      · simp only [St.setPc, St.setHeld, St.setProc, List.nodup_cons]
        exact ⟨by rw [h.list, hn]; simp, h.nodup⟩
    · cases hs
  | getInc =>
    simp only [step] at hs
    split at hs
    · next p _ =>
      split at hs
      · cases hs
      · next name r hp =>
        cases hs
        obtain ⟨h1, h2, h3⟩ := h.live p name r hp
        have hge := sumTo_ge (fun j => s.held j p) i n hi
        have ht : ∀ q, total (((s.setProc p (some (name, r + 1))).setHeld i p (s.held i p + 1)).setPc i .idle) n q = if q = p then total s n p + 1 else total s n q := by
          intro q
          have := total_setHeld (s.setProc p (some (name, r + 1))) n i p (s.held i p + 1) q hi
          have e1 : ∀ q, total (s.setProc p (some (name, r + 1))) n q = total s n q := fun _ => rfl
          have e2 : (s.setProc p (some (name, r + 1))).held i p = s.held i p := rfl
          rw [e1, e1, e2] at this
          refine this.trans ?_
          split <;> omega
        refine ⟨?_, ?_, ?_, h.nodup⟩
        · intro q nm r' hq
          rw [ht]
          simp only [St.setPc, St.setHeld, St.setProc] at hq ⊢
          split at hq
          · next e => subst e; cases hq; simp; omega
          · next e => rw [if_neg e]; exact h.live q nm r' hq
        · intro q hq
          rw [ht]
          simp only [St.setPc, St.setHeld, St.setProc] at hq
          split at hq
          · cases hq
          · next e => rw [if_neg e]; exact h.dead q hq
        · intro q
          simp only [St.setPc, St.setHeld, St.setProc]
          split
          · next e => subst e; simp [h.list q, hp]
          · exact h.list q
    · cases hs
  | put p =>
    simp only [step] at hs
    split at hs
    · next hc =>
      split at hs
      · cases hs
      · next name r hp =>
        obtain ⟨h1, h2, h3⟩ := h.live p name r hp
        have hge := sumTo_ge (fun j => s.held j p) i n hi
        have hle : s.held i p ≤ total s n p := hge
        have ht : ∀ x q, total ((s.setProc p x).setHeld i p (s.held i p - 1)) n q = if q = p then total s n p - 1 else total s n q := by
          intro x q
          have := total_setHeld (s.setProc p x) n i p (s.held i p - 1) q hi
          have e1 : ∀ q, total (s.setProc p x) n q = total s n q := fun _ => rfl
          have e2 : (s.setProc p x).held i p = s.held i p := rfl
          rw [e1, e1, e2] at this
          refine this.trans ?_
          split <;> omega
        split at hs
        · cases hs
        · split at hs
          · next hr1 =>
            cases hs
            have ht' : ∀ q, total ({ (s.setProc p none).setHeld i p (s.held i p - 1) with list := s.list.erase p } : St) n q = if q = p then total s n p - 1 else total s n q :=
              fun q => ht none q
            refine ⟨?_, ?_, ?_, h.nodup.erase p⟩
            · intro q nm r' hq
              rw [ht']
              simp only [St.setHeld, St.setProc] at hq ⊢
              split at hq
              · cases hq
              · next e => rw [if_neg e]; exact h.live q nm r' hq
            · intro q hq
              rw [ht']
              split
              · omega
              · next e =>
                simp only [St.setHeld, St.setProc, e, if_false] at hq
                exact h.dead q hq
            · intro q
              simp only [St.setHeld, St.setProc]
              rw [h.nodup.mem_erase_iff, h.list q]
              split
              · next e => simp [e]
              · next e => simp [e]
          · next hr0 hr1 =>
            cases hs
            refine ⟨?_, ?_, ?_, h.nodup⟩
            · intro q nm r' hq
              rw [ht]
              simp only [St.setHeld, St.setProc] at hq ⊢
              split at hq
              · next e => subst e; cases hq; simp; omega
              · next e => rw [if_neg e]; exact h.live q nm r' hq
            · intro q hq
              rw [ht]
              simp only [St.setHeld, St.setProc] at hq
              split at hq
              · cases hq
              · next e => rw [if_neg e]; exact h.dead q hq
            · intro q
              simp only [St.setHeld, St.setProc]
              split
              · next e => subst e; simp [h.list q, hp]
              · exact h.list q
    · cases hs

theorem inv_reach {n : Nat} {s : St} (h : Reach n s) : Inv n s := by
  induction h with
  | init => exact ⟨by simp [init], fun p _ => sumTo_zero _ _ (fun _ _ => rfl), by simp [init], by simp [init]⟩
  | step _ hi e ih => exact inv_step ih hi e

/-- **C28** (concurrent, partial). For every interleaving of any number of clients: a procedure is live exactly while some client holds a reference, its count is
the number of references held, a put of a held reference always returns, and an `arax_proc_get` that found `p` touches freed memory exactly when no client holds
a reference on `p` any more at the moment it takes its own. -/
theorem C28_concurrent_partial {n : Nat} {s : St} (h : Reach n s) (p : Nat) :
    ((s.procs p).isSome ↔ 0 < total s n p) ∧ (∀ name r, s.procs p = some (name, r) → r = total s n p) ∧
    (∀ i, i < n → s.pc i = .idle → 1 ≤ s.held i p → ∃ s', step s i (.put p) = some (.ok s')) ∧
    (∀ i, i < n → s.pc i = .getHit p → (step s i .getInc = some .ub ↔ total s n p = 0) ∧ (total s n p ≠ 0 → ∃ s', step s i .getInc = some (.ok s') ∧ s'.held i p = s.held i p + 1)) := by
  have hi := inv_reach h
  have iff : (s.procs p).isSome ↔ 0 < total s n p := by
    cases hp : s.procs p with
    | none => simp [hi.dead p hp]
    | some x => have := hi.live p x.1 x.2 hp; simp; omega
  refine ⟨iff, fun name r hp => (hi.live p name r hp).2.1, ?_, ?_⟩
  · intro i hin hpc hh
    have hge : s.held i p ≤ total s n p := sumTo_ge (fun j => s.held j p) i n hin
    obtain ⟨⟨name, r⟩, hp⟩ := Option.isSome_iff_exists.mp (iff.mpr (by omega))
    have := (hi.live p name r hp).2.2
    have hr0 : r ≠ 0 := by omega
    by_cases hr1 : r = 1
    · exact ⟨_, by simp only [step, hpc, hh, hp, hr0, hr1, and_self, if_true, if_false]; rfl⟩
    · exact ⟨_, by simp only [step, hpc, hh, hp, hr0, hr1, and_self, if_true, if_false]; rfl⟩
  · intro i hin hpc
    cases hp : s.procs p with
    | none =>
      have := hi.dead p hp
      simp only [step, hpc, hp]
      exact ⟨by simp [this], fun h => absurd this h⟩
    | some x =>
      obtain ⟨name, r⟩ := x
      have := hi.live p name r hp
      simp only [step, hpc, hp]
      refine ⟨?_, fun _ => ⟨_, rfl, by simp [St.setPc, St.setHeld]⟩⟩
      constructor
      · intro e; cases e
      · intro e; omega

/-- Histories in which no client starts to register a name while another one is between its lookup and its creation for the same name. (No code of its own.) -/
inductive ReachExcl (n : Nat) : St → Prop where
  | init : ReachExcl n init
  | step {s s' : St} {i : Nat} {e : Ev} : ReachExcl n s → i < n → (∀ name, e = .findReg name → ∀ j, j < n → s.pc j ≠ .regMiss name) →
      step s i e = some (.ok s') → ReachExcl n s'

theorem ReachExcl.reach {n : Nat} {s : St} (h : ReachExcl n s) : Reach n s := by
  induction h with
  | init => exact Reach.init
  | step _ hi _ e ih => exact Reach.step ih hi e

/-- For statements and proofs; no code of its own. -/
structure Uniq (n : Nat) (s : St) : Prop where
  one  : ∀ p q name r r', s.procs p = some (name, r) → s.procs q = some (name, r') → p = q
  miss : ∀ i name, i < n → s.pc i = .regMiss name → ∀ p r, s.procs p ≠ some (name, r)
  excl : ∀ i j name, i < n → j < n → s.pc i = .regMiss name → s.pc j = .regMiss name → i = j

/-- A step that leaves the names of the live procedures alone, or removes some. -/
theorem uniq_mono {n : Nat} {s s' : St} (h : Uniq n s) (hp : ∀ p name r, s'.procs p = some (name, r) → ∃ r', s.procs p = some (name, r'))
    (hc : ∀ i name, i < n → s'.pc i = .regMiss name → s.pc i = .regMiss name) : Uniq n s' :=
  ⟨fun p q name r r' h1 h2 => by
      obtain ⟨a, h1⟩ := hp p name r h1
      obtain ⟨b, h2⟩ := hp q name r' h2
      exact h.one p q name a b h1 h2,
    fun i name hi hm p r h1 => by
      obtain ⟨a, h1⟩ := hp p name r h1
      exact h.miss i name hi (hc i name hi hm) p a h1,
    fun i j name hi hj h1 h2 => h.excl i j name hi hj (hc i name hi h1) (hc j name hj h2)⟩

/-- **C29** (concurrent, partial). As long as no two registrations of the same name overlap, there is at most one live procedure per name, for every interleaving of
all other calls of any number of clients. -/
theorem C29_unique_concurrent_partial {n : Nat} {s : St} (h : ReachExcl n s) {p q : Nat} {name : List Char} {r r' : Nat}
    (hp : s.procs p = some (name, r)) (hq : s.procs q = some (name, r')) : p = q := by
  have : Uniq n s := by
    clear hp hq
    induction h with
    | init => exact ⟨by simp [init], by simp [init], by simp [init]⟩
    | @step s s' i e hr hi hx hs ih =>
      have hinv := inv_reach hr.reach
      cases e with
      | findReg nm =>
        simp only [step] at hs
        split at hs
        · split at hs <;> cases hs
          · exact ih
          · next hf =>
            refine ⟨ih.one, ?_, ?_⟩
            · intro j name hj hm
              simp only [St.setPc] at hm
              split at hm
              · cases hm; exact find_none hinv hf
              · exact ih.miss j name hj hm
            · intro j k name hj hk h1 h2
              simp only [St.setPc] at h1 h2
              split at h1 <;> split at h2
              · omega
              · cases h1; exact absurd h2 (hx nm rfl k hk)
              · cases h2; exact absurd h1 (hx nm rfl j hj)
              · exact ih.excl j k name hj hk h1 h2
        · cases hs
      | findGet nm =>
        simp only [step] at hs
        split at hs
        · split at hs <;> cases hs
          · refine uniq_mono ih (fun p name r h => ⟨r, h⟩) ?_
            intro j name hj hm
            simp only [St.setPc] at hm
            split at hm
            · cases hm
            · exact hm
          · exact ih
        · cases hs
      | regInit =>
        simp only [step] at hs
        split at hs
        · next nm hpc =>
          cases hs
          have hmiss := ih.miss i nm hi hpc
          refine ⟨?_, ?_, ?_⟩
          · intro p q name r r' h1 h2
            simp only [St.setPc, St.setHeld, St.setProc] at h1 h2
            split at h1 <;> split at h2
            · omega
            · cases h1; exact absurd h2 (hmiss q r')
            · cases h2; exact absurd h1 (hmiss p r)
            · exact ih.one p q name r r' h1 h2
          · intro j name hj hm p r h1
            simp only [St.setPc] at hm
            split at hm
            · cases hm
            · next hji =>
              simp only [St.setPc, St.setHeld, St.setProc] at h1
              split at h1
              · cases h1; exact hji (ih.excl j i nm hj hi hm hpc)
              · exact ih.miss j name hj hm p r h1
          · intro j k name hj hk h1 h2
            simp only [St.setPc] at h1 h2
            split at h1
            · cases h1
            · split at h2
              · cases h2
              · exact ih.excl j k name hj hk h1 h2
        · cases hs
      | getInc =>
        simp only [step] at hs
        split at hs
        · next p _ =>
          split at hs
          · cases hs
          · next nm r hp =>
            cases hs
            refine uniq_mono ih ?_ ?_
            · intro q name r' hq
              simp only [St.setPc, St.setHeld, St.setProc] at hq
              split at hq
              · next e => subst e; cases hq; exact ⟨r, hp⟩
              · exact ⟨r', hq⟩
            · intro j name hj hm
              simp only [St.setPc] at hm
              split at hm
              · cases hm
              · exact hm
        · cases hs
      | put p =>
        simp only [step] at hs
        split at hs
        · split at hs
          · cases hs
          · next nm r hp =>
            split at hs
            · cases hs
            · split at hs <;> cases hs
              · refine uniq_mono ih ?_ (fun _ _ _ h => h)
                intro q name r' hq
                simp only [St.setHeld, St.setProc] at hq
                split at hq
                · cases hq
                · exact ⟨r', hq⟩
              · refine uniq_mono ih ?_ (fun _ _ _ h => h)
                intro q name r' hq
                simp only [St.setHeld, St.setProc] at hq
                split at hq
                · next e => subst e; cases hq; exact ⟨r, hp⟩
                · exact ⟨r', hq⟩
        · cases hs
  exact this.one p q name r r' hp hq

/-- Running a schedule. (No code of its own.) -/
def run (s : St) : List (Nat × Ev) → Option (Res St)
  | [] => some (.ok s)
  | (i, e) :: l => match step s i e with
    | some (.ok s') => run s' l
    | r => r

theorem reach_run {n : Nat} : ∀ (l : List (Nat × Ev)) {s s' : St}, Reach n s → (∀ x ∈ l, x.1 < n) → run s l = some (.ok s') → Reach n s'
  | [], _, _, h, _, e => by cases e; exact h
  | (i, ev) :: l, s, s', h, hl, e => by
    simp only [run] at e
    cases h1 : step s i ev with
    | none => rw [h1] at e; cases e
    | some r =>
      cases r with
      | ok t => rw [h1] at e; exact reach_run l (Reach.step h (hl (i, ev) (by simp)) h1) (fun x hx => hl x (by simp [hx])) e
      | abort => rw [h1] at e; cases e
      | ub => rw [h1] at e; cases e

/-- **C29 violated** (concurrently). Two clients that register the same name at the same time create two live procedures with that name. -/
theorem C29_violated_concurrent : ∃ s, Reach 2 s ∧ s.procs 0 = some (['f'], 1) ∧ s.procs 1 = some (['f'], 1) := by
  have e : run init [(0, .findReg ['f']), (1, .findReg ['f']), (0, .regInit), (1, .regInit)] = some (.ok _) := rfl
  exact ⟨_, reach_run _ Reach.init (by decide) e, rfl, rfl⟩

/-- **C28 violated** (concurrently). A client looks a procedure up; its last holder puts it; the client's `arax_object_ref_inc` then touches freed memory, although both
used the API as documented. -/
theorem C28_violated_concurrent : ∃ s, Reach 2 s ∧ s.pc 1 = .getHit 0 ∧ step s 1 .getInc = some .ub := by
  have e : run init [(0, .findReg ['f']), (0, .regInit), (1, .findGet ['f']), (0, .put 0)] = some (.ok _) := rfl
  exact ⟨_, reach_run _ Reach.init (by decide) e, rfl, rfl⟩

/-- Non-vacuity: three clients, two procedures, a get that overlaps the owner's put. -/
example : ∃ s, Reach 3 s ∧ total s 3 0 = 1 ∧ s.held 2 0 = 1 ∧ s.procs 1 = some (['g'], 1) := by
  have e : run init [(0, .findReg ['f']), (0, .regInit), (1, .findReg ['g']), (2, .findGet ['f']), (1, .regInit), (2, .getInc), (0, .put 0)] = some (.ok _) := rfl
  exact ⟨_, reach_run _ Reach.init (by decide) e, rfl, rfl, rfl⟩

end Arax.ProcConc
