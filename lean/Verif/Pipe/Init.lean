import Verif.Outcome
/-!
# Concurrent `arax_pipe_init` (C44) and `arax_pipe_mmap_address` (C45)

One step per shared access, any number of callers, sequential consistency.
-/
namespace Arax.PipeInit

/-- Point update. (No code of its own.) -/
def upd {α : Type} (f : Nat → α) (i : Nat) (v : α) : Nat → α := fun j => if j = i then v else f j
theorem upd_same {α : Type} (f : Nat → α) (i : Nat) (v : α) : upd f i v i = v := by simp [upd]
theorem upd_ne {α : Type} (f : Nat → α) (i j : Nat) (v : α) (h : j ≠ i) : upd f i v j = f j := by simp [upd, h]

/-! ## `arax_pipe_init` -/

/-- Where a caller is: not called yet; the first caller with `k` of its 12 stores done; spinning on `sha[0]`;
about to compare the revision; returned (`true` = the pipe, `false` = NULL). /repo/src/core/arax_pipe.c:8-55. -/
inductive PC where
  | start | first (k : Nat) | spin | cmp | ret (ok : Bool)
  deriving DecidableEq

/-- The shared pipe: `processes`; the revision string written so far (`tail` = bytes 1…, `sha0` = byte 0
written); number of the stores of the initialiser that are done (`shm_size`, sha tail, sha[0], then the nine
sub-initialisations repo, allocator, orphan list, async, two conditions, throttle, two kv tables). /repo/include/arax_pipe.h:24-47. -/
structure St where
  processes : Nat
  tail : Option Nat
  sha0 : Bool
  stores : Nat
  pc : Nat → PC

/-- A fresh, zeroed segment (`ftruncate`, /repo/src/utils/system.c). -/
def init0 : St := { processes := 0, tail := none, sha0 := false, stores := 0, pc := fun _ => .start }

/-- Number of stores of `arax_pipe_init`'s first caller (/repo/src/core/arax_pipe.c:25,30,31,33,37,40,43,45,47,49,51,53). -/
def total : Nat := 12

/-- One step of caller `c`, whose library has revision `rev c` and whose configuration has `enforce c`:
/repo/src/core/arax_pipe.c:10 (`processes++`), :13 (spin), :14-20 (compare, return), :25-55 (the first caller).
Revisions are identified by a number; byte 0 and the rest belong to one string, so once `sha[0]` is
written the string is the first caller's revision. -/
def step (rev : Nat → Nat) (enforce : Nat → Bool) (c : Nat) (s : St) : Option St :=
  match s.pc c with
  | .start =>
    some { s with processes := s.processes + 1, pc := upd s.pc c (if s.processes = 0 then .first 0 else .spin) }
  | .first k =>
    if k = total then some { s with pc := upd s.pc c (.ret true) }
    else some { s with stores := k + 1, tail := if k = 1 then some (rev c) else s.tail, sha0 := if k = 2 then true else s.sha0,
                       pc := upd s.pc c (.first (k + 1)) }
  | .spin => if s.sha0 then some { s with pc := upd s.pc c .cmp } else none
  | .cmp =>
    some { s with pc := upd s.pc c (.ret (!(decide (s.tail ≠ some (rev c)) && enforce c))) }
  | .ret _ => none

/-- Reachable states, every step satisfying `ok`. (No code of its own.) -/
inductive Reach (rev : Nat → Nat) (enforce : Nat → Bool) (ok : St → Nat → Prop) : St → Prop where
  | init : Reach rev enforce ok init0
  | step {s s' : St} {c : Nat} : Reach rev enforce ok s → ok s c → step rev enforce c s = some s' → Reach rev enforce ok s'

/-- The pipe is fully initialised. (No code of its own.) -/
def Full (s : St) : Prop := s.stores = total

/-- For statements and proofs; no code of its own. -/
structure Inv (rev : Nat → Nat) (enforce : Nat → Bool) (s : St) (f : Nat) : Prop where
  started : s.pc f ≠ .start ↔ 0 < s.processes
  others : ∀ c, c ≠ f → s.pc c ≠ .start → 0 < s.processes ∧ (s.pc c = .spin ∨ s.pc c = .cmp ∨ ∃ b, s.pc c = .ret b)
  fpc : s.pc f = .start ∨ (∃ k, s.pc f = .first k ∧ k ≤ total ∧ s.stores = k) ∨ (s.pc f = .ret true ∧ s.stores = total)
  zero : s.pc f = .start → s.stores = 0
  sha : s.sha0 = true ↔ 3 ≤ s.stores
  tl : 2 ≤ s.stores → s.tail = some (rev f)
  cmpd : ∀ c, c ≠ f → s.pc c = .cmp ∨ (∃ b, s.pc c = .ret b) → s.sha0 = true
  rets : ∀ c b, c ≠ f → s.pc c = .ret b → (b = false ↔ rev c ≠ rev f ∧ enforce c = true)

theorem inv_init (rev : Nat → Nat) (enforce : Nat → Bool) (f : Nat) : Inv rev enforce init0 f := by
  constructor <;> intros <;> simp_all [init0]

/-- Either nobody has started, or there is a unique first caller for which the invariant holds. -/
theorem inv_of_reach {rev : Nat → Nat} {enforce : Nat → Bool} {ok : St → Nat → Prop} {s : St} (h : Reach rev enforce ok s) :
    (s = init0) ∨ ∃ f, Inv rev enforce s f ∧ s.pc f ≠ .start := by
  induction h with
  | init => exact Or.inl rfl
  | @step s s' c _ _ e ih =>
    right
    rcases ih with rfl | ⟨f, inv, hf⟩
    · simp only [step, init0] at e
      have e := Option.some.inj e
      subst e
      refine ⟨c, ?_, by simp [upd_same]⟩
      constructor <;> dsimp only <;> grind [upd, total]
    · refine ⟨f, ?_⟩
      obtain ⟨started, others, fpc, zero, sha, tl, cmpd, rets⟩ := inv
      have hpos := started.mp hf
      simp only [step] at e
      split at e
      · rename_i hpc
        have e := Option.some.inj e
        subst e
        have hcf : c ≠ f := by rintro rfl; exact hf hpc
        have hp : s.processes ≠ 0 := by omega
        refine ⟨?_, by simp [upd_ne _ _ _ _ hcf.symm, hf]⟩
        constructor <;> dsimp only <;> (try simp only [hp, if_false]) <;> grind [upd, total]
      · rename_i k hpc
        have hcf : c = f := by
          apply Classical.byContradiction
          intro hne
          have := (others c hne (by rw [hpc]; simp)).2
          rw [hpc] at this; simp at this
        subst hcf
        split at e
        · have e := Option.some.inj e
          subst e
          refine ⟨?_, by simp [upd_same]⟩
          constructor <;> dsimp only <;> grind [upd, total]
        · have e := Option.some.inj e
          subst e
          refine ⟨?_, by simp [upd_same]⟩
          constructor <;> dsimp only <;> grind [upd, total]
      · rename_i hpc
        have hcf : c ≠ f := by
          rintro rfl
          rw [hpc] at fpc; simp at fpc
        split at e
        · have e := Option.some.inj e
          subst e
          refine ⟨?_, by simp [upd_ne _ _ _ _ hcf.symm, hf]⟩
          constructor <;> dsimp only <;> grind [upd, total]
        · simp at e
      · rename_i hpc
        have hcf : c ≠ f := by
          rintro rfl
          rw [hpc] at fpc; simp at fpc
        have hsha := cmpd c hcf (Or.inl hpc)
        have htl := tl (by have := sha.mp hsha; omega)
        have e := Option.some.inj e
        subst e
        refine ⟨?_, by simp [upd_ne _ _ _ _ hcf.symm, hf]⟩
        constructor
        case rets =>
          intro d b hd hb
          by_cases hdc : d = c
          · subst hdc
            dsimp only at hb
            rw [upd_same] at hb
            injection hb with hb
            rw [← hb, htl]
            by_cases hr : rev d = rev f <;> cases he : enforce d <;> simp [hr, Ne.symm] <;> grind
          · exact rets d b hd (by dsimp only at hb; rwa [upd_ne _ _ _ _ hdc] at hb)
        all_goals (dsimp only; grind [upd, total])
      · simp at e

/-- **C44** (one initialiser) However many callers overlap, exactly one of them - the first to increment the process
counter - ever writes the pipe. -/
theorem C44_one_initialiser {rev : Nat → Nat} {enforce : Nat → Bool} {ok : St → Nat → Prop} {s : St} (h : Reach rev enforce ok s)
    {c d j k : Nat} (hc : s.pc c = .first j) (hd : s.pc d = .first k) : c = d := by
  rcases inv_of_reach h with rfl | ⟨f, inv, -⟩
  · simp [init0] at hc
  · have key : ∀ c k, s.pc c = .first k → c = f := by
      intro c k hc
      apply Classical.byContradiction
      intro hne
      have := (inv.others c hne (by rw [hc]; simp)).2
      rw [hc] at this; simp at this
    rw [key c j hc, key d k hd]

/-- **C44** (revision check) For every interleaving: there is one first caller, it never gets NULL, and any other caller
gets NULL exactly when its revision differs from the first caller's and it enforces the version. -/
theorem C44_revision_check {rev : Nat → Nat} {enforce : Nat → Bool} {ok : St → Nat → Prop} {s : St} (h : Reach rev enforce ok s)
    (hs : ∃ c, s.pc c ≠ .start) : ∃ f, (∀ b, s.pc f = .ret b → b = true) ∧
      ∀ c b, c ≠ f → s.pc c = .ret b → (b = false ↔ rev c ≠ rev f ∧ enforce c = true) := by
  rcases inv_of_reach h with rfl | ⟨f, inv, -⟩
  · obtain ⟨c, hc⟩ := hs; exact absurd rfl hc
  · refine ⟨f, ?_, inv.rets⟩
    intro b hb
    rcases inv.fpc with h | ⟨k, h, -⟩ | ⟨h, -⟩ <;> rw [hb] at h <;> simp at h
    exact h

/-- **C44** (what is guaranteed for every interleaving, partial) Whoever has returned sees at least the segment size and the complete
revision string.  Missing: the rest of the initialisation (`C44_violated`). -/
theorem C44_header_ready_partial {rev : Nat → Nat} {enforce : Nat → Bool} {ok : St → Nat → Prop} {s : St} (h : Reach rev enforce ok s)
    {c : Nat} {b : Bool} (hc : s.pc c = .ret b) : 3 ≤ s.stores := by
  rcases inv_of_reach h with rfl | ⟨f, inv, -⟩
  · simp [init0] at hc
  · by_cases hcf : c = f
    · subst hcf
      rcases inv.fpc with h | ⟨k, h, -⟩ | ⟨-, h⟩
      · rw [hc] at h; simp at h
      · rw [hc] at h; simp at h
      · rw [h]; decide
    · exact inv.sha.mp (inv.cmpd c hcf (Or.inr ⟨b, hc⟩))

/-- Later callers start only after the first one is done. (No code of its own.) -/
def AfterFirst (s : St) (c : Nat) : Prop := s.pc c = .start → 0 < s.processes → Full s

/-- **C44** (partial) If every later caller starts only after the first one has finished, then whoever has returned a pipe
has a fully initialised one.  Missing: overlapping callers, for which it is false (`C44_violated`). -/
theorem C44_full_partial {rev : Nat → Nat} {enforce : Nat → Bool} {s : St} (h : Reach rev enforce AfterFirst s)
    {c : Nat} (hc : s.pc c = .ret true) : Full s := by
  suffices hmain : ∀ c, s.pc c = .spin ∨ s.pc c = .cmp ∨ (∃ b, s.pc c = .ret b) → Full s from hmain c (Or.inr (Or.inr ⟨_, hc⟩))
  clear hc c
  induction h with
  | init => intro c hc; simp [init0] at hc
  | @step s s' c hr hok e ih =>
    intro d hd
    have hinv := inv_of_reach hr
    simp only [step] at e
    split at e
    · rename_i hpc
      have e := Option.some.inj e
      subst e
      by_cases hdc : d = c
      · subst hdc
        by_cases h0 : s.processes = 0
        · simp [upd_same, h0] at hd
        · exact hok hpc (by omega)
      · exact ih d (by dsimp only at hd; rwa [upd_ne _ _ _ _ hdc] at hd)
    · rename_i k hpc
      rcases hinv with rfl | ⟨f, inv, -⟩
      · simp [init0] at hpc
      · have hcf : c = f := by
          apply Classical.byContradiction
          intro hne
          have := (inv.others c hne (by rw [hpc]; simp)).2
          rw [hpc] at this; simp at this
        have hk : s.stores = k := by
          rcases inv.fpc with h | ⟨k', h, -, h'⟩ | ⟨h, -⟩
          · rw [← hcf, hpc] at h; simp at h
          · rw [← hcf, hpc] at h; injection h with h; omega
          · rw [← hcf, hpc] at h; simp at h
        split at e
        · rename_i hkt
          have e := Option.some.inj e
          subst e
          show s.stores = total
          omega
        · rename_i hkt
          have e := Option.some.inj e
          subst e
          by_cases hdc : d = c
          · subst hdc; simp [upd_same] at hd
          · have := ih d (by dsimp only at hd; rwa [upd_ne _ _ _ _ hdc] at hd)
            unfold Full at this; omega
    · rename_i hpc
      split at e
      · have e := Option.some.inj e
        subst e
        by_cases hdc : d = c
        · subst hdc; exact ih d (Or.inl hpc)
        · exact ih d (by dsimp only at hd; rwa [upd_ne _ _ _ _ hdc] at hd)
      · simp at e
    · rename_i hpc
      have e := Option.some.inj e
      subst e
      by_cases hdc : d = c
      · subst hdc; exact ih d (Or.inr (Or.inl hpc))
      · exact ih d (by dsimp only at hd; rwa [upd_ne _ _ _ _ hdc] at hd)
    · simp at e

/-- Execute a schedule. (No code of its own.) -/
def run (rev : Nat → Nat) (enforce : Nat → Bool) : List Nat → St → Option St
  | [], s => some s
  | c :: cs, s => (step rev enforce c s).bind (run rev enforce cs)

theorem reach_run {rev : Nat → Nat} {enforce : Nat → Bool} : ∀ (cs : List Nat) (s s' : St),
    Reach rev enforce (fun _ _ => True) s → run rev enforce cs s = some s' → Reach rev enforce (fun _ _ => True) s' := by
  intro cs
  induction cs with
  | nil => intro s s' h e; simp only [run] at e; have e := Option.some.inj e; subst e; exact h
  | cons c cs ih =>
    intro s s' h e
    simp only [run] at e
    cases hs : step rev enforce c s with
    | none => rw [hs] at e; simp at e
    | some s1 => rw [hs] at e; exact ih s1 s' (.step h trivial hs) e

/-- **C44 is violated by the code**: caller 0 has stored `sha[0]` but not yet initialised the repository, the allocator, the
lists, conditions and throttle; caller 1 passes the spin and returns the pipe. Both have the same revision. -/
theorem C44_violated : ∃ s, Reach (fun _ => 7) (fun _ => true) (fun _ _ => True) s ∧ s.pc 1 = .ret true ∧ s.stores = 3 ∧ ¬ Full s := by
  have hrun : ((run (fun _ => 7) (fun _ => true) [0, 0, 0, 0, 1, 1, 1] init0).map (fun s => (s.pc 1, s.stores)))
      = some (.ret true, 3) := by decide +kernel
  cases hs : run (fun _ => 7) (fun _ => true) [0, 0, 0, 0, 1, 1, 1] init0 with
  | none => rw [hs] at hrun; simp at hrun
  | some s =>
    rw [hs] at hrun
    simp only [Option.map_some, Option.some.injEq, Prod.mk.injEq] at hrun
    exact ⟨s, reach_run _ _ _ .init hs, hrun.1, hrun.2, by unfold Full; rw [hrun.2]; decide⟩

/-- **C44 is violated by the code** (rejected caller): a caller that gets NULL because of a revision mismatch stays counted in `processes`
(2 instead of 1), so the segment can never see its last user leave. -/
theorem C44_violated_mismatch : ∃ s, Reach id (fun _ => true) (fun _ _ => True) s ∧ s.pc 0 = .ret true ∧ s.pc 1 = .ret false ∧
    s.processes = 2 := by
  have hrun : ((run id (fun _ => true) ([0] ++ List.replicate 13 0 ++ [1, 1, 1]) init0).map (fun s => (s.pc 0, s.pc 1, s.processes)))
      = some (.ret true, .ret false, 2) := by decide +kernel
  cases hs : run id (fun _ => true) ([0] ++ List.replicate 13 0 ++ [1, 1, 1]) init0 with
  | none => rw [hs] at hrun; simp at hrun
  | some s =>
    rw [hs] at hrun
    simp only [Option.map_some, Option.some.injEq, Prod.mk.injEq] at hrun
    exact ⟨s, reach_run _ _ _ .init hs, hrun⟩

/-- Checked run for `AfterFirst`. (No code of its own.) -/
def runA (rev : Nat → Nat) (enforce : Nat → Bool) : List Nat → St → Option St
  | [], s => some s
  | c :: cs, s => if (!decide (s.pc c = .start) || decide (s.processes = 0) || decide (s.stores = total))
      then (step rev enforce c s).bind (runA rev enforce cs) else none

theorem reach_runA {rev : Nat → Nat} {enforce : Nat → Bool} : ∀ (cs : List Nat) (s s' : St),
    Reach rev enforce AfterFirst s → runA rev enforce cs s = some s' → Reach rev enforce AfterFirst s' := by
  intro cs
  induction cs with
  | nil => intro s s' h e; simp only [runA] at e; have e := Option.some.inj e; subst e; exact h
  | cons c cs ih =>
    intro s s' h e
    simp only [runA] at e
    split at e
    · rename_i hg
      cases hs : step rev enforce c s with
      | none => rw [hs] at e; simp at e
      | some s1 =>
        rw [hs] at e
        refine ih s1 s' (.step h ?_ hs) e
        intro h1 h2
        simp [h1] at hg
        rcases hg with hg | hg
        · omega
        · exact hg
    · simp at e

/-- Non-vacuity: three callers, the third with another revision but not enforcing, all return the pipe. -/
example : ∃ s, Reach (fun c => c / 2) (fun _ => false) AfterFirst s ∧ s.pc 0 = .ret true ∧ s.pc 1 = .ret true ∧ s.pc 2 = .ret true := by
  have hrun : ((runA (fun c => c / 2) (fun _ => false) ([0] ++ List.replicate 12 0 ++ [1, 2, 1, 2, 0, 1, 2]) init0).map
      (fun s => (s.pc 0, s.pc 1, s.pc 2))) = some (.ret true, .ret true, .ret true) := by decide +kernel
  cases hs : runA (fun c => c / 2) (fun _ => false) ([0] ++ List.replicate 12 0 ++ [1, 2, 1, 2, 0, 1, 2]) init0 with
  | none => rw [hs] at hrun; simp at hrun
  | some s =>
    rw [hs] at hrun
    simp only [Option.map_some, Option.some.injEq, Prod.mk.injEq] at hrun
    exact ⟨s, reach_runA _ _ _ .init hs, hrun⟩

/-! ## `arax_pipe_mmap_address` (C45) -/

/-- A caller: before the compare-and-swap, after a failed one (about to read `self`), returned an address. /repo/src/core/arax_pipe.c:165-173. -/
inductive MPC where
  | start | read | ret (a : Nat)
  deriving DecidableEq

/-- `self` of the pipe (0 in a fresh segment), the callers, and a ghost log of the order of the compare-and-swaps. /repo/include/arax_pipe.h:27. -/
structure MSt where
  self : Nat
  pc : Nat → MPC
  log : List Nat

/-- A fresh, zeroed segment (/repo/include/arax_pipe.h:27). -/
def minit : MSt := { self := 0, pc := fun _ => .start, log := [] }

/-- /repo/src/core/arax_pipe.c:165-173, caller `c` has the segment mapped at `addr c`. -/
def mstep (addr : Nat → Nat) (c : Nat) (s : MSt) : Option MSt :=
  match s.pc c with
  | .start =>
    if s.self = 0 then some { self := addr c, pc := upd s.pc c (.ret (addr c)), log := s.log ++ [c] }
    else some { s with pc := upd s.pc c .read, log := s.log ++ [c] }
  | .read => some { s with pc := upd s.pc c (.ret s.self) }
  | .ret _ => none

/-- States reached by any interleaving of callers of /repo/src/core/arax_pipe.c:165-173. -/
inductive MReach (addr : Nat → Nat) : MSt → Prop where
  | init : MReach addr minit
  | step {s s' : MSt} {c : Nat} : MReach addr s → mstep addr c s = some s' → MReach addr s'

/-- **C45** For every interleaving of any number of callers with any (non-NULL) mapping addresses: every caller that has
returned got the address of the caller that executed its compare-and-swap first. -/
theorem C45_same_address {addr : Nat → Nat} (hnz : ∀ c, addr c ≠ 0) {s : MSt} (h : MReach addr s) :
    ∀ c a, s.pc c = .ret a → ∃ f, s.log.head? = some f ∧ a = addr f := by
  suffices hm : (s.self = 0 ∧ s.log = [] ∧ ∀ c, s.pc c = .start) ∨
      (∃ f, s.log.head? = some f ∧ s.self = addr f ∧ ∀ c a, s.pc c = .ret a → a = addr f) by
    intro c a hc
    rcases hm with ⟨-, -, h⟩ | ⟨f, h1, -, h3⟩
    · rw [h c] at hc; simp at hc
    · exact ⟨f, h1, h3 c a hc⟩
  induction h with
  | init => exact Or.inl ⟨rfl, rfl, fun _ => rfl⟩
  | @step s s' c _ e ih =>
    simp only [mstep] at e
    rcases ih with ⟨h0, hlog, hst⟩ | ⟨f, h1, h2, h3⟩
    · rw [hst c] at e
      simp only [h0, if_true] at e
      have e := Option.some.inj e
      subst e
      right
      refine ⟨c, by simp [hlog], rfl, ?_⟩
      intro d a hd
      by_cases hdc : d = c
      · subst hdc; dsimp only at hd; rw [upd_same] at hd; injection hd with hd; exact hd.symm
      · dsimp only at hd; rw [upd_ne _ _ _ _ hdc, hst d] at hd; simp at hd
    · right
      have hne : s.self ≠ 0 := by rw [h2]; exact hnz f
      have hhead : ∀ x, (s.log ++ [x]).head? = some f := by
        intro x
        cases hl : s.log with
        | nil => rw [hl] at h1; simp at h1
        | cons a l => rw [hl] at h1; simpa using h1
      split at e
      · rw [if_neg hne] at e
        have e := Option.some.inj e
        subst e
        refine ⟨f, hhead c, h2, ?_⟩
        intro d a hd
        by_cases hdc : d = c
        · subst hdc; dsimp only at hd; rw [upd_same] at hd; simp at hd
        · dsimp only at hd; rw [upd_ne _ _ _ _ hdc] at hd; exact h3 d a hd
      · have e := Option.some.inj e
        subst e
        refine ⟨f, h1, h2, ?_⟩
        intro d a hd
        by_cases hdc : d = c
        · subst hdc; dsimp only at hd; rw [upd_same] at hd; injection hd with hd; omega
        · dsimp only at hd; rw [upd_ne _ _ _ _ hdc] at hd; exact h3 d a hd
      · simp at e

/-- Non-vacuity: three callers with different mappings; the second to swap reads its answer before the first of them all is even
scheduled again. -/
example : ∃ s, MReach (fun c => 4096 * (c + 1)) s ∧ s.pc 0 = .ret 8192 ∧ s.pc 1 = .ret 8192 ∧ s.log = [1, 0, 2] := by
  have e1 : MReach (fun c => 4096 * (c + 1)) _ := .step .init (c := 1) rfl
  have e2 : MReach (fun c => 4096 * (c + 1)) _ := .step e1 (c := 0) rfl
  have e3 : MReach (fun c => 4096 * (c + 1)) _ := .step e2 (c := 2) rfl
  have e4 : MReach (fun c => 4096 * (c + 1)) _ := .step e3 (c := 0) rfl
  exact ⟨_, e4, rfl, rfl, rfl⟩

end Arax.PipeInit
