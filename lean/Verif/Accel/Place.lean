import Verif.Outcome
/-!
# Where a virtual accelerator is

Any number of threads (clients, the balancer, accelerator workers) move virtual accelerators between the orphan list and the lists of the `na`
physical accelerators. A virtual accelerator has one list node (`vaccel->vaccels`), so each list is modelled by the sequence of virtual accelerators linked
into it (that the intrusive list is such a sequence as long as nodes are added only unlinked and removed only from the list they are in is C10/C11);
adding a linked node or removing a node from a list it is not in is `ub` (it corrupts both lists and their lengths). So is touching a released virtual
accelerator.

Each critical section is one step. Simplifications: reading `vaccel->phys` outside the lock is an atomic read; the destructor is one step (a finer
interleaving of release only adds to the races, which the theorems exclude). The task counters are in `Verif.Accel.Count`.
-/
namespace Arax.Accel.Place

/-- What a thread is doing with which virtual accelerator. The lines (/repo/src/core/arax_accel.c, arax_pipe.c) are behind each. -/
inductive PC where
  | idle
  | has (v : Nat)             -- it was handed `v`: just created it, popped it from the orphans, or removed it from an accelerator
  | addRm (v a : Nat)         -- in arax_accel_add_vaccel, past the checks (arax_accel.c:113-116)
  | addDo (v a : Nat)         -- in arax_accel_add_vaccel, past arax_pipe_remove_orphan_vaccel (arax_accel.c:118)
  | delDo (v a : Nat)         -- in arax_accel_del_vaccel, past the checks (arax_accel.c:158-161)
  deriving DecidableEq

/-- `pipe->orphan_vacs` (/repo/include/arax_pipe.h:41), `accel->vaccels` (/repo/src/core/arax_accel.h:20), `vaccel->phys` and node (/repo/src/core/arax_vaccel.h:35-38), threads. -/
structure St where
  orphans : List Nat              -- pipe->orphan_vacs, first element first
  acc     : Nat → List Nat        -- accel->vaccels
  phys    : Nat → Option Nat      -- vaccel->phys
  live    : Nat → Bool            -- allocated and not destroyed
  used    : Nat → Bool            -- ghost: the name was used (released ones are not reused)
  pc      : Nat → PC

/-- After `arax_pipe_init` (/repo/src/core/arax_pipe.c:40): empty orphan list, nothing allocated. -/
def init : St :=
  { orphans := [], acc := fun _ => [], phys := fun _ => none, live := fun _ => false, used := fun _ => false, pc := fun _ => .idle }

/-- Model bookkeeping, no code of its own: point update. -/
def upd {α : Type} (f : Nat → α) (i : Nat) (x : α) : Nat → α := fun j => if j = i then x else f j

/-- utils_list_node_linked (/repo/src/utils/list.c:82-85). -/
def linked (na : Nat) (s : St) (v : Nat) : Bool := s.orphans.contains v || (List.range na).any fun a => (s.acc a).contains v

/-- Model bookkeeping, no code of its own: thread `t` goes to `c`. -/
def St.goto (s : St) (t : Nat) (c : PC) : St := { s with pc := upd s.pc t c }

/-- What a thread can do. (Lines at each.) -/
inductive Ev where
  | create (v : Nat)        -- arax_vaccel_init up to line 22 (/repo/src/core/arax_vaccel.c:6-22)
  | orphan                  -- arax_pipe_add_orphan_vaccel of the one it has (/repo/src/core/arax_pipe.c:63-71)
  | place (a : Nat)         -- arax_accel_add_vaccel of the one it has: checks (arax_accel.c:110-116); from arax_vaccel.c:25, assignVac
  | setPhys (v a : Nat)     -- client: arax_accel_set_physical (/repo/src/arch/shm/impl.c:209-217): the same checks
  | rmOrphan                -- arax_pipe_remove_orphan_vaccel (arax_accel.c:118, arax_pipe.c:100-107)
  | addLocked               -- arax_accel.c:120-140
  | pop                     -- arax_pipe_get_orphan_vaccel when the list is not empty (arax_pipe.c:82-97)
  | delCheck (v : Nat)      -- arax_accel_del_vaccel(vaccel->phys, vaccel): checks (arax_accel.c:158-161)
  | delLocked               -- arax_accel.c:163-177
  | release (v : Nat)       -- last reference dropped: destructor and free (arax_vaccel.c:113-123)
  deriving DecidableEq

/-- arax_accel.c:110-116. -/
def addCheck (s : St) (t v a : Nat) : Res St :=
  if s.live v = false then .ub
  else if s.phys v = some a then .ok (s.goto t .idle)
  else if s.phys v ≠ none then .abort
  else .ok (s.goto t (.addRm v a))

/-- One step of thread `t`; `none`: it is not at that point (or waits). /repo/src/core/arax_accel.c:108-178, arax_pipe.c:63-107, arax_vaccel.c:3-30, 113-123; per event at `Ev`. -/
def step (na : Nat) (s : St) (t : Nat) : Ev → Option (Res St)
  | .create v =>
    if s.pc t = .idle ∧ s.used v = false then
      some (.ok ({ s with live := upd s.live v true, used := upd s.used v true, phys := upd s.phys v none }.goto t (.has v))) else none
  | .orphan =>
    match s.pc t with
    | .has v =>
      some <| if s.live v = false then .ub else if s.phys v ≠ none then .abort else if linked na s v then .ub
        else .ok ({ s with orphans := v :: s.orphans }.goto t .idle)
    | _ => none
  | .place a =>
    match s.pc t with
    | .has v => if a < na then some (addCheck s t v a) else none
    | _ => none
  | .setPhys v a => if s.pc t = .idle ∧ a < na then some (addCheck s t v a) else none
  | .rmOrphan =>
    match s.pc t with
    | .addRm v a =>
      some <| if s.live v = false then .ub
        else if linked na s v = false then .ok (s.goto t (.addDo v a))
        else if s.orphans.contains v then .ok ({ s with orphans := s.orphans.erase v }.goto t (.addDo v a))
        else .ub
    | _ => none
  | .addLocked =>
    match s.pc t with
    | .addDo v a =>
      some <| if s.live v = false then .ub
        else if s.phys v = some a then .ok (s.goto t .idle)
        else if linked na s v then .ub
        else .ok ({ s with acc := upd s.acc a (v :: s.acc a), phys := upd s.phys v (some a) }.goto t .idle)
    | _ => none
  | .pop =>
    if s.pc t = .idle then
      match s.orphans with
      | [] => none
      | v :: r => some <| if s.live v = false then .ub else if s.phys v ≠ none then .abort else .ok ({ s with orphans := r }.goto t (.has v))
    else none
  | .delCheck v =>
    if s.pc t = .idle then
      some <| if s.live v = false then .ub
        else match s.phys v with | none => .abort | some a => .ok (s.goto t (.delDo v a))
    else none
  | .delLocked =>
    match s.pc t with
    | .delDo v a =>
      some <| if s.live v = false then .ub
        else if (s.acc a).contains v then .ok ({ s with acc := upd s.acc a ((s.acc a).erase v), phys := upd s.phys v none }.goto t (.has v))
        else .ub
    | _ => none
  | .release v =>
    if s.pc t = .idle then
      some <| if s.live v = false then .ub
        else match s.phys v with
          | some a =>
            if (s.acc a).contains v then .ok { s with acc := upd s.acc a ((s.acc a).erase v), phys := upd s.phys v none, live := upd s.live v false }
            else .ub
          | none =>
            if linked na s v = false then .ok { s with live := upd s.live v false }
            else if s.orphans.contains v then .ok { s with orphans := s.orphans.erase v, live := upd s.live v false }
            else .ub
    else none

/-- States reached by histories whose steps satisfy `P`. (No code of its own.) -/
inductive Reach (na : Nat) (P : St → Nat → Ev → Prop) : St → Prop where
  | init : Reach na P init
  | step {s s' : St} {t : Nat} {e : Ev} : Reach na P s → P s t e → step na s t e = some (.ok s') → Reach na P s'

/-! ### What the property talks about -/

/-- Thread `t` is doing something with `v`. (No code of its own.) -/
def Touches (s : St) (t v : Nat) : Prop :=
  s.pc t = .has v ∨ (∃ a, s.pc t = .addRm v a) ∨ (∃ a, s.pc t = .addDo v a) ∨ (∃ a, s.pc t = .delDo v a)

/-- Thread `t` is handing `v` over: it has it, or is in arax_accel_add_vaccel with it, and it is not (any more) an orphan. (No code of its own.) -/
def HandsOver (s : St) (t v : Nat) : Prop := s.pc t = .has v ∨ ((∃ a, s.pc t = .addRm v a) ∧ v ∉ s.orphans) ∨ (∃ a, s.pc t = .addDo v a)

/-- C34's three places. (No code of its own.) -/
inductive InOnePlace (na : Nat) (s : St) (v : Nat) : Prop where
  | orphan : s.orphans.count v = 1 → (∀ a, a < na → v ∉ s.acc a) → s.phys v = none → (∀ t, ¬ HandsOver s t v) → InOnePlace na s v
  | assigned (a : Nat) : a < na → (s.acc a).count v = 1 → (∀ b, b < na → b ≠ a → v ∉ s.acc b) → v ∉ s.orphans → s.phys v = some a →
      (∀ t, ¬ HandsOver s t v) → InOnePlace na s v
  | handed (t : Nat) : HandsOver s t v → (∀ t', HandsOver s t' v → t' = t) → v ∉ s.orphans → (∀ a, a < na → v ∉ s.acc a) → s.phys v = none →
      InOnePlace na s v

end Arax.Accel.Place
