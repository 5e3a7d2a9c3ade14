/-!
# Services: the library handles a kernel asks the controller for (C105)

`controller/src/Core/Services.cpp`, `Core/Services.h`, `Cuda/CublasService.cpp`,
`Cuda/CudnnService.cpp`, `Cuda/CurandService.cpp`, `include/Factory.h`.

A kernel on an accelerator may ask the controller for a *service*: a handle of
cuBLAS, cuDNN or cuRAND.  `createService(thread, name)` constructs a provider
object by class name, asks it whether it supports the thread's accelerator, has
it make a handle and remembers which provider made it; `destroyService` looks
the handle up and has that provider destroy it.

The three libraries are the environment: a successful create gives a handle that
is not null and not in use by any of them, everything else (which handle,
whether a call succeeds) is arbitrary.
-/
namespace Arax.Services

/-- The three providers: `CublasService.cpp:6-71`, `CudnnService.cpp:7-39`,
`CurandService.cpp:5-48` (controller/src/Cuda). -/
inductive Kind
  | cublas | cudnn | curand
  deriving DecidableEq, Repr

/-- The class name a provider is registered under: `registerType` demangles the
`typeid` of the class (controller/include/Factory.h:18-25), `REGISTER_SERVICE`
at CublasService.cpp:71, CudnnService.cpp:39, CurandService.cpp:48. -/
def Kind.cls : Kind → String
  | .cublas => "CublasService"
  | .cudnn => "CudnnService"
  | .curand => "CurandService"

/-- What a call of the API did. -/
inductive Res
  /-- returned this handle -/
  | handle (h : Nat)
  /-- returned a null pointer -/
  | null
  /-- returned (a call of type void) -/
  | done
  /-- left with an exception -/
  | threw
  /-- used a null pointer as an object: the controller is gone -/
  | crashed
  deriving DecidableEq, Repr

/-- A call, with the library's answer. `gpu` says whether the calling worker's
accelerator is of type GPU: `supports` of all three providers is
`thread->getAccelType() == GPU` (CublasService.cpp:8-11, CudnnService.cpp:9-12,
CurandService.cpp:7-10). -/
inductive Ev
  /-- `createService(thread, name)`; `ans`: the library's new handle, if it made one -/
  | create (gpu : Bool) (name : String) (ans : Option Nat)
  /-- `destroyService(thread, h)`; `ok`: the library's destroy call succeeds -/
  | destroy (gpu : Bool) (h : Nat) (ok : Bool)
  deriving DecidableEq, Repr

/-- The controller's and the libraries' state. -/
structure St where
  /-- `activeServicesPerThread`, Services.h:43: handle to the provider object (by kind) -/
  active : List (Nat × Kind) := []
  /-- the handles that exist, each with the library it belongs to (environment) -/
  lib : List (Nat × Kind) := []
  /-- provider objects allocated by `new T(args…)` (Factory.h:75) and not deleted -/
  objs : Nat := 0
  /-- a library was told to destroy something that is not a live handle of its own -/
  foreign : Bool := false
  /-- a null pointer was used as an object -/
  dead : Bool := false
  deriving DecidableEq, Repr

/-- `Factory::constructType`, controller/include/Factory.h:27-46: the type's name
is the given name followed by the demangled name of the base class, here
"Service"; an unregistered name gives a null pointer (with a message).  The
constructors of the three providers throw nothing. `reg` are the providers
linked into the controller. -/
def construct (reg : List Kind) (name : String) : Option Kind :=
  reg.find? (fun k => decide (k.cls = name ++ "Service"))

/-- `std::map::operator[] =`: one value per key, the new one wins
(Services.cpp:28). -/
def put (m : List (Nat × Kind)) (h : Nat) (k : Kind) : List (Nat × Kind) :=
  (h, k) :: m.filter (fun p => decide (p.1 ≠ h))

/-- `std::map::at`, Services.cpp:38. -/
def get (m : List (Nat × Kind)) (h : Nat) : Option Kind :=
  (m.find? (fun p => decide (p.1 = h))).map (·.2)

/-- `std::map::erase(key)`, Services.cpp:43. -/
def del (m : List (Nat × Kind)) (h : Nat) : List (Nat × Kind) :=
  m.filter (fun p => decide (p.1 ≠ h))

/-- What the library does when told to destroy `h` (environment): on success the
handle is gone; telling it about something that is not its own live handle is a
use of memory it does not own. -/
def libDestroy (s : St) (k : Kind) (h : Nat) (ok : Bool) : St :=
  if (h, k) ∈ s.lib then
    if ok then { s with lib := s.lib.filter (fun p => decide (p ≠ (h, k))) } else s
  else { s with foreign := true }

/-- Does the provider report a failed destroy by an exception?  cuBLAS and cuRAND
do (CublasService.cpp:65-67, CurandService.cpp:36-42), `CudnnService.cpp:33`
ignores the status. -/
def Kind.checks : Kind → Bool
  | .cublas | .curand => true
  | .cudnn => false

/-- `ServiceProvider::createService`, Services.cpp:14-32 with
`Service::createNewInstance`, Services.cpp:9-12, and the providers'
`createInstance` (CublasService.cpp:44-57, CudnnService.cpp:14-24,
CurandService.cpp:12-27), which throw when the library makes no handle.
Simplified: the per-provider map `instances` is written (Services.cpp:11) and
never read, and is left out. -/
def createService (reg : List Kind) (s : St) (gpu : Bool) (name : String) (ans : Option Nat) : St × Res :=
  match construct reg name with
  | none => ({ s with dead := true }, .crashed)
  | some k =>
    let s := { s with objs := s.objs + 1 }
    if gpu then
      match ans with
      | none => (s, .threw)
      | some h => ({ s with lib := (h, k) :: s.lib, active := put s.active h k }, .handle h)
    else (s, .null)

/-- `ServiceProvider::destroyService`, Services.cpp:34-44, with the providers'
`destroyInstance` (CublasService.cpp:59-68, CudnnService.cpp:26-36,
CurandService.cpp:29-45): a null handle throws, a failed destroy throws in two
of them. -/
def destroyService (s : St) (gpu : Bool) (h : Nat) (ok : Bool) : St × Res :=
  match get s.active h with
  | none => (s, .threw)
  | some k =>
    if gpu then
      if h = 0 then (s, .threw)
      else
        let s := libDestroy s k h ok
        if k.checks && !ok then (s, .threw)
        else ({ s with active := del s.active h }, .done)
    else ({ s with active := del s.active h }, .done)

/-- One call (Services.cpp:14-44). -/
def call (reg : List Kind) (s : St) : Ev → St × Res
  | .create gpu name ans => createService reg s gpu name ans
  | .destroy gpu h ok => destroyService s gpu h ok

/-- What the libraries may answer: a new handle is not null and not a live
handle of any of them.  (They are called only where the code calls them; an
answer that is not asked for is ignored.) -/
def answers (s : St) : Ev → Prop
  | .create _ _ (some h) => h ≠ 0 ∧ ∀ k, (h, k) ∉ s.lib
  | _ => True

/-- The histories of calls of a controller with providers `reg`, newest call
first, one call at a time, until the controller is dead. -/
inductive Run (reg : List Kind) : List (Ev × Res) → St → Prop
  | nil : Run reg [] {}
  | step {log s} (e : Ev) : Run reg log s → s.dead = false → answers s e →
      Run reg ((e, (call reg s e).2) :: log) (call reg s e).1

/-! ## Specification, in terms of calls and results only -/

/-- The provider a name stands for: "Cublas" is cuBLAS, and so on. -/
def provider (name : String) : Option Kind :=
  if name = "Cublas" then some .cublas
  else if name = "Cudnn" then some .cudnn
  else if name = "Curand" then some .curand
  else none

/-- `Held log h k`: according to the calls so far (newest first), `h` was handed
out as a handle of library `k` and has not been given back since. -/
def Held : List (Ev × Res) → Nat → Kind → Prop
  | [], _, _ => False
  | (.create _ name _, .handle h') :: log, h, k => (h' = h ∧ provider name = some k) ∨ (h' ≠ h ∧ Held log h k)
  | (.destroy _ h' _, .done) :: log, h, k => h' ≠ h ∧ Held log h k
  | _ :: log, h, k => Held log h k

/-- Every call so far came from a worker whose accelerator the services support. -/
def AllGpu (log : List (Ev × Res)) : Prop :=
  ∀ e ∈ log, match e.1 with
    | .create gpu _ _ => gpu = true
    | .destroy gpu _ _ => gpu = true

/-- No library refused to destroy a handle. -/
def AllOk (log : List (Ev × Res)) : Prop :=
  ∀ e ∈ log, match e.1 with
    | .create _ _ _ => True
    | .destroy _ _ ok => ok = true

/-! ## Facts about the maps -/

theorem mem_del {m : List (Nat × Kind)} {h h' : Nat} {k : Kind} : (h', k) ∈ del m h ↔ h' ≠ h ∧ (h', k) ∈ m := by
  simp [del, and_comm]

theorem mem_put {m : List (Nat × Kind)} {h h' : Nat} {k k' : Kind} :
    (h', k') ∈ put m h k ↔ (h' = h ∧ k' = k) ∨ (h' ≠ h ∧ (h', k') ∈ m) := by
  simp [put, and_comm]

/-- One value per key. -/
def Func (m : List (Nat × Kind)) : Prop := ∀ h k k', (h, k) ∈ m → (h, k') ∈ m → k = k'

theorem get_some {m : List (Nat × Kind)} {h : Nat} {k : Kind} (hg : get m h = some k) : (h, k) ∈ m := by
  unfold get at hg
  cases hf : m.find? (fun p => decide (p.1 = h)) with
  | none => rw [hf] at hg; simp at hg
  | some p =>
    rw [hf] at hg
    have h1 := List.find?_some hf
    have h2 := List.mem_of_find?_eq_some hf
    simp at hg h1
    rw [← hg, ← h1]; exact h2

theorem get_none {m : List (Nat × Kind)} {h : Nat} (hg : get m h = none) (k : Kind) : (h, k) ∉ m := by
  intro hm
  unfold get at hg
  rw [Option.map_eq_none_iff, List.find?_eq_none] at hg
  exact hg _ hm (by simp)

theorem get_iff {m : List (Nat × Kind)} (hf : Func m) {h : Nat} {k : Kind} : get m h = some k ↔ (h, k) ∈ m := by
  constructor
  · exact get_some
  · intro hm
    cases hg : get m h with
    | none => exact absurd hm (get_none hg k)
    | some k' => rw [hf _ _ _ hm (get_some hg)]

theorem construct_provider {reg : List Kind} {name : String} {k : Kind} (h : construct reg name = some k) :
    k ∈ reg ∧ provider name = some k := by
  have h1 := List.find?_some h
  have h2 := List.mem_of_find?_eq_some h
  refine ⟨h2, ?_⟩
  simp only [decide_eq_true_eq] at h1
  have inj : ∀ a : String, a ++ "Service" = name ++ "Service" → name = a := by
    intro a ha
    have := congrArg String.toList ha
    simp only [String.toList_append] at this
    exact (String.toList_inj.1 (List.append_cancel_right this)).symm
  cases k with
  | cublas => rw [inj "Cublas" (by rw [← h1]; rfl)]; rfl
  | cudnn => rw [inj "Cudnn" (by rw [← h1]; rfl)]; rfl
  | curand => rw [inj "Curand" (by rw [← h1]; rfl)]; rfl

theorem provider_construct {reg : List Kind} {name : String} {k : Kind} (hk : k ∈ reg) (h : provider name = some k) :
    construct reg name = some k := by
  have hcls : k.cls = name ++ "Service" := by
    unfold provider at h
    split at h
    · rename_i e; subst e; cases h; rfl
    · split at h
      · rename_i e; subst e; cases h; rfl
      · split at h
        · rename_i e; subst e; cases h; rfl
        · cases h
  cases hc : construct reg name with
  | none =>
    unfold construct at hc
    rw [List.find?_eq_none] at hc
    exact absurd hcls (by simpa using hc k hk)
  | some k' =>
    have := (construct_provider hc).2
    rw [h] at this
    exact this.symm

/-! ## The invariant -/

structure Inv (log : List (Ev × Res)) (s : St) : Prop where
  func : Func s.active
  sub : ∀ h k, (h, k) ∈ s.active → (h, k) ∈ s.lib
  nz : ∀ h k, (h, k) ∈ s.active → h ≠ 0
  held : ∀ h k, (h, k) ∈ s.active ↔ Held log h k
  own : s.foreign = false

theorem inv {reg : List Kind} {log : List (Ev × Res)} {s : St} (hr : Run reg log s) : Inv log s := by
  induction hr with
  | nil => exact ⟨by simp [Func], by simp, by simp, by simp [Held], rfl⟩
  | @step log s e _ _ ha ih =>
    cases e with
    | create gpu name ans =>
      simp only [call, createService]
      cases hc : construct reg name with
      | none => exact ⟨ih.func, ih.sub, ih.nz, by simpa only [Held] using ih.held, ih.own⟩
      | some k =>
        cases gpu with
        | false => exact ⟨ih.func, ih.sub, ih.nz, by simpa [Held] using ih.held, ih.own⟩
        | true =>
          cases ans with
          | none => exact ⟨ih.func, ih.sub, ih.nz, by simpa [Held] using ih.held, ih.own⟩
          | some h =>
            have hp := (construct_provider hc).2
            refine ⟨?_, ?_, ?_, ?_, ih.own⟩
            · intro a b c h1 h2
              simp only [if_true, mem_put] at h1 h2
              have := ih.func a b c
              grind
            · intro a b h1
              simp only [if_true, mem_put, List.mem_cons, Prod.mk.injEq] at h1 ⊢
              have := ih.sub a b
              grind
            · intro a b h1
              simp only [if_true, mem_put] at h1
              have := ih.nz a b
              have := ha.1
              grind
            · intro a b
              simp only [if_true, mem_put, Held, hp, Option.some.injEq]
              have := ih.held a b
              grind
    | destroy gpu h ok =>
      simp only [call, destroyService]
      cases hg : get s.active h with
      | none => exact ⟨ih.func, ih.sub, ih.nz, by simpa only [Held] using ih.held, ih.own⟩
      | some k =>
        have hm := get_some hg
        have h0 := ih.nz _ _ hm
        have hl := ih.sub _ _ hm
        cases gpu with
        | false =>
          refine ⟨?_, ?_, ?_, ?_, ih.own⟩
          · intro a b c h1 h2
            exact ih.func a b c (mem_del.1 h1).2 (mem_del.1 h2).2
          · intro a b h1; exact ih.sub a b (mem_del.1 h1).2
          · intro a b h1; exact ih.nz a b (mem_del.1 h1).2
          · intro a b
            simp only [Bool.false_eq_true, if_false, mem_del, Held]
            rw [ih.held a b]
            constructor
            · rintro ⟨x, y⟩; exact ⟨fun e => x e.symm, y⟩
            · rintro ⟨x, y⟩; exact ⟨fun e => x e.symm, y⟩
        | true =>
          simp only [if_true, h0, if_false, libDestroy, hl]
          cases ok with
          | false =>
            cases hk : k.checks with
            | true => exact ⟨ih.func, ih.sub, ih.nz, by simpa [Held] using ih.held, ih.own⟩
            | false =>
              refine ⟨?_, ?_, ?_, ?_, by simpa using ih.own⟩
              · intro a b c h1 h2
                exact ih.func a b c (mem_del.1 h1).2 (mem_del.1 h2).2
              · intro a b h1; exact ih.sub a b (mem_del.1 h1).2
              · intro a b h1; exact ih.nz a b (mem_del.1 h1).2
              · intro a b
                simp [mem_del, Held]
                rw [ih.held a b]
                grind
          | true =>
            simp only [Bool.not_true, Bool.and_false, Bool.false_eq_true, if_false, if_true]
            refine ⟨?_, ?_, ?_, ?_, ih.own⟩
            · intro a b c h1 h2
              exact ih.func a b c (mem_del.1 h1).2 (mem_del.1 h2).2
            · intro a b h1
              have h1 := mem_del.1 h1
              have := ih.sub a b h1.2
              simp only [List.mem_filter, decide_eq_true_eq, ne_eq, Prod.mk.injEq, not_and]
              exact ⟨this, fun e => absurd e h1.1⟩
            · intro a b h1; exact ih.nz a b (mem_del.1 h1).2
            · intro a b
              simp only [mem_del, Held]
              rw [ih.held a b]
              grind

/-! ## What the calls do, for every history -/

/-- **C105** A handle that `createService` returns is nobody else's: whatever
happened before, it is not null and was not in anybody's hands, and it is a
handle of the library that was asked for. -/
theorem C105_handle_fresh_partial {reg : List Kind} {log : List (Ev × Res)} {s : St} (hr : Run reg log s)
    {gpu : Bool} {name : String} {ans : Option Nat} (ha : answers s (.create gpu name ans)) {h : Nat}
    (hh : (call reg s (.create gpu name ans)).2 = .handle h) :
    h ≠ 0 ∧ (∀ k, ¬ Held log h k) ∧
      ∃ k, provider name = some k ∧ k ∈ reg ∧ (h, k) ∈ (call reg s (.create gpu name ans)).1.lib := by
  have hi := inv hr
  simp only [call, createService] at hh ⊢
  cases hc : construct reg name with
  | none => rw [hc] at hh; cases hh
  | some k =>
    rw [hc] at hh
    cases gpu with
    | false => cases hh
    | true =>
      cases ans with
      | none => cases hh
      | some h' =>
        simp only [if_true, Res.handle.injEq] at hh
        subst hh
        refine ⟨ha.1, fun k' hk => ?_, k, (construct_provider hc).2, (construct_provider hc).1, by simp⟩
        exact ha.2 k' (hi.sub _ _ ((hi.held _ _).2 hk))

/-- **C105** A request by name is answered by what the name says: a handle if the
name is one of the registered services, the worker's accelerator is supported
and the library makes one; a null pointer if the accelerator is not supported;
an exception if the library makes none. -/
theorem C105_create_answers_partial {reg : List Kind} (s : St) (gpu : Bool) (name : String) (ans : Option Nat)
    {k : Kind} (hk : k ∈ reg) (hn : provider name = some k) :
    (call reg s (.create gpu name ans)).2 =
      if gpu then (match ans with | some h => .handle h | none => .threw) else .null := by
  simp only [call, createService, provider_construct hk hn]
  cases gpu <;> cases ans <;> rfl

/-- **C105** A held handle can be given back, by a worker whose accelerator is
supported, exactly when the library agrees: then the handle is gone from the
library that made it and from nowhere else; giving back anything that is not
held is refused with an exception and changes nothing. -/
theorem C105_give_back_partial {reg : List Kind} {log : List (Ev × Res)} {s : St} (hr : Run reg log s) (h : Nat) :
    (∀ k, Held log h k →
      (call reg s (.destroy true h true)).2 = .done ∧
      (∀ p, p ∈ (call reg s (.destroy true h true)).1.lib ↔ p ∈ s.lib ∧ p ≠ (h, k))) ∧
    ((∀ k, ¬ Held log h k) → ∀ gpu ok, call reg s (.destroy gpu h ok) = (s, .threw)) := by
  have hi := inv hr
  constructor
  · intro k hk
    have hm := (hi.held h k).2 hk
    have h0 := hi.nz _ _ hm
    have hl := hi.sub _ _ hm
    simp only [call, destroyService, (get_iff hi.func).2 hm, h0, libDestroy, hl]
    simp
  · intro hn gpu ok
    have : get s.active h = none := by
      cases hg : get s.active h with
      | none => rfl
      | some k => exact absurd ((hi.held h k).1 (get_some hg)) (hn k)
    simp only [call, destroyService, this]

/-- **C105** A library that does not destroy a held handle: cuBLAS and cuRAND, the
caller gets an exception and still holds the handle; cuDNN, the caller is told
that all went well, and the handle stays in the library with nobody holding it. -/
theorem C105_refused_partial {reg : List Kind} {log : List (Ev × Res)} {s : St} (hr : Run reg log s) {h : Nat} {k : Kind} (hk : Held log h k) :
    (k = .cublas ∨ k = .curand → call reg s (.destroy true h false) = (s, .threw)) ∧
    (k = .cudnn → (call reg s (.destroy true h false)).2 = .done ∧ (call reg s (.destroy true h false)).1.lib = s.lib ∧ (h, Kind.cudnn) ∈ s.lib ∧
      ∀ k', (h, k') ∉ (call reg s (.destroy true h false)).1.active) := by
  have hi := inv hr
  have hm := (hi.held h k).2 hk
  have h0 := hi.nz _ _ hm
  have hl := hi.sub _ _ hm
  have hg := (get_iff hi.func).2 hm
  constructor
  · rintro (rfl | rfl) <;>
      simp [call, destroyService, hg, h0, libDestroy, hl, Kind.checks]
  · rintro rfl
    simp [call, destroyService, hg, h0, libDestroy, hl, Kind.checks, mem_del]

/-- **C105** No history makes a library destroy what is not a live handle of its
own: not a handle destroyed before, not a handle of another library. -/
theorem C105_never_foreign {reg : List Kind} {log : List (Ev × Res)} {s : St} (hr : Run reg log s) :
    s.foreign = false := (inv hr).own

theorem Held_congr_gpu {log : List (Ev × Res)} {e : Ev × Res} (h : AllGpu (e :: log)) : AllGpu log :=
  fun x hx => h x (by simp [hx])

theorem Held_congr_ok {log : List (Ev × Res)} {e : Ev × Res} (h : AllOk (e :: log)) : AllOk log :=
  fun x hx => h x (by simp [hx])

/-- **C105** As long as only workers with supported accelerators call and the
libraries do not refuse, the live handles of the libraries are exactly the ones
handed out and not given back: nothing leaks, nothing is destroyed early. -/
theorem C105_handles_exact_partial {reg : List Kind} {log : List (Ev × Res)} {s : St} (hr : Run reg log s)
    (hg : AllGpu log) (ho : AllOk log) (h : Nat) (k : Kind) : (h, k) ∈ s.lib ↔ Held log h k := by
  rw [← (inv hr).held h k]
  constructor
  · intro hl
    revert hg ho h k
    induction hr with
    | nil => intro _ _ h k hl; simp at hl
    | @step log s e hr _ ha ih =>
      intro hg ho h k hl
      have ih := ih (Held_congr_gpu hg) (Held_congr_ok ho)
      have hi := inv hr
      cases e with
      | create gpu name ans =>
        simp only [call, createService] at hl ⊢
        cases hc : construct reg name with
        | none => rw [hc] at hl; exact ih h k hl
        | some k' =>
          rw [hc] at hl
          cases gpu with
          | false => exact ih h k hl
          | true =>
            cases ans with
            | none => exact ih h k hl
            | some h' =>
              simp only [if_true, List.mem_cons, Prod.mk.injEq, mem_put] at hl ⊢
              have := ih h k
              have := ha.2 k
              grind
      | destroy gpu h' ok =>
        have hgpu : gpu = true := hg (.destroy gpu h' ok, _) List.mem_cons_self
        have hok : ok = true := ho (.destroy gpu h' ok, _) List.mem_cons_self
        subst hgpu hok
        simp only [call, destroyService] at hl ⊢
        cases hget : get s.active h' with
        | none => rw [hget] at hl; exact ih h k hl
        | some k' =>
          rw [hget] at hl
          have hm := get_some hget
          have h0 := hi.nz _ _ hm
          have hlib := hi.sub _ _ hm
          simp only [if_true, h0, if_false, libDestroy, hlib, Bool.not_true, Bool.and_false, Bool.false_eq_true] at hl ⊢
          simp only [List.mem_filter, decide_eq_true_eq, ne_eq, Prod.mk.injEq, not_and] at hl
          have hact := ih h k hl.1
          refine mem_del.2 ⟨fun e => ?_, hact⟩
          subst e
          exact hl.2 rfl (hi.func _ _ _ hact hm)
  · exact (inv hr).sub h k

/-- The number of requests for a registered service so far. -/
def asked (reg : List Kind) : List (Ev × Res) → Nat
  | [] => 0
  | (.create _ name _, _) :: log => asked reg log + (if ∃ k ∈ reg, provider name = some k then 1 else 0)
  | (.destroy _ _ _, _) :: log => asked reg log

/-- **C105, violated (memory)** Every request for a registered service allocates
a provider object and none is ever deleted: the memory held is the number of
requests, however many handles were given back. -/
theorem C105_violated_providers_leak {reg : List Kind} {log : List (Ev × Res)} {s : St} (hr : Run reg log s) :
    s.objs = asked reg log := by
  induction hr with
  | nil => rfl
  | @step log s e _ _ _ ih =>
    cases e with
    | create gpu name ans =>
      simp only [call, createService, asked]
      cases hc : construct reg name with
      | none =>
        have : ¬ ∃ k ∈ reg, provider name = some k := by
          rintro ⟨k, hk, hn⟩; rw [provider_construct hk hn] at hc; cases hc
        simpa [this] using ih
      | some k =>
        have : ∃ k ∈ reg, provider name = some k := ⟨k, construct_provider hc⟩
        rw [if_pos this]
        cases gpu <;> cases ans <;> simp [ih]
    | destroy gpu h ok =>
      simp only [call, destroyService, asked]
      cases get s.active h with
      | none => exact ih
      | some k =>
        cases gpu
        · exact ih
        · have hd : (libDestroy s k h ok).objs = s.objs := by
            unfold libDestroy
            split
            · split <;> rfl
            · rfl
          simp only [if_true]
          by_cases h0 : h = 0
          · simp only [h0, if_true]; exact ih
          · simp only [h0, if_false]
            split
            · exact hd.trans ih
            · exact hd.trans ih

/-- **C105, violated (unknown name)** A request for a service that is not linked
in does not come back: `createService` uses the null pointer it got from the
factory, on every accelerator and in every state. -/
theorem C105_violated_unknown_name {reg : List Kind} (s : St) (gpu : Bool) (name : String) (ans : Option Nat)
    (hn : ∀ k ∈ reg, provider name ≠ some k) : (call reg s (.create gpu name ans)).2 = .crashed := by
  have : construct reg name = none := by
    cases hc : construct reg name with
    | none => rfl
    | some k => exact absurd (construct_provider hc).2 (hn k (construct_provider hc).1)
  simp only [call, createService, this]

/-- The controller as CMake builds it has cuBLAS only
(controller/src/Cuda/CMakeLists.txt:10). -/
def built : List Kind := [.cublas]

/-- **C105, violated (unknown name), concretely** With the controller as it is
built, a kernel asking for cuDNN – a provider that is in the source tree – ends
the controller. -/
theorem C105_violated_cudnn_not_built :
    (call built {} (.create true "Cudnn" (some 64))).2 = .crashed ∧
    (call built {} (.create true "Cublas" (some 64))).2 = .handle 64 := by
  constructor <;> decide

/-- A kernel on a GPU gets a handle and a worker of another accelerator gives it
back. -/
def crossRun : List (Ev × Res) :=
  [(.destroy false 64 true, .done), (.create true "Cublas" (some 64), .handle 64)]

/-- **C105, violated (leaked handle)** Giving a handle back from a worker whose
accelerator is not supported "succeeds", forgets the handle and leaves it in the
library: it can never be given back again. -/
theorem C105_violated_handle_lost :
    ∃ s, Run built crossRun s ∧ (64, Kind.cublas) ∈ s.lib ∧ (∀ k, ¬ Held crossRun 64 k) ∧
      ∀ gpu ok, (call built s (.destroy gpu 64 ok)).2 = .threw := by
  refine ⟨{ active := [], lib := [(64, .cublas)], objs := 1 }, ?_, by decide, ?_, ?_⟩
  · have h1 : Run built [(.create true "Cublas" (some 64), .handle 64)]
        { active := [(64, .cublas)], lib := [(64, .cublas)], objs := 1 } :=
      Run.step (reg := built) (.create true "Cublas" (some 64)) .nil rfl ⟨by decide, by simp⟩
    exact Run.step (reg := built) (.destroy false 64 true) h1 rfl trivial
  · intro k hk; exact hk.1 rfl
  · intro gpu ok; cases gpu <;> cases ok <;> decide

/-! ## Calls of two workers at once

`activeServicesPerThread` is one `std::map` for all workers and nothing guards
it (Services.h:43, Services.cpp:28, 38, 43). A call of a worker is inside the
map between the start and the end of the map operation. -/

/-- Which workers are inside an operation of the map. -/
abbrev Inside := List Nat

/-- A worker starts or ends its map operation; a worker runs one call at a time.
Services.cpp:28, 38, 43: no lock is taken. -/
inductive MapStep : Inside → Nat → Inside → Prop
  | enter {i t} : t ∉ i → MapStep i t (t :: i)
  | leave {i t} : t ∈ i → MapStep i t (i.filter (fun x => decide (x ≠ t)))

/-- Executions of the workers `ws`. -/
inductive MapRun (ws : List Nat) : Inside → Prop
  | nil : MapRun ws []
  | step {i i' t} : MapRun ws i → t ∈ ws → MapStep i t i' → MapRun ws i'

/-- Two workers in the map at once: undefined behaviour of `std::map`. -/
def Race (i : Inside) : Prop := ∃ a b, a ≠ b ∧ a ∈ i ∧ b ∈ i

/-- **C105, violated (two workers)** Two workers with kernels that ask for
services can be inside the map at the same time; with one worker this cannot
happen. -/
theorem C105_violated_map_race (a b : Nat) (hab : a ≠ b) :
    (∃ i, MapRun [a, b] i ∧ Race i) ∧ ∀ w i, MapRun [w] i → ¬ Race i := by
  constructor
  · refine ⟨[b, a], ?_, b, a, hab.symm, by simp, by simp⟩
    exact .step (.step .nil (by simp) (.enter (t := a) (by simp))) (by simp) (.enter (by simp [hab.symm]))
  · intro w i hr
    have : ∀ x ∈ i, x = w := by
      induction hr with
      | nil => simp
      | @step _ _ t _ ht hs ih =>
        have ht : t = w := by simpa using ht
        cases hs with
        | enter _ =>
          intro x hx
          rcases List.mem_cons.1 hx with e | e
          · rw [e, ht]
          · exact ih x e
        | leave _ => intro x hx; exact ih x (List.mem_filter.1 hx).1
    rintro ⟨a, b, hne, ha, hb⟩
    exact hne ((this a ha).trans (this b hb).symm)

/-! ## The hypotheses are met -/

/-- A history: two handles of two libraries, one given back. -/
def sample : List (Ev × Res) :=
  [(.destroy true 64 true, .done), (.create true "Curand" (some 80), .handle 80),
   (.create true "Cublas" (some 64), .handle 64)]

theorem sample_run : ∃ s, Run [.cublas, .curand] sample s ∧ s.lib = [(80, .curand)] ∧ s.objs = 2 := by
  refine ⟨{ active := [(80, .curand)], lib := [(80, .curand)], objs := 2 }, ?_, rfl, rfl⟩
  have h1 : Run [.cublas, .curand] [(.create true "Cublas" (some 64), .handle 64)]
      { active := [(64, .cublas)], lib := [(64, .cublas)], objs := 1 } :=
    Run.step (reg := [.cublas, .curand]) (.create true "Cublas" (some 64)) .nil rfl ⟨by decide, by simp⟩
  have h2 : Run [.cublas, .curand] [(.create true "Curand" (some 80), .handle 80), (.create true "Cublas" (some 64), .handle 64)]
      { active := [(80, .curand), (64, .cublas)], lib := [(80, .curand), (64, .cublas)], objs := 2 } :=
    Run.step (reg := [.cublas, .curand]) (.create true "Curand" (some 80)) h1 rfl ⟨by decide, by simp⟩
  exact Run.step (reg := [.cublas, .curand]) (.destroy true 64 true) h2 rfl trivial

example : AllGpu sample ∧ AllOk sample ∧ Held sample 80 .curand ∧ ¬ Held sample 64 .cublas := by
  refine ⟨?_, ?_, ?_, ?_⟩
  · intro e he; simp [sample] at he; rcases he with h | h | h <;> subst h <;> rfl
  · intro e he; simp [sample] at he; rcases he with h | h | h <;> subst h <;> trivial
  · exact ⟨by decide, Or.inl ⟨rfl, by decide⟩⟩
  · rintro ⟨h, _⟩; exact h rfl

example : provider "Cudnn" = some .cudnn ∧ ∀ k ∈ built, provider "Cudnn" ≠ some k := by
  constructor <;> decide

end Arax.Services
