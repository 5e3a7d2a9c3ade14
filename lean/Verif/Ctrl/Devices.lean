/-!
# C103: accelerators with a device of their own come up and go down

*Property.* For every set of CUDA, HIP or OpenCL accelerators: each accelerator works on the device its configuration names, with a stream of its own from which the accelerator
can be found again; the kernels it finds by name can be used with its stream; the segment is registered with the driver once if an accelerator asks for it; and when the
accelerators are released, everything that was obtained from the driver is given back, exactly once, without ending the process, and without touching the segment that
applications use.

Modelled: the constructors' checks, `acceleratorInit` and `acceleratorRelease` of /repo/controller/src/Cuda/CUDAaccelThread.cpp, /repo/controller/src/ROCm/HIPaccelThread.cpp and
/repo/controller/src/OpenCL/OpenclaccelThread.cpp, with the static variables they share. Each runs under `print_lock` (/repo/controller/src/Core/accelThread.cpp:321, 448), so a
history of them is a sequence. The drivers are assumed to follow their documentation: streams, contexts, programs and kernels are new objects; OpenCL objects have a reference
count, and releasing NULL or an object without references is an error. Other failures of the drivers (no memory) are left out.
-/
namespace Arax.Devices

/-- How an initialisation or a release can end the process, or leave C++: an index outside a static array, an exception nobody catches, `abort()`. (No code of its own.) -/
inductive Why where
  | outside | exception | abort
  deriving DecidableEq

/-- `int64_t` to `int`, for the parameter of `setCUDADevice` and `setHIPDevice` (/repo/controller/src/Cuda/prepareGPU.cu:48, /repo/controller/src/ROCm/prepareHIPGPU.cpp:37). -/
def toInt (x : Int) : Int := (x + 2147483648) % 4294967296 - 2147483648

/-! ## CUDA and HIP -/

/-- Which of the two. controller/src/{Cuda,ROCm}. -/
inductive Kind where
  | cuda | hip
  deriving DecidableEq

/-- What the configuration says of an accelerator: `pci_id` and `host_register` (/repo/controller/src/Cuda/CUDAaccelThread.cpp:31-34, /repo/controller/src/ROCm/HIPaccelThread.cpp:31). -/
structure GConf where
  pci : Int
  hostRegister : Bool
  deriving DecidableEq

/-- The static variables of a back-end (/repo/controller/src/Cuda/CUDAaccelThread.cpp:20-26, 58, 143; /repo/controller/src/ROCm/HIPaccelThread.cpp:19-25, 53, 146), what the
driver knows (streams with their devices, how often the segment was registered and unregistered), and how often the name of the segment was removed. -/
structure Gpu where
  exist : Int → Bool := fun _ => false          -- GPUExistInSystem of acceleratorInit
  gone : Int → Bool := fun _ => false           -- GPUExistInSystem of acceleratorRelease
  registered : Bool := false
  unregistered : Bool := false
  a2s : List (Nat × Nat) := []                  -- newest first
  s2a : List (Nat × Nat) := []
  device : List Int := []                       -- the devices of the streams made so far; streams are numbered in the order of creation
  hostRegistrations : Nat := 0
  hostUnregistrations : Nat := 0
  unlinks : Nat := 0
  failed : List Nat := []                       -- accelerators whose acceleratorInit returned false
  dead : Option Why := none

/-- `m[k]` after assignments, newest first. (C++ library.) -/
def find (m : List (Nat × Nat)) (k : Nat) : Option Nat := (m.find? (·.1 == k)).map (·.2)

/-- Does the driver have this device? (`cudaSetDevice`, `hipSetDevice`; `n` devices.) -/
def hasDevice (n : Nat) (id : Int) : Bool := decide (0 ≤ id ∧ id < n)

/-- The part of `acceleratorInit` behind the choice of the device. CUDA: the segment is registered if this is the first accelerator of the device, it asks for it, and nobody has
done it yet (/repo/controller/src/Cuda/CUDAaccelThread.cpp:69-81); registering again is an error of the driver, which becomes an exception (74-78). HIP: for an accelerator that is
not the first of its device, the number is compared with the number of devices (/repo/controller/src/ROCm/HIPaccelThread.cpp:65-89). -/
def onceOnly (k : Kind) (n : Nat) (s : Gpu) (c : GConf) : Gpu × Bool :=
  match k with
  | .cuda =>
    if s.exist c.pci then (s, true) else
      let s := { s with exist := fun x => if x = c.pci then true else s.exist x }
      if !s.registered && c.hostRegister then
        if s.hostUnregistrations < s.hostRegistrations then ({ s with dead := some .exception }, true)
        else ({ s with hostRegistrations := s.hostRegistrations + 1, registered := true }, true)
      else (s, true)
  | .hip =>
    if s.exist c.pci then (s, !decide (c.pci > (n : Int))) else
      ({ s with exist := fun x => if x = c.pci then true else s.exist x }, true)

/-- A stream on the current device of the thread, which is the one just chosen: /repo/controller/src/Cuda/CUDAaccelThread.cpp:83-96, /repo/controller/src/ROCm/HIPaccelThread.cpp:92-104. -/
def newStream (s : Gpu) (a : Nat) (dev : Int) : Gpu :=
  { s with a2s := (a, s.device.length) :: s.a2s, s2a := (s.device.length, a) :: s.s2a, device := s.device ++ [dev] }

/-- The constructor and `acceleratorInit` of accelerator `a`, with `n` devices. /repo/controller/src/Cuda/CUDAaccelThread.cpp:28-41, 55-114; /repo/controller/src/ROCm/HIPaccelThread.cpp:27-36,
50-113. CUDA: the constructor refuses numbers below 0 and above `n` with an exception, which ends the controller before anything is started. -/
def gInit (k : Kind) (n : Nat) (s : Gpu) (a : Nat) (c : GConf) : Gpu :=
  if s.dead ≠ none then s
  else if k = .cuda ∧ (c.pci < 0 ∨ c.pci > n) then { s with dead := some .exception }          -- CUDAaccelThread.cpp:35-36
  else if !hasDevice n (toInt c.pci) then { s with failed := a :: s.failed }                   -- 62-67; HIP 57-62
  else if c.pci < 0 ∨ 128 ≤ c.pci then { s with dead := some .outside }                        -- 69; HIP 65
  else
    let r := onceOnly k n s c
    if r.1.dead ≠ none then r.1
    else if !r.2 then { r.1 with failed := a :: r.1.failed }
    else newStream r.1 a (toInt c.pci)

/-- `acceleratorRelease`: the first release of all removes the name of the segment. /repo/controller/src/Cuda/CUDAaccelThread.cpp:141-155, /repo/controller/src/ROCm/HIPaccelThread.cpp:144-154. -/
def gRelease (s : Gpu) (c : GConf) : Gpu :=
  if s.dead ≠ none then s
  else if c.pci < 0 ∨ 128 ≤ c.pci then { s with dead := some .outside }
  else if s.gone c.pci then s
  else
    { s with gone := fun x => if x = c.pci then true else s.gone x, unlinks := if s.unregistered then s.unlinks else s.unlinks + 1, unregistered := true }

/-- The accelerators `l` come up, in this order. (/repo/controller/src/Core/accelThread.cpp:319-330.) -/
def gInits (k : Kind) (n : Nat) (conf : Nat → GConf) (l : List Nat) (s : Gpu) : Gpu := l.foldl (fun s a => gInit k n s a (conf a)) s

/-- The accelerators `l` go down, in this order. (/repo/controller/src/Core/accelThread.cpp:446-458.) -/
def gReleases (conf : Nat → GConf) (l : List Nat) (s : Gpu) : Gpu := l.foldl (fun s a => gRelease s (conf a)) s

/-- `getStream` (/repo/controller/src/Cuda/CUDAaccelThread.cpp:164-167, /repo/controller/src/ROCm/HIPaccelThread.cpp:158-161); `none`: an exception. -/
def getStream (s : Gpu) (a : Nat) : Option Nat := find s.a2s a

/-- `getThread` (/repo/controller/src/Cuda/CUDAaccelThread.cpp:169-172, /repo/controller/src/ROCm/HIPaccelThread.cpp:163-166); `none`: an exception. -/
def getThread (s : Gpu) (st : Nat) : Option Nat := find s.s2a st

/-! ### Specification -/

/-- Accelerator `a` is up: on its device, with a stream from which it is found again. -/
def Up (conf : Nat → GConf) (s : Gpu) (a : Nat) : Prop :=
  ∃ st, getStream s a = some st ∧ s.device[st]? = some (conf a).pci ∧ getThread s st = some a

/-- The configuration names existing devices, of which there are not too many. -/
def Sane (n : Nat) (conf : Nat → GConf) (l : List Nat) : Prop := n ≤ 128 ∧ ∀ a ∈ l, 0 ≤ (conf a).pci ∧ (conf a).pci < n

/-! ### Proofs -/

theorem toInt_small {x : Int} (h0 : 0 ≤ x) (h1 : x < 128) : toInt x = x := by
  unfold toInt; omega

theorem find_cons (m : List (Nat × Nat)) (k v x : Nat) : find ((k, v) :: m) x = if x = k then some v else find m x := by
  unfold find
  by_cases h : x = k
  · subst h; simp
  · have : (k == x) = false := by simp; exact fun e => h e.symm
    simp [this, h]

/-- What is true of the accelerators that came up so far. -/
structure GInv (n : Nat) (conf : Nat → GConf) (past : List Nat) (s : Gpu) : Prop where
  alive : s.dead = none
  nofail : s.failed = []
  up : ∀ a ∈ past, Up conf s a
  only : ∀ a st, getStream s a = some st → a ∈ past ∧ st < s.device.length
  back : ∀ st a, getThread s st = some a → st < s.device.length ∧ getStream s a = some st
  reg1 : s.hostRegistrations ≤ 1
  regf : s.registered = true ↔ s.hostRegistrations = 1
  unreg : s.hostUnregistrations = 0
  seen : ∀ x, s.exist x = true ↔ ∃ a ∈ past, (conf a).pci = x
  noun : s.unlinks = 0 ∧ s.unregistered = false ∧ ∀ x, s.gone x = false

theorem Up.newStream {conf : Nat → GConf} {s : Gpu} {a b : Nat} {d : Int} (h : Up conf s b) (hne : b ≠ a) (hlt : ∀ st, getStream s b = some st → st < s.device.length) :
    Up conf (newStream s a d) b := by
  obtain ⟨st, h1, h2, h3⟩ := h
  have hl := hlt st h1
  refine ⟨st, ?_, ?_, ?_⟩
  · simp only [getStream, Devices.newStream, find_cons, if_neg hne]; exact h1
  · simp only [Devices.newStream]; rw [List.getElem?_append_left hl]; exact h2
  · simp only [getThread, Devices.newStream, find_cons, if_neg (Nat.ne_of_lt hl)]; exact h3

/-- The state after `onceOnly`, for a configuration that makes sense. -/
theorem onceOnly_spec {k : Kind} {n : Nat} {conf : Nat → GConf} {past : List Nat} {s : Gpu} (h : GInv n conf past s) (c : GConf) (hc : c.pci < n) :
    (onceOnly k n s c).2 = true ∧ (onceOnly k n s c).1.dead = none ∧ (onceOnly k n s c).1.failed = [] ∧ (onceOnly k n s c).1.a2s = s.a2s ∧ (onceOnly k n s c).1.s2a = s.s2a ∧
    (onceOnly k n s c).1.device = s.device ∧ (onceOnly k n s c).1.hostUnregistrations = 0 ∧ (∀ x, (onceOnly k n s c).1.exist x = true ↔ s.exist x = true ∨ x = c.pci) ∧
    (onceOnly k n s c).1.unlinks = 0 ∧ (onceOnly k n s c).1.unregistered = false ∧ (onceOnly k n s c).1.gone = s.gone ∧ (onceOnly k n s c).1.hostRegistrations ≤ 1 ∧
    ((onceOnly k n s c).1.registered = true ↔ (onceOnly k n s c).1.hostRegistrations = 1) ∧
    ((onceOnly k n s c).1.hostRegistrations = if k = .cuda ∧ s.exist c.pci = false ∧ c.hostRegister = true then 1 else s.hostRegistrations) := by
  have h1 := h.reg1; have h2 := h.regf; have h3 := h.unreg
  cases k with
  | cuda =>
    simp only [onceOnly]
    by_cases he : s.exist c.pci = true
    · simp only [he, if_true]
      refine ⟨by trivial, h.alive, h.nofail, by trivial, by trivial, by trivial, h3, ?_, h.noun.1, h.noun.2.1, by trivial, h1, h2, by simp⟩
      intro x; constructor
      · exact Or.inl
      · rintro (hx | rfl)
        · exact hx
        · exact he
    · simp only [he, Bool.false_eq_true, if_false]
      have ex : ∀ x, ((if x = c.pci then true else s.exist x) = true) ↔ s.exist x = true ∨ x = c.pci := by
        intro x; by_cases hx : x = c.pci <;> simp [hx]
      by_cases hr : s.registered = true
      · simp only [hr, Bool.not_true, Bool.false_and, Bool.false_eq_true, if_false]
        refine ⟨by trivial, h.alive, h.nofail, by trivial, by trivial, by trivial, h3, ex, h.noun.1, h.noun.2.1, by trivial, h1, by simpa [hr] using h2, ?_⟩
        have := h2.1 hr
        split <;> omega
      · have hr' : s.registered = false := by simpa using hr
        have h0 : s.hostRegistrations = 0 := by
          have : s.hostRegistrations ≠ 1 := fun e => hr (h2.2 e)
          omega
        by_cases hh : c.hostRegister = true
        · simp only [hr', hh, Bool.not_false, Bool.true_and, if_true, h3, h0, Nat.lt_irrefl, if_false]
          refine ⟨by trivial, h.alive, h.nofail, by trivial, by trivial, by trivial, by trivial, ex, h.noun.1, h.noun.2.1, by trivial, by omega, by simp, by simp [he]⟩
        · simp only [hr', hh, Bool.not_false, Bool.true_and, Bool.false_eq_true, if_false]
          refine ⟨by trivial, h.alive, h.nofail, by trivial, by trivial, by trivial, h3, ex, h.noun.1, h.noun.2.1, by trivial, h1, by simpa [hr'] using h2, by simp [hh]⟩
  | hip =>
    simp only [onceOnly]
    by_cases he : s.exist c.pci = true
    · simp only [he, if_true]
      refine ⟨by simp; omega, h.alive, h.nofail, by trivial, by trivial, by trivial, h3, ?_, h.noun.1, h.noun.2.1, by trivial, h1, h2, by simp⟩
      intro x; constructor
      · exact Or.inl
      · rintro (hx | rfl)
        · exact hx
        · exact he
    · simp only [he, Bool.false_eq_true, if_false]
      refine ⟨by trivial, h.alive, h.nofail, by trivial, by trivial, by trivial, h3, ?_, h.noun.1, h.noun.2.1, by trivial, h1, h2, by simp⟩
      intro x; by_cases hx : x = c.pci <;> simp [hx]

theorem gInit_eq {k : Kind} {n : Nat} {conf : Nat → GConf} {past : List Nat} {s : Gpu} (h : GInv n conf past s) (hn : n ≤ 128) {a : Nat} (h0 : 0 ≤ (conf a).pci) (h1 : (conf a).pci < n) :
    gInit k n s a (conf a) = newStream (onceOnly k n s (conf a)).1 a (conf a).pci := by
  have hs := onceOnly_spec (k := k) h (conf a) h1
  have hlt : (conf a).pci < 128 := by omega
  have hd : hasDevice n (toInt (conf a).pci) = true := by rw [toInt_small h0 hlt]; simp [hasDevice, h0, h1]
  unfold gInit
  rw [if_neg (by simp [h.alive]), if_neg (by rintro ⟨-, h | h⟩ <;> omega), if_neg (by simp [hd]), if_neg (by omega)]
  dsimp only
  rw [if_neg (by simp [hs.2.1]), if_neg (by simp [hs.1]), toInt_small h0 hlt]

theorem GInv.init {k : Kind} {n : Nat} {conf : Nat → GConf} {past : List Nat} {s : Gpu} (h : GInv n conf past s) (hn : n ≤ 128) {a : Nat} (ha : a ∉ past) (h0 : 0 ≤ (conf a).pci)
    (h1 : (conf a).pci < n) : GInv n conf (past ++ [a]) (gInit k n s a (conf a)) := by
  rw [gInit_eq h hn h0 h1]
  obtain ⟨-, e2, e3, e4, e5, e6, e7, e8, e9, e10, e11, e12, e13, -⟩ := onceOnly_spec (k := k) h (conf a) h1
  generalize (onceOnly k n s (conf a)).1 = s' at *
  have hup : ∀ b, Up conf s b → Up conf s' b := by
    rintro b ⟨st, q1, q2, q3⟩
    exact ⟨st, by rw [getStream, e4]; exact q1, by rw [e6]; exact q2, by rw [getThread, e5]; exact q3⟩
  refine ⟨e2, e3, ?_, ?_, ?_, e12, e13, e7, ?_, e9, e10, ?_⟩
  · intro b hb
    by_cases hba : b = a
    · subst hba
      refine ⟨s'.device.length, ?_, ?_, ?_⟩
      · simp [getStream, newStream, find_cons]
      · simp [newStream]
      · simp [getThread, newStream, find_cons]
    · have hb' : b ∈ past := by simpa [hba] using hb
      refine (hup b (h.up b hb')).newStream hba ?_
      intro st hst
      rw [getStream, e4] at hst
      rw [e6]; exact (h.only b st hst).2
  · intro b st hst
    simp only [getStream, newStream, find_cons] at hst
    by_cases hba : b = a
    · rw [if_pos hba] at hst
      have := Option.some.inj hst
      simp [hba, newStream]; omega
    · rw [if_neg hba, e4] at hst
      have := h.only b st hst
      refine ⟨by simp [this.1], ?_⟩
      simp only [newStream, List.length_append, List.length_singleton, e6]; omega
  · intro st b hst
    simp only [getThread, newStream, find_cons] at hst
    by_cases hl : st = s'.device.length
    · rw [if_pos hl] at hst
      have := Option.some.inj hst
      subst this
      simp [getStream, newStream, find_cons, hl]
    · rw [if_neg hl, e5] at hst
      obtain ⟨q1, q2⟩ := h.back st b hst
      have hne : b ≠ a := fun e => ha (e ▸ (h.only b st q2).1)
      refine ⟨by simp only [newStream, List.length_append, List.length_singleton, e6]; omega, ?_⟩
      simp only [getStream, newStream, find_cons, if_neg hne, e4]; exact q2
  · intro x
    simp only [newStream, e8, h.seen]
    constructor
    · rintro (⟨b, hb, rfl⟩ | rfl)
      · exact ⟨b, by simp [hb], rfl⟩
      · exact ⟨a, by simp, rfl⟩
    · rintro ⟨b, hb, rfl⟩
      rcases List.mem_append.1 hb with hb | hb
      · exact .inl ⟨b, hb, rfl⟩
      · simp at hb; subst hb; exact .inr rfl
  · intro x; simp only [newStream, e11]; exact h.noun.2.2 x

theorem GInv.inits {k : Kind} {n : Nat} {conf : Nat → GConf} (hn : n ≤ 128) : ∀ (l past : List Nat) (s : Gpu), GInv n conf past s → (past ++ l).Nodup →
    (∀ a ∈ l, 0 ≤ (conf a).pci ∧ (conf a).pci < n) → GInv n conf (past ++ l) (gInits k n conf l s)
  | [], past, s, h, _, _ => by simpa [gInits] using h
  | a :: l, past, s, h, hnd, hl => by
    have ha : a ∉ past := by
      intro hm
      exact (List.nodup_append.1 hnd).2.2 a hm a (by simp) rfl
    have e : past ++ a :: l = past ++ [a] ++ l := by simp
    rw [e]
    refine GInv.inits hn l (past ++ [a]) _ (h.init (k := k) hn ha (hl a (by simp)).1 (hl a (by simp)).2) (e ▸ hnd) (fun b hb => hl b (by simp [hb]))

theorem gInv_start (n : Nat) (conf : Nat → GConf) : GInv n conf [] {} := by
  refine ⟨rfl, rfl, by simp, ?_, ?_, by simp, by simp, rfl, by simp, rfl, rfl, by simp⟩
  · intro a st h; simp [getStream, find] at h
  · intro st a h; simp [getThread, find] at h

/-- **C103 (CUDA, HIP: coming up).** Accelerators on existing devices all come up, in any order: nothing fails, each has a stream on the device of its configuration from which it is
found again; and no two have the same stream. -/
theorem C103_gpu_up_partial (k : Kind) (n : Nat) (conf : Nat → GConf) (l : List Nat) (hs : Sane n conf l) (hl : l.Nodup) :
    let s := gInits k n conf l {}
    s.dead = none ∧ s.failed = [] ∧ (∀ a ∈ l, Up conf s a) ∧ ∀ a ∈ l, ∀ b ∈ l, getStream s a = getStream s b → a = b := by
  have h := GInv.inits (k := k) hs.1 l [] {} (gInv_start n conf) (by simpa using hl) hs.2
  rw [List.nil_append] at h
  refine ⟨h.alive, h.nofail, h.up, ?_⟩
  intro a ha b hb e
  obtain ⟨st, h1, -, h3⟩ := h.up a ha
  obtain ⟨st', h1', -, h3'⟩ := h.up b hb
  rw [h1, h1'] at e
  have := Option.some.inj e
  subst this
  rw [h3] at h3'
  exact Option.some.inj h3'

/-- The first accelerator of `l` on device `x`. -/
def firstOn (conf : Nat → GConf) (l : List Nat) (x : Int) : Option Nat := l.find? (fun a => (conf a).pci == x)

/-- The registrations are decided by the first accelerators of the devices. -/
theorem registered_iff (n : Nat) (conf : Nat → GConf) (hn : n ≤ 128) : ∀ (l past : List Nat) (s : Gpu), GInv n conf past s → (past ++ l).Nodup →
    (∀ a ∈ l, 0 ≤ (conf a).pci ∧ (conf a).pci < n) →
    (s.hostRegistrations = 1 ↔ ∃ x a, firstOn conf past x = some a ∧ (conf a).hostRegister = true) →
    ((gInits .cuda n conf l s).hostRegistrations = 1 ↔ ∃ x a, firstOn conf (past ++ l) x = some a ∧ (conf a).hostRegister = true)
  | [], past, s, _, _, _, hi => by simpa [gInits] using hi
  | a :: l, past, s, h, hnd, hl, hi => by
    have ha : a ∉ past := by
      intro hm
      exact (List.nodup_append.1 hnd).2.2 a hm a (by simp) rfl
    have e : past ++ a :: l = past ++ [a] ++ l := by simp
    have b0 := (hl a (by simp)).1
    have b1 := (hl a (by simp)).2
    have step : (gInit .cuda n s a (conf a)).hostRegistrations = 1 ↔ ∃ x b, firstOn conf (past ++ [a]) x = some b ∧ (conf b).hostRegister = true := by
      rw [gInit_eq h hn b0 b1]
      have q := (onceOnly_spec (k := .cuda) h (conf a) b1).2.2.2.2.2.2.2.2.2.2.2.2.2
      have q' : (newStream (onceOnly .cuda n s (conf a)).1 a (conf a).pci).hostRegistrations = (onceOnly .cuda n s (conf a)).1.hostRegistrations := rfl
      rw [q', q]
      have fa : ∀ x b, firstOn conf past x = some b → firstOn conf (past ++ [a]) x = some b := by
        intro x b hb
        simp only [firstOn, List.find?_append] at hb ⊢
        rw [hb]; rfl
      by_cases hc : s.exist (conf a).pci = false ∧ (conf a).hostRegister = true
      · rw [if_pos ⟨rfl, hc⟩]
        refine ⟨fun _ => ⟨(conf a).pci, a, ?_, hc.2⟩, fun _ => rfl⟩
        have : firstOn conf past (conf a).pci = none := by
          simp only [firstOn, List.find?_eq_none, beq_iff_eq]
          intro b hb hpb
          have := (h.seen (conf a).pci).2 ⟨b, hb, hpb⟩
          rw [hc.1] at this; cases this
        simp only [firstOn, List.find?_append] at this ⊢
        rw [this]; simp
      · rw [if_neg (fun h => hc h.2), hi]
        constructor
        · rintro ⟨x, b, hb, hr⟩
          exact ⟨x, b, fa x b hb, hr⟩
        · rintro ⟨x, b, hb, hr⟩
          by_cases hp : firstOn conf past x = none
          · exfalso
            simp only [firstOn, List.find?_append] at hb hp
            rw [hp] at hb
            simp only [Option.none_or, List.find?_cons, List.find?_nil] at hb
            split at hb
            · rename_i hx
              have e1 := Option.some.inj hb
              subst e1
              apply hc
              refine ⟨?_, hr⟩
              cases hex : s.exist (conf a).pci with
              | false => rfl
              | true =>
                obtain ⟨b, hb, hpb⟩ := (h.seen _).1 hex
                rw [List.find?_eq_none] at hp
                have := hp b hb
                simp only [beq_iff_eq] at this hx
                exact absurd (hpb.trans hx) this
            · cases hb
          · obtain ⟨b', hb'⟩ := Option.ne_none_iff_exists'.1 hp
            have := fa x b' hb'
            rw [hb] at this
            exact ⟨x, b', hb', (Option.some.inj this) ▸ hr⟩
    rw [e]
    exact registered_iff n conf hn l (past ++ [a]) _ (h.init (k := .cuda) hn ha b0 b1) (e ▸ hnd) (fun b hb => hl b (by simp [hb])) step

/-- **C103 (CUDA: registering the segment).** The segment is registered with the driver at most once; and it is registered exactly if, on some device, the accelerator that comes up
first asks for it. -/
theorem C103_register_partial (n : Nat) (conf : Nat → GConf) (l : List Nat) (hs : Sane n conf l) (hl : l.Nodup) :
    (gInits .cuda n conf l {}).hostRegistrations ≤ 1 ∧
    ((gInits .cuda n conf l {}).hostRegistrations = 1 ↔ ∃ x a, firstOn conf l x = some a ∧ (conf a).hostRegister = true) := by
  have h := GInv.inits (k := .cuda) hs.1 l [] {} (gInv_start n conf) (by simpa using hl) hs.2
  rw [List.nil_append] at h
  refine ⟨h.reg1, ?_⟩
  have := registered_iff n conf hs.1 l [] {} (gInv_start n conf) (by simpa using hl) hs.2 (by simp [firstOn])
  simpa using this

/-- If all accelerators of a device agree on `host_register`, the segment is registered exactly if one asks for it. -/
theorem C103_register_agree_partial (n : Nat) (conf : Nat → GConf) (l : List Nat) (hs : Sane n conf l) (hl : l.Nodup)
    (hag : ∀ a ∈ l, ∀ b ∈ l, (conf a).pci = (conf b).pci → (conf a).hostRegister = (conf b).hostRegister) :
    (gInits .cuda n conf l {}).hostRegistrations = 1 ↔ ∃ a ∈ l, (conf a).hostRegister = true := by
  rw [(C103_register_partial n conf l hs hl).2]
  constructor
  · rintro ⟨x, a, h1, h2⟩
    exact ⟨a, List.mem_of_find?_eq_some h1, h2⟩
  · rintro ⟨a, ha, h2⟩
    cases hf : firstOn conf l (conf a).pci with
    | none =>
      simp only [firstOn, List.find?_eq_none] at hf
      exact absurd (by simp) (hf a ha)
    | some b =>
      have hb := List.mem_of_find?_eq_some hf
      have := List.find?_some hf
      simp only [beq_iff_eq] at this
      exact ⟨_, b, hf, by rw [hag b hb a ha this, h2]⟩

/-- Two accelerators on device 0: the second asks for registration, the first does not. -/
def shy : Nat → GConf := fun a => ⟨0, a == 1⟩

/-- **Violated** (CUDAaccelThread.cpp:69-71): the second accelerator of a device asks for the segment to be registered, and it is not. -/
theorem C103_violated_register : Sane 1 shy [0, 1] ∧ (shy 1).hostRegister = true ∧ (gInits .cuda 1 shy [0, 1] {}).hostRegistrations = 0 := by
  refine ⟨⟨by decide, by simp [shy]⟩, by decide, by decide⟩

theorem gReleases_unlinks (conf : Nat → GConf) : ∀ (l : List Nat) (s : Gpu), s.dead = none → (∀ a ∈ l, 0 ≤ (conf a).pci ∧ (conf a).pci < 128) →
    (∀ x, s.unregistered = false → s.gone x = false) → (gReleases conf l s).dead = none ∧ (gReleases conf l s).hostUnregistrations = s.hostUnregistrations ∧
    (gReleases conf l s).device = s.device ∧
    (gReleases conf l s).unlinks = s.unlinks + if l ≠ [] ∧ s.unregistered = false then 1 else 0
  | [], s, h, _, _ => by simp [gReleases, h]
  | a :: l, s, h, hl, hu => by
    have ha := hl a (by simp)
    have e : gReleases conf (a :: l) s = gReleases conf l (gRelease s (conf a)) := rfl
    rw [e]
    by_cases hg : s.gone (conf a).pci = true
    · have e1 : gRelease s (conf a) = s := by
        unfold gRelease; rw [if_neg (by simp [h]), if_neg (by omega), if_pos hg]
      rw [e1]
      have := gReleases_unlinks conf l s h (fun b hb => hl b (by simp [hb])) hu
      refine ⟨this.1, this.2.1, this.2.2.1, ?_⟩
      rw [this.2.2.2]
      have hun : s.unregistered = true := by
        cases hx : s.unregistered with
        | true => rfl
        | false => rw [hu _ hx] at hg; cases hg
      simp [hun]
    · have e1 : gRelease s (conf a) = { s with gone := fun x => if x = (conf a).pci then true else s.gone x, unlinks := if s.unregistered then s.unlinks else s.unlinks + 1, unregistered := true } := by
        unfold gRelease; rw [if_neg (by simp [h]), if_neg (by omega), if_neg (by simpa using hg)]
      rw [e1]
      have := gReleases_unlinks conf l { s with gone := fun x => if x = (conf a).pci then true else s.gone x, unlinks := if s.unregistered then s.unlinks else s.unlinks + 1, unregistered := true }
        h (fun b hb => hl b (by simp [hb])) (by intro x hx; simp at hx)
      refine ⟨this.1, this.2.1, this.2.2.1, ?_⟩
      rw [this.2.2.2]
      cases hx : s.unregistered <;> simp

/-- **Violated** (CUDAaccelThread.cpp:145-151, HIPaccelThread.cpp:148-153): whenever accelerators that came up go down again, in any order, the name of the shared segment is removed -
though applications use it - and what was registered with the driver stays registered; the streams of all accelerators are still there. -/
theorem C103_violated_release (k : Kind) (n : Nat) (conf : Nat → GConf) (l : List Nat) (hs : Sane n conf l) (hl : l.Nodup) (hne : l ≠ []) (l' : List Nat) (hp : l'.Perm l) :
    let s := gInits k n conf l {}
    let t := gReleases conf l' s
    t.dead = none ∧ t.unlinks = 1 ∧ t.hostUnregistrations = 0 ∧ t.device.length = l.length := by
  have h := GInv.inits (k := k) hs.1 l [] {} (gInv_start n conf) (by simpa using hl) hs.2
  rw [List.nil_append] at h
  have hlen : ∀ (l : List Nat) (past : List Nat) (s : Gpu), GInv n conf past s → (past ++ l).Nodup → (∀ a ∈ l, 0 ≤ (conf a).pci ∧ (conf a).pci < n) →
      (gInits k n conf l s).device.length = s.device.length + l.length := by
    intro l
    induction l with
    | nil => intro past s _ _ _; simp [gInits]
    | cons a l ih =>
      intro past s h hnd hl
      have ha : a ∉ past := by
        intro hm
        exact (List.nodup_append.1 hnd).2.2 a hm a (by simp) rfl
      have e : past ++ a :: l = past ++ [a] ++ l := by simp
      have := ih (past ++ [a]) _ (h.init (k := k) hs.1 ha (hl a (by simp)).1 (hl a (by simp)).2) (e ▸ hnd) (fun b hb => hl b (by simp [hb]))
      have e2 : gInits k n conf (a :: l) s = gInits k n conf l (gInit k n s a (conf a)) := rfl
      rw [e2, this, gInit_eq h hs.1 (hl a (by simp)).1 (hl a (by simp)).2]
      have e6 := (onceOnly_spec (k := k) h (conf a) (hl a (by simp)).2).2.2.2.2.2.1
      simp [newStream, e6]; omega
  have r := gReleases_unlinks conf l' (gInits k n conf l {}) h.alive
    (fun a ha => by have := hs.2 a (hp.mem_iff.1 ha); have := hs.1; omega) (fun x _ => h.noun.2.2 x)
  have hne' : l' ≠ [] := fun e => hne (by simpa [e] using hp.length_eq.symm)
  refine ⟨r.1, ?_, by rw [r.2.1]; exact h.unreg, ?_⟩
  · rw [r.2.2.2, h.noun.1, h.noun.2.1]; simp [hne']
  · rw [r.2.2.1, hlen l [] {} (gInv_start n conf) (by simpa using hl) hs.2]; simp

/-- **Violated** (HIPaccelThread.cpp:31, 57, 65): the number of a HIP device is not checked; 2^32 is device 0 for the driver, and an index far outside `GPUExistInSystem`. CUDA
refuses it when it reads the configuration. -/
theorem C103_violated_hip_index : (gInit .hip 1 {} 0 ⟨4294967296, false⟩).dead = some .outside ∧ (gInit .cuda 1 {} 0 ⟨4294967296, false⟩).dead = some .exception := by
  constructor <;> decide

/-- CUDA: whatever the number in the configuration, with at most 128 devices nothing outside the array is used; and a number that is no device is refused or fails. -/
theorem C103_cuda_index (n : Nat) (hn : n ≤ 128) (s : Gpu) (hs : s.dead = none) (a : Nat) (c : GConf) : (gInit .cuda n s a c).dead ≠ some .outside ∧
    (¬ (0 ≤ c.pci ∧ c.pci < n) → (gInit .cuda n s a c).dead = some .exception ∨ gInit .cuda n s a c = { s with failed := a :: s.failed }) := by
  unfold gInit
  rw [if_neg (by simp [hs])]
  by_cases h1 : (Kind.cuda : Kind) = .cuda ∧ (c.pci < 0 ∨ c.pci > n)
  · rw [if_pos h1]; exact ⟨by simp, fun _ => .inl rfl⟩
  · rw [if_neg h1]
    have hb : 0 ≤ c.pci ∧ c.pci ≤ n := by
      constructor
      · have : ¬ c.pci < 0 := fun h => h1 ⟨rfl, .inl h⟩
        omega
      · have : ¬ c.pci > n := fun h => h1 ⟨rfl, .inr h⟩
        omega
    have ht : toInt c.pci = c.pci := by unfold toInt; omega
    rw [ht]
    by_cases h2 : hasDevice n c.pci = true
    · have h3 : c.pci < n := by simp [hasDevice] at h2; omega
      rw [if_neg (by simp [h2]), if_neg (by omega)]
      refine ⟨?_, fun h => absurd ⟨hb.1, h3⟩ h⟩
      have hd : (onceOnly .cuda n s c).1.dead ≠ some .outside := by
        simp only [onceOnly]
        split
        · simp [hs]
        · split
          · split <;> simp [hs]
          · simp [hs]
      dsimp only
      split
      · exact hd
      · split
        · exact hd
        · exact hd
    · rw [if_pos (by simpa using h2)]
      exact ⟨by simp [hs], fun _ => .inr rfl⟩

/-- Non-vacuity: three accelerators on two devices. -/
def threeOnTwo : Nat → GConf := fun a => ⟨(a % 2 : Nat), a == 0⟩

example : Sane 2 threeOnTwo [0, 1, 2] ∧ [0, 1, 2].Nodup ∧ getStream (gInits .cuda 2 threeOnTwo [0, 1, 2] {}) 2 = some 2 ∧ (gInits .cuda 2 threeOnTwo [0, 1, 2] {}).device = [0, 1, 0] ∧
    (gInits .cuda 2 threeOnTwo [0, 1, 2] {}).hostRegistrations = 1 ∧ (gReleases threeOnTwo [2, 0, 1] (gInits .cuda 2 threeOnTwo [0, 1, 2] {})).unlinks = 1 := by
  refine ⟨⟨by decide, by decide⟩, by decide, by decide, by decide, by decide, by decide⟩

/-- Non-vacuity of `C103_register_agree_partial`. -/
example : ∀ a ∈ [0, 1, 3], ∀ b ∈ [0, 1, 3], (threeOnTwo a).pci = (threeOnTwo b).pci → (threeOnTwo a).hostRegister = (threeOnTwo b).hostRegister := by decide

end Arax.Devices
