/-!
# Data follows its tasks across accelerators (C107)

`controller/src/Core/accelThread.cpp`, `Schedulers/HeterogeneousScheduler.cpp`,
`Cpu/CPUaccelThread.cpp`, `ROCm/HIPaccelThread.cpp`, `Cuda/CUDAaccelThread.cpp`,
`OpenCL/OpenclaccelThread.cpp`.

The heterogeneous scheduler takes a virtual accelerator away from a physical
accelerator that cannot run its next task and gives it to another one.  Before a
task runs, the thread that runs it first brings home (to shared memory) every
buffer of the task that another accelerator has (`migrateFromRemote`), then
brings every buffer it has not to its own accelerator (`migrateToRemote`).
Both are compiled in with the option MIGRATION only (`Core/CMakeLists.txt:4`,
off by default).

Modelled: one controller, tasks in the order in which they run, any number of
accelerators, virtual accelerators and buffers.  The contents of a buffer are
one value.  A CPU accelerator works on shared memory, every other one on a copy
of its own.  Buffers have more than zero bytes.  Not modelled: waiting for the
throttle (the counter is an integer that may go below zero), failing device
calls (the code exits), and the asynchrony of the copies (they are issued on the
stream of the thread and are ordered by it).
-/
namespace Arax.Migrate

/-- What is fixed for a run. -/
structure Cfg where
  /-- the build option MIGRATION (Core/CMakeLists.txt:4) -/
  mig : Bool
  /-- is this physical accelerator a CPU? -/
  cpu : Nat → Bool
  /-- `data->accel`: the virtual accelerator a buffer belongs to -/
  acc : Nat → Nat
  /-- `arax_data_size` -/
  size : Nat → Nat
  /-- memory of an accelerator at the start (`arax_accel_get_total_size`) -/
  total : Nat → Int

/-- A buffer. -/
structure Cell where
  /-- `data->phys` -/
  phys : Option Nat
  /-- `data->remote`: the copy on the device, `none` is a null pointer -/
  remote : Option Nat
  /-- the contents in shared memory (`arax_data_deref`) -/
  shm : Nat
  deriving DecidableEq, Repr

/-- The controller. -/
structure St where
  cell : Nat → Cell
  /-- available memory in the books of each accelerator -/
  avail : Nat → Int
  /-- `vaccel->phys` -/
  vphys : Nat → Option Nat
  /-- an assertion failed -/
  dead : Bool
  /-- what each task found in its buffers, oldest first -/
  log : List (List Nat)

/-- Change one value of a function. -/
def upd {α : Type} (f : Nat → α) (i : Nat) (x : α) : Nat → α := fun j => if j = i then x else f j

/-- `free_remote`: a CPU thread fails an assertion (CPUaccelThread.cpp:98-107); a
device thread frees the copy and gives the memory back to the accelerator that
the buffer's *virtual accelerator* has now (HIPaccelThread.cpp:351-366,
CUDAaccelThread.cpp:351-376, OpenclaccelThread.cpp:416-431); `p` is the
accelerator of the thread. -/
def freeRemote (c : Cfg) (p : Nat) (s : St) (d : Nat) : St :=
  if c.cpu p then { s with dead := true }
  else if (s.cell d).remote.isSome then
    match s.vphys (c.acc d) with
    | none => { s with dead := true }
    | some b => { s with cell := upd s.cell d ⟨none, none, (s.cell d).shm⟩, avail := upd s.avail b (s.avail b + c.size d) }
  else s

/-- `sync_from_remote`: nothing on a CPU (CPUaccelThread.cpp:91-96), copy to
shared memory on a device (HIPaccelThread.cpp:334-349, CUDAaccelThread.cpp:319-349,
OpenclaccelThread.cpp:398-414). -/
def syncFrom (c : Cfg) (p : Nat) (s : St) (d : Nat) : St :=
  if c.cpu p then s
  else { s with cell := upd s.cell d { s.cell d with shm := (s.cell d).remote.getD (s.cell d).shm } }

/-- One buffer of `migrateFromRemote` (accelThread.cpp:261-286), run by the
thread of accelerator `a`; the thread that has the buffer is the one registered
for `data->phys` (accelThread.cpp:154-162). -/
def fromOne (c : Cfg) (a : Nat) (s : St) (d : Nat) : St :=
  if s.dead then s else
    match (s.cell d).phys with
    | none => s
    | some p => if p = a then s else freeRemote c p (syncFrom c p s d) d

/-- `alloc_remote` of the thread of accelerator `a`: CPUaccelThread.cpp:74-82,
HIPaccelThread.cpp:291-313, CUDAaccelThread.cpp:252-287,
OpenclaccelThread.cpp:349-377.  New device memory holds anything: here 0. -/
def allocRemote (c : Cfg) (a : Nat) (s : St) (d : Nat) : St :=
  if s.dead then s else
    match s.vphys (c.acc d) with
    | none => { s with dead := true }
    | some b =>
      if c.cpu a then { s with cell := upd s.cell d { s.cell d with phys := some b } }
      else if (s.cell d).remote.isSome then s
      else { s with cell := upd s.cell d ⟨some b, some 0, (s.cell d).shm⟩, avail := upd s.avail b (s.avail b - c.size d) }

/-- `sync_to_remote`: CPUaccelThread.cpp:84-89, HIPaccelThread.cpp:315-332,
CUDAaccelThread.cpp:290-317, OpenclaccelThread.cpp:379-396. -/
def syncTo (c : Cfg) (a : Nat) (s : St) (d : Nat) : St :=
  if c.cpu a then s
  else { s with cell := upd s.cell d { s.cell d with remote := (s.cell d).remote.map (fun _ => (s.cell d).shm) } }

/-- One buffer of `migrateToRemote` (accelThread.cpp:213-233). -/
def toOne (c : Cfg) (a : Nat) (s : St) (d : Nat) : St :=
  if s.dead then s
  else if (s.cell d).phys = some a then s
  else syncTo c a (allocRemote c a s d) d

/-- What a task on accelerator `a` finds in a buffer. -/
def look (c : Cfg) (a : Nat) (x : Cell) : Nat := if c.cpu a then x.shm else x.remote.getD 0

/-- What a task on accelerator `a` leaves in a buffer. -/
def put (c : Cfg) (a : Nat) (x : Cell) (v : Nat) : Cell :=
  if c.cpu a then { x with shm := v } else { x with remote := x.remote.map (fun _ => v) }

/-- The kernel: reads all its buffers, then leaves `g seen d` in buffer `d`
(accelThread.cpp:410-411). -/
def exec (c : Cfg) (a : Nat) (io : List Nat) (g : List Nat → Nat → Nat) (s : St) : St :=
  if s.dead then s else
    let seen := io.map (fun d => look c a (s.cell d))
    { s with cell := (fun d => if d ∈ io then put c a (s.cell d) (g seen d) else s.cell d), log := s.log ++ [seen] }

/-- What happens. -/
inductive Ev
  /-- the virtual accelerator `v` is given to `a`: `arax_accel_del_vaccel`, then
  `assignVac` (HeterogeneousScheduler.cpp:148-156, 51-109) -/
  | move (v a : Nat)
  /-- a task of the virtual accelerator runs, with these inputs and outputs -/
  | run (v : Nat) (ins outs : List Nat) (g : List Nat → Nat → Nat)

/-- `selectTask` takes the task of a virtual accelerator of this thread and
moves its buffers (HeterogeneousScheduler.cpp:141-146, 180-186); the loop of the
thread allocates the outputs and runs it (accelThread.cpp:403-411). A task of a
virtual accelerator that nobody serves waits. -/
def step (c : Cfg) (s : St) : Ev → St
  | .move v a => if s.dead then s else { s with vphys := upd s.vphys v (some a) }
  | .run v ins outs g =>
    match s.vphys v with
    | none => s
    | some a =>
      let s1 := if c.mig then (ins ++ outs).foldl (toOne c a) ((ins ++ outs).foldl (fromOne c a) s) else s
      exec c a (ins ++ outs) g (outs.foldl (allocRemote c a) s1)

/-- Before anything happened. `init` is what the buffers hold. -/
def start (c : Cfg) (init : Nat → Nat) : St :=
  ⟨fun d => ⟨none, none, init d⟩, c.total, fun _ => none, false, []⟩

/-- A history. -/
def runAll (c : Cfg) (init : Nat → Nat) (es : List Ev) : St := es.foldl (step c) (start c init)

/-! ## Specification -/

/-- What a user sees: buffers with contents, and where they were used. -/
structure Ideal where
  mem : Nat → Nat
  /-- the accelerator that ran the first / the last task with this buffer -/
  first : Nat → Option Nat
  last : Nat → Option Nat
  serves : Nat → Option Nat
  log : List (List Nat)
  /-- some task used a buffer that was last used on a different, CPU, accelerator -/
  leftCpu : Bool
  /-- some task used a buffer that was last used on a different accelerator -/
  moved : Bool

/-- Was the buffer used last on another accelerator? -/
def elsewhere (a : Nat) : Option Nat → Bool
  | none => false
  | some p => p != a

/-- … and that one is a CPU? -/
def elsewhereCpu (cpu : Nat → Bool) (a : Nat) : Option Nat → Bool
  | none => false
  | some p => p != a && cpu p

/-- A task reads and writes its buffers: where it runs does not matter. -/
def istep (cpu : Nat → Bool) (i : Ideal) : Ev → Ideal
  | .move v a => { i with serves := upd i.serves v (some a) }
  | .run v ins outs g =>
    match i.serves v with
    | none => i
    | some a =>
      let io := ins ++ outs
      { i with
        mem := fun d => if d ∈ io then g (io.map i.mem) d else i.mem d
        first := fun d => if d ∈ io then some ((i.first d).getD a) else i.first d
        last := fun d => if d ∈ io then some a else i.last d
        log := i.log ++ [io.map i.mem]
        leftCpu := i.leftCpu || io.any (fun d => elsewhereCpu cpu a (i.last d))
        moved := i.moved || io.any (fun d => elsewhere a (i.last d)) }

/-- The ideal history. -/
def ideal (cpu : Nat → Bool) (init : Nat → Nat) (es : List Ev) : Ideal :=
  es.foldl (istep cpu) ⟨init, fun _ => none, fun _ => none, fun _ => none, [], false, false⟩

/-- The buffers of a task belong to the virtual accelerator it was issued to,
and are among the first `n`. -/
def Ev.ok (c : Cfg) (n : Nat) : Ev → Prop
  | .move _ _ => True
  | .run v ins outs _ => ∀ d, d ∈ ins ++ outs → c.acc d = v ∧ d < n

/-- Sum of the first `n`. -/
def sumTo (f : Nat → Int) : Nat → Int
  | 0 => 0
  | n + 1 => sumTo f n + f n

/-- The bytes of accelerator `b` that buffers really occupy: a device holds the
buffers used on it last. -/
def occupied (c : Cfg) (i : Ideal) (b n : Nat) : Int :=
  sumTo (fun d => if i.last d = some b ∧ c.cpu b = false then c.size d else 0) n

/-- The bytes the books of the accelerator say are occupied: buffers used on it
*first* — and, on a CPU, minus those that came to it from a device. -/
def booked (c : Cfg) (i : Ideal) (d b : Nat) : Int :=
  (if i.first d = some b ∧ c.cpu b = false then (c.size d : Int) else 0)
  - (if i.last d = some b ∧ c.cpu b = true ∧ (i.first d).any (fun f => !c.cpu f) = true then (c.size d : Int) else 0)

/-! ## Proofs -/

theorem sumTo_upd (f f' : Nat → Int) (d : Nat) (h : ∀ x, x ≠ d → f' x = f x) :
    ∀ n, sumTo f' n = sumTo f n + (if d < n then f' d - f d else 0)
  | 0 => by simp [sumTo]
  | n + 1 => by
    simp only [sumTo, sumTo_upd f f' d h n]
    by_cases e : n = d
    · subst e; simp; omega
    · rw [h n e]
      by_cases l : d < n
      · have : d < n + 1 := by omega
        simp [l, this]; omega
      · have : ¬ d < n + 1 := by omega
        simp [l, this]

theorem sumTo_congr (f g : Nat → Int) (n : Nat) (h : ∀ d, d < n → f d = g d) : sumTo f n = sumTo g n := by
  induction n with
  | zero => rfl
  | succ n ih => simp only [sumTo]; rw [ih (fun d hd => h d (by omega)), h n (by omega)]

/-- A buffer that is on `l` and holds `m`. -/
def Holds (c : Cfg) (x : Cell) (l : Option Nat) (m : Nat) : Prop :=
  x.phys = l ∧
  match l with
  | none => x.remote = none ∧ x.shm = m
  | some p => if c.cpu p then x.remote = none ∧ x.shm = m else x.remote = some m

/-- What a buffer first used on `f` and now on `l` is booked at; `back = some a`:
just brought home by the thread of `a`. -/
def charge (c : Cfg) (z : Int) (f l back : Option Nat) (b : Nat) : Int :=
  (if f = some b ∧ c.cpu b = false then z else 0)
  - (if l = some b ∧ c.cpu b = true ∧ f.any (fun f => !c.cpu f) = true then z else 0)
  - (if back = some b then z else 0)

/-- The state between the phases of a task: buffer `d` is on `l d`, and has been
brought home when `back d`. -/
structure Mid (c : Cfg) (n a v : Nat) (s : St) (i : Ideal) (f l : Nat → Option Nat) (back : Nat → Bool) : Prop where
  alive : s.dead = false
  vp : s.vphys = i.serves
  va : s.vphys v = some a
  cell : ∀ d, Holds c (s.cell d) (l d) (i.mem d)
  log : s.log = i.log
  home : ∀ d, back d = true → l d = none ∧ (f d).any (fun f => !c.cpu f) = true
  fresh : ∀ d, l d = none → back d = false → f d = none
  dev : ∀ d p, l d = some p → c.cpu p = false → (f d).any (fun f => !c.cpu f) = true
  firstCpu : ∀ d p, f d = some p → c.cpu p = true → l d = some p
  known : ∀ d p, l d = some p → f d ≠ none
  cnt : ∀ b, s.avail b = c.total b - sumTo (fun d => charge c (c.size d) (f d) (l d) (if back d then some a else none) b) n

theorem from_ok (c : Cfg) (n a v : Nat) (i : Ideal) (f : Nat → Option Nat) :
    ∀ (io : List Nat) (s : St) (l : Nat → Option Nat) (back : Nat → Bool),
      Mid c n a v s i f l back → (∀ d, d ∈ io → c.acc d = v ∧ d < n) →
      (∀ d, d ∈ io → elsewhereCpu c.cpu a (l d) = false) →
      ∃ l' back', Mid c n a v (io.foldl (fromOne c a) s) i f l' back' ∧
        (∀ d, d ∉ io → l' d = l d ∧ back' d = back d) ∧ (∀ d, d ∈ io → l' d = none ∨ l' d = some a) := by
  intro io
  induction io with
  | nil => intro s l back h _ _; exact ⟨l, back, h, by simp, by simp⟩
  | cons d ds ih =>
    intro s l back h hw hc
    have hcell := h.cell d
    have hwd := hw d (by simp)
    have hcd := hc d (by simp)
    simp only [List.foldl_cons]
    -- the interesting case: the buffer is on another device
    by_cases hm : ∃ p, l d = some p ∧ p ≠ a
    · obtain ⟨p, hp, hpa⟩ := hm
      have hcp : c.cpu p = false := by
        rw [hp] at hcd; simp only [elsewhereCpu] at hcd
        have : (p != a) = true := by simp [hpa]
        rw [this] at hcd; simpa using hcd
      have hrem : (s.cell d).remote = some (i.mem d) := by
        have := hcell.2; rw [hp] at this; simpa [hcp] using this
      have hphys : (s.cell d).phys = some p := by rw [hcell.1, hp]
      have hone : fromOne c a s d = { s with cell := upd s.cell d ⟨none, none, i.mem d⟩, avail := upd s.avail a (s.avail a + c.size d) } := by
        unfold fromOne
        rw [h.alive, hphys]
        simp only [Bool.false_eq_true, if_false, hpa, syncFrom, hcp, freeRemote, hwd.1, h.va, upd, if_true, hrem, Option.isSome_some, Option.getD_some]
        congr 1
        · funext x; by_cases hx : x = d <;> simp [upd, hx]
        · exact h.alive
      have hbd : back d = false := by
        cases hb : back d with
        | false => rfl
        | true => have := (h.home d hb).1; rw [hp] at this; cases this
      have hany := h.dev d p hp hcp
      rw [hone]
      obtain ⟨l', back', hM, h1, h2⟩ := ih
        { s with cell := upd s.cell d ⟨none, none, i.mem d⟩, avail := upd s.avail a (s.avail a + c.size d) }
        (upd l d none) (upd back d true)
        { alive := h.alive
          vp := h.vp
          va := h.va
          cell := by
            intro x; by_cases hx : x = d
            · subst hx; simp [upd, Holds]
            · simpa [upd, hx] using h.cell x
          log := h.log
          home := by
            intro x; by_cases hx : x = d
            · subst hx; simp only [upd, if_true]; intro _; exact ⟨trivial, hany⟩
            · simpa [upd, hx] using h.home x
          fresh := by
            intro x; by_cases hx : x = d
            · subst hx; simp [upd]
            · simpa [upd, hx] using h.fresh x
          dev := by
            intro x; by_cases hx : x = d
            · subst hx; simp [upd]
            · simpa [upd, hx] using h.dev x
          firstCpu := by
            intro x q; by_cases hx : x = d
            · subst hx; intro hq hq2; have := h.firstCpu x q hq hq2; rw [hp] at this
              cases this; rw [hcp] at hq2; cases hq2
            · simpa [upd, hx] using h.firstCpu x q
          known := by
            intro x; by_cases hx : x = d
            · subst hx; simp [upd]
            · simpa [upd, hx] using h.known x
          cnt := by
            intro b
            rw [sumTo_upd (fun x => charge c (c.size x) (f x) (l x) (if back x then some a else none) b) _ d
              (by intro x hx; simp [upd, hx]) n]
            simp only [upd, if_true, hwd.2, hp, hbd]
            have := h.cnt b
            by_cases hb : b = a
            · subst hb
              simp only [if_true, this, charge]
              have hpb : ¬ (some p = some b) := by simpa using hpa
              simp [hpb]; omega
            · have hb' : ¬ (some a = some b) := by simpa using (Ne.symm hb)
              simp only [hb, if_false, this, charge, hb']
              by_cases hpb : p = b
              · subst hpb; simp [hcp]
              · simp [hpb] }
        (fun x hx => hw x (by simp [hx]))
        (fun x hx => by
          by_cases hxd : x = d
          · subst hxd; simp [upd, elsewhereCpu]
          · simpa [upd, hxd] using hc x (by simp [hx]))
      refine ⟨l', back', hM, ?_, ?_⟩
      · intro x hx; rw [List.mem_cons, not_or] at hx
        have := h1 x hx.2; simpa [upd, hx.1] using this
      · intro x hx
        by_cases hxd : x ∈ ds
        · exact h2 x hxd
        · have : x = d := by simpa [hxd] using hx
          subst this
          left; have := (h1 x hxd).1; simpa [upd] using this
    · have hone : fromOne c a s d = s := by
        unfold fromOne; rw [h.alive, hcell.1]
        cases hl : l d with
        | none => rfl
        | some p => by_cases hpa : p = a
                    · simp [hpa]
                    · exact absurd ⟨p, hl, hpa⟩ hm
      rw [hone]
      obtain ⟨l', back', hM, h1, h2⟩ := ih s l back h (fun x hx => hw x (by simp [hx])) (fun x hx => hc x (by simp [hx]))
      refine ⟨l', back', hM, fun x hx => h1 x (by simp at hx; exact hx.2), ?_⟩
      intro x hx
      by_cases hxd : x ∈ ds
      · exact h2 x hxd
      · have : x = d := by simpa [hxd] using hx
        subst this
        rw [(h1 x hxd).1]
        cases hl : l x with
        | none => left; rfl
        | some p => right
                    by_cases hpa : p = a
                    · simp [hpa]
                    · exact absurd ⟨p, hl, hpa⟩ hm

theorem from_dead (c : Cfg) (a : Nat) (io : List Nat) (s : St) (h : s.dead = true) :
    io.foldl (fromOne c a) s = s := by
  induction io with
  | nil => rfl
  | cons d ds ih => simp only [List.foldl_cons]; rw [show fromOne c a s d = s by simp [fromOne, h]]; exact ih

theorem to_dead (c : Cfg) (a : Nat) (io : List Nat) (s : St) (h : s.dead = true) :
    io.foldl (toOne c a) s = s := by
  induction io with
  | nil => rfl
  | cons d ds ih => simp only [List.foldl_cons]; rw [show toOne c a s d = s by simp [toOne, h]]; exact ih

theorem alloc_dead (c : Cfg) (a : Nat) (io : List Nat) (s : St) (h : s.dead = true) :
    io.foldl (allocRemote c a) s = s := by
  induction io with
  | nil => rfl
  | cons d ds ih => simp only [List.foldl_cons]; rw [show allocRemote c a s d = s by simp [allocRemote, h]]; exact ih

theorem from_kills (c : Cfg) (n a v : Nat) (i : Ideal) (f : Nat → Option Nat) :
    ∀ (io : List Nat) (s : St) (l : Nat → Option Nat) (back : Nat → Bool),
      Mid c n a v s i f l back → (∀ d, d ∈ io → c.acc d = v ∧ d < n) →
      (∃ d, d ∈ io ∧ elsewhereCpu c.cpu a (l d) = true) → (io.foldl (fromOne c a) s).dead = true := by
  intro io
  induction io with
  | nil => intro s l back _ _ ⟨d, hd, _⟩; cases hd
  | cons d ds ih =>
    intro s l back h hw hex
    by_cases hd : elsewhereCpu c.cpu a (l d) = true
    · cases hl : l d with
      | none => rw [hl] at hd; cases hd
      | some p =>
        rw [hl] at hd; simp only [elsewhereCpu, Bool.and_eq_true, bne_iff_ne] at hd
        have hph : (s.cell d).phys = some p := by rw [(h.cell d).1, hl]
        have : (fromOne c a s d).dead = true := by
          unfold fromOne; rw [h.alive, hph]; simp [hd.1, freeRemote, hd.2]
        simp only [List.foldl_cons]; rw [from_dead _ _ _ _ this]; exact this
    · obtain ⟨l', back', hM, h1, h2⟩ := from_ok c n a v i f [d] s l back h
        (fun x hx => hw x (by simp at hx; simp [hx])) (fun x hx => by simp at hx; subst hx; simpa using hd)
      simp only [List.foldl_cons, List.foldl_nil] at hM ⊢
      refine ih _ l' back' hM (fun x hx => hw x (by simp [hx])) ?_
      obtain ⟨x, hx, hxe⟩ := hex
      have hxd : x ≠ d := by intro e; subst e; exact hd hxe
      refine ⟨x, by simpa [hxd] using hx, ?_⟩
      rw [(h1 x (by simpa using hxd)).1]; exact hxe

theorem to_ok (c : Cfg) (n a v : Nat) (i : Ideal) :
    ∀ (io : List Nat) (s : St) (f l : Nat → Option Nat) (back : Nat → Bool),
      Mid c n a v s i f l back → (∀ d, d ∈ io → c.acc d = v ∧ d < n) →
      (∀ d, d ∈ io → l d = none ∨ l d = some a) →
      ∃ f' l' back', Mid c n a v (io.foldl (toOne c a) s) i f' l' back' ∧
        (∀ d, d ∉ io → f' d = f d ∧ l' d = l d ∧ back' d = back d) ∧
        (∀ d, d ∈ io → l' d = some a ∧ back' d = false ∧ f' d = some ((f d).getD a)) := by
  intro io
  induction io with
  | nil => intro s f l back h _ _; exact ⟨f, l, back, h, by simp, by simp⟩
  | cons d ds ih =>
    intro s f l back h hw hl
    have hcell := h.cell d
    have hwd := hw d (by simp)
    simp only [List.foldl_cons]
    -- after one buffer
    have key : ∃ f' l' back', Mid c n a v (toOne c a s d) i f' l' back' ∧
        (∀ x, x ≠ d → f' x = f x ∧ l' x = l x ∧ back' x = back x) ∧
        (l' d = some a ∧ back' d = false ∧ f' d = some ((f d).getD a)) := by
      rcases hl d (by simp) with hn | ha
      · -- bring it here
        have hx0 : (s.cell d).phys = none ∧ (s.cell d).remote = none ∧ (s.cell d).shm = i.mem d := by
          have h2 := hcell.2; rw [hn] at h2; exact ⟨by rw [hcell.1, hn], h2.1, h2.2⟩
        refine ⟨upd f d (some ((f d).getD a)), upd l d (some a), upd back d false, ?_, by intro x hx; simp [upd, hx], by simp [upd]⟩
        have hdev : c.cpu a = false → (some ((f d).getD a)).any (fun f => !c.cpu f) = true := by
          intro hca
          cases hb : back d with
          | true => have := (h.home d hb).2
                    cases hf : f d with
                    | none => rw [hf] at this; simp at this
                    | some q => rw [hf] at this; simpa using this
          | false => rw [h.fresh d hn hb]; simpa using hca
        have hcharge : ∀ b, charge c (c.size d) (some ((f d).getD a)) (some a) none b
            = charge c (c.size d) (f d) (l d) (if back d then some a else none) b + (if c.cpu a = false ∧ b = a then (c.size d : Int) else 0) := by
          intro b
          rw [hn]
          cases hb : back d with
          | true =>
            have hany := (h.home d hb).2
            cases hf : f d with
            | none => rw [hf] at hany; simp at hany
            | some q =>
              rw [hf] at hany
              have hq : c.cpu q = false := by simpa using hany
              by_cases hba : b = a
              · subst hba
                cases hcb : c.cpu b <;> by_cases hqb : q = b <;> simp_all [charge] <;> omega
              · have hba' : ¬ a = b := fun e => hba e.symm
                simp [charge, hba, hba']
          | false =>
            rw [h.fresh d hn hb]
            by_cases hba : b = a
            · subst hba
              cases hcb : c.cpu b <;> simp [charge, hcb]
            · have hba' : ¬ a = b := fun e => hba e.symm
              simp [charge, hba, hba']
        have hone : toOne c a s d = { s with
            cell := upd s.cell d (if c.cpu a then ⟨some a, none, i.mem d⟩ else ⟨some a, some (i.mem d), i.mem d⟩)
            avail := if c.cpu a then s.avail else upd s.avail a (s.avail a - c.size d) } := by
          unfold toOne
          rw [h.alive, hx0.1]
          simp only [Bool.false_eq_true, if_false, reduceCtorEq, allocRemote, h.alive, hwd.1, h.va]
          cases hca : c.cpu a with
          | true =>
            simp only [if_true, syncTo, hca]
            congr 1
            funext x; by_cases hx : x = d
            · subst hx; simp [upd, hx0]
            · simp [upd, hx]
          | false =>
            simp only [Bool.false_eq_true, if_false, hx0.2.1, Option.isSome_none, syncTo, hca, hx0.2.2]
            congr 1
            funext x; by_cases hx : x = d <;> simp [upd, hx]
        rw [hone]
        exact
          { alive := h.alive
            vp := h.vp
            va := h.va
            cell := by
              intro x; by_cases hx : x = d
              · subst hx
                cases hca : c.cpu a <;> simp [upd, Holds, hca]
              · simpa [upd, hx] using h.cell x
            log := h.log
            home := by
              intro x; by_cases hx : x = d
              · subst hx; simp [upd]
              · simpa [upd, hx] using h.home x
            fresh := by
              intro x; by_cases hx : x = d
              · subst hx; simp [upd]
              · simpa [upd, hx] using h.fresh x
            dev := by
              intro x p; by_cases hx : x = d
              · subst hx; simp only [upd, if_true]; intro hp hcp; cases hp; exact hdev hcp
              · simpa [upd, hx] using h.dev x p
            firstCpu := by
              intro x q; by_cases hx : x = d
              · subst hx; simp only [upd, if_true]; intro hq hcq
                cases hf : f x with
                | none => rw [hf] at hq; simpa using hq
                | some q' =>
                  rw [hf] at hq
                  have hq' : q' = q := by simpa using hq
                  subst hq'
                  have := h.firstCpu x q' hf hcq; rw [hn] at this; cases this
              · simpa [upd, hx] using h.firstCpu x q
            known := by
              intro x p; by_cases hx : x = d
              · subst hx; simp [upd]
              · simpa [upd, hx] using h.known x p
            cnt := by
              intro b
              rw [sumTo_upd (fun x => charge c (c.size x) (f x) (l x) (if back x then some a else none) b) _ d
                (by intro x hx; simp [upd, hx]) n]
              simp only [upd, if_true, hwd.2]
              have hc1 := hcharge b
              have hc2 := h.cnt b
              have e0 : (if (false = true) then some a else none) = (none : Option Nat) := by simp
              rw [e0, hc1]
              cases hca : c.cpu a with
              | true => simp; exact hc2
              | false =>
                by_cases hba : b = a
                · subst hba; simp only [Bool.false_eq_true, if_false, if_true, and_self, upd]; omega
                · simp [hba, upd]; exact hc2 }
      · -- it is here
        have hph : (s.cell d).phys = some a := by rw [hcell.1, ha]
        have hone : toOne c a s d = s := by unfold toOne; rw [h.alive, hph]; simp
        have hbd : back d = false := by
          cases hb : back d with
          | false => rfl
          | true => have := (h.home d hb).1; rw [ha] at this; cases this
        rw [hone]
        refine ⟨f, l, back, h, fun x _ => ⟨rfl, rfl, rfl⟩, ha, hbd, ?_⟩
        cases hf : f d with
        | none => exact absurd hf (h.known d a ha)
        | some q => rfl
    obtain ⟨f1, l1, b1, hM1, hne, hd⟩ := key
    obtain ⟨f', l', back', hM, h1, h2⟩ := ih (toOne c a s d) f1 l1 b1 hM1 (fun x hx => hw x (by simp [hx]))
      (fun x hx => by
        by_cases hxd : x = d
        · subst hxd; right; exact hd.1
        · rw [(hne x hxd).2.1]; exact hl x (by simp [hx]))
    refine ⟨f', l', back', hM, ?_, ?_⟩
    · intro x hx; rw [List.mem_cons, not_or] at hx
      have e1 := h1 x hx.2; have e2 := hne x hx.1
      exact ⟨e1.1.trans e2.1, e1.2.1.trans e2.2.1, e1.2.2.trans e2.2.2⟩
    · intro x hx
      by_cases hxs : x ∈ ds
      · have e1 := h2 x hxs
        refine ⟨e1.1, e1.2.1, ?_⟩
        rw [e1.2.2]
        by_cases hxd : x = d
        · subst hxd; rw [hd.2.2]; rfl
        · rw [(hne x hxd).1]
      · have : x = d := by simpa [hxs] using hx
        subst this
        have e1 := h1 x hxs
        exact ⟨e1.2.1.trans hd.1, e1.2.2.trans hd.2.1, e1.1.trans hd.2.2⟩

/-- Allocating outputs that are already here changes nothing. -/
theorem alloc_ok (c : Cfg) (a : Nat) (s : St) (outs : List Nat) (m : Nat → Nat)
    (h0 : s.dead = false) (hv : ∀ d, d ∈ outs → s.vphys (c.acc d) = some a)
    (hc : ∀ d, d ∈ outs → Holds c (s.cell d) (some a) (m d)) : outs.foldl (allocRemote c a) s = s := by
  induction outs with
  | nil => rfl
  | cons d ds ih =>
    simp only [List.foldl_cons]
    have hd := hc d (by simp)
    have : allocRemote c a s d = s := by
      unfold allocRemote
      rw [h0, hv d (by simp)]
      simp only [Bool.false_eq_true, if_false]
      cases hca : c.cpu a with
      | true =>
        simp only [if_true]
        have hp := hd.1
        have : upd s.cell d { s.cell d with phys := some a } = s.cell := by
          funext x; by_cases hx : x = d
          · subst hx; simp only [upd, if_true]; rw [← hp]
          · simp [upd, hx]
        rw [this, ← h0]
      | false =>
        have h2 := hd.2
        simp only [hca, Bool.false_eq_true, if_false] at h2
        simp [h2]
    rw [this]
    exact ih (fun x hx => hv x (by simp [hx])) (fun x hx => hc x (by simp [hx]))

/-- Between tasks. -/
structure Inv (c : Cfg) (n : Nat) (s : St) (i : Ideal) : Prop where
  dead : s.dead = i.leftCpu
  ok : s.dead = false → s.vphys = i.serves ∧ s.log = i.log ∧
    (∀ d, Holds c (s.cell d) (i.last d) (i.mem d)) ∧
    (∀ d, i.last d = none → i.first d = none) ∧
    (∀ d p, i.last d = some p → c.cpu p = false → (i.first d).any (fun f => !c.cpu f) = true) ∧
    (∀ d p, i.first d = some p → c.cpu p = true → i.last d = some p) ∧
    (∀ d p, i.last d = some p → i.first d ≠ none) ∧
    (∀ b, s.avail b = c.total b - sumTo (fun d => booked c i d b) n)

theorem charge_booked (c : Cfg) (i : Ideal) (d b : Nat) :
    charge c (c.size d) (i.first d) (i.last d) none b = booked c i d b := by
  simp [charge, booked]

theorem inv_run (c : Cfg) (hm : c.mig = true) (n : Nat) (s : St) (i : Ideal) (h : Inv c n s i)
    (v : Nat) (ins outs : List Nat) (g : List Nat → Nat → Nat) (ho : (Ev.run v ins outs g).ok c n) :
    Inv c n (step c s (.run v ins outs g)) (istep c.cpu i (.run v ins outs g)) := by
  have ho' : ∀ d, d ∈ ins ++ outs → c.acc d = v ∧ d < n := ho
  cases hdd : s.dead with
  | true =>
    have hs : (step c s (.run v ins outs g)).dead = true := by
      simp only [step]
      cases hv : s.vphys v with
      | none => exact hdd
      | some a =>
        simp only [hm, if_true]
        rw [from_dead _ _ _ _ hdd, to_dead _ _ _ _ hdd, alloc_dead _ _ _ _ hdd]
        simp [exec, hdd]
    have hl : i.leftCpu = true := by rw [← h.dead]; exact hdd
    refine ⟨?_, fun e => by rw [hs] at e; cases e⟩
    rw [hs]; simp only [istep]
    cases i.serves v <;> simp [hl]
  | false =>
    obtain ⟨hvp, hlog, hcell, hfr, hdev, hfc, hkn, hcnt⟩ := h.ok hdd
    have hleft : i.leftCpu = false := by rw [← h.dead]; exact hdd
    cases hv : s.vphys v with
    | none =>
      have hi : i.serves v = none := by rw [← hvp]; exact hv
      simp only [step, istep, hv, hi]; exact h
    | some a =>
      have hi : i.serves v = some a := by rw [← hvp]; exact hv
      have hM0 : Mid c n a v s i i.first i.last (fun _ => false) :=
        { alive := hdd, vp := hvp, va := hv, cell := hcell, log := hlog, home := by simp,
          fresh := fun d e _ => hfr d e, dev := hdev, firstCpu := hfc, known := hkn,
          cnt := by
            intro b; rw [hcnt b]; congr 1
            refine sumTo_congr _ _ _ (fun d _ => ?_)
            simpa using (charge_booked c i d b).symm }
      by_cases hk : (ins ++ outs).any (fun d => elsewhereCpu c.cpu a (i.last d)) = true
      · have hdie : ((ins ++ outs).foldl (fromOne c a) s).dead = true :=
          from_kills c n a v i i.first (ins ++ outs) s i.last _ hM0 ho' (List.any_eq_true.mp hk)
        have hs : (step c s (.run v ins outs g)).dead = true := by
          simp only [step, hv, hm, if_true]
          rw [to_dead _ _ _ _ hdie, alloc_dead _ _ _ _ hdie]
          unfold exec; rw [if_pos hdie]; exact hdie
        refine ⟨?_, fun e => by rw [hs] at e; cases e⟩
        rw [hs]; simp only [istep, hi, hk, Bool.or_true]
      · have hk' : (ins ++ outs).any (fun d => elsewhereCpu c.cpu a (i.last d)) = false := by simpa using hk
        obtain ⟨l1, b1, hM1, hout1, hin1⟩ := from_ok c n a v i i.first (ins ++ outs) s i.last _ hM0 ho'
          (fun d hd => by
            have := (List.any_eq_false.mp hk') d hd; simpa using this)
        obtain ⟨f2, l2, b2, hM2, hout2, hin2⟩ := to_ok c n a v i (ins ++ outs) _ i.first l1 b1 hM1 ho' hin1
        generalize hs2 : (ins ++ outs).foldl (toOne c a) ((ins ++ outs).foldl (fromOne c a) s) = s2 at hM2
        have hal : outs.foldl (allocRemote c a) s2 = s2 :=
          alloc_ok c a s2 outs i.mem hM2.alive
            (fun d hd => by rw [(ho' d (by simp [hd])).1]; exact hM2.va)
            (fun d hd => by have := hM2.cell d; rw [(hin2 d (by simp [hd])).1] at this; exact this)
        have hlook : (ins ++ outs).map (fun d => look c a (s2.cell d)) = (ins ++ outs).map i.mem := by
          apply List.map_congr_left
          intro d hd
          have := hM2.cell d; rw [(hin2 d hd).1] at this
          have h2 := this.2
          cases hca : c.cpu a <;> simp only [hca, Bool.false_eq_true, if_false, if_true] at h2 <;> simp [look, hca, h2]
        have hstep : step c s (.run v ins outs g) = exec c a (ins ++ outs) g s2 := by
          simp only [step, hv, hm, if_true]; rw [hs2, hal]
        have hl2 : ∀ d, l2 d = (if d ∈ ins ++ outs then some a else i.last d) := by
          intro d; by_cases hd : d ∈ ins ++ outs
          · rw [if_pos hd]; exact (hin2 d hd).1
          · rw [if_neg hd, (hout2 d hd).2.1]; exact (hout1 d hd).1
        have hf2 : ∀ d, f2 d = (if d ∈ ins ++ outs then some ((i.first d).getD a) else i.first d) := by
          intro d; by_cases hd : d ∈ ins ++ outs
          · rw [if_pos hd]; exact (hin2 d hd).2.2
          · rw [if_neg hd]; exact (hout2 d hd).1
        have hb2 : ∀ d, b2 d = false := by
          intro d; by_cases hd : d ∈ ins ++ outs
          · exact (hin2 d hd).2.1
          · rw [(hout2 d hd).2.2]; exact (hout1 d hd).2
        have hi' : istep c.cpu i (.run v ins outs g) = { i with
            mem := fun d => if d ∈ ins ++ outs then g ((ins ++ outs).map i.mem) d else i.mem d
            first := f2, last := l2, log := i.log ++ [(ins ++ outs).map i.mem]
            leftCpu := false
            moved := i.moved || (ins ++ outs).any (fun d => elsewhere a (i.last d)) } := by
          simp only [istep, hi, hk', hleft, Bool.or_self]
          congr 1
          · funext d; exact (hf2 d).symm
          · funext d; exact (hl2 d).symm
        rw [hi', hstep]
        have hex : exec c a (ins ++ outs) g s2 = { s2 with
            cell := (fun d => if d ∈ ins ++ outs then put c a (s2.cell d) (g ((ins ++ outs).map i.mem) d) else s2.cell d)
            log := s2.log ++ [(ins ++ outs).map i.mem] } := by
          unfold exec; rw [hM2.alive]; simp only [Bool.false_eq_true, if_false, hlook]
        rw [hex]
        refine ⟨hM2.alive, fun _ => ⟨hM2.vp, by dsimp only; rw [hM2.log], ?_, ?_, hM2.dev, hM2.firstCpu, hM2.known, ?_⟩⟩
        · intro d
          dsimp only
          by_cases hd : d ∈ ins ++ outs
          · rw [if_pos hd, if_pos hd]
            have := hM2.cell d
            rw [(hin2 d hd).1] at this ⊢
            cases hca : c.cpu a with
            | true => simp only [Holds, hca, if_true, put] at this ⊢; exact ⟨this.1, this.2.1, trivial⟩
            | false =>
              simp only [Holds, hca, Bool.false_eq_true, if_false, put] at this ⊢
              rw [this.2]; exact ⟨this.1, rfl⟩
          · rw [if_neg hd, if_neg hd]; exact hM2.cell d
        · intro d e; exact hM2.fresh d e (hb2 d)
        · intro b
          dsimp only
          rw [hM2.cnt b]; congr 1
          refine sumTo_congr _ _ _ (fun d _ => ?_)
          rw [hb2 d]; simp [charge, booked]

theorem inv_step (c : Cfg) (hm : c.mig = true) (n : Nat) (s : St) (i : Ideal) (h : Inv c n s i) (e : Ev)
    (ho : e.ok c n) : Inv c n (step c s e) (istep c.cpu i e) := by
  cases e with
  | run v ins outs g => exact inv_run c hm n s i h v ins outs g ho
  | move v a =>
    cases hdd : s.dead with
    | true =>
      have : step c s (.move v a) = s := by simp [step, hdd]
      rw [this]
      exact ⟨h.dead, fun e => by rw [hdd] at e; cases e⟩
    | false =>
      have e1 : step c s (.move v a) = { s with vphys := upd s.vphys v (some a) } := by simp [step, hdd]
      rw [e1]
      obtain ⟨hvp, hrest⟩ := h.ok hdd
      exact ⟨h.dead, fun _ => ⟨by simp only [istep]; rw [hvp], hrest⟩⟩

theorem inv_all (c : Cfg) (hm : c.mig = true) (n : Nat) (init : Nat → Nat) (es : List Ev)
    (ho : ∀ e, e ∈ es → e.ok c n) : Inv c n (runAll c init es) (ideal c.cpu init es) := by
  unfold runAll ideal
  have h0 : Inv c n (start c init) ⟨init, fun _ => none, fun _ => none, fun _ => none, [], false, false⟩ := by
    refine ⟨rfl, fun _ => ⟨rfl, rfl, fun d => by simp [start, Holds], by simp, by simp, by simp, by simp, ?_⟩⟩
    intro b
    have : ∀ m, sumTo (fun d => booked c ⟨init, fun _ => none, fun _ => none, fun _ => none, [], false, false⟩ d b) m = 0 := by
      intro m
      induction m with
      | zero => rfl
      | succ m ih => simp only [sumTo]; rw [ih]; simp [booked]
    simp [start, this]
  revert h0
  generalize start c init = s
  generalize (⟨init, fun _ => none, fun _ => none, fun _ => none, [], false, false⟩ : Ideal) = i
  intro h0
  induction es generalizing s i with
  | nil => exact h0
  | cons e es ih =>
    simp only [List.foldl_cons]
    exact ih (fun x hx => ho x (by simp [hx])) _ _ (inv_step c hm n s i h0 e (ho e (by simp)))

/-! ## Properties -/

/-- Every task finds in its buffers what the tasks before it left there, on
whatever accelerators they ran — missing: histories in which a buffer leaves a
CPU accelerator (`C107_violated_leaving_cpu`), and the default build
(`C107_violated_default_build`). -/
theorem C107_task_sees_partial (c : Cfg) (hm : c.mig = true) (n : Nat) (init : Nat → Nat) (es : List Ev)
    (ho : ∀ e, e ∈ es → e.ok c n) (hl : (ideal c.cpu init es).leftCpu = false) :
    (runAll c init es).dead = false ∧ (runAll c init es).log = (ideal c.cpu init es).log := by
  have h := inv_all c hm n init es ho
  have hd : (runAll c init es).dead = false := by rw [h.dead]; exact hl
  exact ⟨hd, (h.ok hd).2.1⟩

/-- The controller aborts in exactly the histories in which a task uses a buffer
that was used last on a different accelerator that is a CPU. -/
theorem C107_aborts_exactly (c : Cfg) (hm : c.mig = true) (n : Nat) (init : Nat → Nat) (es : List Ev)
    (ho : ∀ e, e ∈ es → e.ok c n) :
    (runAll c init es).dead = true ↔ (ideal c.cpu init es).leftCpu = true := by
  rw [(inv_all c hm n init es ho).dead]

/-- What the books say about every accelerator, in every history that does not
abort: a buffer stays charged to the device that used it *first*, wherever it
is, and a CPU that gets a buffer from a device is credited with its size. -/
theorem C107_books_exact (c : Cfg) (hm : c.mig = true) (n : Nat) (init : Nat → Nat) (es : List Ev)
    (ho : ∀ e, e ∈ es → e.ok c n) (hl : (ideal c.cpu init es).leftCpu = false) (b : Nat) :
    (runAll c init es).avail b = c.total b - sumTo (fun d => booked c (ideal c.cpu init es) d b) n := by
  have h := inv_all c hm n init es ho
  have hd : (runAll c init es).dead = false := by rw [h.dead]; exact hl
  exact (h.ok hd).2.2.2.2.2.2.2 b

theorem stays (cpu : Nat → Bool) (init : Nat → Nat) (es : List Ev) (h : (ideal cpu init es).moved = false) :
    (ideal cpu init es).leftCpu = false ∧ (ideal cpu init es).first = (ideal cpu init es).last := by
  unfold ideal at *
  have h0 : (⟨init, fun _ => none, fun _ => none, fun _ => none, [], false, false⟩ : Ideal).leftCpu = false ∧
    (⟨init, fun _ => none, fun _ => none, fun _ => none, [], false, false⟩ : Ideal).first
      = (⟨init, fun _ => none, fun _ => none, fun _ => none, [], false, false⟩ : Ideal).last := ⟨rfl, rfl⟩
  revert h h0
  generalize (⟨init, fun _ => none, fun _ => none, fun _ => none, [], false, false⟩ : Ideal) = i
  intro h h0
  induction es generalizing i with
  | nil => exact h0
  | cons e es ih =>
    simp only [List.foldl_cons] at h ⊢
    have mono : ∀ (es : List Ev) (j : Ideal), j.moved = true → (es.foldl (istep cpu) j).moved = true := by
      intro es
      induction es with
      | nil => intro j hj; exact hj
      | cons e es ih =>
        intro j hj; simp only [List.foldl_cons]; apply ih
        cases e with
        | move v a => simpa [istep] using hj
        | run v ins outs g => simp only [istep]; cases j.serves v <;> simp [hj]
    have hm : (istep cpu i e).moved = false := by
      cases hx : (istep cpu i e).moved with
      | false => rfl
      | true => rw [mono es _ hx] at h; cases h
    apply ih _ h
    cases e with
    | move v a => simpa [istep] using h0
    | run v ins outs g =>
      simp only [istep] at hm ⊢
      cases hv : i.serves v with
      | none => exact h0
      | some a =>
        simp only [hv, Bool.or_eq_false_iff] at hm ⊢
        have hm2 := List.any_eq_false.mp hm.2
        refine ⟨⟨h0.1, List.any_eq_false.mpr (fun d hd => ?_)⟩, ?_⟩
        · have := hm2 d hd
          cases hl : i.last d with
          | none => simp [elsewhereCpu]
          | some p => rw [hl] at this; simp [elsewhere] at this; simp [elsewhereCpu, this]
        · funext d
          by_cases hd : d ∈ ins ++ outs
          · rw [if_pos hd, if_pos hd]
            have := hm2 d hd
            rw [h0.2]
            cases hl : i.last d with
            | none => rfl
            | some p => rw [hl] at this; simp [elsewhere] at this; simp [this]
          · rw [if_neg hd, if_neg hd, h0.2]

/-- The available memory of every accelerator is its memory minus the buffers on
it — missing: histories in which a buffer moves (`C107_violated_books`). -/
theorem C107_books_partial (c : Cfg) (hm : c.mig = true) (n : Nat) (init : Nat → Nat) (es : List Ev)
    (ho : ∀ e, e ∈ es → e.ok c n) (hl : (ideal c.cpu init es).moved = false) (b : Nat) :
    (runAll c init es).avail b = c.total b - occupied c (ideal c.cpu init es) b n := by
  have hs := stays c.cpu init es hl
  rw [C107_books_exact c hm n init es ho hs.1 b]
  congr 1
  refine sumTo_congr _ _ _ (fun d _ => ?_)
  simp only [booked, hs.2]
  cases hd : (ideal c.cpu init es).last d with
  | none => simp
  | some p =>
    by_cases hpb : p = b
    · subst hpb; cases hc : c.cpu p <;> simp [hc]
    · simp [hpb]

/-! ### Concrete cases -/

/-- Two devices (0, 1) and two CPUs (2, 3) with 100 bytes each; buffers of 10. -/
def demo (mig : Bool) : Cfg := ⟨mig, fun a => decide (2 ≤ a), fun _ => 0, fun _ => 10, fun _ => 100⟩

/-- A task that leaves `x` in its output. -/
def setTo (x : Nat) : Ev := .run 0 [] [0] (fun _ _ => x)

/-- A task that reads and adds one. -/
def incr : Ev := .run 0 [0] [] (fun l _ => l.headD 0 + 1)

/-- Set on device 0, add one there, on device 1 and on CPU 2. -/
def tour : List Ev := [.move 0 0, setTo 5, incr, .move 0 1, incr, .move 0 2, incr]

/-- The hypotheses of the theorems above are met by a history with moves between
three accelerators, and the tasks find 0, 5, 6 and 7. -/
example : (∀ e, e ∈ tour → e.ok (demo true) 1) ∧ (ideal (demo true).cpu (fun _ => 0) tour).leftCpu = false ∧
    (ideal (demo true).cpu (fun _ => 0) tour).moved = true ∧
    (runAll (demo true) (fun _ => 0) tour).log = [[0], [5], [6], [7]] := by
  refine ⟨?_, by decide, by decide, by decide⟩
  intro e he
  simp only [tour, setTo, incr, List.mem_cons, List.not_mem_nil, or_false] at he
  rcases he with e | e | e | e | e | e | e <;> subst e <;> simp [Ev.ok, demo]

/-- … and of `C107_books_partial` by a history that stays. -/
example : (ideal (demo true).cpu (fun _ => 0) [.move 0 0, setTo 5, incr]).moved = false ∧
    (runAll (demo true) (fun _ => 0) [.move 0 0, setTo 5, incr]).avail 0 = 90 := by decide

/-- Violated: a buffer that was used on a CPU cannot be used on another
accelerator: the controller aborts (CPUaccelThread.cpp:105). -/
theorem C107_violated_leaving_cpu :
    (runAll (demo true) (fun _ => 0) [.move 0 2, setTo 5, .move 0 0, incr]).dead = true ∧
    (runAll (demo true) (fun _ => 0) [.move 0 2, setTo 5, .move 0 3, incr]).dead = true ∧
    (ideal (demo true).cpu (fun _ => 0) [.move 0 2, setTo 5, .move 0 0, incr]).log = [[0], [5]] := by decide

/-- Violated: after a buffer moved from device 0 to device 1, the books say that
device 0 holds it and that device 1 is empty; a CPU that gets it ends up with
more free memory than it has (HIPaccelThread.cpp:361: the accelerator of the
*virtual* accelerator is credited, which is by then the new one). -/
theorem C107_violated_books :
    (let s := runAll (demo true) (fun _ => 0) [.move 0 0, setTo 5, .move 0 1, incr]
     s.avail 0 = 90 ∧ s.avail 1 = 100) ∧
    (let i := ideal (demo true).cpu (fun _ => 0) [.move 0 0, setTo 5, .move 0 1, incr]
     occupied (demo true) i 0 1 = 0 ∧ occupied (demo true) i 1 1 = 10) ∧
    (runAll (demo true) (fun _ => 0) tour).avail 2 = 110 := by decide

/-- Violated: in the default build nothing is moved with the virtual
accelerator, and a task on the new accelerator does not find what the task
before it left (accelThread.cpp:202, 251; Core/CMakeLists.txt:4). -/
theorem C107_violated_default_build :
    (runAll (demo false) (fun _ => 0) [.move 0 0, setTo 5, .move 0 2, incr]).log = [[0], [0]] ∧
    (ideal (demo false).cpu (fun _ => 0) [.move 0 0, setTo 5, .move 0 2, incr]).log = [[0], [5]] := by decide

end Arax.Migrate
