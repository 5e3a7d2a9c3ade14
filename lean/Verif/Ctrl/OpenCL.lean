import Verif.Ctrl.Devices
/-!
# C103, OpenCL

`acceleratorInit`, `acceleratorRelease`, `OpenCLGetKernel` of /repo/controller/src/OpenCL/OpenclaccelThread.cpp. The context, the program and the map of kernels are static: all OpenCL
accelerators share them. See `Verif.Ctrl.Devices` for the property and what is assumed of the driver.
-/
namespace Arax.OpenCL

open Arax.Devices (Why find find_cons)

/-- Names of kernels (`std::string`). -/
abbrev Name := String

/-- The configuration of an accelerator: `pci_id`, the names of its kernels (`kn`) and its binaries (`bin`), each with the names of the kernels in it.
/repo/controller/src/OpenCL/OpenclaccelThread.cpp:35-65. -/
structure Conf where
  pci : Int
  names : List Name
  files : List (List Name)

/-- An OpenCL object: references, its context (its own number, for a context); for a queue its device, for a program its kernels. (The driver.) -/
structure Obj where
  refs : Nat
  ctx : Nat
  dev : Nat := 0
  has : List Name := []

/-- The static variables (/repo/controller/src/OpenCL/OpenclaccelThread.cpp:25-33, 87), the streams of the accelerators (`stream`), and the objects of the driver, numbered in the order of creation. -/
structure St where
  exist : Int → Bool := fun _ => false
  context : Option Nat := none                 -- oclHandles.context
  program : Option Nat := none                 -- oclHandles.program
  kernels : List (Name × Option Nat) := []     -- newest first; the value may be NULL
  stream : Nat → Option Nat := fun _ => none   -- this->stream
  s2a : List (Nat × Nat) := []
  objs : List Obj := []
  dead : Option Why := none

/-- The driver makes a new object. (The driver.) -/
def St.new (s : St) (o : Obj) : St := { s with objs := s.objs ++ [o] }

/-- A new context: /repo/controller/src/OpenCL/OpenclaccelThread.cpp:108-125. -/
def newContext (s : St) : St := { s.new ⟨1, s.objs.length, 0, []⟩ with context := some s.objs.length, program := none }

/-- A program from a binary: /repo/controller/src/OpenCL/OpenclaccelThread.cpp:158-167. The program before it is forgotten. -/
def newProgram (s : St) (f : List Name) : St := { s.new ⟨1, s.context.getD 0, 0, f⟩ with program := some s.objs.length }

/-- The first accelerator of a device: /repo/controller/src/OpenCL/OpenclaccelThread.cpp:89-169. -/
def setup (s : St) (c : Conf) : St :=
  if s.exist c.pci then s
  else c.files.foldl newProgram (newContext { s with exist := fun x => if x = c.pci then true else s.exist x })

/-- A kernel: /repo/controller/src/OpenCL/OpenclaccelThread.cpp:172-184. `clCreateKernel` fails without a program and for names that are not in it; then the process ends. -/
def newKernel (s : St) (n : Name) : St :=
  if s.dead ≠ none then s else
  match s.program with
  | none => { s with dead := some .abort }
  | some p =>
    match s.objs[p]? with
    | none => { s with dead := some .abort }
    | some o => if n ∈ o.has then { s.new ⟨1, o.ctx, 0, []⟩ with kernels := (n, some s.objs.length) :: s.kernels } else { s with dead := some .abort }

/-- The queue of the accelerator, on the first device: /repo/controller/src/OpenCL/OpenclaccelThread.cpp:189-201. -/
def newQueue (dev0 : Nat) (s : St) (a : Nat) : St :=
  if s.dead ≠ none then s
  else { s.new ⟨1, s.context.getD 0, dev0, []⟩ with stream := fun b => if b = a then some s.objs.length else s.stream b, s2a := (s.objs.length, a) :: s.s2a }

/-- `acceleratorInit` of accelerator `a`; `dev0` is the first device of the platform that is chosen (/repo/controller/include/opencl_util.h:219-290).
/repo/controller/src/OpenCL/OpenclaccelThread.cpp:80-211. -/
def init (dev0 : Nat) (s : St) (a : Nat) (c : Conf) : St :=
  if s.dead ≠ none then s
  else if c.pci < 0 ∨ 128 ≤ c.pci then { s with dead := some .outside }       -- 89
  else newQueue dev0 (c.names.foldl newKernel (setup s c)) a

/-- A release by the driver: an error for NULL and for objects without references, after which the code calls `abort()`. -/
def drop (s : St) (x : Option Nat) : St :=
  if s.dead ≠ none then s else
  match x with
  | none => { s with dead := some .abort }
  | some i =>
    match s.objs[i]? with
    | none => { s with dead := some .abort }
    | some o => if o.refs = 0 then { s with dead := some .abort } else { s with objs := s.objs.set i { o with refs := o.refs - 1 } }

/-- `kernels[n]`: a name that is not there is added, with NULL; either way the value. (C++ library; the map is cleared right afterwards.) -/
def kernelAt (s : St) (n : Name) : Option Nat := ((s.kernels.find? (·.1 == n)).map (·.2)).join

/-- One round of the loop of `acceleratorRelease`: /repo/controller/src/OpenCL/OpenclaccelThread.cpp:218-243. -/
def releaseRound (a : Nat) (s : St) (n : Name) : St :=
  let s1 := drop s (kernelAt s n)
  let s2 := if s1.dead ≠ none then s1 else { s1 with kernels := [] }
  let s3 := drop s2 s2.program
  let s4 := drop s3 (s3.stream a)
  drop s4 s4.context

/-- `acceleratorRelease` of accelerator `a`: /repo/controller/src/OpenCL/OpenclaccelThread.cpp:213-245. -/
def release (s : St) (a : Nat) (c : Conf) : St := c.names.foldl (releaseRound a) s

/-- The accelerators `l` come up. (/repo/controller/src/Core/accelThread.cpp:319-330.) -/
def inits (dev0 : Nat) (conf : Nat → Conf) (l : List Nat) (s : St) : St := l.foldl (fun s a => init dev0 s a (conf a)) s

/-- The accelerators `l` go down. (/repo/controller/src/Core/accelThread.cpp:446-458.) -/
def releases (conf : Nat → Conf) (l : List Nat) (s : St) : St := l.foldl (fun s a => release s a (conf a)) s

/-- `OpenCLGetKernel` for an accelerator; `none`: `abort()`. /repo/controller/src/OpenCL/OpenclaccelThread.cpp:302-314. -/
def getKernel (s : St) (n : Name) : Option (Option Nat) := (s.kernels.find? (·.1 == n)).map (·.2)

/-! ### Specification -/

/-- Everything has been given back. -/
def Clean (s : St) : Prop := ∀ o ∈ s.objs, o.refs = 0

/-- Accelerator `a` has a queue of its own, from which it is found; every kernel of its configuration is found by name and belongs to the context of the queue (otherwise
`clEnqueueNDRangeKernel` fails with CL_INVALID_CONTEXT). -/
def Works (conf : Nat → Conf) (s : St) (a : Nat) : Prop :=
  ∃ q oq, s.stream a = some q ∧ s.objs[q]? = some oq ∧ find s.s2a q = some a ∧
    ∀ n ∈ (conf a).names, ∃ k ok, getKernel s n = some (some k) ∧ s.objs[k]? = some ok ∧ ok.ctx = oq.ctx

/-! ### Proofs: what works -/

/-- **C103 (OpenCL: one accelerator with one kernel)**: it comes up, and going down gives everything back. -/
theorem C103_cl_single_partial (dev0 a : Nat) (p : Int) (hp : 0 ≤ p ∧ p < 128) (n : Name) (f : List Name) (hn : n ∈ f) :
    let s := init dev0 {} a ⟨p, [n], [f]⟩
    let t := release s a ⟨p, [n], [f]⟩
    s.dead = none ∧ Works (fun _ => ⟨p, [n], [f]⟩) s a ∧ t.dead = none ∧ Clean t := by
  have h1 : ¬ (p < 0 ∨ 128 ≤ p) := by omega
  simp only [init, ne_eq, not_true_eq_false, if_false, h1, setup, Bool.false_eq_true, List.foldl_cons, List.foldl_nil, newContext, newProgram, St.new, newKernel, newQueue,
    List.nil_append, List.length_nil, List.length_cons, List.cons_append, List.getElem?_cons_succ, List.getElem?_cons_zero, hn, if_true, Option.getD_some, release, releaseRound, drop,
    kernelAt]
  refine ⟨trivial, ?_, ?_, ?_⟩
  · refine ⟨3, _, by simp, by simp; rfl, by simp [find], ?_⟩
    intro m hm
    simp at hm
    subst hm
    exact ⟨2, _, by simp [getKernel], by simp; rfl, by simp⟩
  · simp
  · simp [Clean]

/-- All accelerators are on one device: the state while they come up. `K` are the kernels of the program. -/
structure Inv (conf : Nat → Conf) (d : Int) (K : List Name) (past : List Nat) (s : St) : Prop where
  alive : s.dead = none
  ex : ∀ x, s.exist x = decide (x = d)
  ctx : s.context = some 0
  prog : ∃ p o, s.program = some p ∧ s.objs[p]? = some o ∧ o.has = K ∧ o.ctx = 0
  all : ∀ o ∈ s.objs, o.ctx = 0
  ker : ∀ n, ∀ k, getKernel s n = some k → ∃ i, k = some i ∧ i < s.objs.length
  up : ∀ a ∈ past, (∃ q, s.stream a = some q ∧ q < s.objs.length ∧ find s.s2a q = some a) ∧ ∀ n ∈ (conf a).names, getKernel s n ≠ none
  old : ∀ q a, find s.s2a q = some a → q < s.objs.length ∧ a ∈ past
  str : ∀ a q, s.stream a = some q → a ∈ past

theorem getKernel_cons (n m : Name) (v : Option Nat) (ks : List (Name × Option Nat)) :
    (List.find? (fun x => x.1 == m) ((n, v) :: ks)).map (·.2) = if n = m then some v else (ks.find? (fun x => x.1 == m)).map (·.2) := by
  by_cases h : n = m
  · simp [h]
  · simp [h]

/-- What loading kernels keeps. -/
theorem newKernel_inv {conf : Nat → Conf} {d : Int} {K : List Name} {past : List Nat} {s : St} (h : Inv conf d K past s) {n : Name} (hn : n ∈ K) :
    Inv conf d K past (newKernel s n) ∧ getKernel (newKernel s n) n ≠ none ∧ ∀ m, getKernel s m ≠ none → getKernel (newKernel s n) m ≠ none := by
  obtain ⟨p, o, e1, e2, e3, e4⟩ := h.prog
  have e : newKernel s n = { s.new ⟨1, o.ctx, 0, []⟩ with kernels := (n, some s.objs.length) :: s.kernels } := by
    simp only [newKernel, h.alive, ne_eq, not_true_eq_false, if_false, e1, e2, e3, hn, if_true]
  rw [e]
  have hl : p < s.objs.length := by
    rcases Nat.lt_or_ge p s.objs.length with hl | hl
    · exact hl
    · rw [List.getElem?_eq_none hl] at e2; cases e2
  have hk : ∀ m, getKernel { s.new ⟨1, o.ctx, 0, []⟩ with kernels := (n, some s.objs.length) :: s.kernels } m = if n = m then some (some s.objs.length) else getKernel s m :=
    fun m => getKernel_cons n m _ _
  refine ⟨⟨h.alive, h.ex, h.ctx, ⟨p, o, e1, ?_, e3, e4⟩, ?_, ?_, ?_, ?_, h.str⟩, ?_, ?_⟩
  · simp only [St.new]; rw [List.getElem?_append_left hl]; exact e2
  · intro x hx
    simp only [St.new, List.mem_append, List.mem_singleton] at hx
    rcases hx with hx | rfl
    · exact h.all x hx
    · exact e4
  · intro m k hm
    rw [hk] at hm
    by_cases hnm : n = m
    · rw [if_pos hnm] at hm
      exact ⟨s.objs.length, (Option.some.inj hm).symm, by simp [St.new]⟩
    · rw [if_neg hnm] at hm
      obtain ⟨i, hi, hi'⟩ := h.ker m k hm
      exact ⟨i, hi, by simp [St.new]; omega⟩
  · intro a ha
    obtain ⟨⟨q, q1, q2, q3⟩, q4⟩ := h.up a ha
    refine ⟨⟨q, q1, by simp [St.new]; omega, q3⟩, ?_⟩
    intro m hm
    rw [hk]
    by_cases hnm : n = m
    · simp [hnm]
    · rw [if_neg hnm]; exact q4 m hm
  · intro q a hq
    have := h.old q a hq
    exact ⟨by simp [St.new]; omega, this.2⟩
  · rw [hk]; simp
  · intro m hm
    rw [hk]
    by_cases hnm : n = m
    · simp [hnm]
    · rw [if_neg hnm]; exact hm

theorem newKernels_inv {conf : Nat → Conf} {d : Int} {K : List Name} {past : List Nat} : ∀ (l : List Name) (s : St), Inv conf d K past s → (∀ n ∈ l, n ∈ K) →
    Inv conf d K past (l.foldl newKernel s) ∧ (∀ n ∈ l, getKernel (l.foldl newKernel s) n ≠ none) ∧ ∀ m, getKernel s m ≠ none → getKernel (l.foldl newKernel s) m ≠ none
  | [], s, h, _ => ⟨h, by simp, fun _ hm => hm⟩
  | n :: l, s, h, hl => by
    obtain ⟨h1, h2, h3⟩ := newKernel_inv h (hl n (by simp))
    obtain ⟨g1, g2, g3⟩ := newKernels_inv l (newKernel s n) h1 (fun m hm => hl m (by simp [hm]))
    refine ⟨g1, ?_, fun m hm => g3 m (h3 m hm)⟩
    intro m hm
    rcases List.mem_cons.1 hm with rfl | hm
    · exact g3 _ h2
    · exact g2 m hm

theorem newQueue_inv {conf : Nat → Conf} {d : Int} {K : List Name} {past : List Nat} {s : St} (h : Inv conf d K past s) (dev0 : Nat) {a : Nat} (ha : a ∉ past)
    (hk : ∀ n ∈ (conf a).names, getKernel s n ≠ none) : Inv conf d K (past ++ [a]) (newQueue dev0 s a) := by
  obtain ⟨p, o, e1, e2, e3, e4⟩ := h.prog
  have hl : p < s.objs.length := by
    rcases Nat.lt_or_ge p s.objs.length with hl | hl
    · exact hl
    · rw [List.getElem?_eq_none hl] at e2; cases e2
  have e : newQueue dev0 s a = { s.new ⟨1, 0, dev0, []⟩ with stream := fun b => if b = a then some s.objs.length else s.stream b, s2a := (s.objs.length, a) :: s.s2a } := by
    simp [newQueue, h.alive, h.ctx]
  rw [e]
  refine ⟨h.alive, h.ex, h.ctx, ⟨p, o, e1, ?_, e3, e4⟩, ?_, ?_, ?_, ?_, ?_⟩
  · simp only [St.new]; rw [List.getElem?_append_left hl]; exact e2
  · intro x hx
    simp only [St.new, List.mem_append, List.mem_singleton] at hx
    rcases hx with hx | rfl
    · exact h.all x hx
    · rfl
  · intro m k hm
    obtain ⟨i, hi, hi'⟩ := h.ker m k hm
    exact ⟨i, hi, by simp [St.new]; omega⟩
  · intro b hb
    by_cases hba : b = a
    · subst hba
      exact ⟨⟨s.objs.length, by simp, by simp [St.new], by simp [find]⟩, hk⟩
    · have hb' : b ∈ past := by simpa [hba] using hb
      obtain ⟨⟨q, q1, q2, q3⟩, q4⟩ := h.up b hb'
      refine ⟨⟨q, by simp [hba, q1], by simp [St.new]; omega, ?_⟩, q4⟩
      show find ((s.objs.length, a) :: s.s2a) q = some b
      rw [find_cons, if_neg (by omega)]; exact q3
  · intro q b hq
    have hq : find ((s.objs.length, a) :: s.s2a) q = some b := hq
    rw [find_cons] at hq
    by_cases hql : q = s.objs.length
    · rw [if_pos hql] at hq
      have := Option.some.inj hq
      subst this
      exact ⟨by simp [St.new, hql], by simp⟩
    · rw [if_neg hql] at hq
      have := h.old q b hq
      exact ⟨by simp [St.new]; omega, by simp [this.2]⟩
  · intro b q hb
    by_cases hba : b = a
    · simp [hba]
    · have hb : s.stream b = some q := by simpa [hba] using hb
      simp [h.str b q hb]

theorem newPrograms (fs : List (List Name)) : ∀ (s : St), s.context = some 0 →
    let t := fs.foldl newProgram s
    t.dead = s.dead ∧ t.exist = s.exist ∧ t.context = s.context ∧ t.kernels = s.kernels ∧ t.stream = s.stream ∧ t.s2a = s.s2a ∧
    ((∀ o ∈ s.objs, o.ctx = 0) → ∀ o ∈ t.objs, o.ctx = 0) ∧ s.objs.length ≤ t.objs.length ∧
    ∀ f, fs.getLast? = some f → ∃ p o, t.program = some p ∧ t.objs[p]? = some o ∧ o.has = f ∧ o.ctx = 0 := by
  induction fs with
  | nil => intro s _; simp
  | cons f fs ih =>
    intro s hs
    have hs' : (newProgram s f).context = some 0 := hs
    obtain ⟨a1, a2, a3, a4, a5, a6, a7, a8, a9⟩ := ih (newProgram s f) hs'
    refine ⟨a1, a2, a3, a4, a5, a6, ?_, ?_, ?_⟩
    · intro h
      apply a7
      intro o ho
      simp only [newProgram, St.new, List.mem_append, List.mem_singleton] at ho
      rcases ho with ho | rfl
      · exact h o ho
      · simp [hs]
    · have : (newProgram s f).objs.length = s.objs.length + 1 := by simp [newProgram, St.new]
      simp only [List.foldl_cons]
      omega
    · intro g hg
      cases fs with
      | nil =>
        simp at hg
        subst hg
        refine ⟨s.objs.length, ⟨1, 0, 0, f⟩, ?_, ?_, rfl, rfl⟩
        · rfl
        · simp [newProgram, St.new, hs]
      | cons f' fs' =>
        rw [List.getLast?_cons_cons] at hg
        exact a9 g hg

theorem init_first {conf : Nat → Conf} {K : List Name} (dev0 a : Nat) (hp : 0 ≤ (conf a).pci ∧ (conf a).pci < 128) (hK : (conf a).files.getLast? = some K)
    (hn : ∀ n ∈ (conf a).names, n ∈ K) : Inv conf (conf a).pci K [a] (init dev0 {} a (conf a)) := by
  unfold init
  rw [if_neg (by simp), if_neg (by omega)]
  have hset : setup {} (conf a) = (conf a).files.foldl newProgram (newContext { exist := fun x => if x = (conf a).pci then true else false }) := rfl
  have hc : (newContext { exist := fun x => if x = (conf a).pci then true else false }).context = some 0 := rfl
  obtain ⟨a1, a2, a3, a4, a5, a6, a7, a8, a9⟩ := newPrograms (conf a).files _ hc
  rw [← hset] at a1 a2 a3 a4 a5 a6 a7 a8 a9
  have h0 : Inv conf (conf a).pci K [] (setup {} (conf a)) := by
    refine ⟨a1, ?_, a3, a9 K hK, a7 ?_, ?_, by simp, ?_, ?_⟩
    · intro x; rw [a2]; simp [newContext, St.new]
    · intro o ho; simp [newContext, St.new] at ho; subst ho; rfl
    · intro n k hk; simp [getKernel, a4, newContext, St.new] at hk
    · intro q b hq; simp [a6, newContext, St.new, find] at hq
    · intro b q hb; simp [a5, newContext, St.new] at hb
  obtain ⟨g1, g2, -⟩ := newKernels_inv (conf a).names _ h0 hn
  exact newQueue_inv g1 dev0 (by simp) g2

theorem init_next {conf : Nat → Conf} {d : Int} {K : List Name} {past : List Nat} {s : St} (h : Inv conf d K past s) (dev0 : Nat) {a : Nat} (ha : a ∉ past) (hd : 0 ≤ d ∧ d < 128)
    (hp : (conf a).pci = d) (hn : ∀ n ∈ (conf a).names, n ∈ K) : Inv conf d K (past ++ [a]) (init dev0 s a (conf a)) := by
  unfold init
  rw [if_neg (by simp [h.alive]), if_neg (by omega)]
  have hset : setup s (conf a) = s := by
    unfold setup; rw [if_pos (by rw [h.ex, hp]; simp)]
  rw [hset]
  obtain ⟨g1, g2, -⟩ := newKernels_inv (conf a).names s h hn
  exact newQueue_inv g1 dev0 ha g2

theorem inits_inv {conf : Nat → Conf} {d : Int} {K : List Name} (dev0 : Nat) (hd : 0 ≤ d ∧ d < 128) : ∀ (l past : List Nat) (s : St), Inv conf d K past s → (past ++ l).Nodup →
    (∀ a ∈ l, (conf a).pci = d ∧ ∀ n ∈ (conf a).names, n ∈ K) → Inv conf d K (past ++ l) (inits dev0 conf l s)
  | [], past, s, h, _, _ => by simpa [inits] using h
  | a :: l, past, s, h, hnd, hl => by
    have ha : a ∉ past := by
      intro hm
      exact (List.nodup_append.1 hnd).2.2 a hm a (by simp) rfl
    have e : past ++ a :: l = past ++ [a] ++ l := by simp
    rw [e]
    exact inits_inv dev0 hd l (past ++ [a]) _ (init_next h dev0 ha hd (hl a (by simp)).1 (hl a (by simp)).2) (e ▸ hnd) (fun b hb => hl b (by simp [hb]))

/-- **C103 (OpenCL: coming up on one device).** Any number of accelerators on one device, whose kernels are all in the last binary of the one that comes first: all come up, and each
has a queue of its own, from which it is found, and can use its kernels. -/
theorem C103_cl_up_partial (dev0 : Nat) (conf : Nat → Conf) (a : Nat) (l : List Nat) (hnd : (a :: l).Nodup) (d : Int) (hd : 0 ≤ d ∧ d < 128) (K : List Name)
    (hK : (conf a).files.getLast? = some K) (hl : ∀ b ∈ a :: l, (conf b).pci = d ∧ ∀ n ∈ (conf b).names, n ∈ K) :
    let s := inits dev0 conf (a :: l) {}
    s.dead = none ∧ (∀ b ∈ a :: l, Works conf s b) ∧ ∀ b ∈ a :: l, ∀ c ∈ a :: l, s.stream b = s.stream c → b = c := by
  have h0 := init_first (conf := conf) (K := K) dev0 a (by rw [(hl a (by simp)).1]; exact hd) hK (hl a (by simp)).2
  rw [(hl a (by simp)).1] at h0
  have h := inits_inv dev0 hd l [a] _ h0 hnd (fun b hb => hl b (by simp [hb]))
  have h : Inv conf d K (a :: l) (inits dev0 conf (a :: l) {}) := h
  refine ⟨h.alive, ?_, ?_⟩
  · intro b hb
    obtain ⟨⟨q, q1, q2, q3⟩, q4⟩ := h.up b hb
    refine ⟨q, _, q1, List.getElem?_eq_getElem q2, q3, ?_⟩
    intro n hn
    obtain ⟨k, hk⟩ := Option.ne_none_iff_exists'.1 (q4 n hn)
    obtain ⟨i, rfl, hi⟩ := h.ker n k hk
    refine ⟨i, _, hk, List.getElem?_eq_getElem hi, ?_⟩
    rw [h.all _ (List.getElem_mem hi), h.all _ (List.getElem_mem q2)]
  · intro b hb c hc e
    obtain ⟨⟨q, q1, -, q3⟩, -⟩ := h.up b hb
    obtain ⟨⟨r, r1, -, r3⟩, -⟩ := h.up c hc
    rw [q1, r1] at e
    have := Option.some.inj e
    subst this
    rw [q3] at r3
    exact Option.some.inj r3

/-! ### What fails -/

theorem drop_dead {s : St} (h : s.dead ≠ none) (x : Option Nat) : drop s x = s := by unfold drop; rw [if_pos h]

theorem round_dead {s : St} (h : s.dead ≠ none) (a : Nat) (n : Name) : releaseRound a s n = s := by
  unfold releaseRound
  simp only [drop_dead h, if_pos h]

theorem release_dead {s : St} (h : s.dead ≠ none) (a : Nat) (l : List Name) : l.foldl (releaseRound a) s = s := by
  induction l with
  | nil => rfl
  | cons n l ih => rw [List.foldl_cons, round_dead h, ih]

theorem drop_kernels (s : St) (x : Option Nat) : (drop s x).kernels = s.kernels := by
  unfold drop; split
  · rfl
  · split
    · rfl
    · split
      · rfl
      · split <;> rfl

theorem drop_keeps_dead (s : St) (x : Option Nat) (h : s.dead ≠ none) : (drop s x).dead ≠ none := by rw [drop_dead h]; exact h

/-- After a round, the process has ended or no kernel is left. -/
theorem round_after (a : Nat) (s : St) (n : Name) : (releaseRound a s n).dead ≠ none ∨ (releaseRound a s n).kernels = [] := by
  unfold releaseRound
  by_cases h : (drop s (kernelAt s n)).dead ≠ none
  · left; simp only [drop_dead h, if_pos h]; exact h
  · right; simp only [if_neg h, drop_kernels]

/-- With no kernel left, a round ends the process. -/
theorem round_empty (a : Nat) (s : St) (hs : s.kernels = []) (n : Name) : (releaseRound a s n).dead ≠ none := by
  have h : (drop s (kernelAt s n)).dead ≠ none := by
    have : kernelAt s n = none := by simp [kernelAt, hs]
    rw [this]
    unfold drop
    split
    · assumption
    · simp
  unfold releaseRound
  simp only [drop_dead h, if_pos h]; exact h

/-- **Violated** (OpenclaccelThread.cpp:217-244): the release of an accelerator with two kernels or more ends the process, whatever happened before: the first round of the loop
clears the map of all kernels, the second releases NULL. -/
theorem C103_violated_cl_two_kernels (s : St) (a : Nat) (p : Int) (n m : Name) (ns : List Name) (fs : List (List Name)) :
    (release s a ⟨p, n :: m :: ns, fs⟩).dead ≠ none := by
  have h : (releaseRound a (releaseRound a s n) m).dead ≠ none := by
    rcases round_after a s n with h | h
    · rw [round_dead h]; exact h
    · exact round_empty a _ h m
  show (ns.foldl (releaseRound a) (releaseRound a (releaseRound a s n) m)).dead ≠ none
  rw [release_dead h]; exact h

/-- **Violated** (OpenclaccelThread.cpp:33, 225): kernels are shared by all OpenCL accelerators: when a second one with kernels is released, the process ends, whatever happened before. -/
theorem C103_violated_cl_two_accelerators (conf : Nat → Conf) (a b : Nat) (ha : (conf a).names ≠ []) (hb : (conf b).names ≠ []) (s : St) :
    (releases conf [a, b] s).dead ≠ none := by
  have h1 : ∀ (l : List Name), l ≠ [] → ∀ s : St, (l.foldl (releaseRound a) s).dead ≠ none ∨ (l.foldl (releaseRound a) s).kernels = [] := by
    intro l
    induction l with
    | nil => intro h; exact absurd rfl h
    | cons n l ih =>
      intro _ s
      by_cases hl : l = []
      · subst hl; exact round_after a s n
      · exact ih hl _
  obtain ⟨n, ns, e⟩ := List.exists_cons_of_ne_nil hb
  show (release (release s a (conf a)) b (conf b)).dead ≠ none
  rcases h1 _ ha s with h | h
  · have h : (release s a (conf a)).dead ≠ none := h
    rw [show release (release s a (conf a)) b (conf b) = release s a (conf a) from release_dead h b _]
    exact h
  · have h2 := round_empty b (release s a (conf a)) h n
    have h3 : release (release s a (conf a)) b (conf b) = ns.foldl (releaseRound b) (releaseRound b (release s a (conf a)) n) := by
      show (conf b).names.foldl _ _ = _
      rw [e]; rfl
    rw [h3, release_dead h2]; exact h2

/-- **Violated** (OpenclaccelThread.cpp:217): an accelerator without kernels gives nothing back: its context and its queue stay. -/
theorem C103_violated_cl_no_kernels (dev0 a : Nat) (p : Int) (hp : 0 ≤ p ∧ p < 128) (fs : List (List Name)) :
    let t := release (init dev0 {} a ⟨p, [], fs⟩) a ⟨p, [], fs⟩
    t.dead = none ∧ ¬ Clean t := by
  have e : release (init dev0 {} a ⟨p, [], fs⟩) a ⟨p, [], fs⟩ = newQueue dev0 (setup {} ⟨p, [], fs⟩) a := by
    simp only [release, List.foldl_nil, init]
    rw [if_neg (by simp), if_neg (by omega)]
  rw [e]
  have hc : (newContext { exist := fun x => if x = p then true else false }).context = some 0 := rfl
  have h := (newPrograms fs _ hc).1
  have hset : setup {} ⟨p, [], fs⟩ = fs.foldl newProgram (newContext { exist := fun x => if x = p then true else false }) := rfl
  rw [← hset] at h
  have h : (setup {} ⟨p, [], fs⟩).dead = none := h
  refine ⟨by simp [newQueue, h, St.new], ?_⟩
  intro hcl
  have := hcl ⟨1, (setup {} ⟨p, [], fs⟩).context.getD 0, dev0, []⟩ (by simp [newQueue, h, St.new])
  simp at this

/-- Device 0 with kernel `f`, device 1 with kernel `f`. -/
def twoDevices : Nat → Conf := fun a => ⟨a, ["f"], [["f"]]⟩

/-- **Violated** (OpenclaccelThread.cpp:99, 189): the number of the device is not used; whatever the configuration, the queue of an accelerator that came up is on the first device. -/
theorem C103_violated_cl_device (dev0 : Nat) (s : St) (a : Nat) (c : Conf) (h : (init dev0 s a c).dead = none) :
    ∃ q o, (init dev0 s a c).stream a = some q ∧ (init dev0 s a c).objs[q]? = some o ∧ o.dev = dev0 := by
  unfold init at h ⊢
  by_cases h1 : s.dead ≠ none
  · rw [if_pos h1] at h; exact absurd h h1
  · rw [if_neg h1] at h ⊢
    by_cases h2 : c.pci < 0 ∨ 128 ≤ c.pci
    · rw [if_pos h2] at h; simp at h
    · rw [if_neg h2] at h ⊢
      generalize c.names.foldl newKernel (setup s c) = t at *
      unfold newQueue at h ⊢
      by_cases h3 : t.dead ≠ none
      · rw [if_pos h3] at h; exact absurd h h3
      · rw [if_neg h3]
        exact ⟨t.objs.length, ⟨1, t.context.getD 0, dev0, []⟩, by simp, by simp [St.new], rfl⟩

/-- **Violated** (OpenclaccelThread.cpp:27, 33, 184): accelerators on two devices, each with a kernel `f`: the kernel the first one finds belongs to another context than its queue. -/
theorem C103_violated_cl_context : let s := inits 7 twoDevices [0, 1] {}
    s.dead = none ∧ Works twoDevices s 1 ∧ ¬ Works twoDevices s 0 := by
  have e0 : (inits 7 twoDevices [0, 1] {}).stream 0 = some 3 := by decide
  have e1 : (inits 7 twoDevices [0, 1] {}).stream 1 = some 7 := by decide
  have ek : getKernel (inits 7 twoDevices [0, 1] {}) "f" = some (some 6) := by decide
  refine ⟨by decide, ⟨7, _, e1, rfl, by decide, ?_⟩, ?_⟩
  · intro n hn
    simp [twoDevices] at hn
    subst hn
    exact ⟨6, _, ek, rfl, rfl⟩
  · rintro ⟨q, oq, h1, h2, -, h4⟩
    rw [e0] at h1
    have := Option.some.inj h1
    subst this
    obtain ⟨k, ok, g1, g2, g3⟩ := h4 "f" (by simp [twoDevices])
    rw [ek] at g1
    have := Option.some.inj (Option.some.inj g1)
    subst this
    have c1 : ((inits 7 twoDevices [0, 1] {}).objs[3]?).map (·.ctx) = some 0 := by decide
    have c2 : ((inits 7 twoDevices [0, 1] {}).objs[6]?).map (·.ctx) = some 4 := by decide
    rw [h2] at c1
    rw [g2] at c2
    have d1 : oq.ctx = 0 := Option.some.inj c1
    have d2 : ok.ctx = 4 := Option.some.inj c2
    omega

/-- **Violated** (OpenclaccelThread.cpp:38, 89): numbers of devices are not checked. -/
theorem C103_violated_cl_index (dev0 a : Nat) (p : Int) (h : p < 0 ∨ 128 ≤ p) (ns : List Name) (fs : List (List Name)) :
    (init dev0 {} a ⟨p, ns, fs⟩).dead = some .outside := by
  unfold init; rw [if_neg (by simp), if_pos h]

/-- Non-vacuity of `C103_cl_up_partial`: three accelerators on device 2, with different kernels of one binary. -/
def three : Nat → Conf := fun a => if a = 0 then ⟨2, ["f", "g"], [["f", "g", "h"]]⟩ else if a = 1 then ⟨2, ["h"], []⟩ else ⟨2, ["g"], [["x"]]⟩

example : (three 0).files.getLast? = some ["f", "g", "h"] ∧ (∀ b ∈ [0, 1, 2], (three b).pci = 2 ∧ ∀ n ∈ (three b).names, n ∈ ["f", "g", "h"]) ∧
    (inits 5 three [0, 1, 2] {}).dead = none ∧ (inits 5 three [0, 1, 2] {}).stream 2 = some 8 ∧ (inits 5 three [0, 1, 2] {}).kernels.map (·.1) = ["g", "h", "g", "f"] := by
  refine ⟨by decide, by decide, by decide, by decide, by decide⟩

/-- Non-vacuity of the violations of the release: such accelerators come up. -/
example : (inits 5 three [0, 1] {}).dead = none ∧ (release (inits 5 three [0, 1] {}) 0 (three 0)).dead = some .abort ∧ (releases three [1, 2] (inits 5 three [0, 1, 2] {})).dead = some .abort := by
  refine ⟨by decide, by decide, by decide⟩

end Arax.OpenCL
