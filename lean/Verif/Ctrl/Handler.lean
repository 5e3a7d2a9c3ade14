import Verif.Proc.Functor
/-!
# C53: handler symbols (`/repo/include/arax.h`, `/repo/controller/src/Core/araxLibMgr.cpp`)

Symbol names are lists of characters without newlines (they come from C identifiers), so the `.` of the regular expression matches every character.
-/
namespace Arax.Ctrl.Handler

open Arax.Functor

/-- The marker pasted by `ARAX_HANDLER` (/repo/include/arax.h:282-285) and searched by the loader (/repo/controller/src/Core/araxLibMgr.cpp:202). -/
def M : List Char := ['_', 'A', 'R', 'A', 'X', '_', 'F', 'N', '_']

/-- `ARAX_HANDLER(FN, ARCH)` (/repo/include/arax.h:282-285): the symbol defined in section `.ARAX_HANDLERS`. -/
def symbol (fn arch : List Char) : List Char := fn ++ M ++ arch

/-- The marker occurs in `s` at position `n`. (/repo/controller/src/Core/araxLibMgr.cpp:202.) -/
def occ (s : List Char) (n : Nat) : Bool := M.isPrefixOf (s.drop n)

/-- `std::regex_search(name, match, "(.*)_ARAX_FN_(.*)")` (/repo/controller/src/Core/araxLibMgr.cpp:202,221-223): the first group is greedy, so the longest prefix followed by
the marker is taken (positions tried downwards from `n`); the second group is the rest. `none`: no match. Simplification: the backtracking of the regex engine is
represented by its result. -/
def splitFrom (s : List Char) : Nat → Option (List Char × List Char)
  | 0 => if occ s 0 then some ([], s.drop 9) else none
  | n + 1 => if occ s (n + 1) then some (s.take (n + 1), s.drop (n + 1 + 9)) else splitFrom s n

/-- See `splitFrom`. /repo/controller/src/Core/araxLibMgr.cpp:202, 221-223. -/
def split (s : List Char) : Option (List Char × List Char) := splitFrom s s.length

theorem prefix_iff {s : List Char} : M.isPrefixOf s = true ↔ ∃ r, s = M ++ r := by
  rw [List.isPrefixOf_iff_prefix]
  constructor
  · rintro ⟨r, h⟩; exact ⟨r, h.symm⟩
  · rintro ⟨r, h⟩; exact ⟨r, h.symm⟩

theorem occ_split {s : List Char} {n : Nat} (h : occ s n = true) : s = s.take n ++ M ++ s.drop (n + 9) := by
  obtain ⟨r, hr⟩ := prefix_iff.mp h
  have h2 : s.drop (n + 9) = r := by
    rw [← List.drop_drop, hr]
    rfl
  rw [h2, List.append_assoc, ← hr, List.take_append_drop]

theorem splitFrom_sound (s : List Char) : ∀ n a b, splitFrom s n = some (a, b) → s = a ++ M ++ b := by
  intro n
  induction n with
  | zero =>
    intro a b h
    simp only [splitFrom] at h
    split at h
    · rename_i ho
      injection h with h; injection h with h1 h2
      subst h1; subst h2
      have := occ_split ho
      rwa [List.take_zero, Nat.zero_add] at this
    · cases h
  | succ n ih =>
    intro a b h
    simp only [splitFrom] at h
    split at h
    · rename_i ho
      injection h with h; injection h with h1 h2
      subst h1; subst h2
      exact occ_split ho
    · exact ih a b h

theorem splitFrom_skip (s : List Char) (k : Nat) : ∀ n, k ≤ n → (∀ j, k < j → j ≤ n → occ s j = false) → splitFrom s n = splitFrom s k := by
  intro n
  induction n with
  | zero => intro h _; rw [Nat.le_zero.mp h]
  | succ n ih =>
    intro h hj
    by_cases e : k = n + 1
    · rw [e]
    · rw [splitFrom, if_neg (by rw [hj (n + 1) (by omega) (by omega)]; simp)]
      exact ih (by omega) (fun j h1 h2 => hj j h1 (by omega))

theorem splitFrom_hit (s : List Char) (k : Nat) (h : occ s k = true) : splitFrom s k = some (s.take k, s.drop (k + 9)) := by
  cases k with
  | zero => simp [splitFrom, h]
  | succ k => rw [splitFrom, if_pos h]

/-- The marker does not overlap itself except by its last character. -/
theorem occ_after {fn arch : List Char} (h : ∀ a b, '_' :: arch ≠ a ++ M ++ b) {j : Nat} (h1 : fn.length < j) : occ (symbol fn arch) j = false := by
  cases ho : occ (symbol fn arch) j with
  | false => rfl
  | true =>
    exfalso
    obtain ⟨r, hr⟩ := prefix_iff.mp ho
    obtain ⟨i, rfl⟩ : ∃ i, j = fn.length + 1 + i := ⟨j - fn.length - 1, by omega⟩
    have e1 : (symbol fn arch).drop (fn.length + 1 + i) = (['A', 'R', 'A', 'X', '_', 'F', 'N'] ++ '_' :: arch).drop i := by
      unfold symbol
      rw [List.append_assoc, Nat.add_assoc, ← List.drop_drop, List.drop_left, ← List.drop_drop]
      rfl
    rw [e1] at hr
    match i, hr with
    | 0, hr => simp [M] at hr
    | 1, hr => simp [M] at hr
    | 2, hr => simp [M] at hr
    | 3, hr => simp [M] at hr
    | 4, hr => simp [M] at hr
    | 5, hr => simp [M] at hr
    | 6, hr => simp [M] at hr
    | i + 7, hr =>
      rw [Nat.add_comm, ← List.drop_drop] at hr
      have hr' : ('_' :: arch).drop i = M ++ r := hr
      refine h (('_' :: arch).take i) r ?_
      rw [List.append_assoc, ← hr', List.take_append_drop]

theorem split_symbol {fn arch : List Char} (h : ∀ a b, '_' :: arch ≠ a ++ M ++ b) : split (symbol fn arch) = some (fn, arch) := by
  unfold split
  have hocc : occ (symbol fn arch) fn.length = true := by
    unfold occ symbol
    rw [List.append_assoc, List.drop_left]
    exact prefix_iff.mpr ⟨arch, rfl⟩
  rw [splitFrom_skip _ fn.length _ (by simp [symbol]) (fun j h1 _ => occ_after h h1), splitFrom_hit _ _ hocc]
  unfold symbol
  rw [List.append_assoc, List.take_left, ← List.drop_drop, List.drop_left]
  rfl

/-! ## Loading a library -/

/-- The procedures by name: the repository as seen by `arax_proc_register`/`arax_proc_get` (C29: at most one per name). (/repo/src/arch/shm/impl.c:384-411.) -/
abbrev Procs := List Char → Option Proc

/-- One handler of the final loop of `loadLibrary` (/repo/controller/src/Core/araxLibMgr.cpp:238-252): the symbol is rebuilt and looked up (`dlsym`; NULL fails the
assertion), the procedure registered (found if already present, new otherwise) and its functor set (abort for an unknown type, C30). `syms`: symbols of the library
with their addresses. -/
def step (syms : List (List Char × Nat)) (m : Procs) (h : List Char × List Char) : Res Procs :=
  match syms.lookup (h.1 ++ M ++ h.2) with
  | none => .abort
  | some ptr =>
    match setFunctor ((m h.1).getD init) (fromStr (some h.2)) (some ptr) with
    | .ok (p, _) => .ok (fun x => if x = h.1 then some p else m x)
    | .abort => .abort
    | .ub => .ub

/-- The loop of /repo/controller/src/Core/araxLibMgr.cpp:238-252. -/
def steps (syms : List (List Char × Nat)) : Procs → List (List Char × List Char) → Res Procs
  | m, [] => .ok m
  | m, h :: hs =>
    match step syms m h with
    | .ok m' => steps syms m' hs
    | .abort => .abort
    | .ub => .ub

/-- `AraxLibMgr::loadLibrary` (/repo/controller/src/Core/araxLibMgr.cpp:202-252) of a library whose section `.ARAX_HANDLERS` has the symbols `syms`. ELF and `dlopen`
are not modelled, nor the reference counts. -/
def load (m : Procs) (syms : List (List Char × Nat)) : Res Procs := steps syms m (syms.filterMap (fun s => split s.1))

/-- A handler definition in the source of a library: `ARAX_HANDLER(fn, arch)`, with the address of its code. (/repo/include/arax.h:282-297.) -/
structure Def where
  fn : List Char
  arch : List Char
  addr : Nat

/-- The address of the last handler defined in `ds` for the function `fn` and an architecture naming type `t`. (No code of its own.) -/
def lastDef (fn : List Char) (t : Nat) : List Def → Option Nat
  | [] => none
  | d :: ds => match lastDef fn t ds with
    | some a => some a
    | none => if d.fn = fn ∧ fromStr (some d.arch) = t then some d.addr else none

/-- The functor the table holds for `fn` and `t`: what `arax_proc_get(fn)` followed by `arax_proc_get_functor(t)` yields. (No code of its own.) -/
def functorOf (m : Procs) (fn : List Char) (t : Nat) : Option Nat :=
  match m fn with
  | none => none
  | some p => match getFunctor p t with
    | .ok f => f
    | _ => none

/-- A name of an accelerator type, in any case, contains no marker even after the `_` that precedes it. -/
theorem arch_no_marker {arch : List Char} (h : fromStr (some arch) < nTypes) (a b : List Char) : '_' :: arch ≠ a ++ M ++ b := by
  intro e
  have hlow : ∃ t name, toStr t = some name ∧ arch.map Char.toLower = name.map Char.toLower := by
    cases hn : toStr (fromStr (some arch)) with
    | none => have := (C31_round_trip (fromStr (some arch))).1.mp hn; omega
    | some name => exact ⟨_, name, hn, ((C31_from_str arch).1 _ name hn).mp rfl⟩
  obtain ⟨t, name, hn, hl⟩ := hlow
  have hlen : arch.length = name.length := by have := congrArg List.length hl; simpa using this
  have hlt : t < 9 := by
    by_cases ht : t < 9
    · exact ht
    · simp [toStr, ht] at hn
  -- no type name has the marker in lower case
  have hall : ∀ i, ∀ hi : i < 9, ∀ n ≤ 9, (M.map Char.toLower).isPrefixOf (('_' :: (typesMap[i]'hi).map Char.toLower).drop n) = false := by decide +kernel
  have hmax : ∀ i, ∀ hi : i < 9, (typesMap[i]'hi).length ≤ 9 := by decide +kernel
  have hname : name = typesMap[t]'hlt := by
    simp only [toStr, hlt, dif_pos, Option.some.injEq] at hn; exact hn.symm
  have e2 := congrArg (List.map Char.toLower) e
  rw [List.map_cons, hl, List.map_append, List.map_append, List.append_assoc] at e2
  have ha : a.length ≤ 9 := by
    have := congrArg List.length e
    simp [M, hlen, hname] at this
    have := hmax t hlt
    omega
  have := hall t hlt a.length ha
  rw [← hname] at this
  rw [show '_' :: List.map Char.toLower name = Char.toLower '_' :: List.map Char.toLower name from rfl, e2] at this
  rw [show a.length = (a.map Char.toLower).length by simp, List.drop_left] at this
  rw [List.isPrefixOf_iff_prefix.mpr ⟨_, rfl⟩] at this
  cases this

theorem lookup_mem {syms : List (List Char × Nat)} (hnd : (syms.map (·.1)).Nodup) {s : List Char × Nat} (h : s ∈ syms) : syms.lookup s.1 = some s.2 := by
  induction syms with
  | nil => cases h
  | cons x l ih =>
    obtain ⟨k, v⟩ := x
    simp only [List.map_cons, List.nodup_cons] at hnd
    rcases List.mem_cons.mp h with rfl | h
    · simp [List.lookup]
    · have hne : s.1 ≠ k := by
        intro e
        exact hnd.1 (e ▸ List.mem_map.mpr ⟨s, h, rfl⟩)
      rw [List.lookup, show (s.1 == k) = false by simpa using hne]
      exact ih hnd.2 h

theorem filterMap_defs (ds : List Def) (h : ∀ d ∈ ds, fromStr (some d.arch) < nTypes) :
    (ds.map (fun d => (symbol d.fn d.arch, d.addr))).filterMap (fun s => split s.1) = ds.map (fun d => (d.fn, d.arch)) := by
  induction ds with
  | nil => rfl
  | cons d ds ih =>
    rw [List.map_cons, List.filterMap_cons, split_symbol (arch_no_marker (h d List.mem_cons_self)), ih (fun x hx => h x (List.mem_cons_of_mem _ hx))]
    rfl

theorem getFunctor_set {p p' : Proc} {u : Nat} {f r : Option Nat} (e : setFunctor p u f = .ok (p', r)) (t : Nat) (ht : t < 9) :
    ∃ g, getFunctor p t = .ok g ∧ getFunctor p' t = .ok (if u = t then f else g) := by
  unfold setFunctor at e
  by_cases hu : u < 9
  · simp only [getFunctor, hu, dif_pos, Res.bind_ok, Res.ok.injEq, Prod.mk.injEq] at e
    obtain ⟨rfl, -⟩ := e
    refine ⟨p.functors[t], by simp [getFunctor, ht], ?_⟩
    simp only [getFunctor, ht, dif_pos, Vector.getElem_set]
  · simp [getFunctor, hu] at e

theorem set_ok (p : Proc) {u : Nat} (hu : u < 9) (f : Option Nat) : ∃ p' r, setFunctor p u f = .ok (p', r) := by
  refine ⟨{ canrun := p.canrun ||| (1#64 <<< u), functors := p.functors.set u f }, p.functors[u], ?_⟩
  simp only [setFunctor, getFunctor, hu, dif_pos, Res.bind_ok]

theorem steps_spec (syms : List (List Char × Nat)) : ∀ (ds : List Def) (m : Procs), (∀ d ∈ ds, fromStr (some d.arch) < 9) →
    (∀ d ∈ ds, syms.lookup (symbol d.fn d.arch) = some d.addr) →
    ∃ m', steps syms m (ds.map (fun d => (d.fn, d.arch))) = .ok m' ∧
      (∀ d ∈ ds, m' d.fn ≠ none) ∧ (∀ x, (∀ d ∈ ds, d.fn ≠ x) → m' x = m x) ∧ (∀ x, m x ≠ none → m' x ≠ none) ∧
      ∀ fn t, t < 9 → functorOf m' fn t = (lastDef fn t ds).or (functorOf m fn t) := by
  intro ds
  induction ds with
  | nil => intro m _ _; exact ⟨m, rfl, by simp, by simp, fun _ h => h, by simp [lastDef]⟩
  | cons d ds ih =>
    intro m h1 h2
    obtain ⟨p, r, hp⟩ := set_ok ((m d.fn).getD init) (h1 d List.mem_cons_self) (some d.addr)
    have hstep : step syms m (d.fn, d.arch) = .ok (fun x => if x = d.fn then some p else m x) := by
      have hl := h2 d List.mem_cons_self
      unfold symbol at hl
      simp only [step, hl, hp]
    obtain ⟨m', e, ha, hb, hk, hc⟩ := ih (fun x => if x = d.fn then some p else m x) (fun x hx => h1 x (List.mem_cons_of_mem _ hx))
      (fun x hx => h2 x (List.mem_cons_of_mem _ hx))
    refine ⟨m', by rw [List.map_cons, steps, hstep]; exact e, ?_, ?_, ?_, ?_⟩
    · intro x hx
      rcases List.mem_cons.mp hx with rfl | hx
      · exact hk _ (by simp)
      · exact ha x hx
    · intro x hx
      rw [hb x (fun y hy => hx y (List.mem_cons_of_mem _ hy)), if_neg (fun e => hx d List.mem_cons_self e.symm)]
    · intro x hx
      refine hk x ?_
      split
      · simp
      · exact hx
    · intro fn t ht
      rw [hc fn t ht, lastDef]
      have hm : functorOf (fun x => if x = d.fn then some p else m x) fn t =
          if d.fn = fn ∧ fromStr (some d.arch) = t then some d.addr else functorOf m fn t := by
        unfold functorOf
        dsimp only
        by_cases hf : fn = d.fn
        · subst hf
          obtain ⟨g, g1, g2⟩ := getFunctor_set hp t ht
          rw [if_pos rfl]
          dsimp only
          rw [g2]
          dsimp only
          by_cases hu : fromStr (some d.arch) = t
          · rw [if_pos hu, if_pos ⟨rfl, hu⟩]
          · rw [if_neg hu, if_neg (fun e => hu e.2)]
            cases hmm : m d.fn with
            | none =>
              rw [hmm] at g1
              simp [getFunctor, ht, init] at g1
              rw [← g1]
            | some q =>
              rw [hmm] at g1
              simp only [Option.getD_some] at g1
              dsimp only
              rw [g1]
        · rw [if_neg hf, if_neg (fun e => hf e.1.symm)]
      rw [hm]
      cases lastDef fn t ds with
      | some a => rfl
      | none =>
        simp only [Option.none_or]
        split <;> simp

/-- **C53.** A library built from any list of `ARAX_HANDLER(FN, ARCH)` definitions (pairwise different symbols, as the linker demands) whose architectures are accelerator types in
any capitalisation, loaded on top of any procedures: loading succeeds, every defined function is a registered procedure, its functor for the type is the code of
the handler defined for it (the last one if two spellings of the same type are used), every other functor is what it was, and procedures the library does not define
are not touched. The function name may itself contain the marker. -/
theorem C53_load (m : Procs) (ds : List Def) (harch : ∀ d ∈ ds, fromStr (some d.arch) < nTypes)
    (hsym : (ds.map (fun d => symbol d.fn d.arch)).Nodup) :
    ∃ m', load m (ds.map (fun d => (symbol d.fn d.arch, d.addr))) = .ok m' ∧ (∀ d ∈ ds, m' d.fn ≠ none) ∧
      (∀ x, (∀ d ∈ ds, d.fn ≠ x) → m' x = m x) ∧
      ∀ fn t, t < nTypes → functorOf m' fn t = (lastDef fn t ds).or (functorOf m fn t) := by
  obtain ⟨m', e, ha, hb, -, hc⟩ := steps_spec (ds.map (fun d => (symbol d.fn d.arch, d.addr))) ds m harch (by
    intro d hd
    have hs : ((ds.map (fun d => (symbol d.fn d.arch, d.addr))).map (·.1)).Nodup := by
      rw [List.map_map]; exact hsym
    exact lookup_mem hs (s := (symbol d.fn d.arch, d.addr)) (List.mem_map.mpr ⟨d, hd, rfl⟩))
  refine ⟨m', ?_, ha, hb, hc⟩
  unfold load
  rw [filterMap_defs ds harch]
  exact e

/-- **C53** (one symbol) The symbol of `ARAX_HANDLER(fn, arch)` is decoded to `fn` and `arch`, for every `fn` - even one containing the marker - and every accelerator
type name; and whatever symbol is decoded, the decoded parts give the symbol back, so that `dlsym` finds it. -/
theorem C53_decode (fn arch : List Char) (h : fromStr (some arch) < nTypes) :
    split (symbol fn arch) = some (fn, arch) ∧ ∀ s a b, split s = some (a, b) → symbol a b = s :=
  ⟨split_symbol (arch_no_marker h), fun s a b e => (splitFrom_sound s _ a b e).symm⟩

/-- An architecture that is not an accelerator type makes the loader abort. -/
theorem C53_unknown_arch_aborts (m : Procs) (fn arch : List Char) (a : Nat) (h : fromStr (some arch) = nTypes) (hm : ∀ x y, '_' :: arch ≠ x ++ M ++ y) :
    load m [(symbol fn arch, a)] = .abort := by
  unfold load
  rw [List.filterMap_cons, split_symbol hm]
  have hl : List.lookup (fn ++ M ++ arch) [(symbol fn arch, a)] = some a := by simp [List.lookup, symbol]
  have hab : ∀ p : Proc, setFunctor p (fromStr (some arch)) (some a) = .abort := fun p => (C30_invalid_aborts p _ (some a) (by omega)).2.1
  simp only [List.filterMap_nil, steps, step, hl, hab]

/-- Non-vacuity: a library with three handlers, one function with the marker in its name, two architectures. -/
example : lastDef "f_ARAX_FN_g".toList 3 [⟨"f_ARAX_FN_g".toList, "CPU".toList, 10⟩, ⟨"f".toList, "gpu".toList, 11⟩, ⟨"f_ARAX_FN_g".toList, "HIP".toList, 12⟩] = some 10 ∧
    split (symbol "f_ARAX_FN_g".toList "CPU".toList) = some ("f_ARAX_FN_g".toList, "CPU".toList) ∧
    fromStr (some "CPU".toList) = 3 := by decide +kernel

end Arax.Ctrl.Handler
