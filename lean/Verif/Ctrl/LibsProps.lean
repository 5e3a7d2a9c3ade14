import Verif.Ctrl.Libs
/-!
# C71: which handler libraries the controller loads

Specification, independent of the traversal: `IsDir`, `Seen` (paths that a walk over non-hidden entries reaches from the configured folders) and `Wanted` (the libraries a user
expects to be loaded).
-/
namespace Arax.Libs

/-- `p` is a folder that can be opened. -/
def IsDir (fs : FS) (m : Nat) (p : Path) : Prop := p.length < m ∧ ∃ ns, fs.ls p = some ns

/-- The text `.so` occurs in the path. -/
def SoIn (p : Path) : Prop := ∃ a b, p = a ++ ".so".toList ++ b

/-- Paths reached from the configured folders through entries whose name does not begin with a dot. -/
inductive Seen (fs : FS) (m : Nat) (roots : List Path) : Path → Prop
  | root {r : Path} : r ∈ roots → Seen fs m roots r
  | entry {d : Path} {ns : List Name} {n : Name} : Seen fs m roots d → d.length < m → fs.ls d = some ns → n ∈ ns → n.head? ≠ some '.' → Seen fs m roots (sub d n)

/-- The libraries to be loaded: files reached, with `.so` in the path, that are handler libraries. -/
def Wanted (fs : FS) (m : Nat) (roots : List Path) (q : Path) : Prop :=
  Seen fs m roots q ∧ ¬ IsDir fs m q ∧ SoIn q ∧ fs.good q = true

theorem hasSo_iff (p : Path) : hasSo p = true ↔ SoIn p := by
  induction p with
  | nil => simp [hasSo, SoIn]
  | cons c r ih =>
    rw [hasSo, Bool.or_eq_true, ih]
    constructor
    · rintro (h | ⟨a, b, h⟩)
      · obtain ⟨t, ht⟩ := List.isPrefixOf_iff_prefix.mp h
        exact ⟨[], t, by simpa using ht.symm⟩
      · exact ⟨c :: a, b, by simp [h]⟩
    · rintro ⟨a, b, h⟩
      cases a with
      | nil => left; exact List.isPrefixOf_iff_prefix.mpr ⟨b, by simpa using h.symm⟩
      | cons x a =>
        right
        simp only [List.cons_append, List.cons.injEq] at h
        exact ⟨a, b, h.2⟩

theorem hidden_iff (n : Name) : hidden n = true ↔ n.head? = some '.' := by
  cases n with
  | nil => simp [hidden]
  | cons c r =>
    by_cases h : c = '.'
    · subst h; simp [hidden]
    · have : hidden (c :: r) = false := by
        unfold hidden; split
        · rename_i hh; simp at hh; exact absurd hh.1 h
        · rfl
      simp [this, h]

/-- What holds of the state of the loader relative to the set `S` of paths reached. -/
structure OK (fs : FS) (m : Nat) (S : Path → Prop) (st : St) : Prop where
  dirs : ∀ d ∈ st.paths, IsDir fs m d ∧ S d
  libs : ∀ q ∈ st.libs, S q ∧ ¬ IsDir fs m q ∧ SoIn q ∧ fs.good q = true
  nodup : st.libs.Nodup

/-- The state only grows. -/
structure Grow (a b : St) : Prop where
  paths : ∀ d ∈ a.paths, d ∈ b.paths
  libs : ∀ q ∈ a.libs, q ∈ b.libs

theorem Grow.rfl' (a : St) : Grow a a := ⟨fun _ h => h, fun _ h => h⟩

theorem Grow.trans {a b c : St} (x : Grow a b) (y : Grow b c) : Grow a c := ⟨fun d h => y.paths d (x.paths d h), fun d h => y.libs d (x.libs d h)⟩

/-- The entry `q` has been dealt with in `st`. -/
def Done (fs : FS) (m : Nat) (st : St) (q : Path) : Prop :=
  (IsDir fs m q → q ∈ st.paths) ∧ (¬ IsDir fs m q → SoIn q → fs.good q = true → q ∈ st.libs)

/-- All the entries of `d` have been dealt with. -/
def Closed (fs : FS) (m : Nat) (st : St) (d : Path) : Prop :=
  ∀ ns, fs.ls d = some ns → ∀ n ∈ ns, n.head? ≠ some '.' → Done fs m st (sub d n)

theorem Done.mono {fs m a b q} (g : Grow a b) (h : Done fs m a q) : Done fs m b q :=
  ⟨fun x => g.paths _ (h.1 x), fun x y z => g.libs _ (h.2 x y z)⟩

theorem Closed.mono {fs m a b d} (g : Grow a b) (h : Closed fs m a d) : Closed fs m b d :=
  fun ns x n hn hh => (h ns x n hn hh).mono g

theorem loadLibrary_ok {fs m S st p} (ok : OK fs m S st) (hS : S p) (hd : ¬ IsDir fs m p) :
    OK fs m S (loadLibrary fs st p) ∧ Grow st (loadLibrary fs st p) ∧ Done fs m (loadLibrary fs st p) p ∧ (loadLibrary fs st p).paths = st.paths := by
  unfold loadLibrary
  split
  · rename_i h
    refine ⟨⟨ok.dirs, ?_, ?_⟩, ⟨fun _ h => h, fun q hq => by simp [hq]⟩, ⟨fun h => absurd h hd, fun _ _ _ => by simp⟩, rfl⟩
    · intro q hq
      rcases List.mem_append.mp hq with h1 | h1
      · exact ok.libs q h1
      · rw [List.mem_singleton] at h1; subst h1; exact ⟨hS, hd, (hasSo_iff _).mp h.1, h.2.2⟩
    · rw [List.nodup_append]
      refine ⟨ok.nodup, by simp, ?_⟩
      intro a ha b hb hab
      rw [List.mem_singleton] at hb; subst hb; subst hab; exact h.2.1 ha
  · rename_i h
    refine ⟨ok, Grow.rfl' _, ⟨fun h => absurd h hd, fun _ h1 h2 => ?_⟩, rfl⟩
    by_cases hm : p ∈ st.libs
    · exact hm
    · exact absurd ⟨(hasSo_iff _).mpr h1, hm, h2⟩ h

/-- What a call of `loadFolder` guarantees. -/
def Good (fs : FS) (m : Nat) (S : Path → Prop) (st : St) (p : Path) (r : St × Bool) : Prop :=
  OK fs m S r.1 ∧ Grow st r.1 ∧ (r.2 = true ↔ IsDir fs m p) ∧ (r.2 = true → p ∈ r.1.paths) ∧ (∀ d ∈ r.1.paths, d ∉ st.paths → Closed fs m r.1 d)

theorem loadFolder_good (fs : FS) (m : Nat) (S : Path → Prop)
    (hS : ∀ d ns n, S d → d.length < m → fs.ls d = some ns → n ∈ ns → n.head? ≠ some '.' → S (sub d n)) :
    ∀ (k : Nat) (p : Path) (st : St), m - p.length ≤ k → OK fs m S st → S p → Good fs m S st p (loadFolder fs m st p) := by
  intro k
  induction k with
  | zero =>
    intro p st hk ok hp
    rw [loadFolder]
    split
    · rename_i h
      exact ⟨ok, Grow.rfl' _, ⟨fun _ => (ok.dirs p h).1, fun _ => rfl⟩, fun _ => h, fun d h1 h2 => absurd h1 h2⟩
    · rw [dif_pos (by omega)]
      refine ⟨ok, Grow.rfl' _, ⟨fun h => (by cases h), fun h => ?_⟩, fun h => (by cases h), fun d h1 h2 => absurd h1 h2⟩
      have := h.1; omega
  | succ k ih =>
    intro p st hk ok hp
    rw [loadFolder]
    split
    · rename_i h
      exact ⟨ok, Grow.rfl' _, ⟨fun _ => (ok.dirs p h).1, fun _ => rfl⟩, fun _ => h, fun d h1 h2 => absurd h1 h2⟩
    · rename_i hnot
      split
      · refine ⟨ok, Grow.rfl' _, ⟨fun h => (by cases h), fun h => ?_⟩, fun h => (by cases h), fun d h1 h2 => absurd h1 h2⟩
        have := h.1; omega
      · rename_i hlen
        cases hls : fs.ls p with
        | none =>
          refine ⟨ok, Grow.rfl' _, ⟨fun h => (by cases h), fun h => ?_⟩, fun h => (by cases h), fun d h1 h2 => absurd h1 h2⟩
          obtain ⟨_, ns, h2⟩ := h; rw [hls] at h2; cases h2
        | some ns =>
          have hdir : IsDir fs m p := ⟨by omega, ns, hls⟩
          -- the loop over the entries
          have key : ∀ (xs : List Name) (acc : St), (∀ n ∈ xs, n ∈ ns) → OK fs m S acc → p ∈ acc.paths →
              (let f := fun (st : St) n => if hidden n then st else
                  let r := loadFolder fs m st (sub p n)
                  if r.2 then r.1 else loadLibrary fs r.1 (sub p n)
               OK fs m S (xs.foldl f acc) ∧ Grow acc (xs.foldl f acc) ∧ (∀ n ∈ xs, n.head? ≠ some '.' → Done fs m (xs.foldl f acc) (sub p n)) ∧
                ∀ d ∈ (xs.foldl f acc).paths, d ∉ acc.paths → Closed fs m (xs.foldl f acc) d) := by
            intro xs
            induction xs with
            | nil => intro acc _ hok _; exact ⟨hok, Grow.rfl' _, fun n hn => (by cases hn), fun d h1 h2 => absurd h1 h2⟩
            | cons x xs ihx =>
              intro acc hsub hok hpa
              simp only [List.foldl_cons]
              -- one entry
              have one : ∀ acc' : St, OK fs m S acc' → Grow acc acc' → (x.head? ≠ some '.' → Done fs m acc' (sub p x)) →
                  (∀ d ∈ acc'.paths, d ∉ acc.paths → Closed fs m acc' d) →
                  (let f := fun (st : St) n => if hidden n then st else
                      let r := loadFolder fs m st (sub p n)
                      if r.2 then r.1 else loadLibrary fs r.1 (sub p n)
                   OK fs m S (xs.foldl f acc') ∧ Grow acc (xs.foldl f acc') ∧ (∀ n ∈ x :: xs, n.head? ≠ some '.' → Done fs m (xs.foldl f acc') (sub p n)) ∧
                    ∀ d ∈ (xs.foldl f acc').paths, d ∉ acc.paths → Closed fs m (xs.foldl f acc') d) := by
                intro acc' h1 h2 h3 h4
                obtain ⟨i1, i2, i3, i4⟩ := ihx acc' (fun n hn => hsub n (List.mem_cons_of_mem _ hn)) h1 (h2.paths _ hpa)
                refine ⟨i1, h2.trans i2, ?_, ?_⟩
                · intro n hn hh
                  rcases List.mem_cons.mp hn with e | e
                  · subst e; exact (h3 hh).mono i2
                  · exact i3 n e hh
                · intro d hd hnd
                  by_cases hd' : d ∈ acc'.paths
                  · exact (h4 d hd' hnd).mono i2
                  · exact i4 d hd hd'
              by_cases hh : hidden x = true
              · have hx := (hidden_iff x).mp hh
                simp only [hh, if_true]
                exact one acc hok (Grow.rfl' _) (fun h => absurd hx h) (fun d h1 h2 => absurd h1 h2)
              · have hx : x.head? ≠ some '.' := fun h => hh ((hidden_iff x).mpr h)
                have hSx : S (sub p x) := hS p ns x hp (by omega) hls (hsub x (List.mem_cons_self ..)) hx
                have hg := ih (sub p x) acc (by simp [sub]; omega) hok hSx
                simp only [hh]
                generalize hr : loadFolder fs m acc (sub p x) = r at hg ⊢
                obtain ⟨g1, g2, g3, g4, g5⟩ := hg
                by_cases hb : r.2 = true
                · simp only [hb, if_true]
                  exact one r.1 g1 g2 (fun _ => ⟨fun _ => g4 hb, fun hn => absurd (g3.mp hb) hn⟩) g5
                · have hnd : ¬ IsDir fs m (sub p x) := fun h => hb (g3.mpr h)
                  obtain ⟨l1, l2, l3, l4⟩ := loadLibrary_ok g1 hSx hnd
                  simp only [hb]
                  refine one (loadLibrary fs r.1 (sub p x)) l1 (g2.trans l2) (fun _ => l3) ?_
                  intro d h1 h2
                  rw [l4] at h1
                  exact (g5 d h1 h2).mono l2
          obtain ⟨k1, k2, k3, k4⟩ := key ns { st with paths := p :: st.paths } (fun n hn => hn)
            ⟨fun d hd => by
              rcases List.mem_cons.mp hd with e | e
              · subst e; exact ⟨hdir, hp⟩
              · exact ok.dirs d e, ok.libs, ok.nodup⟩ (by simp)
          refine ⟨k1, ⟨fun d hd => k2.paths d (by simp [hd]), fun q hq => k2.libs q hq⟩, ⟨fun _ => hdir, fun _ => rfl⟩, fun _ => k2.paths p (by simp), ?_⟩
          intro d hd hnd
          by_cases e : d = p
          · subst e
            intro ns' hns' n hn hh
            rw [hls] at hns'; cases hns'
            exact k3 n hn hh
          · exact k4 d hd (by simp [e, hnd])

theorem startup_good (fs : FS) (m : Nat) (S : Path → Prop)
    (hS : ∀ d ns n, S d → d.length < m → fs.ls d = some ns → n ∈ ns → n.head? ≠ some '.' → S (sub d n)) :
    ∀ (roots : List Path) (st : St), OK fs m S st → (∀ r ∈ roots, S r) →
      OK fs m S (startup fs m roots st).1 ∧ Grow st (startup fs m roots st).1 ∧
      ((startup fs m roots st).2 = true ↔ ∀ r ∈ roots, IsDir fs m r) ∧
      ((startup fs m roots st).2 = true → ∀ r ∈ roots, r ∈ (startup fs m roots st).1.paths) ∧
      (∀ d ∈ (startup fs m roots st).1.paths, d ∉ st.paths → Closed fs m (startup fs m roots st).1 d)
  | [], st, ok, _ => ⟨ok, Grow.rfl' _, by simp [startup], fun _ r hr => (by cases hr), fun d h1 h2 => absurd h1 h2⟩
  | p :: ps, st, ok, hr => by
    obtain ⟨g1, g2, g3, g4, g5⟩ := loadFolder_good fs m S hS (m - p.length) p st (Nat.le_refl _) ok (hr p (List.mem_cons_self ..))
    rw [startup]
    by_cases hb : (loadFolder fs m st p).2 = true
    · simp only [hb, if_true]
      obtain ⟨i1, i2, i3, i4, i5⟩ := startup_good fs m S hS ps (loadFolder fs m st p).1 g1 (fun r h => hr r (List.mem_cons_of_mem _ h))
      refine ⟨i1, g2.trans i2, ?_, ?_, ?_⟩
      · rw [i3]; simp [g3.mp hb]
      · intro h r hm
        rcases List.mem_cons.mp hm with e | e
        · subst e; exact i2.paths _ (g4 hb)
        · exact i4 h r e
      · intro d hd hnd
        by_cases h' : d ∈ (loadFolder fs m st p).1.paths
        · exact (g5 d h' hnd).mono i2
        · exact i5 d hd h'
    · simp only [hb]
      refine ⟨g1, g2, ⟨fun h => (by cases h), fun h => ?_⟩, fun h => (by cases h), g5⟩
      exact absurd (g3.mpr (h p (List.mem_cons_self ..))) hb

/-- **C71 (startup).** For every file system — any depth, any symbolic links, any order of entries — and every list of configured folders: the controller starts exactly when all the
folders can be opened, the search ends, and then the libraries it has loaded are exactly the wanted ones, each once. -/
theorem C71_startup (fs : FS) (m : Nat) (roots : List Path) :
    ((startup fs m roots {}).2 = true ↔ ∀ r ∈ roots, IsDir fs m r) ∧
    ((startup fs m roots {}).2 = true → ∀ q, q ∈ (startup fs m roots {}).1.libs ↔ Wanted fs m roots q) ∧
    (startup fs m roots {}).1.libs.Nodup := by
  obtain ⟨h1, _, h3, h4, h5⟩ := startup_good fs m (Seen fs m roots) (fun d ns n a b c e f => Seen.entry a b c e f) roots {}
    ⟨fun d h => (by cases h), fun d h => (by cases h), List.nodup_nil⟩ (fun r h => Seen.root h)
  refine ⟨h3, fun hb q => ⟨fun hq => h1.libs q hq, fun hw => ?_⟩, h1.nodup⟩
  have dirIn : ∀ p, Seen fs m roots p → IsDir fs m p → p ∈ (startup fs m roots {}).1.paths := by
    intro p hp
    induction hp with
    | root hr => intro _; exact h4 hb _ hr
    | entry hd hl hls hn hh ih =>
      intro hdir
      exact (h5 _ (ih ⟨hl, _, hls⟩) (by simp) _ hls _ hn hh).1 hdir
  obtain ⟨hs, hnd, hso, hg⟩ := hw
  cases hs with
  | root hr => exact absurd (h3.mp hb _ hr) hnd
  | entry hd hl hls hn hh =>
    exact (h5 _ (dirIn _ hd ⟨hl, _, hls⟩) (by simp) _ hls _ hn hh).2 hnd hso hg

/-- What is loaded before a folder that cannot be opened ends the startup is wanted, too. -/
theorem C71_startup_failed (fs : FS) (m : Nat) (roots : List Path) : ∀ q ∈ (startup fs m roots {}).1.libs, Wanted fs m roots q := by
  obtain ⟨h1, _⟩ := startup_good fs m (Seen fs m roots) (fun d ns n a b c e f => Seen.entry a b c e f) roots {}
    ⟨fun d h => (by cases h), fun d h => (by cases h), List.nodup_nil⟩ (fun r h => Seen.root h)
  exact fun q hq => h1.libs q hq

/-- A folder `/l` with a library, a hidden library, a text file and a folder `sub` with another library and a link back to `/l`. -/
def demoFs : FS where
  ls p := if p = "/l".toList then some ["a.so".toList, ".h.so".toList, "t.txt".toList, "sub".toList]
    else if p = "/l/sub".toList then some ["up".toList, "b.so.1".toList]
    else if p = "/l/sub/up".toList then some ["a.so".toList, ".h.so".toList, "t.txt".toList, "sub".toList]
    else none
  good p := p ≠ "/l/t.txt".toList

/-- The theorem applies to it: both libraries are found, the hidden one is not; through the link `a.so` is loaded a second time under another name. -/
example : (startup demoFs 12 ["/l".toList] {}).2 = true ∧
    Wanted demoFs 12 ["/l".toList] "/l/a.so".toList ∧ Wanted demoFs 12 ["/l".toList] "/l/sub/b.so.1".toList ∧ Wanted demoFs 12 ["/l".toList] "/l/sub/up/a.so".toList := by
  have s0 : Seen demoFs 12 ["/l".toList] "/l".toList := Seen.root (by simp)
  have e0 : demoFs.ls "/l".toList = some ["a.so".toList, ".h.so".toList, "t.txt".toList, "sub".toList] := by decide
  have s1 : Seen demoFs 12 ["/l".toList] "/l/sub".toList := Seen.entry (n := "sub".toList) s0 (by decide) e0 (by decide) (by decide)
  have e1 : demoFs.ls "/l/sub".toList = some ["up".toList, "b.so.1".toList] := by decide
  have s2 : Seen demoFs 12 ["/l".toList] "/l/sub/up".toList := Seen.entry (n := "up".toList) s1 (by decide) e1 (by decide) (by decide)
  have e2 : demoFs.ls "/l/sub/up".toList = some ["a.so".toList, ".h.so".toList, "t.txt".toList, "sub".toList] := by decide
  have nd : ∀ p, demoFs.ls p = none → ¬ IsDir demoFs 12 p := fun p h ⟨_, ns, h2⟩ => by rw [h] at h2; cases h2
  refine ⟨(C71_startup demoFs 12 _).1.mpr ?_, ⟨?_, nd _ (by decide), ⟨"/l/a".toList, [], by decide⟩, by decide⟩,
    ⟨?_, nd _ (by decide), ⟨"/l/sub/b".toList, ".1".toList, by decide⟩, by decide⟩, ⟨?_, nd _ (by decide), ⟨"/l/sub/up/a".toList, [], by decide⟩, by decide⟩⟩
  · intro r hr; rw [List.mem_singleton] at hr; subst hr; exact ⟨by decide, _, e0⟩
  · exact Seen.entry (n := "a.so".toList) s0 (by decide) e0 (by decide) (by decide)
  · exact Seen.entry (n := "b.so.1".toList) s1 (by decide) e1 (by decide) (by decide)
  · exact Seen.entry (n := "a.so".toList) s2 (by decide) e2 (by decide) (by decide)

end Arax.Libs
