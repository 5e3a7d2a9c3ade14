import Verif.Ctrl.LibsProps
/-!
# C71, continued: libraries that arrive while the controller runs

Expected: a handler library that is put into a watched folder while the controller runs is loaded. Proved when the loader reads after every file; refuted otherwise.
-/
namespace Arax.Libs

/-- Every file appears when the loader has nothing pending, and the controller is not stopped. (No code of its own.) -/
def Paced : RSt → List Act → Prop
  | _, [] => True
  | s, a :: h =>
    (match a with
      | .close _ n _ => s.evq = [] ∧ n.length ≤ 239
      | .rename _ _ _ => s.evq = []
      | .read => True
      | .stop _ => False) ∧ Paced (rstep s a) h

theorem evSize_le {e : Path × Name} (h : e.2.length ≤ 239) : evSize e ≤ bufSize := by
  simp only [evSize, bufSize]; omega

theorem loadAt_mem {s : RSt} {p : Path} {x : Path × Nat} (h : x ∈ s.libs) : x ∈ (loadAt s p).libs := by
  unfold loadAt; split
  · exact h
  · split
    · simp [h]
    · exact h

theorem loadAt_frame (s : RSt) (p : Path) :
    (loadAt s p).watched = s.watched ∧ (loadAt s p).disk = s.disk ∧ (loadAt s p).evq = s.evq ∧ (loadAt s p).run = s.run ∧ (loadAt s p).ended = s.ended ∧ (loadAt s p).ub = s.ub := by
  unfold loadAt; split
  · simp
  · split <;> simp

theorem loadAt_new {s : RSt} {p q : Path} {v : Nat} (h : (q, v) ∈ (loadAt s p).libs) :
    (q, v) ∈ s.libs ∨ (q = p ∧ SoIn p ∧ s.disk p = some v ∧ ∀ w, (p, w) ∉ s.libs) := by
  unfold loadAt at h; split at h
  · exact .inl h
  · rename_i w hw
    split at h
    · rename_i hc
      rcases List.mem_append.mp h with h1 | h1
      · exact .inl h1
      · rw [List.mem_singleton] at h1; cases h1
        refine .inr ⟨rfl, (hasSo_iff _).mp hc.1, hw, fun w hm => ?_⟩
        have := List.any_eq_false.mp hc.2 _ hm
        simp at this
    · exact .inl h

theorem loadAt_loads {s : RSt} {p : Path} {v : Nat} (hs : SoIn p) (hd : s.disk p = some v) : ∃ w, (p, w) ∈ (loadAt s p).libs := by
  unfold loadAt; rw [hd]
  simp only
  split
  · exact ⟨v, by simp⟩
  · rename_i hc
    have : ¬ (s.libs.any fun x => x.1 == p) = false := fun h => hc ⟨(hasSo_iff _).mpr hs, h⟩
    have : (s.libs.any fun x => x.1 == p) = true := by simpa using this
    obtain ⟨x, hx, he⟩ := List.any_eq_true.mp this
    exact ⟨x.2, by have : x.1 = p := by simpa using he
                   rw [← this]; exact hx⟩

/-- What a reading step does when there is a single, short event. -/
theorem rstep_read_one {s : RSt} {e : Path × Name} (he : s.ended = false) (hr : s.run = true) (hq : s.evq = [e]) (hl : e.2.length ≤ 239) :
    rstep s .read = loadAt { s with evq := [] } (sub e.1 e.2) := by
  have hb : batch bufSize [e] = 1 := by simp [batch, evSize_le hl]
  have hf := (loadAt_frame { s with evq := [] } (sub e.1 e.2)).2.2.2.2.1
  simp only [rstep, he, hr, hq, hb]
  simp only [Bool.false_eq_true, if_false, Bool.not_true, reduceCtorEq, false_and]
  have hf' : (loadAt { s with evq := [] } (sub e.1 e.2)).ended = false := by rw [hf]; exact he
  have gen : ∀ t : RSt, t.ended = false → { t with ended := false } = t := by intro t ht; cases t; cases ht; rfl
  rw [he] at hf'
  exact gen _ (by rw [hr] at hf'; exact hf')

/-- The state of a paced history: either nothing is pending and everything that appeared has been loaded, or the last file is pending. (No code of its own.) -/
structure RInv (past : List Act) (s : RSt) : Prop where
  live : s.ended = false ∧ s.run = true ∧ s.ub = false
  pend : s.evq = [] ∨ ∃ d n, s.evq = [(d, n)] ∧ n.length ≤ 239 ∧ ∃ v, .close d n v ∈ past ∧ s.disk (sub d n) = v
  loaded : ∀ d n v, .close d n (some v) ∈ past → d ∈ s.watched → SoIn (sub d n) →
    (∃ w, (sub d n, w) ∈ s.libs) ∨ (s.evq = [(d, n)] ∧ s.disk (sub d n) = some v)
  only : ∀ q w, (q, w) ∈ s.libs → ∃ d n, d ∈ s.watched ∧ q = sub d n ∧ .close d n (some w) ∈ past ∧ SoIn q
  watch : ∀ e ∈ s.evq, e.1 ∈ s.watched
  nodup : (s.libs.map (·.1)).Nodup

theorem loadAt_nodup {s : RSt} {p : Path} (h : (s.libs.map (·.1)).Nodup) : ((loadAt s p).libs.map (·.1)).Nodup := by
  unfold loadAt; split
  · exact h
  · split
    · rename_i hc
      rw [List.map_append, List.nodup_append]
      refine ⟨h, by simp, ?_⟩
      intro a ha b hb hab
      obtain ⟨x, hx, hxa⟩ := List.mem_map.mp ha
      simp at hb
      have := List.any_eq_false.mp hc.2 _ hx
      simp at this
      exact this (by rw [hxa, hab, hb])
    · exact h

theorem rinv_step {past : List Act} {s : RSt} {a : Act} {h : List Act} (hi : RInv past s) (hp : Paced s (a :: h)) : RInv (past ++ [a]) (rstep s a) := by
  obtain ⟨ha, _⟩ := hp
  cases a with
  | close d n v =>
    obtain ⟨he, hn⟩ := ha
    simp only [rstep, he]
    refine ⟨hi.live, ?_, ?_, ?_, ?_, hi.nodup⟩
    · show (if d ∈ s.watched then _ else _) = _ ∨ _
      by_cases hw : d ∈ s.watched
      · rw [if_pos hw]
        exact .inr ⟨d, n, rfl, hn, v, by simp, by simp⟩
      · rw [if_neg hw]; exact .inl rfl
    · intro d' n' v' hm hw hso
      by_cases hsame : (d' = d ∧ n' = n)
      · obtain ⟨e1, e2⟩ := hsame
        subst e1; subst e2
        show _ ∨ ((if d' ∈ s.watched then _ else _) = _ ∧ _)
        have hw' : d' ∈ s.watched := hw
        rw [if_pos hw']
        rcases List.mem_append.mp hm with h1 | h1
        · rcases hi.loaded d' n' v' h1 hw hso with h2 | h2
          · exact .inl h2
          · rw [he] at h2; cases h2.1
        · simp at h1
          subst h1
          exact .inr ⟨rfl, by simp⟩
      · rcases List.mem_append.mp hm with h1 | h1
        · rcases hi.loaded d' n' v' h1 hw hso with h2 | h2
          · exact .inl h2
          · rw [he] at h2; cases h2.1
        · simp at h1
          exact absurd ⟨h1.1, h1.2.1⟩ hsame
    · intro q w hq
      obtain ⟨d', n', h1, h2, h3, h4⟩ := hi.only q w hq
      exact ⟨d', n', h1, h2, by simp [h3], h4⟩
    · show ∀ e ∈ (if d ∈ s.watched then _ else _), _
      intro e hem
      by_cases hw : d ∈ s.watched
      · rw [if_pos hw] at hem; simp at hem; subst hem; exact hw
      · rw [if_neg hw] at hem; cases hem
  | rename d n v =>
    simp only [rstep]
    have he : s.evq = [] := ha
    refine ⟨hi.live, .inl he, ?_, ?_, hi.watch, hi.nodup⟩
    · intro d' n' v' hm hw hso
      rcases List.mem_append.mp hm with h1 | h1
      · rcases hi.loaded d' n' v' h1 hw hso with h2 | h2
        · exact .inl h2
        · rw [he] at h2; cases h2.1
      · simp at h1
    · intro q w hq
      obtain ⟨d', n', h1, h2, h3, h4⟩ := hi.only q w hq
      exact ⟨d', n', h1, h2, by simp [h3], h4⟩
  | read =>
    obtain ⟨h1, h2, h3⟩ := hi.live
    rcases hi.pend with he | ⟨d, n, he, hn, v, hc, hdv⟩
    · have : rstep s .read = s := by simp [rstep, h1, h2, he]
      rw [this]
      refine ⟨hi.live, .inl he, ?_, ?_, hi.watch, hi.nodup⟩
      · intro d' n' v' hm hw hso
        rcases List.mem_append.mp hm with h1 | h1
        · exact hi.loaded d' n' v' h1 hw hso
        · simp at h1
      · intro q w hq
        obtain ⟨d', n', h1, h2, h3, h4⟩ := hi.only q w hq
        exact ⟨d', n', h1, h2, by simp [h3], h4⟩
    · rw [rstep_read_one h1 h2 he hn]
      obtain ⟨f1, f2, f3, f4, f5, f6⟩ := loadAt_frame { s with evq := [] } (sub d n)
      refine ⟨⟨by rw [f5]; exact h1, by rw [f4]; exact h2, by rw [f6]; exact h3⟩, .inl f3, ?_, ?_, (by rw [f3]; intro e h; cases h), loadAt_nodup hi.nodup⟩
      · intro d' n' v' hm hw hso
        rw [f1] at hw
        rcases List.mem_append.mp hm with h4 | h4
        · rcases hi.loaded d' n' v' h4 hw hso with ⟨w, h5⟩ | ⟨h5, h6⟩
          · exact .inl ⟨w, loadAt_mem h5⟩
          · rw [he] at h5; cases h5
            exact .inl (loadAt_loads hso h6)
        · simp at h4
      · intro q w hq
        rw [f1]
        rcases loadAt_new hq with h4 | ⟨h4, h5, h6, _⟩
        · obtain ⟨d', n', g1, g2, g3, g4⟩ := hi.only q w h4
          exact ⟨d', n', g1, g2, by simp [g3], g4⟩
        · have hv : v = some w := by rw [← hdv]; exact h6
          subst hv
          refine ⟨d, n, hi.watch (d, n) (by rw [he]; simp), h4, by simp [hc], h4 ▸ h5⟩
  | stop ok => exact ha.elim

theorem rinv_exec : ∀ (h : List Act) (past : List Act) (s : RSt), RInv past s → Paced s h → RInv (past ++ h) (rexec s h)
  | [], past, s, hi, _ => by simpa [rexec] using hi
  | a :: h, past, s, hi, hp => by
    have := rinv_exec h (past ++ [a]) (rstep s a) (rinv_step hi hp) hp.2
    simpa [rexec, List.append_assoc] using this

/-- **C71 (run time, partial).** For every paced history (any number of files, any folders, written, replaced or renamed): when the loader has nothing pending, every handler library with `.so` in its
path that was written to a watched folder is loaded; nothing else is; each path once; and no event is misread. Missing: files that appear while an event is pending. -/
theorem C71_runtime_partial (watched : List Path) (disk : Path → Option Nat) (h : List Act) (hp : Paced { watched := watched, disk := disk } h) :
    let s := rexec { watched := watched, disk := disk } h
    s.ub = false ∧ (s.libs.map (·.1)).Nodup ∧
    (s.evq = [] → ∀ d n v, .close d n (some v) ∈ h → d ∈ watched → SoIn (sub d n) → ∃ w, (sub d n, w) ∈ s.libs) ∧
    (∀ q w, (q, w) ∈ s.libs → ∃ d n, d ∈ watched ∧ q = sub d n ∧ .close d n (some w) ∈ h ∧ SoIn q) := by
  have h0 : RInv [] { watched := watched, disk := disk } :=
    ⟨⟨rfl, rfl, rfl⟩, .inl rfl, fun _ _ _ hm => (by cases hm), fun _ _ hm => (by cases hm), fun _ hm => (by cases hm), List.nodup_nil⟩
  have hi := rinv_exec h [] _ h0 hp
  have hw : ∀ (h : List Act) (s : RSt), (rexec s h).watched = s.watched := by
    intro h
    induction h with
    | nil => intro s; rfl
    | cons a h ih =>
      intro s
      show (rexec (rstep s a) h).watched = _
      rw [ih]
      cases a with
      | close => rfl
      | rename => rfl
      | stop => simp only [rstep]; split <;> rfl
      | read =>
        simp only [rstep]
        split
        · rfl
        · split
          · rfl
          · split
            · rfl
            · split
              · rfl
              · exact (loadAt_frame _ _).1
  simp only [List.nil_append] at hi
  refine ⟨hi.live.2.2, hi.nodup, ?_, ?_⟩
  · intro he d n v hm hd hso
    rcases hi.loaded d n v hm (by rw [hw]; exact hd) hso with h1 | h1
    · exact h1
    · rw [he] at h1; cases h1.1
  · intro q w hq
    obtain ⟨d, n, h1, h2, h3, h4⟩ := hi.only q w hq
    rw [hw] at h1
    exact ⟨d, n, h1, h2, h3, h4⟩

/-- The hypotheses are met by a history with two libraries, a text file and a read after each. -/
example : Paced { watched := ["/l".toList] } [.close "/l".toList "a.so".toList (some 1), .read, .close "/l".toList "t".toList none, .read, .close "/l".toList "b.so".toList (some 1), .read] ∧
    (rexec { watched := ["/l".toList] } [.close "/l".toList "a.so".toList (some 1), .read, .close "/l".toList "t".toList none, .read, .close "/l".toList "b.so".toList (some 1), .read]).libs =
      [("/l/a.so".toList, 1), ("/l/b.so".toList, 1)] := by
  constructor
  · simp [Paced, rstep, loadAt, batch, evSize, bufSize, sub, hasSo]
  · decide

/-! ### What fails -/

/-- Nothing pending for `p`, and `p` not loaded. (No code of its own.) -/
structure Never (p : Path) (s : RSt) : Prop where
  evq : ∀ e ∈ s.evq, sub e.1 e.2 ≠ p
  libs : ∀ v, (p, v) ∉ s.libs
  head : ∀ d ∈ s.watched, sub d "run.false".toList ≠ p

theorem never_step {p : Path} {s : RSt} {a : Act} (hi : Never p s) (ha : ∀ d n v, a = .close d n v → d ∈ s.watched → sub d n ≠ p) : Never p (rstep s a) ∧ (rstep s a).watched = s.watched := by
  cases a with
  | close d n v =>
    refine ⟨⟨?_, hi.libs, hi.head⟩, rfl⟩
    show ∀ e ∈ (if d ∈ s.watched then _ else _), _
    intro e he
    by_cases hw : d ∈ s.watched
    · rw [if_pos hw] at he
      rcases List.mem_append.mp he with h | h
      · exact hi.evq e h
      · simp at h; subst h; exact ha d n v rfl hw
    · rw [if_neg hw] at he; exact hi.evq e he
  | rename d n v => exact ⟨⟨hi.evq, hi.libs, hi.head⟩, rfl⟩
  | stop ok =>
    simp only [rstep]
    cases hwt : s.watched with
    | nil => exact ⟨⟨hi.evq, hi.libs, fun d hd => (by cases hd)⟩, rfl⟩
    | cons d ds =>
      refine ⟨⟨?_, hi.libs, fun d hd => hi.head d (hwt ▸ hd)⟩, rfl⟩
      show ∀ e ∈ (if ok then _ else _), _
      intro e he
      cases ok with
      | true =>
        rcases List.mem_append.mp he with h | h
        · exact hi.evq e h
        · simp only [List.mem_singleton] at h; subst h; exact hi.head d (by rw [hwt]; simp)
      | false => exact hi.evq e he
  | read =>
    simp only [rstep]
    split
    · exact ⟨hi, rfl⟩
    · split
      · exact ⟨hi, rfl⟩
      · split
        · exact ⟨hi, rfl⟩
        · rename_i e es hq
          split
          · exact ⟨⟨hi.evq, hi.libs, hi.head⟩, rfl⟩
          · rename_i k _
            obtain ⟨f1, f2, f3, f4, f5, f6⟩ := loadAt_frame { s with evq := (e :: es).drop (k + 1) } (sub e.1 e.2)
            refine ⟨⟨?_, ?_, ?_⟩, f1⟩
            · intro x hx
              have hx' : x ∈ (loadAt { s with evq := (e :: es).drop (k + 1) } (sub e.1 e.2)).evq := hx
              rw [f3] at hx'
              exact hi.evq x (by rw [hq]; exact List.mem_of_mem_drop hx')
            · intro v hv
              rcases loadAt_new (s := { s with evq := (e :: es).drop (k + 1) }) hv with h | h
              · exact hi.libs v h
              · exact hi.evq e (by rw [hq]; simp) h.1.symm
            · intro d hd
              have hd' : d ∈ (loadAt { s with evq := (e :: es).drop (k + 1) } (sub e.1 e.2)).watched := hd
              rw [f1] at hd'; exact hi.head d hd'

theorem never_exec {p : Path} : ∀ (h : List Act) (s : RSt), Never p s → (∀ d n v, .close d n v ∈ h → d ∈ s.watched → sub d n ≠ p) → Never p (rexec s h)
  | [], _, hi, _ => hi
  | a :: h, s, hi, hc => by
    obtain ⟨h1, h2⟩ := never_step hi (fun d n v (e : a = .close d n v) => hc d n v (e ▸ List.mem_cons_self ..))
    exact never_exec h (rstep s a) h1 (fun d n v hm hw => hc d n v (List.mem_cons_of_mem _ hm) (by rw [h2] at hw; exact hw))

/-- **C71 is violated (two files at once).** Two libraries are written while the loader is busy: one `read` returns both events, only the first is used. The second library is not loaded in any continuation in
which nobody writes it again. -/
theorem C71_violated_batch (h : List Act) (hc : ∀ d n v, .close d n v ∈ h → sub d n ≠ "/l/b.so".toList) (v : Nat) :
    ("/l/b.so".toList, v) ∉ (rexec { watched := ["/l".toList] }
      ([.close "/l".toList "a.so".toList (some 1), .close "/l".toList "b.so".toList (some 1), .read] ++ h)).libs := by
  rw [rexec, List.foldl_append]
  refine (never_exec (p := "/l/b.so".toList) h _ ?_ (fun d n v hm _ => hc d n v hm)).libs v
  have e1 : ([Act.close "/l".toList "a.so".toList (some 1), .close "/l".toList "b.so".toList (some 1), .read].foldl rstep { watched := ["/l".toList] }).evq = [] := by decide
  have e2 : ([Act.close "/l".toList "a.so".toList (some 1), .close "/l".toList "b.so".toList (some 1), .read].foldl rstep { watched := ["/l".toList] }).libs = [("/l/a.so".toList, 1)] := by decide
  have e3 : ([Act.close "/l".toList "a.so".toList (some 1), .close "/l".toList "b.so".toList (some 1), .read].foldl rstep { watched := ["/l".toList] }).watched = ["/l".toList] := by decide
  refine ⟨(by rw [e1]; intro e h; cases h), ?_, ?_⟩
  · rw [e2]; intro v hm; simp at hm
  · rw [e3]; intro d hd; rw [List.mem_singleton] at hd; subst hd; decide

/-- **C71 is violated (renamed into place, or a new folder).** A library that is only ever renamed into place — as package managers and `install` do — or written to a folder that was created after startup is
never loaded, in any history. -/
theorem C71_violated_rename (watched : List Path) (disk : Path → Option Nat) (p : Path) (h : List Act) (hw : ∀ d ∈ watched, sub d "run.false".toList ≠ p)
    (hc : ∀ d n v, .close d n v ∈ h → d ∈ watched → sub d n ≠ p) (v : Nat) : (p, v) ∉ (rexec { watched := watched, disk := disk } h).libs :=
  (never_exec h _ ⟨fun e he => (by cases he), fun v hv => (by cases hv), hw⟩ hc).libs v

example : (rexec { watched := ["/l".toList] } [.rename "/l".toList "a.so".toList (some 1), .read, .close "/l/new".toList "b.so".toList (some 1), .read, .close "/l".toList "c.so".toList (some 1), .read]).libs =
    [("/l/c.so".toList, 1)] := by decide

/-- **C71 (what is loaded).** The loader opens what is at the path when it gets to the event, not what was there when the file was closed: if a library is replaced by another by `rename` in between, it
is the other that is loaded, and replacing a different file changes nothing. -/
theorem C71_replaced_before_read (v w : Nat) :
    (rexec { watched := ["/l".toList] } [.close "/l".toList "a.so".toList (some v), .rename "/l".toList "a.so".toList (some w), .read]).libs = [("/l/a.so".toList, w)] ∧
    (rexec { watched := ["/l".toList] } [.close "/l".toList "a.so".toList (some v), .rename "/l".toList "b.so".toList (some w), .read]).libs = [("/l/a.so".toList, v)] := by
  constructor <;> rfl

theorem fixed_step {p : Path} {v : Nat} {s : RSt} (a : Act) (h1 : (p, v) ∈ s.libs) (h2 : (s.libs.map (·.1)).Nodup) : (p, v) ∈ (rstep s a).libs ∧ ((rstep s a).libs.map (·.1)).Nodup := by
  cases a with
  | close => exact ⟨h1, h2⟩
  | rename => exact ⟨h1, h2⟩
  | stop ok => simp only [rstep]; split <;> exact ⟨h1, h2⟩
  | read =>
    simp only [rstep]
    split
    · exact ⟨h1, h2⟩
    · split
      · exact ⟨h1, h2⟩
      · split
        · exact ⟨h1, h2⟩
        · split
          · exact ⟨h1, h2⟩
          · exact ⟨loadAt_mem h1, loadAt_nodup h2⟩

/-- **C71 is violated (a new version).** Once a library is loaded, no history — the file replaced any number of times — makes the controller use another version of it. -/
theorem C71_violated_stale (s : RSt) (p : Path) (v w : Nat) (h1 : (p, v) ∈ s.libs) (h2 : (s.libs.map (·.1)).Nodup) (h : List Act) :
    (p, v) ∈ (rexec s h).libs ∧ ((p, w) ∈ (rexec s h).libs → w = v) := by
  have : ∀ (h : List Act) (s : RSt), (p, v) ∈ s.libs → (s.libs.map (·.1)).Nodup → (p, v) ∈ (rexec s h).libs ∧ ((rexec s h).libs.map (·.1)).Nodup := by
    intro h
    induction h with
    | nil => intro s a b; exact ⟨a, b⟩
    | cons a h ih => intro s x y; exact ih (rstep s a) (fixed_step a x y).1 (fixed_step a x y).2
  obtain ⟨k1, k2⟩ := this h s h1 h2
  refine ⟨k1, fun hw => ?_⟩
  generalize (rexec s h).libs = l at k1 k2 hw
  induction l with
  | nil => cases k1
  | cons x l ih =>
    simp only [List.map_cons, List.nodup_cons] at k2
    rcases List.mem_cons.mp k1 with e1 | e1 <;> rcases List.mem_cons.mp hw with e2 | e2
    · rw [← e1] at e2; cases e2; rfl
    · exact absurd (List.mem_map.mpr ⟨(p, w), e2, by rw [← e1]⟩) k2.1
    · exact absurd (List.mem_map.mpr ⟨(p, v), e1, by rw [← e2]⟩) k2.1
    · exact ih e1 k2.2 e2

/-- Such a state: version 1 loaded, version 2 written and its event read. -/
example : (rexec { watched := ["/l".toList] } [.close "/l".toList "a.so".toList (some 1), .read, .close "/l".toList "a.so".toList (some 2), .read]).libs = [("/l/a.so".toList, 1)] := by decide

/-- **C71 is violated (long names).** A file whose name has 240 or more characters (of the 255 allowed) does not fit the loader's buffer: the read fails, and the loader goes on with an event it has not read. -/
theorem C71_violated_long (d : Path) (n : Name) (v : Option Nat) (hn : 240 ≤ n.length) :
    (rexec { watched := [d] } [.close d n v, .read]).ub = true := by
  have hb : batch bufSize [(d, n)] = 0 := by
    have : ¬ evSize (d, n) ≤ bufSize := by simp only [evSize, bufSize]; omega
    simp [batch, this]
  simp [rexec, rstep, hb]

example : 240 ≤ (List.replicate 255 'a').length := by rw [List.length_replicate]; omega

/-- **C71 is violated (hidden files).** A hidden file is skipped at startup but loaded when it is written at run time. -/
theorem C71_violated_hidden :
    let fs : FS := { ls := fun p => if p = "/l".toList then some [".a.so".toList] else none, good := fun _ => true }
    ¬ Wanted fs 9 ["/l".toList] "/l/.a.so".toList ∧
    (rexec { watched := ["/l".toList] } [.close "/l".toList ".a.so".toList (some 1), .read]).libs = [("/l/.a.so".toList, 1)] := by
  refine ⟨?_, by decide⟩
  rintro ⟨hs, -⟩
  generalize hq : ("/l/.a.so".toList : Path) = q at hs
  cases hs with
  | root hr => rw [List.mem_singleton] at hr; rw [hr] at hq; exact absurd hq (by decide)
  | entry hd hl hls hn hh =>
    rename_i d ns n
    by_cases e : d = "/l".toList
    · simp only [if_pos e, Option.some.injEq] at hls
      rw [← hls, List.mem_singleton] at hn
      rw [hn] at hh; exact hh (by decide)
    · simp only [if_neg e] at hls; cases hls

/-- **C71 is violated (links).** A link to a folder inside it makes the same library load again under every spelling of its path. -/
theorem C71_violated_links : (startup demoFs 12 ["/l".toList] {}).2 = true ∧
    "/l/a.so".toList ∈ (startup demoFs 12 ["/l".toList] {}).1.libs ∧ "/l/sub/up/a.so".toList ∈ (startup demoFs 12 ["/l".toList] {}).1.libs := by
  have h0 : (startup demoFs 12 ["/l".toList] {}).2 = true := by
    refine (C71_startup demoFs 12 _).1.mpr ?_
    intro r hr; rw [List.mem_singleton] at hr; subst hr; exact ⟨by decide, ["a.so".toList, ".h.so".toList, "t.txt".toList, "sub".toList], by decide⟩
  have s0 : Seen demoFs 12 ["/l".toList] "/l".toList := Seen.root (by simp)
  have e0 : demoFs.ls "/l".toList = some ["a.so".toList, ".h.so".toList, "t.txt".toList, "sub".toList] := by decide
  have s1 : Seen demoFs 12 ["/l".toList] "/l/sub".toList := Seen.entry (n := "sub".toList) s0 (by decide) e0 (by decide) (by decide)
  have e1 : demoFs.ls "/l/sub".toList = some ["up".toList, "b.so.1".toList] := by decide
  have s2 : Seen demoFs 12 ["/l".toList] "/l/sub/up".toList := Seen.entry (n := "up".toList) s1 (by decide) e1 (by decide) (by decide)
  have e2 : demoFs.ls "/l/sub/up".toList = some ["a.so".toList, ".h.so".toList, "t.txt".toList, "sub".toList] := by decide
  have nd : ∀ p, demoFs.ls p = none → ¬ IsDir demoFs 12 p := fun p h ⟨_, ns, h2⟩ => by rw [h] at h2; cases h2
  have h := (C71_startup demoFs 12 ["/l".toList]).2.1 h0
  refine ⟨h0, (h _).mpr ⟨Seen.entry (n := "a.so".toList) s0 (by decide) e0 (by decide) (by decide), nd _ (by decide), ⟨"/l/a".toList, [], by decide⟩, by decide⟩,
    (h _).mpr ⟨Seen.entry (n := "a.so".toList) s2 (by decide) e2 (by decide) (by decide), nd _ (by decide), ⟨"/l/sub/up/a".toList, [], by decide⟩, by decide⟩⟩

/-- **C71 is violated (stopping).** If the controller cannot create `run.false` in the first watched folder, its destructor waits for the loader for ever: however often the loader runs, it does not end. -/
theorem C71_violated_stop (watched : List Path) (disk : Path → Option Nat) (hw : watched ≠ []) (k : Nat) :
    (rexec { watched := watched, disk := disk } (.stop false :: List.replicate k .read)).ended = false := by
  have : ∀ k (s : RSt), s.ended = false → s.evq = [] → (rexec s (List.replicate k .read)).ended = false := by
    intro k
    induction k with
    | zero => intro s h _; exact h
    | succ k ih =>
      intro s h1 h2
      have : rstep s .read = s := by simp [rstep, h1, h2]
      rw [List.replicate_succ]
      show (rexec (rstep s .read) _).ended = _
      rw [this]; exact ih s h1 h2
  obtain ⟨d, ds, rfl⟩ := List.exists_cons_of_ne_nil hw
  exact this k _ rfl rfl

/-- With a first folder that can be written to, the loader ends at its next read if nothing was pending. -/
theorem C71_stop_partial (s : RSt) (d : Path) (ds : List Path) (hw : s.watched = d :: ds) (he : s.evq = []) : (rexec s [.stop true, .read]).ended = true := by
  have h1 : rstep s (.stop true) = { s with run := false, evq := [(d, "run.false".toList)] } := by
    simp only [rstep, hw, he, if_true, List.nil_append]
  have hl : (d, "run.false".toList).2.length ≤ 239 := by show "run.false".toList.length ≤ 239; rw [show "run.false".toList.length = 9 from rfl]; omega
  show (rstep (rstep s (.stop true)) .read).ended = true
  rw [h1]
  generalize (d, "run.false".toList) = e at hl
  have hb : batch bufSize [e] = 1 := by simp [batch, evSize_le hl]
  cases hend : s.ended with
  | true => rfl
  | false => simp [rstep, hb]

example : (rexec { watched := ["/l".toList] } [.stop true, .read]).ended = true := C71_stop_partial _ _ _ rfl rfl

end Arax.Libs
