import Verif.Pipe.ProcMap
/-!
# C101: a click in vtop's table of processes kills the process of that row

*Property.* The table has one row for every process attached to the segment, with its name and its number. A click on the number in a row kills (`kill -9`) exactly the process this row names and numbers and
strikes it off the segment's list; a click on the name starts a debugger on it; a click elsewhere does nothing.

The list of attached processes is that of C42 (`arax_pipe_have_to_mmap` appends, `arax_pipe_mark_unmap` removes and moves the later ones up), for as many processes as that theorem covers.
Simplification: the commands `sudo kill` and `sudo gdb` succeed.
-/
namespace Arax.Kill

/-! ## Where a click goes -/

/-- `ClickManager::ClickHandler`: a box, and what to do. (/repo/vtop/ClickManager.h:8-15.) -/
structure Box (α : Type) where
  sx : Nat
  ex : Nat
  sy : Nat
  ey : Nat
  act : α
  deriving Repr

/-- `ClickManager::Click`: every handler whose box has the point runs, in order of registration. (/repo/vtop/ClickManager.cpp:11-17.) -/
def click {α : Type} (bs : List (Box α)) (x y : Nat) : List α :=
  (bs.filter (fun b => decide (b.sx ≤ x ∧ x < b.ex ∧ b.sy ≤ y ∧ y < b.ey))).map (·.act)

/-- What a handler of row `i` does: start the debugger, kill. (/repo/vtop/ProcessBar.cpp:4-21.) -/
inductive Act where
  | gdb (row : Nat)
  | kill (row : Nat)
  deriving DecidableEq, Repr

/-- Width of a row: the table is `name + value + 4` wide (/repo/vtop/ValueTable.h:57), a row 2 less (/repo/vtop/ProcessBar.h:69). -/
def rowWidth (nw vw : Nat) : Nat := nw + vw + 4 - 2

/-- The two handlers of row `i`, whose window begins at `(bx, by0 + i)`, in order of registration. (/repo/vtop/ProcessBar.h:36, 46-47, 67-82; the row's place: /repo/vtop/ValueTable.h:23-25, 53-55.) -/
def rowBoxes (bx by0 nw vw i : Nat) : List (Box Act) :=
  let w := rowWidth nw vw
  [ { sx := bx + 1, ex := bx + nw + 1, sy := by0 + i, ey := by0 + i + 1, act := .gdb i },
    { sx := bx + 4 + w - vw, ex := bx + 4 + w - 5, sy := by0 + i, ey := by0 + i + 1, act := .kill i } ]

/-- The handlers of a table of `n` rows. (/repo/vtop/MainView.cpp:71-76.) -/
def boxes (bx by0 nw vw n : Nat) : List (Box Act) := (List.range n).flatMap (rowBoxes bx by0 nw vw)

/-- The columns in which a row's number of `len` digits is printed. (/repo/vtop/ProcessBar.h:63.) -/
def numberCols (bx nw vw len : Nat) (x : Nat) : Prop := bx + 4 + rowWidth nw vw - vw ≤ x ∧ x < bx + 4 + rowWidth nw vw - vw + len
/-- The columns in which its name is printed, padded on the left. (/repo/vtop/ProcessBar.h:56.) -/
def nameCols (bx nw : Nat) (x : Nat) : Prop := bx + 1 ≤ x ∧ x < bx + 1 + nw
/-- The column of the cross between them. (/repo/vtop/ProcessBar.h:59.) -/
def crossCol (bx nw : Nat) : Nat := bx + 4 + nw

/-! ## Which process it kills -/

/-- `getProcessName`: what a row is called. `file`: contents of `/proc/<pid>/cmdline` up to the first white space, if there is such a file. Reading from an empty file leaves the path in the variable. (/repo/vtop/Utils.cpp:14-25.) -/
def getProcessName (path : List Char) (file : Option (List Char)) : List Char :=
  match file with
  | none => "<defunct>".toList
  | some [] => path
  | some f => f.takeWhile (fun c => c ≠ '\x00')

/-- vtop and the segment. `slots`: the list of attached processes; `names`: what every process is called now; `rows`: slot and name of the rows (/repo/vtop/MainView.cpp:73-76: the name is copied, the number is a reference to the slot);
`screen`: what was last drawn; `struck`, `killed`: what happened; `alive`: vtop lives. -/
structure St where
  slots : List Nat
  names : Nat → List Char
  rows : List (Nat × List Char) := []
  screen : List (List Char × Nat) := []
  killed : List Nat := []
  struck : List Nat := []
  alive : Bool := true

/-- Events: a process attaches or detaches, vtop sets up its table, draws, kills for row `i`, strikes off for row `i`. (/repo/src/core/arax_pipe.c:126-163, /repo/vtop/MainView.cpp:73-76, 109-117, /repo/vtop/ProcessBar.cpp:13-21.) -/
inductive Ev where
  | attach (pid : Nat)
  | detach (pid : Nat)
  | setup
  | draw
  | kill (row : Nat)
  | strike (row : Nat)
  deriving Repr

/-- The number a row shows and uses: its slot now, 0 when unused. (/repo/vtop/ProcessBar.h:108: a reference; C42: the slots after the last process are 0.) -/
def num (s : St) (row : Nat) : Option Nat := (s.rows[row]?).map (fun r => s.slots.getD r.1 0)

/-- One event. (Dispatch only.) -/
def step (s : St) : Ev → St
  | .attach pid => { s with slots := ProcMap.specStep s.slots (.have pid) }
  | .detach pid => { s with slots := ProcMap.specStep s.slots (.unmap pid) }
  | .setup => { s with rows := (List.range s.slots.length).map (fun i => (i, s.names (s.slots.getD i 0))) }
  | .draw => { s with screen := s.rows.map (fun r => (r.2, s.slots.getD r.1 0)) }
  | .kill row =>                                      -- ProcessBar.cpp:15-18
    match num s row with
    | some p => { s with killed := s.killed ++ [p] }
    | none => s
  | .strike row =>                                    -- ProcessBar.cpp:19, the slot is read again
    match num s row with
    | some 0 => { s with alive := false }             -- arax_pipe.c:150: assertion
    | some p => { s with slots := ProcMap.specStep s.slots (.unmap p), struck := s.struck ++ [p] }
    | none => s

/-- A history. (No code of its own.) -/
def run (s : St) (es : List Ev) : St := es.foldl step s

/-! ## Specification -/

/-- The click on row `i` was right: the number killed was the one on the screen, in a row with that process's name; this number was struck off, and no other. -/
def Right (before after : St) (row : Nat) : Prop :=
  ∃ p, p ≠ 0 ∧ before.screen[row]? = some (before.names p, p) ∧ after.killed = before.killed ++ [p] ∧ after.struck = before.struck ++ [p] ∧
    p ∉ after.slots ∧ (∀ q, q ≠ p → q ∈ before.slots → q ∈ after.slots) ∧ after.alive = before.alive

/-- Nothing but a process attaching, or a redrawing. -/
def Stays : Ev → Prop
  | .attach p => p ≠ 0
  | .draw => True
  | _ => False

/-- Nothing but a process attaching. -/
def Joins : Ev → Prop
  | .attach p => p ≠ 0
  | _ => False

/-! ## Clicks: proofs -/

theorem mem_click {α : Type} (bs : List (Box α)) (x y : Nat) (a : α) :
    a ∈ click bs x y ↔ ∃ b ∈ bs, b.act = a ∧ b.sx ≤ x ∧ x < b.ex ∧ b.sy ≤ y ∧ y < b.ey := by
  simp only [click, List.mem_map, List.mem_filter, decide_eq_true_eq]
  constructor
  · rintro ⟨b, ⟨hb, h⟩, e⟩; exact ⟨b, hb, e, h⟩
  · rintro ⟨b, hb, e, h⟩; exact ⟨b, ⟨hb, h⟩, e⟩

theorem click_append {α : Type} (a b : List (Box α)) (x y : Nat) : click (a ++ b) x y = click a x y ++ click b x y := by simp [click]

theorem click_row (bx by0 nw vw i x y : Nat) :
    click (rowBoxes bx by0 nw vw i) x y =
      if y = by0 + i then
        (if bx + 1 ≤ x ∧ x < bx + nw + 1 then [Act.gdb i] else if bx + nw + 6 ≤ x ∧ x < bx + nw + vw + 1 then [Act.kill i] else [])
      else [] := by
  simp only [rowBoxes, rowWidth, click, List.filter_cons, List.filter_nil]
  by_cases hy : y = by0 + i
  · rw [if_pos hy]
    by_cases h1 : bx + 1 ≤ x ∧ x < bx + nw + 1
    · rw [if_pos h1, if_pos (decide_eq_true (by omega)), if_neg (fun c => by have := of_decide_eq_true c; omega)]
      rfl
    · rw [if_neg h1, if_neg (fun c => by have := of_decide_eq_true c; omega)]
      by_cases h2 : bx + nw + 6 ≤ x ∧ x < bx + nw + vw + 1
      · rw [if_pos h2, if_pos (decide_eq_true (by omega))]; rfl
      · rw [if_neg h2, if_neg (fun c => by have := of_decide_eq_true c; omega)]; rfl
  · rw [if_neg hy, if_neg (fun c => by have := of_decide_eq_true c; omega), if_neg (fun c => by have := of_decide_eq_true c; omega)]
    rfl

theorem boxes_succ (bx by0 nw vw n : Nat) : boxes bx by0 nw vw (n + 1) = boxes bx by0 nw vw n ++ rowBoxes bx by0 nw vw n := by
  simp [boxes, List.range_succ, List.flatMap_append]

theorem click_boxes_none (bx by0 nw vw n x y : Nat) (h : y < by0 ∨ by0 + n ≤ y) : click (boxes bx by0 nw vw n) x y = [] := by
  induction n with
  | zero => rfl
  | succ n ih => rw [boxes_succ, click_append, ih (by omega), click_row, if_neg (by omega)]; rfl

theorem click_boxes_row (bx by0 nw vw n i x : Nat) (h : i < n) :
    click (boxes bx by0 nw vw n) x (by0 + i) = click (rowBoxes bx by0 nw vw i) x (by0 + i) := by
  induction n with
  | zero => omega
  | succ n ih =>
    rw [boxes_succ, click_append]
    by_cases c : i = n
    · subst c; rw [click_boxes_none _ _ _ _ _ _ _ (by omega)]; rfl
    · rw [ih (by omega), click_row bx by0 nw vw n, if_neg (by omega)]; simp

/-- **C101 (clicks).** In a table of `n` rows a click kills for row `i`, and only for it, when it is on the digits of that row's number, starts the debugger when it is on the row's name, and otherwise does nothing
(`vw` is the width reserved for the widest number: five more than its digits). -/
theorem C101_where_partial (bx by0 nw vw n x y : Nat) :
    (∀ i len, i < n → y = by0 + i → len + 5 ≤ vw → numberCols bx nw vw len x → click (boxes bx by0 nw vw n) x y = [.kill i]) ∧
    (∀ i, i < n → y = by0 + i → nameCols bx nw x → click (boxes bx by0 nw vw n) x y = [.gdb i]) ∧
    (∀ i, Act.kill i ∈ click (boxes bx by0 nw vw n) x y → i < n ∧ y = by0 + i ∧ numberCols bx nw vw (vw - 5) x ∧ click (boxes bx by0 nw vw n) x y = [.kill i]) := by
  refine ⟨?_, ?_, ?_⟩
  · intro i len hi hy hl ⟨h1, h2⟩
    simp only [rowWidth] at h1 h2
    rw [hy, click_boxes_row _ _ _ _ _ _ _ hi, click_row, if_pos rfl, if_neg (by omega), if_pos (by omega)]
  · intro i hi hy ⟨h1, h2⟩
    rw [hy, click_boxes_row _ _ _ _ _ _ _ hi, click_row, if_pos rfl, if_pos (by omega)]
  · intro i hm
    by_cases c : y < by0 ∨ by0 + n ≤ y
    · rw [click_boxes_none _ _ _ _ _ _ _ c] at hm; cases hm
    · obtain ⟨j, hj⟩ : ∃ j, y = by0 + j := ⟨y - by0, by omega⟩
      have hjn : j < n := by omega
      rw [hj, click_boxes_row _ _ _ _ _ _ _ hjn, click_row, if_pos rfl] at hm ⊢
      split at hm
      · simp at hm
      · rename_i h1
        split at hm
        · rename_i h2
          simp only [List.mem_singleton, Act.kill.injEq] at hm
          subst hm
          refine ⟨hjn, rfl, ?_, by rw [if_neg h1, if_pos h2]⟩
          simp only [numberCols, rowWidth]; omega
        · cases hm

/-- The cross drawn in every row is no place to click. -/
theorem C101_cross_dead (bx by0 nw vw n y : Nat) : click (boxes bx by0 nw vw n) (crossCol bx nw) y = [] := by
  by_cases c : y < by0 ∨ by0 + n ≤ y
  · exact click_boxes_none _ _ _ _ _ _ _ c
  · obtain ⟨j, hj⟩ : ∃ j, y = by0 + j := ⟨y - by0, by omega⟩
    rw [hj, click_boxes_row _ _ _ _ _ _ _ (by omega), click_row, if_pos rfl, crossCol, if_neg (by omega), if_neg (by omega)]

example : click (boxes 0 10 6 9 3) 13 11 = [.kill 1] ∧ click (boxes 0 10 6 9 3) 3 12 = [.gdb 2] := by decide

/-! ## Kills: proofs -/

theorem run_cons (s : St) (e : Ev) (es : List Ev) : run s (e :: es) = run (step s e) es := rfl
theorem run_append (s : St) (a b : List Ev) : run s (a ++ b) = run (run s a) b := by simp [run]

/-- After `Setup` with the list `l0`, while nobody leaves. -/
structure Inv (l0 : List Nat) (s0 s : St) : Prop where
  ext : ∃ more, s.slots = l0 ++ more
  nodup : s.slots.Nodup
  pos : ∀ p ∈ s.slots, p ≠ 0
  names : s.names = s0.names
  rows : s.rows = (List.range l0.length).map (fun i => (i, s0.names (l0.getD i 0)))
  killed : s.killed = s0.killed
  struck : s.struck = s0.struck
  alive : s.alive = s0.alive

theorem inv_step {l0 : List Nat} {s0 s : St} (h : Inv l0 s0 s) {e : Ev} (he : Stays e) : Inv l0 s0 (step s e) ∧ (∀ q ∈ s.slots, q ∈ (step s e).slots) := by
  cases e with
  | attach p =>
    have hp : p ≠ 0 := he
    simp only [step, ProcMap.specStep]
    by_cases c : p ∈ s.slots
    · rw [if_pos c]; exact ⟨⟨h.ext, h.nodup, h.pos, h.names, h.rows, h.killed, h.struck, h.alive⟩, fun q hq => hq⟩
    · rw [if_neg c]
      obtain ⟨more, hm⟩ := h.ext
      refine ⟨⟨⟨more ++ [p], by dsimp only; rw [hm, List.append_assoc]⟩, ?_, ?_, h.names, h.rows, h.killed, h.struck, h.alive⟩, ?_⟩
      · dsimp only
        rw [List.nodup_append]
        exact ⟨h.nodup, by simp, by intro a ha b hb; simp at hb; subst hb; intro e; exact c (e ▸ ha)⟩
      · intro q hq
        rcases List.mem_append.mp hq with hq | hq
        · exact h.pos q hq
        · simp at hq; subst hq; exact hp
      · intro q hq; exact List.mem_append_left _ hq
  | draw => exact ⟨⟨h.ext, h.nodup, h.pos, h.names, h.rows, h.killed, h.struck, h.alive⟩, fun q hq => hq⟩
  | detach p => exact he.elim
  | setup => exact he.elim
  | kill r => exact he.elim
  | strike r => exact he.elim

theorem inv_run {l0 : List Nat} {s0 : St} (es : List Ev) : ∀ s, Inv l0 s0 s → (∀ e ∈ es, Stays e) → Inv l0 s0 (run s es) ∧ (∀ q ∈ s.slots, q ∈ (run s es).slots) := by
  induction es with
  | nil => intro s h _; exact ⟨h, fun q hq => hq⟩
  | cons e es ih =>
    intro s h he
    rw [run_cons]
    obtain ⟨h1, m1⟩ := inv_step h (he e (by simp))
    obtain ⟨h2, m2⟩ := ih _ h1 (fun e' h' => he e' (by simp [h']))
    exact ⟨h2, fun q hq => m2 q (m1 q hq)⟩

theorem getD_app (a b : List Nat) (i : Nat) (h : i < a.length) : (a ++ b).getD i 0 = a.getD i 0 := by
  simp [List.getD_eq_getElem?_getD, List.getElem?_append_left h]

/-- What a drawing shows. -/
theorem inv_draw {l0 : List Nat} {s0 s : St} (h : Inv l0 s0 s) :
    (step s .draw).screen = (List.range l0.length).map (fun i => (s0.names (l0.getD i 0), l0.getD i 0)) := by
  obtain ⟨more, hm⟩ := h.ext
  simp only [step, h.rows, List.map_map]
  apply List.map_congr_left
  intro i hi
  have hi' : i < l0.length := List.mem_range.mp hi
  simp only [Function.comp, hm]
  rw [getD_app _ _ _ hi']

theorem screen_run {l0 : List Nat} {s0 : St} (es : List Ev) : ∀ s, Inv l0 s0 s → (∀ e ∈ es, Stays e) →
    s.screen = (List.range l0.length).map (fun i => (s0.names (l0.getD i 0), l0.getD i 0)) →
    (run s es).screen = (List.range l0.length).map (fun i => (s0.names (l0.getD i 0), l0.getD i 0)) := by
  induction es with
  | nil => intro s _ _ h; exact h
  | cons e es ih =>
    intro s h he hs
    rw [run_cons]
    refine ih _ (inv_step h (he e (by simp))).1 (fun e' h' => he e' (by simp [h'])) ?_
    cases e with
    | attach p => exact hs
    | draw => exact inv_draw h
    | detach p => exact absurd (he (.detach p) (by simp)) (fun h => h)
    | setup => exact absurd (he (.setup) (by simp)) (fun h => h)
    | kill r => exact absurd (he (.kill r) (by simp)) (fun h => h)
    | strike r => exact absurd (he (.strike r) (by simp)) (fun h => h)

theorem inv_num {l0 : List Nat} {s0 s : St} (h : Inv l0 s0 s) {i : Nat} (hi : i < l0.length) : num s i = some (l0.getD i 0) := by
  obtain ⟨more, hm⟩ := h.ext
  simp only [num, h.rows, List.getElem?_map, List.getElem?_range hi, Option.map_some, hm]
  rw [getD_app _ _ _ hi]

/-- **C101 (kills), partial.** As long as no process has left the list since the table was set up, whoever attaches and however often it is redrawn: the table has one row for every process, with its name and number, and a click on row `i` is right. -/
theorem C101_kills_partial (s : St) (hn : s.slots.Nodup) (hp : ∀ p ∈ s.slots, p ≠ 0) (es1 es2 es3 : List Ev)
    (h1 : ∀ e ∈ es1, Stays e) (h2 : ∀ e ∈ es2, Stays e) (h3 : ∀ e ∈ es3, Joins e) (i : Nat) (hi : i < s.slots.length) :
    let shown := run s ([.setup] ++ es1 ++ [.draw] ++ es2)
    shown.screen = s.slots.map (fun p => (s.names p, p)) ∧ Right shown (run shown ([.kill i] ++ es3 ++ [.strike i])) i := by
  have inv0 : Inv s.slots s (step s .setup) := ⟨⟨[], by simp [step]⟩, hn, hp, rfl, rfl, rfl, rfl, rfl⟩
  intro shown
  have e0 : shown = run (step (run (step s .setup) es1) .draw) es2 := by
    show run s ([.setup] ++ es1 ++ [.draw] ++ es2) = _
    rw [run_append, run_append, run_append]; rfl
  have inv1 := (inv_run es1 _ inv0 h1).1
  have inv2 : Inv s.slots s (step (run (step s .setup) es1) .draw) := (inv_step inv1 (e := .draw) trivial).1
  have inv3 : Inv s.slots s shown := by rw [e0]; exact (inv_run es2 _ inv2 h2).1
  have sc : shown.screen = (List.range s.slots.length).map (fun i => (s.names (s.slots.getD i 0), s.slots.getD i 0)) := by
    rw [e0]; exact screen_run es2 _ inv2 h2 (inv_draw inv1)
  have sc' : shown.screen = s.slots.map (fun p => (s.names p, p)) := by
    rw [sc]
    apply List.ext_getElem
    · simp
    · intro j hj1 hj2
      have hj : j < s.slots.length := by simpa using hj2
      simp only [List.getElem_map, List.getElem_range, List.getD_eq_getElem?_getD, List.getElem?_eq_getElem hj, Option.getD_some]
  refine ⟨sc', ?_⟩
  have hp0 : s.slots.getD i 0 ∈ s.slots := by
    rw [List.getD_eq_getElem?_getD, List.getElem?_eq_getElem hi]; exact List.getElem_mem hi
  have hpne : s.slots.getD i 0 ≠ 0 := hp _ hp0
  -- the kill
  have ek : step shown (.kill i) = { shown with killed := shown.killed ++ [s.slots.getD i 0] } := by
    simp only [step, inv_num inv3 hi]
  have inv4 : Inv s.slots { s with killed := s.killed ++ [s.slots.getD i 0] } (step shown (.kill i)) := by
    rw [ek]
    exact ⟨inv3.ext, inv3.nodup, inv3.pos, inv3.names, inv3.rows, by dsimp only; rw [inv3.killed], inv3.struck, inv3.alive⟩
  have h3' : ∀ e ∈ es3, Stays e := by
    intro e he
    have := h3 e he
    cases e <;> first | exact this | exact this.elim
  obtain ⟨inv5, mono⟩ := inv_run es3 _ inv4 h3'
  have er : run shown ([.kill i] ++ es3 ++ [.strike i]) = step (run (step shown (.kill i)) es3) (.strike i) := by
    rw [run_append, run_append]; rfl
  have es : step (run (step shown (.kill i)) es3) (.strike i) =
      { run (step shown (.kill i)) es3 with
        slots := (run (step shown (.kill i)) es3).slots.erase (s.slots.getD i 0), struck := (run (step shown (.kill i)) es3).struck ++ [s.slots.getD i 0] } := by
    have hnum := inv_num inv5 hi
    generalize run (step shown (.kill i)) es3 = d at hnum ⊢
    simp only [step, hnum]
    generalize s.slots.getD i 0 = q at hpne ⊢
    cases q with
    | zero => exact absurd rfl hpne
    | succ q => rfl
  rw [er, es]
  refine ⟨s.slots.getD i 0, hpne, ?_, ?_, ?_, ?_, ?_, ?_⟩
  · rw [sc, inv3.names, List.getElem?_map, List.getElem?_range hi]; rfl
  · dsimp only; rw [inv5.killed, inv3.killed]
  · dsimp only; rw [inv5.struck, inv3.struck]
  · dsimp only
    intro c
    exact (inv5.nodup.mem_erase_iff.mp c).1 rfl
  · intro q hq hm
    dsimp only
    refine (List.mem_erase_of_ne hq).mpr (mono q ?_)
    rw [ek]; exact hm
  · dsimp only; rw [inv5.alive, inv3.alive]

/-- The slots of the shared segment really hold this list (C42): in every reachable memory the hypotheses of the theorem above hold of its list, and slot `i` is entry `i`, or 0. -/
theorem C101_slots {N B : Nat} (hN : 0 < N) (hB : 8 * B ≤ N + 3) {m : Layout.Mem} {l : List Nat} (h : ProcMap.Reach N B m l) :
    l.Nodup ∧ (∀ p ∈ l, p ≠ 0) ∧ ∀ i, i < N → ProcMap.cell m i = l.getD i 0 := by
  have inv := ProcMap.inv_of_reach hN hB h
  exact ⟨inv.nodup, fun p hp => by have := (inv.pos p hp).1; omega, inv.rep⟩

/-- Three processes, a fourth attaches, the second is killed. -/
example : (run { slots := [11, 12, 13], names := fun p => [Char.ofNat (p + 86)] } [.setup, .attach 14, .draw, .kill 1, .strike 1]).slots = [11, 13, 14] := by decide

/-- **C101 is violated.** When one process has left, the later ones move up under the names of their predecessors: a click on the number in a row kills a process this row does not name. For all lists, names and rows after the one that left. -/
theorem C101_violated_name (pre post : List Nat) (gone p : Nat) (s : St) (hs : s.slots = pre ++ gone :: p :: post) (hg : gone ∉ pre) (hne : s.names gone ≠ s.names p) :
    let shown := run s [.setup, .detach gone, .draw]
    shown.screen[pre.length]? = some (s.names gone, p) ∧ (run shown [.kill pre.length]).killed = s.killed ++ [p] ∧
      ¬ Right shown (run shown [.kill pre.length, .strike pre.length]) pre.length := by
  intro shown
  have er : s.slots.erase gone = pre ++ p :: post := by
    rw [hs, List.erase_append_right _ hg]; simp
  have e1 : shown.screen[pre.length]? = some (s.names gone, p) := by
    show (run s [.setup, .detach gone, .draw]).screen[pre.length]? = _
    simp only [run, List.foldl_cons, List.foldl_nil, step, ProcMap.specStep, List.map_map, List.getElem?_map]
    rw [List.getElem?_range (by rw [hs]; simp)]
    simp only [Option.map_some, Function.comp, er]
    rw [hs]
    simp [List.getD_eq_getElem?_getD]
  refine ⟨e1, ?_, ?_⟩
  · show (run (run s [.setup, .detach gone, .draw]) [.kill pre.length]).killed = _
    have : num (run s [.setup, .detach gone, .draw]) pre.length = some p := by
      simp only [run, List.foldl_cons, List.foldl_nil, step, ProcMap.specStep, num, List.getElem?_map]
      rw [List.getElem?_range (by rw [hs]; simp)]
      simp only [Option.map_some, er]
      simp [List.getD_eq_getElem?_getD]
    rw [show run (run s [.setup, .detach gone, .draw]) [.kill pre.length] = step (run s [.setup, .detach gone, .draw]) (.kill pre.length) from rfl]
    simp only [step, this]
    rfl
  · rintro ⟨q, _, hq, _⟩
    rw [e1] at hq
    obtain ⟨a, b⟩ := Prod.mk.inj (Option.some.inj hq)
    subst b
    exact hne a

/-- **C101 is violated.** The row of the last process, once any process has left, has the number 0; a click on it is `kill -9 0`, which kills the processes of vtop's own group. -/
theorem C101_violated_zero (s : St) (gone : Nat) (hg : gone ∈ s.slots) :
    let shown := run s [.setup, .detach gone, .draw]
    num shown (s.slots.length - 1) = some 0 ∧ (run shown [.kill (s.slots.length - 1)]).killed = s.killed ++ [0] ∧
      (run shown [.kill (s.slots.length - 1), .strike (s.slots.length - 1)]).alive = false := by
  intro shown
  have hl : 0 < s.slots.length := List.length_pos_of_mem hg
  have hn : num shown (s.slots.length - 1) = some 0 := by
    show num (run s [.setup, .detach gone, .draw]) (s.slots.length - 1) = some 0
    simp only [run, List.foldl_cons, List.foldl_nil, step, ProcMap.specStep, num, List.getElem?_map]
    rw [List.getElem?_range (by omega)]
    simp only [Option.map_some]
    have : (s.slots.erase gone).length ≤ s.slots.length - 1 := by rw [List.length_erase_of_mem hg]; exact Nat.le_refl _
    rw [List.getD_eq_getElem?_getD, List.getElem?_eq_none this]; rfl
  refine ⟨hn, ?_, ?_⟩
  · rw [show run shown [.kill (s.slots.length - 1)] = step shown (.kill (s.slots.length - 1)) from rfl]
    simp only [step, hn]
    rfl
  · have e : step shown (.kill (s.slots.length - 1)) = { shown with killed := shown.killed ++ [0] } := by simp only [step, hn]
    rw [show run shown [.kill (s.slots.length - 1), .strike (s.slots.length - 1)] = step (step shown (.kill (s.slots.length - 1))) (.strike (s.slots.length - 1)) from rfl, e]
    have hn' : num { shown with killed := shown.killed ++ [0] } (s.slots.length - 1) = some 0 := hn
    simp only [step, hn']

/-- **C101 is violated.** The slot is read a second time after the killing: if a process leaves in between, another one is struck off and the dead one remains. -/
theorem C101_violated_strike : (run { slots := [11, 12, 13], names := fun _ => [] } [.setup, .draw, .kill 1, .detach 11, .strike 1]).killed = [12] ∧
    (run { slots := [11, 12, 13], names := fun _ => [] } [.setup, .draw, .kill 1, .detach 11, .strike 1]).struck = [13] ∧
    (run { slots := [11, 12, 13], names := fun _ => [] } [.setup, .draw, .kill 1, .detach 11, .strike 1]).slots = [12] := by decide

/-- A process that has ended and whose entry remains is called after the file its name should be in. -/
theorem C101_violated_zombie (path : List Char) : getProcessName path (some []) = path := rfl
example : getProcessName "/proc/12/cmdline".toList (some ("/bin/app\x00-v".toList)) = "/bin/app".toList := by decide

end Arax.Kill
