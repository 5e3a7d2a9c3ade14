/-!
# C112: vtop shows the accelerators there are

*Property.* Whatever happens to the segment while `vtop` runs, its upper table
has one row for every physical accelerator, with that accelerator's name and
memory, and the table of counts has the number of objects of each type; the keys
change the time between two pictures within 10 to 500 ms and end the program.

How an amount is printed is the subject of C100, the table of processes that of C101.

Simplifications: the two rows for the segment itself (Shm, Bmp) and the graph
are left out; memory of an accelerator that was released holds anything and can
be given to a new accelerator; a picture is drawn without the segment changing
meanwhile.
-/
namespace Arax.VtopRows

/-- The text of a name. -/
abbrev Str := List Char

/-- The segment, as far as vtop looks at it: the list of accelerators by
address (/repo/src/core/arax_accel.h:14-27), and the contents of the memory at the places where an accelerator has its
name, `throttle.available` and `throttle.capacity`; the lengths of the lists of all types of objects. -/
structure Seg where
  accels : List Nat
  name : Nat → Str
  avail : Nat → Nat
  cap : Nat → Nat
  len : Nat → Nat

/-- A row: name and maximum are copied, the value is a reference. (/repo/vtop/ValueBar.h:12-27.) -/
structure Row where
  name : Str
  addr : Nat
  max : Nat

/-- vtop. -/
structure St where
  seg : Seg
  rows : List Row
  /-- name, `value` and `max` of each row, as last drawn -/
  screen : List (Str × Nat × Nat)
  /-- the counts, as last drawn, by type -/
  counts : Nat → Nat
  refresh : Int
  run : Bool

/-- `Setup`: a row for each accelerator of the list. (/repo/vtop/MainView.cpp:38-54, 58-65; /repo/vtop/ValueTable.h:21-26.) -/
def setup (s : St) : St := { s with rows := s.seg.accels.map (fun a => ⟨s.seg.name a, a, s.seg.cap a⟩) }

/-- `Draw`. (/repo/vtop/MainView.cpp:109-117, /repo/vtop/ValueTable.h:28-31, /repo/vtop/ValueBar.h:29-46.) -/
def draw (s : St) : St := { s with screen := s.rows.map (fun r => (r.name, s.seg.avail r.addr, r.max)), counts := s.seg.len }

/-- Keys. (/repo/vtop/MainView.cpp:131-163.) -/
inductive Key where
  | quit | reattach | plus | minus | other
  deriving DecidableEq, Repr

/-- `Update`: one key, then a picture. (/repo/vtop/MainView.cpp:129-175.) -/
def update (s : St) : Key → St
  | .quit => draw { s with run := false }
  | .reattach => draw (setup s)
  | .plus => draw { s with refresh := min 500 (s.refresh + 10) }
  | .minus => draw { s with refresh := max 10 (s.refresh - 10) }
  | .other => draw s

/-- What can happen. -/
inductive Ev where
  /-- an accelerator is registered, its memory at `a` (/repo/src/core/arax_accel.c:5-24) -/
  | create (a : Nat) (name : Str) (size cap : Nat)
  /-- an accelerator is released and its memory freed (/repo/src/core/arax_accel.c:180-194) -/
  | release (a : Nat)
  /-- memory of an accelerator is used or given back -/
  | use (a v : Nat)
  /-- memory that is no accelerator is written to -/
  | junk (a v : Nat)
  /-- a list of objects of another type gets another length -/
  | objs (ty n : Nat)
  | key (k : Key)

/-- The type of physical accelerators. (/repo/src/core/arax_object.h:16.) -/
def phys : Nat := 0

/-- Change one value of a function. (No code of its own.) -/
def upd {α : Type} (f : Nat → α) (i : Nat) (x : α) : Nat → α := fun j => if j = i then x else f j

/-- One event; `vtop` does nothing when it has ended. The list of accelerators grows at its end. (/repo/src/core/arax_object.c:98-120, 184-203; /repo/vtop/MainView.cpp:99-107.) -/
def step (s : St) : Ev → St
  | .create a n z c =>
    if a ∈ s.seg.accels then s
    else
      { s with seg := { s.seg with accels := s.seg.accels ++ [a], name := upd s.seg.name a n, avail := upd s.seg.avail a z, cap := upd s.seg.cap a c, len := upd s.seg.len phys (s.seg.len phys + 1) } }
  | .release a =>
    if a ∈ s.seg.accels then { s with seg := { s.seg with accels := s.seg.accels.erase a, len := upd s.seg.len phys (s.seg.len phys - 1) } } else s
  | .use a v => if a ∈ s.seg.accels then { s with seg := { s.seg with avail := upd s.seg.avail a v } } else s
  | .junk a v => if a ∈ s.seg.accels then s else { s with seg := { s.seg with avail := upd s.seg.avail a v } }
  | .objs ty n => if ty = phys then s else { s with seg := { s.seg with len := upd s.seg.len ty n } }
  | .key k => if s.run then update s k else s

/-- The constructor and `Show`: set up, draw, then the loop. (/repo/vtop/MainView.cpp:6-19, 99-104.) -/
def start (g : Seg) : St := draw (setup ⟨g, [], [], fun _ => 0, 100, true⟩)

/-- Events one after another. (No code of its own.) -/
def after (s : St) (es : List Ev) : St := es.foldl step s

/-! ## Specification -/

/-- What the upper table should say: name, available and whole memory of every accelerator. -/
def truth (g : Seg) : List (Str × Nat × Nat) := g.accels.map (fun a => (g.name a, g.avail a, g.cap a))

/-- No accelerator comes or goes. -/
def Ev.still : Ev → Prop
  | .create _ _ _ _ => False
  | .release _ => False
  | _ => True

/-- The user does not ask for a new table. -/
def Ev.quiet : Ev → Prop
  | .key .reattach => False
  | _ => True

/-- A segment: no accelerator is listed twice, and the list knows its length. -/
structure Seg.Ok (g : Seg) : Prop where
  nodup : g.accels.Nodup
  len : g.len phys = g.accels.length

/-! ## Proofs -/

@[simp] theorem setup_seg (s : St) : (setup s).seg = s.seg := rfl
@[simp] theorem draw_seg (s : St) : (draw s).seg = s.seg := rfl
@[simp] theorem draw_rows (s : St) : (draw s).rows = s.rows := rfl

theorem update_seg (s : St) (k : Key) : (update s k).seg = s.seg := by cases k <;> rfl

theorem step_ok (s : St) (e : Ev) (h : s.seg.Ok) : (step s e).seg.Ok := by
  cases e with
  | create a n z c =>
    simp only [step]
    split
    · exact h
    · next ha =>
      refine ⟨?_, by simp [upd, h.len]⟩
      show (s.seg.accels ++ [a]).Nodup
      rw [List.nodup_append]
      refine ⟨h.nodup, by simp, ?_⟩
      intro x hx y hy e
      simp only [List.mem_singleton] at hy
      exact ha (by rw [← hy, ← e]; exact hx)
  | release a =>
    simp only [step]
    split
    · next ha =>
      refine ⟨h.nodup.erase a, ?_⟩
      show upd s.seg.len phys (s.seg.len phys - 1) phys = (s.seg.accels.erase a).length
      rw [List.length_erase_of_mem ha, upd, if_pos rfl, h.len]
    · exact h
  | use a v =>
    simp only [step]
    split
    · exact ⟨h.nodup, h.len⟩
    · exact h
  | junk a v =>
    simp only [step]
    split
    · exact h
    · exact ⟨h.nodup, h.len⟩
  | objs ty n =>
    simp only [step]
    split
    · exact h
    · next hty =>
      refine ⟨h.nodup, ?_⟩
      show upd s.seg.len ty n phys = _
      rw [upd, if_neg (fun e => hty e.symm)]
      exact h.len
  | key k =>
    simp only [step]
    split
    · rw [update_seg]; exact h
    · exact h

theorem after_ok (s : St) (es : List Ev) (h : s.seg.Ok) : (after s es).seg.Ok := by
  induction es generalizing s with
  | nil => exact h
  | cons e es ih => exact ih _ (step_ok s e h)

theorem step_rows (s : St) (e : Ev) (hq : e.quiet) : (step s e).rows = s.rows := by
  cases e with
  | key k =>
    simp only [step]
    split
    · cases k <;> first | rfl | exact absurd hq (fun h => h)
    · rfl
  | create a n z c => simp only [step]; split <;> rfl
  | release a => simp only [step]; split <;> rfl
  | use a v => simp only [step]; split <;> rfl
  | junk a v => simp only [step]; split <;> rfl
  | objs ty n => simp only [step]; split <;> rfl

theorem after_rows (s : St) (es : List Ev) (hq : ∀ e ∈ es, e.quiet) : (after s es).rows = s.rows := by
  induction es generalizing s with
  | nil => rfl
  | cons e es ih =>
    show (after (step s e) es).rows = _
    rw [ih _ (fun x hx => hq x (List.mem_cons_of_mem _ hx)), step_rows s e (hq e List.mem_cons_self)]

theorem step_still (s : St) (e : Ev) (h : e.still) :
    (step s e).seg.accels = s.seg.accels ∧ (step s e).seg.name = s.seg.name ∧ (step s e).seg.cap = s.seg.cap := by
  cases e with
  | create a n z c => exact absurd h (fun h => h)
  | release a => exact absurd h (fun h => h)
  | use a v => simp only [step]; split <;> exact ⟨rfl, rfl, rfl⟩
  | junk a v => simp only [step]; split <;> exact ⟨rfl, rfl, rfl⟩
  | objs ty n => simp only [step]; split <;> exact ⟨rfl, rfl, rfl⟩
  | key k =>
    simp only [step]
    split
    · rw [update_seg]; exact ⟨rfl, rfl, rfl⟩
    · exact ⟨rfl, rfl, rfl⟩

theorem after_still (s : St) (es : List Ev) (h : ∀ e ∈ es, e.still) :
    (after s es).seg.accels = s.seg.accels ∧ (after s es).seg.name = s.seg.name ∧ (after s es).seg.cap = s.seg.cap := by
  induction es generalizing s with
  | nil => exact ⟨rfl, rfl, rfl⟩
  | cons e es ih =>
    obtain ⟨h1, h2, h3⟩ := ih (step s e) (fun x hx => h x (List.mem_cons_of_mem _ hx))
    obtain ⟨g1, g2, g3⟩ := step_still s e (h e List.mem_cons_self)
    exact ⟨h1.trans g1, h2.trans g2, h3.trans g3⟩

/-- Every key draws what the rows are. -/
theorem update_screen (s : St) (k : Key) :
    (update s k).screen = (update s k).rows.map (fun r => (r.name, (update s k).seg.avail r.addr, r.max)) ∧ (update s k).counts = (update s k).seg.len := by
  cases k <;> exact ⟨rfl, rfl⟩

/-- **C112 (what is shown).** In every history since the table was made: the picture has the accelerators *of that time*, under the names and with the whole they had then, and what is in their memory now. -/
theorem C112_follows_setup (s : St) (es : List Ev) (hq : ∀ e ∈ es, e.quiet) (k : Key) (hk : k ≠ .reattach) :
    (update (after (setup s) es) k).screen = s.seg.accels.map (fun a => (s.seg.name a, (after (setup s) es).seg.avail a, s.seg.cap a)) := by
  have hr := after_rows (setup s) es hq
  have : ∀ t : St, t.rows = (setup s).rows → (update t k).screen = s.seg.accels.map (fun a => (s.seg.name a, t.seg.avail a, s.seg.cap a)) := by
    intro t ht
    cases k <;> first | exact absurd rfl hk | (simp only [update, draw, ht, setup, List.map_map]; rfl)
  exact this _ hr

/-- **C112 (partial).** While no accelerator comes or goes, every picture is true, however memory is used. Missing: accelerators that come or go (`C112_violated_*`). -/
theorem C112_truth_partial (s : St) (es : List Ev) (hs : ∀ e ∈ es, e.still) (hq : ∀ e ∈ es, e.quiet) (k : Key) (hk : k ≠ .reattach) :
    (update (after (setup s) es) k).screen = truth (after (setup s) es).seg := by
  rw [C112_follows_setup s es hq k hk]
  obtain ⟨h1, h2, h3⟩ := after_still (setup s) es hs
  simp only [truth, h1, h2, h3, setup_seg]

/-- **C112 (partial).** After (R) the picture is true, whatever happened before. -/
theorem C112_reattach (s : St) (hr : s.run = true) : (step s (.key .reattach)).screen = truth s.seg ∧ (step s (.key .reattach)).seg = s.seg := by
  simp only [step, hr, if_true, update, draw, setup, truth, List.map_map]
  exact ⟨rfl, trivial⟩

/-- **C112 (counts).** In every history the number shown for the accelerators is their number, and the number for every other type is the length of its list. -/
theorem C112_counts (g : Seg) (hg : g.Ok) (es : List Ev) (k : Key) :
    (update (after (start g) es) k).counts = (after (start g) es).seg.len ∧ (after (start g) es).seg.len phys = (after (start g) es).seg.accels.length := by
  have h0 : (start g).seg.Ok := hg
  refine ⟨?_, (after_ok _ es h0).len⟩
  rw [(update_screen _ k).2, update_seg]

theorem step_refresh (s : St) (e : Ev) (h : 10 ≤ s.refresh ∧ s.refresh ≤ 500) : 10 ≤ (step s e).refresh ∧ (step s e).refresh ≤ 500 := by
  cases e with
  | key k =>
    simp only [step]
    split
    · cases k <;> simp only [update, draw, setup] <;> omega
    · exact h
  | create a n z c => simp only [step]; split <;> exact h
  | release a => simp only [step]; split <;> exact h
  | use a v => simp only [step]; split <;> exact h
  | junk a v => simp only [step]; split <;> exact h
  | objs ty n => simp only [step]; split <;> exact h

/-- **C112 (keys).** The time between two pictures stays within 10 to 500 ms; + and - change it by 10 within these bounds; (Q) ends the loop for good. -/
theorem C112_keys (g : Seg) (es : List Ev) :
    (10 ≤ (after (start g) es).refresh ∧ (after (start g) es).refresh ≤ 500) ∧
    ((after (start g) es).run = true → (after (start g) es).refresh ≤ 490 → (step (after (start g) es) (.key .plus)).refresh = (after (start g) es).refresh + 10) ∧
    ((after (start g) es).run = true → 20 ≤ (after (start g) es).refresh → (step (after (start g) es) (.key .minus)).refresh = (after (start g) es).refresh - 10) ∧
    ((after (start g) es).run = true → (step (after (start g) es) (.key .quit)).run = false) ∧
    ((after (start g) es).run = false → ∀ k, step (after (start g) es) (.key k) = after (start g) es) := by
  refine ⟨?_, ?_, ?_, ?_, ?_⟩
  · have : ∀ (es : List Ev) (s : St), (10 ≤ s.refresh ∧ s.refresh ≤ 500) → 10 ≤ (after s es).refresh ∧ (after s es).refresh ≤ 500 := by
      intro es
      induction es with
      | nil => intro s h; exact h
      | cons e es ih => intro s h; exact ih _ (step_refresh s e h)
    exact this es _ ⟨by simp [start, draw, setup], by simp [start, draw, setup]⟩
  · intro hr hb; simp only [step, hr, if_true, update, draw]; omega
  · intro hr hb; simp only [step, hr, if_true, update, draw]; omega
  · intro hr; simp only [step, hr, if_true, update, draw]
  · intro hr k; simp only [step, hr]; rfl

/-- **C112 is violated by the code**: an accelerator that came after the table was made is in no picture, though it is counted. -/
theorem C112_violated_new (s : St) (hr : s.run = true) (a : Nat) (n : Str) (z c : Nat) (ha : a ∉ s.seg.accels) :
    (after (setup s) [.create a n z c, .key .other]).screen.length + 1 = (truth (after (setup s) [.create a n z c, .key .other]).seg).length := by
  have e : (after (setup s) [.create a n z c, .key .other]) = update (after (setup s) [.create a n z c]) .other := by
    simp only [after, List.foldl]
    rw [step.eq_def (step (setup s) (.create a n z c))]
    dsimp only
    rw [if_pos]
    have ha' : a ∉ (setup s).seg.accels := ha
    simp only [step]
    rw [if_neg ha']
    exact hr
  rw [e, C112_follows_setup s [.create a n z c] (by intro x hx; rw [List.mem_singleton.mp hx]; trivial) .other (by decide), update_seg]
  simp [after, step, setup, ha, truth]

/-- **C112 is violated by the code**: an accelerator that went is in the picture, with its name, and for its amount whatever was written since to memory that is no longer its own. -/
theorem C112_violated_released (s : St) (hr : s.run = true) (hn : s.seg.accels.Nodup) (a : Nat) (ha : a ∈ s.seg.accels) (v : Nat) :
    (s.seg.name a, v, s.seg.cap a) ∈ (after (setup s) [.release a, .junk a v, .key .other]).screen ∧
    a ∉ (after (setup s) [.release a, .junk a v, .key .other]).seg.accels := by
  have hne : a ∉ s.seg.accels.erase a := by rw [hn.mem_erase_iff]; exact fun h => h.1 rfl
  have e1 : step (setup s) (.release a) = { setup s with seg := { s.seg with accels := s.seg.accels.erase a, len := upd s.seg.len phys (s.seg.len phys - 1) } } := by
    have ha' : a ∈ (setup s).seg.accels := ha
    simp only [step]
    rw [if_pos ha']
    rfl
  have e2 : step (step (setup s) (.release a)) (.junk a v) =
      { setup s with seg := { s.seg with accels := s.seg.accels.erase a, len := upd s.seg.len phys (s.seg.len phys - 1), avail := upd s.seg.avail a v } } := by
    rw [e1]; simp only [step, if_neg hne]
  have e : (after (setup s) [.release a, .junk a v, .key .other]) = update (after (setup s) [.release a, .junk a v]) .other := by
    simp only [after, List.foldl]
    rw [e2]
    simp only [step]
    rw [if_pos]
    exact hr
  have hav : (after (setup s) [.release a, .junk a v]).seg.avail a = v := by
    simp only [after, List.foldl]; rw [e2]; simp [upd]
  constructor
  · rw [e, C112_follows_setup s [.release a, .junk a v] (by intro x hx; simp at hx; rcases hx with rfl | rfl <;> trivial) .other (by decide)]
    exact List.mem_map.mpr ⟨a, ha, by rw [hav]⟩
  · rw [e, update_seg]
    simp only [after, List.foldl]; rw [e2]
    exact hne

/-! ## Non-vacuity -/

/-- Two accelerators. -/
def g0 : Seg := ⟨[1, 2], fun a => if a = 1 then ['A'] else ['B'], fun a => 10 * a, fun a => 100 * a, fun ty => if ty = phys then 2 else 5⟩

theorem g0_ok : g0.Ok := ⟨by decide, by decide⟩

example : (start g0).screen = [(['A'], 10, 100), (['B'], 20, 200)] := by decide
example : (after (start g0) [.use 2 7, .key .other]).screen = [(['A'], 10, 100), (['B'], 7, 200)] ∧ (start g0).run = true := by decide
/-- The memory of A is given to C, which has twice as much: the row is still called A and has the old whole. -/
example : (after (start g0) [.release 1, .create 1 ['C'] 300 300, .use 1 250, .key .other]).screen = [(['A'], 250, 100), (['B'], 20, 200)] ∧
    (after (start g0) [.release 1, .create 1 ['C'] 300 300, .use 1 250, .key .reattach]).screen = [(['B'], 20, 200), (['C'], 250, 300)] := by decide
example : (after (start g0) [.create 3 ['C'] 1 1, .key .other]).counts phys = 3 := by decide

end Arax.VtopRows
