import Verif.Pipe.Segment
/-!
# C72: all processes share one whole segment at one address

Reference: `Ref` — the set of joined processes and one memory; joining an unused segment starts with zeros.
-/
namespace Arax.Segment

/-- What users expect of the segment. -/
structure Ref where
  users : List Nat := []
  mem : Nat → Nat := fun _ => 0

/-- Reference step. -/
def Ref.step (r : Ref) : Act → Ref
  | .join p _ _ _ _ => if p ∈ r.users then r else { users := p :: r.users, mem := if r.users = [] then fun _ => 0 else r.mem }
  | .exit p => { r with users := r.users.erase p }
  | .write p off v => if p ∈ r.users then { r with mem := upd r.mem off v } else r
  | .grab _ _ _ => r

/-- Reference history. -/
def Ref.exec (r : Ref) (h : List Act) : Ref := h.foldl Ref.step r

/-- Every process uses the same size; the one that creates the segment sets its size; accesses are inside the segment; no process has memory of its own where the segment goes. -/
def Uniform (B N : Nat) : Ref → List Act → Prop
  | _, [] => True
  | r, a :: h =>
    (match a with
      | .join _ size trunc _ _ => size = N ∧ (r.users = [] → trunc = true)
      | .exit _ => True
      | .write _ off _ => off < N
      | .grab _ a n => a + n ≤ B ∨ B + N ≤ a) ∧ Uniform B N (r.step a) h

@[simp] theorem upd_same {α : Type} (f : Nat → α) (i : Nat) (v : α) : upd f i v i = v := by simp [upd]
theorem upd_other {α : Type} (f : Nat → α) {i j : Nat} (v : α) (h : j ≠ i) : upd f i v j = f j := by simp [upd, h]

theorem rangeFree_iff (m : Nat → Use) (a n : Nat) : rangeFree m a n = true ↔ ∀ x, a ≤ x → x < a + n → m x = .free := by
  simp only [rangeFree, List.all_eq_true, List.mem_range, beq_iff_eq]
  constructor
  · intro h x h1 h2
    have := h (x - a) (by omega)
    rwa [show a + (x - a) = x by omega] at this
  · intro h i hi; exact h (a + i) (by omega) (by omega)

/-- The state matches the reference. -/
structure Matches (B N : Nat) (r : Ref) (s : St) : Prop where
  nodup : r.users.Nodup
  st : ∀ p, s.st p = if p ∈ r.users then .joined B N else .out
  none : r.users = [] → s.file = none
  some : r.users ≠ [] → ∃ f, s.file = some f ∧ f.size = N ∧ f.shmSize = N ∧ f.self = some B ∧ f.users = r.users.length ∧ ∀ off, off < N → f.data off = r.mem off
  mem : ∀ p x, B ≤ x → x < B + N → s.mem p x = if p ∈ r.users then .seg else .free
  out : ∀ p x, (x < B ∨ B + N ≤ x) → s.mem p x ≠ .seg

theorem matches_step {B N : Nat} (hN : 0 < N) {r : Ref} {s : St} {a : Act} {h : List Act} (hi : Matches B N r s) (hu : Uniform B N r (a :: h)) :
    Matches B N (r.step a) (step B s a) := by
  obtain ⟨ha, _⟩ := hu
  cases a with
  | join p size trunc alt alt2 =>
    obtain ⟨rfl, ht⟩ := ha
    by_cases hp : p ∈ r.users
    · have : s.st p ≠ .out := by rw [hi.st, if_pos hp]; simp
      simp only [step, if_neg this, Ref.step, if_pos hp]; exact hi
    · have hst : s.st p = .out := by rw [hi.st, if_neg hp]
      have hfree : rangeFree (s.mem p) B size = true := (rangeFree_iff _ _ _).mpr (fun x h1 h2 => by rw [hi.mem p x h1 h2, if_neg hp])
      have hm : mmap (s.mem p) B size alt = some B := by simp [mmap, hfree]
      simp only [step, if_pos hst, Ref.step, if_neg hp]
      -- the file the process works on
      have hf : ∃ f, (if trunc then (s.file.getD {}).trunc size else s.file.getD {}) = f ∧ f.size = size ∧ (f.self = Option.none ∨ f.self = .some B) ∧
          f.users = r.users.length ∧ (r.users ≠ [] → f.shmSize = size) ∧ (∀ off, off < size → f.data off = if r.users = [] then 0 else r.mem off) := by
        refine ⟨_, rfl, ?_⟩
        by_cases he : r.users = []
        · rw [hi.none he, ht he]
          simp [File.trunc, he]
        · obtain ⟨f, h1, h2, h3, h4, h5, h6⟩ := hi.some he
          rw [h1]
          cases trunc with
          | true =>
            simp only [Option.getD_some, if_true, File.trunc, he, if_false]
            refine ⟨trivial, .inr h4, h5, fun _ => h3, fun off ho => ?_⟩
            show (if off < size ∧ off < f.size then f.data off else 0) = _
            rw [if_pos ⟨ho, by omega⟩]; exact h6 off ho
          | false =>
            simp only [Option.getD_some, he, if_false]
            exact ⟨h2, .inr h4, h5, fun _ => h3, h6⟩
      obtain ⟨f, hfe, f1, f2, f3, f4, f5⟩ := hf
      have hz : ¬ f.size = 0 := by omega
      have hself : f.self.getD B = B := by rcases f2 with e | e <;> simp [e]
      simp only [joinFile, hfe, hm, if_neg hz, hself, if_true]
      refine ⟨?_, ?_, fun he => (by cases he), fun _ => ⟨_, rfl, f1, ?_, rfl, ?_, ?_⟩, ?_, ?_⟩
      · exact List.nodup_cons.mpr ⟨hp, hi.nodup⟩
      · intro q
        by_cases e : q = p
        · subst e; simp
        · (try dsimp only); rw [upd_other _ _ e, hi.st]; simp [e]
      · show (if f.users = 0 then size else f.shmSize) = size
        split
        · rfl
        · rename_i hne; exact f4 (fun e => hne (by rw [f3, e]; rfl))
      · show f.users + 1 = _; rw [f3]; rfl
      · intro off ho
        show f.data off = (if r.users = [] then fun _ => 0 else r.mem) off
        rw [f5 off ho]; split <;> rfl
      · intro q x h1 h2
        by_cases e : q = p
        · subst e; simp [mapAt, h1, h2]
        · (try dsimp only); rw [upd_other _ _ e, hi.mem q x h1 h2]; simp [e]
      · intro q x hx
        by_cases e : q = p
        · subst e
          have hn : ¬ (B ≤ x ∧ x < B + size) := by omega
          simp only [upd_same, mapAt, if_neg hn]
          exact hi.out q x hx
        · (try dsimp only); rw [upd_other _ _ e]; exact hi.out q x hx
  | exit p =>
    by_cases hp : p ∈ r.users
    · have hne : r.users ≠ [] := fun e => by rw [e] at hp; cases hp
      obtain ⟨f, h1, h2, h3, h4, h5, h6⟩ := hi.some hne
      have hst : s.st p = .joined B N := by rw [hi.st, if_pos hp]
      have hlen : (r.users.erase p).length = r.users.length - 1 := List.length_erase_of_mem hp
      have hpos : 0 < r.users.length := List.length_pos_of_mem hp
      have hmem : ∀ q, q ∈ r.users.erase p ↔ q ≠ p ∧ q ∈ r.users := fun q => hi.nodup.mem_erase_iff
      simp only [step, hst, h1, Ref.step, h3]
      refine ⟨hi.nodup.erase p, ?_, ?_, ?_, ?_, ?_⟩
      · intro q
        by_cases e : q = p
        · subst e; simp [hmem]
        · (try dsimp only); rw [upd_other _ _ e, hi.st]; simp [hmem, e]
      · intro he
        show (if f.users = 1 then Option.none else _) = _
        have he' : r.users.erase p = [] := he
        rw [he'] at hlen
        simp at hlen
        rw [if_pos (by omega)]
      · intro he
        have he' : r.users.erase p ≠ [] := he
        have : 0 < (r.users.erase p).length := List.length_pos_iff.mpr he'
        show ∃ f', (if f.users = 1 then Option.none else _) = Option.some f' ∧ _
        rw [if_neg (by omega)]
        refine ⟨_, rfl, h2, rfl, h4, ?_, h6⟩
        show f.users - 1 = (r.users.erase p).length
        omega
      · intro q x hx1 hx2
        by_cases e : q = p
        · subst e; simp [unmapAt, hx1, hx2, hmem]
        · (try dsimp only); rw [upd_other _ _ e, hi.mem q x hx1 hx2]; simp [hmem, e]
      · intro q x hx
        by_cases e : q = p
        · subst e
          have hn : ¬ (B ≤ x ∧ x < B + N) := by omega
          simp only [upd_same, unmapAt, if_neg hn]; exact hi.out q x hx
        · (try dsimp only); rw [upd_other _ _ e]; exact hi.out q x hx
    · have hst : s.st p = .out := by rw [hi.st, if_neg hp]
      have : r.users.erase p = r.users := List.erase_of_not_mem hp
      simp only [step, hst, Ref.step, this]
      exact ⟨hi.nodup, hi.st, hi.none, hi.some, hi.mem, hi.out⟩
  | write p off v =>
    have ho : off < N := ha
    by_cases hp : p ∈ r.users
    · have hne : r.users ≠ [] := fun e => by rw [e] at hp; cases hp
      obtain ⟨f, h1, h2, h3, h4, h5, h6⟩ := hi.some hne
      have hst : s.st p = .joined B N := by rw [hi.st, if_pos hp]
      have hm : s.mem p (B + off) = .seg := by rw [hi.mem p _ (by omega) (by omega), if_pos hp]
      have hsz : off < f.size := by omega
      simp only [step, hst, h1, hm, ne_eq, not_true_eq_false, if_false, if_pos hsz, Ref.step, if_pos hp]
      refine ⟨hi.nodup, hi.st, fun he => absurd he hne, fun _ => ⟨_, rfl, h2, h3, h4, h5, ?_⟩, hi.mem, hi.out⟩
      intro o ho'
      by_cases e : o = off
      · subst e; simp
      · show upd f.data off v o = upd r.mem off v o
        (try dsimp only); rw [upd_other _ _ e, upd_other _ _ e]; exact h6 o ho'
    · have hst : s.st p = .out := by rw [hi.st, if_neg hp]
      simp only [step, hst, Ref.step, if_neg hp]; exact hi
  | grab p a n =>
    have hd : a + n ≤ B ∨ B + N ≤ a := ha
    simp only [step, Ref.step]
    split
    · refine ⟨hi.nodup, hi.st, hi.none, hi.some, ?_, ?_⟩
      · intro q x h1 h2
        by_cases e : q = p
        · subst e
          have hn : ¬ (a ≤ x ∧ x < a + n) := by omega
          simp only [upd_same, if_neg hn]; exact hi.mem q x h1 h2
        · (try dsimp only); rw [upd_other _ _ e]; exact hi.mem q x h1 h2
      · intro q x hx
        by_cases e : q = p
        · subst e
          simp only [upd_same]; split
          · simp
          · exact hi.out q x hx
        · (try dsimp only); rw [upd_other _ _ e]; exact hi.out q x hx
    · exact hi

theorem matches_exec {B N : Nat} (hN : 0 < N) : ∀ (h : List Act) (r : Ref) (s : St), Matches B N r s → Uniform B N r h → Matches B N (r.exec h) (exec B s h)
  | [], _, _, hi, _ => hi
  | a :: h, r, s, hi, hu => matches_exec hN h (r.step a) (step B s a) (matches_step hN hi hu) hu.2

/-- **C72 (equal sizes, partial).** If all processes configure the same size and have the place of the segment free, then after every history: no process has failed or been killed; exactly the processes that joined and
did not leave are in, all with the whole segment at the same address; the segment holds what was written last by anyone since it was created; it exists exactly while somebody is in; a process that left has
nothing of it mapped any more. -/
theorem C72_same_size_partial {B N : Nat} (hN : 0 < N) (mem : Nat → Nat → Use) (hm : ∀ p x, mem p x ≠ .seg) (hf : ∀ p x, B ≤ x → x < B + N → mem p x = .free) (h : List Act)
    (hu : Uniform B N {} h) :
    let s := exec B { mem := mem } h
    let r := Ref.exec {} h
    (∀ p, s.st p = if p ∈ r.users then .joined B N else .out) ∧
    (∀ p x, s.mem p x = .seg ↔ p ∈ r.users ∧ B ≤ x ∧ x < B + N) ∧
    (s.file = none ↔ r.users = []) ∧
    (∀ f, s.file = some f → f.size = N ∧ ∀ off, off < N → f.data off = r.mem off) := by
  have h0 : Matches B N {} { mem := mem } :=
    ⟨List.nodup_nil, fun p => by simp, fun _ => rfl, fun h => absurd rfl h, fun p x h1 h2 => by simpa using hf p x h1 h2, fun p x _ => hm p x⟩
  have hi := matches_exec hN h {} _ h0 hu
  refine ⟨hi.st, ?_, ?_, ?_⟩
  · intro p x
    by_cases hx : B ≤ x ∧ x < B + N
    · rw [hi.mem p x hx.1 hx.2]
      by_cases hp : p ∈ (Ref.exec {} h).users <;> simp [hp, hx]
    · constructor
      · intro e; exact absurd e (hi.out p x (by omega))
      · intro e; exact absurd e.2 hx
  · constructor
    · intro e
      by_cases hr : (Ref.exec {} h).users = []
      · exact hr
      · obtain ⟨f, h1, _⟩ := hi.some hr; rw [h1] at e; cases e
    · exact hi.none
  · intro f hfe
    by_cases hr : (Ref.exec {} h).users = []
    · rw [hi.none hr] at hfe; cases hfe
    · obtain ⟨f', h1, h2, _, _, _, h6⟩ := hi.some hr
      rw [h1] at hfe; cases hfe
      exact ⟨h2, h6⟩

/-- Two processes; one writes, the other one joins without truncating, leaves, joins again, allocates memory. -/
example : Uniform 100 8 {} [.join 1 8 true 300 300, .write 1 7 42, .join 2 8 false 300 300, .exit 2, .grab 2 200 5, .join 2 8 true 300 300, .exit 1, .write 2 3 1] ∧
    (Ref.exec {} [.join 1 8 true 300 300, .write 1 7 42, .join 2 8 false 300 300, .exit 2, .grab 2 200 5, .join 2 8 true 300 300, .exit 1, .write 2 3 1]).mem 7 = 42 := by
  constructor
  · simp [Uniform, Ref.step]
  · decide

/-- Leaving does not take the process's own memory, with equal sizes. -/
theorem C72_own_memory_partial {B N : Nat} (hN : 0 < N) (mem : Nat → Nat → Use) (hm : ∀ p x, mem p x ≠ .seg) (hf : ∀ p x, B ≤ x → x < B + N → mem p x = .free) (h : List Act) (a : Act)
    (hu : Uniform B N {} (h ++ [a])) (p x : Nat) (ho : (exec B { mem := mem } h).mem p x = .own) : (exec B { mem := mem } (h ++ [a])).mem p x = .own := by
  have hsplit : ∀ (h : List Act) (r : Ref), Uniform B N r (h ++ [a]) → Uniform B N r h ∧ Uniform B N (r.exec h) [a] := by
    intro h
    induction h with
    | nil => intro r hu; exact ⟨trivial, hu⟩
    | cons b h ih =>
      intro r hu
      have := ih (r.step b) hu.2
      exact ⟨⟨hu.1, this.1⟩, this.2⟩
  obtain ⟨hu1, hu2⟩ := hsplit h {} hu
  have h0 : Matches B N {} { mem := mem } :=
    ⟨List.nodup_nil, fun p => by simp, fun _ => rfl, fun h => absurd rfl h, fun p x h1 h2 => by simpa using hf p x h1 h2, fun p x _ => hm p x⟩
  have hi := matches_exec hN h {} _ h0 hu1
  have he : exec B { mem := mem } (h ++ [a]) = step B (exec B { mem := mem } h) a := by simp [exec]
  rw [he]
  generalize exec B { mem := mem } h = s at hi ho
  generalize Ref.exec {} h = r at hi hu2
  have hxo : x < B ∨ B + N ≤ x := by
    by_cases hx : B ≤ x ∧ x < B + N
    · rw [hi.mem p x hx.1 hx.2] at ho; split at ho <;> cases ho
    · omega
  cases a with
  | join q size trunc alt alt2 =>
    obtain ⟨rfl, ht⟩ := hu2.1
    by_cases hp : q ∈ r.users
    · have : s.st q ≠ .out := by rw [hi.st, if_pos hp]; simp
      simp only [step, if_neg this]; exact ho
    · have hst : s.st q = .out := by rw [hi.st, if_neg hp]
      have hfree : rangeFree (s.mem q) B size = true := (rangeFree_iff _ _ _).mpr (fun x h1 h2 => by rw [hi.mem q x h1 h2, if_neg hp])
      have hmm : mmap (s.mem q) B size alt = some B := by simp [mmap, hfree]
      have hself : (if trunc then (s.file.getD {}).trunc size else s.file.getD {}).self.getD B = B := by
        by_cases hemp : r.users = []
        · rw [hi.none hemp, ht hemp]; simp [File.trunc]
        · obtain ⟨f, g1, _, _, g4, _⟩ := hi.some hemp
          rw [g1]
          cases trunc <;> simp [File.trunc, g4]
      simp only [step, if_pos hst, joinFile, hmm]
      generalize (if trunc then (s.file.getD {}).trunc size else s.file.getD {}) = f at hself
      simp only [hself, if_true]
      split
      · exact ho
      · by_cases e : p = q
        · subst e
          have hn : ¬ (B ≤ x ∧ x < B + size) := by omega
          simp only [upd_same, mapAt, if_neg hn]; exact ho
        · show upd s.mem q _ p x = _
          rw [upd_other _ _ e]; exact ho
  | exit q =>
    by_cases hp : q ∈ r.users
    · have hne : r.users ≠ [] := fun e => by rw [e] at hp; cases hp
      obtain ⟨f, h1, h2, h3, h4, h5, h6⟩ := hi.some hne
      have hst : s.st q = .joined B N := by rw [hi.st, if_pos hp]
      simp only [step, hst, h1, h3]
      by_cases e : p = q
      · subst e
        have hn : ¬ (B ≤ x ∧ x < B + N) := by omega
        simp only [upd_same, unmapAt, if_neg hn]; exact ho
      · (try dsimp only); rw [upd_other _ _ e]; exact ho
    · have hst : s.st q = .out := by rw [hi.st, if_neg hp]
      simp only [step, hst]; exact ho
  | write q off v =>
    simp only [step]
    split
    · split
      · exact ho
      · split <;> exact ho
    · exact ho
  | grab q a n =>
    simp only [step]
    split
    · by_cases e : p = q
      · subst e; simp only [upd_same]; split
        · rfl
        · exact ho
      · (try dsimp only); rw [upd_other _ _ e]; exact ho
    · exact ho

/-! ### Sizes that are at least the size of the segment: contents survive -/

/-- Pages of the segment in use: those of the process that created it. -/
def segSize (s : St) : Nat :=
  match s.file with
  | some f => if f.users = 0 then 0 else f.shmSize
  | none => 0

/-- Nobody joins with less than the size of the segment, who creates it sets its size, accesses are inside. -/
def Larger (B : Nat) : St → List Act → Prop
  | _, [] => True
  | s, a :: h =>
    (match a with
      | .join _ size trunc _ _ => segSize s ≤ size ∧ 0 < size ∧ (segSize s = 0 → trunc = true)
      | .exit _ => True
      | .write _ off _ => off < segSize s
      | .grab _ _ _ => True) ∧ Larger B (step B s a) h

/-- Invariant. -/
structure KInv (L : List Nat) (s : St) : Prop where
  nodup : L.Nodup
  mem : ∀ p, p ∈ L ↔ ∃ b l, s.st p = .joined b l
  alive : ∀ p, s.st p ≠ .segv ∧ s.st p ≠ .bus
  file : L ≠ [] → ∃ f, s.file = some f
  users : ∀ f, s.file = some f → f.users = L.length ∧ (L ≠ [] → 0 < f.shmSize ∧ f.shmSize ≤ f.size ∧ ∃ b, f.self = some b)
  mapped : ∀ f p b l, s.file = some f → s.st p = .joined b l → ∀ off, off < f.shmSize → s.mem p (b + off) = .seg

theorem mapAt_in {m : Nat → Use} {a n off : Nat} (h : off < n) : mapAt m a n (a + off) = .seg := by
  simp [mapAt, h]

theorem segSize_of {L : List Nat} {s : St} (hi : KInv L s) (hne : L ≠ []) {f : File} (hf : s.file = some f) : segSize s = f.shmSize := by
  have := (hi.users f hf).1
  have hpos : 0 < L.length := List.length_pos_iff.mpr hne
  simp only [segSize, hf]; rw [if_neg (by omega)]

theorem segSize_nil {s : St} (hi : KInv [] s) : segSize s = 0 := by
  unfold segSize; split
  · rename_i f hf
    have := (hi.users f hf).1
    rw [if_pos (by simpa using this)]
  · rfl

/-- The file after the optional truncation keeps what matters. -/
theorem trunc_keep {L : List Nat} {s : St} (hi : KInv L s) {size : Nat} {trunc : Bool} (h1 : segSize s ≤ size) (_h2 : 0 < size) (h3 : segSize s = 0 → trunc = true) :
    ∃ f, (if trunc then (s.file.getD {}).trunc size else s.file.getD {}) = f ∧ f.users = L.length ∧ (L = [] → f.size = size) ∧
      (L ≠ [] → ∃ g, s.file = some g ∧ f.self = g.self ∧ f.shmSize = g.shmSize ∧ f.shmSize ≤ f.size ∧ 0 < f.shmSize ∧ ∀ off, off < g.shmSize → f.data off = g.data off) := by
  refine ⟨_, rfl, ?_⟩
  by_cases he : L = []
  · subst he
    have hs := segSize_nil hi
    have ht := h3 hs
    subst ht
    refine ⟨?_, fun _ => rfl, fun h => absurd rfl h⟩
    cases hf : s.file with
    | none => simp [File.trunc]
    | some g => simpa [File.trunc] using (hi.users g hf).1
  · obtain ⟨g, hg⟩ := hi.file he
    obtain ⟨u1, u2⟩ := hi.users g hg
    obtain ⟨u2, u3, u4⟩ := u2 he
    have hs := segSize_of hi he hg
    rw [hg]
    cases trunc with
    | true =>
      simp only [Option.getD_some, if_true, File.trunc]
      refine ⟨u1, fun e => absurd e he, fun _ => ⟨g, rfl, rfl, rfl, by show g.shmSize ≤ size; omega, u2, ?_⟩⟩
      intro off ho
      show (if off < size ∧ off < g.size then g.data off else 0) = _
      rw [if_pos ⟨by omega, by omega⟩]
    | false =>
      simp only [Option.getD_some]
      exact ⟨u1, fun e => absurd e he, fun _ => ⟨g, rfl, rfl, rfl, u3, u2, fun _ _ => rfl⟩⟩

/-- A join that fails leaves the invariant. -/
theorem kinv_fail {L : List Nat} {s : St} (hi : KInv L s) {p : Nat} {f : File} (hp : s.st p = .out) (fu : f.users = L.length)
    (fk : L ≠ [] → ∃ g, s.file = some g ∧ f.shmSize = g.shmSize ∧ f.shmSize ≤ f.size ∧ 0 < f.shmSize ∧ ∃ b, f.self = some b) :
    KInv L { s with file := some f, st := upd s.st p .failed } := by
  have hnot : p ∉ L := fun h => by obtain ⟨b, l, h⟩ := (hi.mem p).mp h; rw [hp] at h; cases h
  refine ⟨hi.nodup, ?_, ?_, fun _ => ⟨f, rfl⟩, ?_, ?_⟩
  · intro q
    by_cases e : q = p
    · subst e
      simp only [upd_same]
      exact ⟨fun h => absurd h hnot, fun ⟨b, l, h⟩ => (by cases h)⟩
    · simp only [upd_other _ _ e]; exact hi.mem q
  · intro q
    by_cases e : q = p
    · subst e; simp
    · simp only [upd_other _ _ e]; exact hi.alive q
  · intro g hg; cases hg
    refine ⟨fu, fun hne => ?_⟩
    obtain ⟨g, _, _, k2, k3, k4⟩ := fk hne
    exact ⟨k3, k2, k4⟩
  · intro g q b l hg hq off ho
    cases hg
    by_cases e : q = p
    · subst e
      simp only [upd_same] at hq
      cases hq
    · simp only [upd_other _ _ e] at hq
      have hne : L ≠ [] := fun e' => by have := (hi.mem q).mpr ⟨b, l, hq⟩; rw [e'] at this; cases this
      obtain ⟨g, k0, k1, _⟩ := fk hne
      exact hi.mapped g q b l k0 hq off (by omega)

/-- A join that succeeds establishes the invariant. -/
theorem kinv_ok {L : List Nat} {s : St} (hi : KInv L s) {p v size : Nat} {f f' : File} {m : Nat → Use} (hp : s.st p = .out) (hs : 0 < size)
    (hm : ∀ off, off < size → m (v + off) = .seg)
    (fu : f.users = L.length) (fs : L = [] → f.size = size)
    (fk : L ≠ [] → ∃ g, s.file = some g ∧ f.shmSize = g.shmSize ∧ f.shmSize ≤ f.size ∧ 0 < f.shmSize ∧ f.shmSize ≤ size)
    (hf' : f' = { f with self := some v, users := f.users + 1, shmSize := if f.users = 0 then size else f.shmSize }) :
    KInv (p :: L) { s with file := some f', st := upd s.st p (.joined v size), mem := upd s.mem p m } := by
  have hnot : p ∉ L := fun h => by obtain ⟨b, l, h⟩ := (hi.mem p).mp h; rw [hp] at h; cases h
  have key : (L = [] ∧ f'.shmSize = size ∧ f'.size = size) ∨ (L ≠ [] ∧ f'.shmSize = f.shmSize ∧ f'.size = f.size) := by
    subst hf'
    by_cases he : L = []
    · exact .inl ⟨he, by simp [fu, he], fs he⟩
    · have : 0 < L.length := List.length_pos_iff.mpr he
      exact .inr ⟨he, by show (if f.users = 0 then size else f.shmSize) = _; rw [if_neg (by omega)], rfl⟩
  refine ⟨List.nodup_cons.mpr ⟨hnot, hi.nodup⟩, ?_, ?_, fun _ => ⟨f', rfl⟩, ?_, ?_⟩
  · intro q
    by_cases e : q = p
    · subst e; simp
    · simp only [upd_other _ _ e, List.mem_cons, e, false_or]; exact hi.mem q
  · intro q
    by_cases e : q = p
    · subst e; simp
    · simp only [upd_other _ _ e]; exact hi.alive q
  · intro g hg; cases hg
    refine ⟨by rw [hf']; show f.users + 1 = _; rw [fu]; rfl, fun _ => ?_⟩
    refine ⟨?_, ?_, ⟨v, by rw [hf']⟩⟩
    · rcases key with ⟨_, k1, _⟩ | ⟨k0, k1, _⟩
      · omega
      · obtain ⟨_, _, _, _, k, _⟩ := fk k0; omega
    · rcases key with ⟨_, k1, k2⟩ | ⟨k0, k1, k2⟩
      · omega
      · obtain ⟨_, _, _, k, _, _⟩ := fk k0; omega
  · intro g q b l hg hq off ho
    cases hg
    by_cases e : q = p
    · subst e
      simp only [upd_same] at hq ⊢
      cases hq
      refine hm off ?_
      rcases key with ⟨_, k1, _⟩ | ⟨k0, k1, _⟩
      · omega
      · obtain ⟨_, _, _, _, _, k⟩ := fk k0; omega
    · simp only [upd_other _ _ e] at hq ⊢
      have hne : L ≠ [] := fun e' => by have := (hi.mem q).mpr ⟨b, l, hq⟩; rw [e'] at this; cases this
      rcases key with ⟨k0, _⟩ | ⟨_, k1, _⟩
      · exact absurd k0 hne
      · obtain ⟨g, k2, k3, _⟩ := fk hne
        exact hi.mapped g q b l k2 hq off (by omega)

theorem kinv_join {B : Nat} {L : List Nat} {s : St} (hi : KInv L s) {p size : Nat} {trunc : Bool} {alt alt2 : Nat} (hp : s.st p = .out) (h1 : segSize s ≤ size) (h2 : 0 < size)
    (h3 : segSize s = 0 → trunc = true) :
    (∃ L', KInv L' (joinFile B s p size trunc alt alt2 (s.file.getD {}))) ∧
    ∀ g, s.file = some g → ∃ g', (joinFile B s p size trunc alt alt2 (s.file.getD {})).file = some g' ∧ (L ≠ [] → g'.shmSize = g.shmSize ∧ ∀ off, off < g.shmSize → g'.data off = g.data off) := by
  obtain ⟨f, hfe, f1, f2, f3⟩ := trunc_keep hi h1 h2 h3
  have hsz : 0 < f.size := by
    by_cases he : L = []
    · rw [f2 he]; exact h2
    · obtain ⟨g, _, _, _, k1, k2, _⟩ := f3 he; omega
  have hself : L ≠ [] → ∃ b, f.self = some b := fun hne => by
    obtain ⟨g, k0, k1, _⟩ := f3 hne
    rw [k1]; exact ((hi.users g k0).2 hne).2.2
  have fk : L ≠ [] → ∃ g, s.file = some g ∧ f.shmSize = g.shmSize ∧ f.shmSize ≤ f.size ∧ 0 < f.shmSize ∧ f.shmSize ≤ size := fun hne => by
    obtain ⟨g, k0, k1, k2, k3, k4, _⟩ := f3 hne
    have := segSize_of hi hne k0
    exact ⟨g, k0, k2, k3, k4, by omega⟩
  have keep : ∀ g, s.file = some g → ∀ g' : File, (L ≠ [] → g'.shmSize = f.shmSize) → g'.data = f.data → (L ≠ [] → g'.shmSize = g.shmSize ∧ ∀ off, off < g.shmSize → g'.data off = g.data off) := by
    intro g hg g' e1 e2 hne
    obtain ⟨g0, k0, _, k2, _, _, k5⟩ := f3 hne
    rw [hg] at k0; cases k0
    exact ⟨by rw [e1 hne, k2], fun off ho => by rw [e2]; exact k5 off ho⟩
  have hu : L ≠ [] → (if f.users = 0 then size else f.shmSize) = f.shmSize := fun hne => by
    have : 0 < L.length := List.length_pos_iff.mpr hne
    rw [if_neg (by omega)]
  have hz : ¬ f.size = 0 := by omega
  simp only [joinFile, hfe, if_neg hz]
  cases hmm : mmap (s.mem p) B size alt with
  | none =>
    refine ⟨⟨L, kinv_fail hi hp f1 (fun hne => ?_)⟩, fun g hg => ⟨f, rfl, keep g hg f (fun _ => rfl) rfl⟩⟩
    obtain ⟨g, k0, k1, k2, k3, _⟩ := fk hne
    exact ⟨g, k0, k1, k2, k3, hself hne⟩
  | some v =>
    dsimp only
    have fk' : ∀ b, L ≠ [] → ∃ g, s.file = some g ∧ ({ f with self := some b } : File).shmSize = g.shmSize ∧ ({ f with self := some b } : File).shmSize ≤ ({ f with self := some b } : File).size ∧
        0 < ({ f with self := some b } : File).shmSize ∧ ∃ c, ({ f with self := some b } : File).self = some c := fun b hne => by
      obtain ⟨g, k0, k1, k2, k3, _⟩ := fk hne
      exact ⟨g, k0, k1, k2, k3, b, rfl⟩
    split
    · rename_i hv
      refine ⟨⟨p :: L, kinv_ok hi hp h2 (fun off ho => mapAt_in ho) f1 f2 fk ?_⟩, fun g hg => ⟨_, rfl, keep g hg _ (fun hne => hu hne) rfl⟩⟩
      rw [hv]
    · cases hm2 : mmap (unmapAt (mapAt (s.mem p) v size) v f.shmSize) (f.self.getD v) size alt2 with
      | none =>
        exact ⟨⟨L, kinv_fail hi hp f1 (fk' _)⟩, fun g hg => ⟨_, rfl, keep g hg _ (fun _ => rfl) rfl⟩⟩
      | some w =>
        dsimp only
        split
        · rename_i hw
          refine ⟨⟨p :: L, kinv_ok hi hp h2 (fun off ho => mapAt_in ho) f1 f2 fk ?_⟩, fun g hg => ⟨_, rfl, keep g hg _ (fun hne => hu hne) rfl⟩⟩
          rw [hw]
        · exact ⟨⟨L, kinv_fail hi hp f1 (fk' _)⟩, fun g hg => ⟨_, rfl, keep g hg _ (fun _ => rfl) rfl⟩⟩

theorem kinv_step {B : Nat} {L : List Nat} {s : St} {a : Act} {h : List Act} (hi : KInv L s) (hl : Larger B s (a :: h)) :
    ∃ L', KInv L' (step B s a) := by
  obtain ⟨ha, _⟩ := hl
  cases a with
  | join p size trunc alt alt2 =>
    obtain ⟨h1, h2, h3⟩ := ha
    simp only [step]
    split
    · rename_i hp
      exact (kinv_join hi hp h1 h2 h3).1
    · exact ⟨L, hi⟩
  | exit p =>
    simp only [step]
    split
    · rename_i b l f hst hf
      obtain ⟨u1, u2⟩ := hi.users f hf
      have hp : p ∈ L := (hi.mem p).mpr ⟨b, l, hst⟩
      have hne : L ≠ [] := fun e => by rw [e] at hp; cases hp
      obtain ⟨u2, u3, u4⟩ := u2 hne
      have hlen : (L.erase p).length = L.length - 1 := List.length_erase_of_mem hp
      have hpos : 0 < L.length := List.length_pos_of_mem hp
      have hmem : ∀ q, q ∈ L.erase p ↔ q ≠ p ∧ q ∈ L := fun q => hi.nodup.mem_erase_iff
      refine ⟨L.erase p, hi.nodup.erase p, ?_, ?_, ?_, ?_, ?_⟩
      · intro q
        by_cases e : q = p
        · subst e; simp [hmem]
        · simp only [upd_other _ _ e, hmem, ne_eq, e, not_false_eq_true, true_and]; exact hi.mem q
      · intro q
        by_cases e : q = p
        · subst e; simp
        · simp only [upd_other _ _ e]; exact hi.alive q
      · intro he
        have : 0 < (L.erase p).length := List.length_pos_iff.mpr he
        show ∃ g, (if f.users = 1 then none else _) = some g
        rw [if_neg (by omega)]; exact ⟨_, rfl⟩
      · intro g hg
        have hg' : (if f.users = 1 then none else some { f with users := f.users - 1 }) = some g := hg
        split at hg'
        · cases hg'
        · cases hg'
          exact ⟨by show f.users - 1 = _; omega, fun _ => ⟨u2, u3, u4⟩⟩
      · intro g q b' l' hg hq off ho
        have hg' : (if f.users = 1 then none else some { f with users := f.users - 1 }) = some g := hg
        split at hg'
        · cases hg'
        · cases hg'
          by_cases e : q = p
          · subst e; simp only [upd_same] at hq; cases hq
          · simp only [upd_other _ _ e] at hq ⊢
            exact hi.mapped f q b' l' hf hq off ho
    · exact ⟨L, hi⟩
  | write p off v =>
    simp only [step]
    split
    · rename_i b l f hst hf
      have hp : p ∈ L := (hi.mem p).mpr ⟨b, l, hst⟩
      have hne : L ≠ [] := fun e => by rw [e] at hp; cases hp
      have hs := segSize_of hi hne hf
      have ho : off < segSize s := ha
      obtain ⟨u1, u2⟩ := hi.users f hf
      obtain ⟨u2, u3, u4⟩ := u2 hne
      have hm := hi.mapped f p b l hf hst off (by omega)
      have hsz : off < f.size := by omega
      simp only [hm, ne_eq, not_true_eq_false, if_false, if_pos hsz]
      refine ⟨L, hi.nodup, hi.mem, hi.alive, fun _ => ⟨_, rfl⟩, ?_, ?_⟩
      · intro g hg; cases hg; exact ⟨u1, fun _ => ⟨u2, u3, u4⟩⟩
      · intro g q b' l' hg hq o ho'
        cases hg; exact hi.mapped f q b' l' hf hq o ho'
    · exact ⟨L, hi⟩
  | grab p a n =>
    simp only [step]
    split
    · rename_i hfree
      refine ⟨L, hi.nodup, hi.mem, hi.alive, hi.file, hi.users, ?_⟩
      intro f q b l hf hq off ho
      have hm := hi.mapped f q b l hf hq off ho
      by_cases e : q = p
      · subst e
        simp only [upd_same]
        split
        · rename_i hx
          rw [(rangeFree_iff _ _ _).mp hfree _ hx.1 hx.2] at hm; cases hm
        · exact hm
      · simp only [upd_other _ _ e]; exact hm
    · exact ⟨L, hi⟩

theorem kinv_exec {B : Nat} : ∀ (h : List Act) (L : List Nat) (s : St), KInv L s → Larger B s h → ∃ L', KInv L' (exec B s h)
  | [], L, _, hi, _ => ⟨L, hi⟩
  | a :: h, _, s, hi, hl => by
    obtain ⟨L', hi'⟩ := kinv_step hi hl
    exact kinv_exec h L' (step B s a) hi' hl.2

theorem kinv_init (mem : Nat → Nat → Use) : KInv [] { mem := mem } :=
  ⟨List.nodup_nil, fun p => by simp, fun p => by simp, fun h => absurd rfl h, fun f hf => (by cases hf), fun f p b l hf => (by cases hf)⟩

/-- **C72 (larger sizes, partial).** In every history in which nobody joins with less than the size of the segment: after any history, no process has been killed by an access, a process that is in can access every page of the segment, and
a further process that joins (whether its join succeeds or not) leaves the size and all the contents as they were. -/
theorem C72_contents_partial (B : Nat) (mem : Nat → Nat → Use) (h : List Act) (hl : Larger B { mem := mem } h) :
    let s := exec B { mem := mem } h
    (∀ p, s.st p ≠ .segv ∧ s.st p ≠ .bus) ∧
    (∀ p b l, s.st p = .joined b l → ∃ f, s.file = some f ∧ 0 < f.shmSize ∧ f.shmSize ≤ f.size ∧ ∀ off, off < f.shmSize → s.mem p (b + off) = .seg) ∧
    (∀ p q b l size trunc alt alt2, s.st q = .joined b l → segSize s ≤ size → 0 < size →
      ∃ f f', s.file = some f ∧ (step B s (.join p size trunc alt alt2)).file = some f' ∧ f'.shmSize = f.shmSize ∧ ∀ off, off < f.shmSize → f'.data off = f.data off) := by
  obtain ⟨L, hi⟩ := kinv_exec h [] _ (kinv_init mem) hl
  refine ⟨hi.alive, ?_, ?_⟩
  · intro p b l hp
    have hne : L ≠ [] := fun e => by have := (hi.mem p).mpr ⟨b, l, hp⟩; rw [e] at this; cases this
    obtain ⟨f, hf⟩ := hi.file hne
    obtain ⟨u1, u2, _⟩ := (hi.users f hf).2 hne
    exact ⟨f, hf, u1, u2, fun off ho => hi.mapped f p b l hf hp off ho⟩
  · intro p q b l size trunc alt alt2 hq h1 h2
    have hne : L ≠ [] := fun e => by have := (hi.mem q).mpr ⟨b, l, hq⟩; rw [e] at this; cases this
    obtain ⟨f, hf⟩ := hi.file hne
    have hs := segSize_of hi hne hf
    have hpos := ((hi.users f hf).2 hne).1
    generalize exec B { mem := mem } h = s at *
    simp only [step]
    split
    · rename_i hp
      obtain ⟨g, k1, k2⟩ := (kinv_join (B := B) (alt := alt) (alt2 := alt2) (trunc := trunc) hi hp h1 h2 (by omega)).2 f hf
      exact ⟨f, g, hf, k1, (k2 hne).1, (k2 hne).2⟩
    · exact ⟨f, f, hf, hf, rfl, fun _ _ => rfl⟩

/-- The hypotheses are met with growing sizes and a process that has the usual place taken. -/
example : Larger 100 { mem := fun p x => if p = 2 ∧ x = 101 then .own else .free } [.join 1 4 true 300 300, .write 1 3 7, .join 3 9 true 300 300, .write 3 2 5, .join 2 6 false 300 300] ∧
    (exec 100 { mem := fun p x => if p = 2 ∧ x = 101 then .own else .free } [.join 1 4 true 300 300, .write 1 3 7, .join 3 9 true 300 300, .write 3 2 5, .join 2 6 false 300 300]).st 2 = .failed := by
  constructor
  · refine ⟨⟨by decide, by decide, by decide⟩, ?_⟩
    refine ⟨by decide, ?_⟩
    refine ⟨⟨by decide, by decide, by decide⟩, ?_⟩
    refine ⟨by decide, ?_⟩
    exact ⟨⟨by decide, by decide, by decide⟩, trivial⟩
  · decide

/-! ### What fails -/

/-- Nothing of its own anywhere. -/
def allFree : Nat → Nat → Use := fun _ _ => .free

/-- **C72 is violated (a smaller process).** For all sizes: a process that joins with a smaller `shm_size` (with the default `shm_trunc`) cuts the segment under the others: what they wrote behind it is
lost, and their next access there kills them. -/
theorem C72_violated_shrink (B N M off v w : Nat) (hM : 0 < M) (h1 : M ≤ off) (h2 : off < N) :
    let s := exec B { mem := allFree } [.join 1 N true 0 0, .write 1 off v, .join 2 M true 0 0]
    (∃ f, s.file = some f ∧ f.shmSize = N ∧ f.data off = 0) ∧ s.st 1 = .joined B N ∧ (step B s (.write 1 off w)).st 1 = .bus := by
  have hf : ∀ p n, rangeFree (allFree p) B n = true := fun p n => (rangeFree_iff _ _ _).mpr (fun _ _ _ => rfl)
  have hN : N ≠ 0 := by omega
  have hM' : M ≠ 0 := by omega
  have e1 : ¬ (off < M) := by omega
  have hb : off < N := h2
  simp [exec, step, joinFile, mmap, hf, upd, mapAt, File.trunc, hN, hM', e1, hb]

/-- **C72 is violated (a smaller process that does not truncate).** It is killed when it follows a pointer to the part it did not map, for example an object another process created. -/
theorem C72_violated_small (B N M off v : Nat) (hM : 0 < M) (h1 : M ≤ off) (h2 : off < N) :
    (exec B { mem := allFree } [.join 1 N true 0 0, .join 2 M false 0 0, .write 2 off v]).st 2 = .segv := by
  have hf : ∀ p n, rangeFree (allFree p) B n = true := fun p n => (rangeFree_iff _ _ _).mpr (fun _ _ _ => rfl)
  have hN : N ≠ 0 := by omega
  have e1 : ¬ (off < M) := by omega
  have e3 : allFree 2 (B + off) ≠ .seg := by simp [allFree]
  simp [exec, step, joinFile, mmap, hf, upd, mapAt, File.trunc, hN, e1, e3]

/-- **C72 is violated (leaving, smaller process).** When it leaves, it unmaps as many pages as the segment has, also its own memory behind its smaller mapping. -/
theorem C72_violated_unmap_own (B N M : Nat) (h1 : M < N) :
    let s := exec B { mem := allFree } [.join 1 N true 0 0, .join 2 M false 0 0, .grab 2 (B + M) 1]
    s.mem 2 (B + M) = .own ∧ (step B s (.exit 2)).mem 2 (B + M) = .free := by
  have hf : ∀ p n, rangeFree (allFree p) B n = true := fun p n => (rangeFree_iff _ _ _).mpr (fun _ _ _ => rfl)
  have hN : N ≠ 0 := by omega
  have hg : rangeFree (mapAt (allFree 2) B M) (B + M) 1 = true := (rangeFree_iff _ _ _).mpr (fun x a b => by
    have : ¬ (B ≤ x ∧ x < B + M) := by omega
    simp only [mapAt, if_neg this, allFree])
  simp [exec, step, joinFile, mmap, hf, upd, File.trunc, hN, hg, unmapAt, h1]

/-- **C72 is violated (a larger process cannot come back).** A process with a larger `shm_size` joins and leaves: it unmaps only the size of the segment. When it calls `arax_init` again, the rest is in the way and
the call ends the process, whatever addresses the kernel chooses. -/
theorem C72_violated_rejoin (B N L : Nat) (hN : 0 < N) (h : N < L) (alt alt2 : Nat) (ha : alt ≠ B) (ha2 : alt2 ≠ B) :
    let s := exec B { mem := allFree } [.join 1 N true 0 0, .join 2 L true 0 0, .exit 2]
    s.st 2 = .out ∧ (step B s (.join 2 L true alt alt2)).st 2 = .failed := by
  have hf : ∀ p n, rangeFree (allFree p) B n = true := fun p n => (rangeFree_iff _ _ _).mpr (fun _ _ _ => rfl)
  have hN' : N ≠ 0 := by omega
  have hL : L ≠ 0 := by omega
  -- the pages left behind
  have hres : ∀ m : Nat → Use, m (B + N) = .seg → rangeFree m B L = false := by
    intro m hm
    cases hc : rangeFree m B L with
    | false => rfl
    | true => rw [(rangeFree_iff _ _ _).mp hc (B + N) (by omega) (by omega)] at hm; cases hm
  have hs : exec B { mem := allFree } [.join 1 N true 0 0, .join 2 L true 0 0, .exit 2] =
      { file := some { size := L, data := fun _ => 0, shmSize := N, self := some B, users := 1 },
        st := upd (upd (upd (fun _ => .out) 1 (.joined B N)) 2 (.joined B L)) 2 .out,
        mem := upd (upd (upd allFree 1 (mapAt (allFree 1) B N)) 2 (mapAt (allFree 2) B L)) 2 (unmapAt (mapAt (allFree 2) B L) B N) } := by
    simp [exec, step, joinFile, mmap, hf, upd, File.trunc, hN', hL]
  simp only [hs]
  refine ⟨by simp, ?_⟩
  have hm : unmapAt (mapAt (allFree 2) B L) B N (B + N) = .seg := by simp [unmapAt, mapAt, h]
  have h1 : rangeFree (unmapAt (mapAt (allFree 2) B L) B N) B L = false := hres _ hm
  by_cases hf2 : rangeFree (unmapAt (mapAt (allFree 2) B L) B N) alt L = true
  · have hne : ¬ B = alt := fun e => ha e.symm
    -- the second attempt finds the rest, too
    have hm2 : unmapAt (mapAt (unmapAt (mapAt (allFree 2) B L) B N) alt L) alt N (B + N) = .seg := by
      have hnin : ¬ (alt ≤ B + N ∧ B + N < alt + L) := fun hx => by
        rw [(rangeFree_iff _ _ _).mp hf2 (B + N) hx.1 hx.2] at hm; cases hm
      have hnin2 : ¬ (alt ≤ B + N ∧ B + N < alt + N) := by omega
      show (if alt ≤ B + N ∧ B + N < alt + N then Use.free else mapAt _ alt L (B + N)) = .seg
      rw [if_neg hnin2]
      show (if alt ≤ B + N ∧ B + N < alt + L then Use.seg else _) = .seg
      rw [if_neg hnin]; exact hm
    have h3 := hres _ hm2
    have hne2 : ¬ alt2 = B := ha2
    by_cases hf3 : rangeFree (unmapAt (mapAt (unmapAt (mapAt (allFree 2) B L) B N) alt L) alt N) alt2 L = true
    · simp [step, joinFile, mmap, h1, hf2, h3, hf3, hne, hne2, File.trunc, hL]
    · simp [step, joinFile, mmap, h1, hf2, h3, hf3, hne, File.trunc, hL]
  · simp [step, joinFile, mmap, h1, hf2]

/-- **C72 is violated (the place is taken).** The address is whatever the creator got: if the creator has memory of its own at the usual place, a process that has the creator's second choice taken
cannot join, although both have room. -/
theorem C72_violated_place :
    let m : Nat → Nat → Use := fun p x => if (p = 1 ∧ x = 100) ∨ (p = 2 ∧ x = 200) then .own else .free
    let s := exec 100 { mem := m } [.join 1 4 true 200 200, .join 2 4 true 300 300]
    s.st 1 = .joined 200 4 ∧ s.st 2 = .failed := by decide

end Arax.Segment
