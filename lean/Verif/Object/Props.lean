import Verif.Object.Steps
import Verif.Object.Sigs
/-!
# C25, C26, C27, C50, C57: reference counting, accounting and lifetime of objects

`Reach c s`: `s` is reached by a history of legal API calls (`Spec`), allocation failures included.
-/
namespace Arax.Object

/-! ### Auxiliary facts -/

theorem mentions_eq (k : Kind) (o : Nat) : mentions k o = k.children.count o := by
  have opt : ∀ f : Option Nat, (if f = some o then 1 else 0) = f.toList.count o := by
    intro f
    cases f with
    | none => rfl
    | some v => simp only [Option.some.injEq, Option.toList, List.count_cons, List.count_nil, beq_iff_eq]; simp
  cases k with
  | phys f => exact opt f
  | vaccel _ => rfl
  | proc _ => rfl
  | data f => exact opt f
  | task io a p => simp only [mentions, Kind.children, List.count_append, opt]

theorem holders_eq {c : Conf} {s : St} (h : Inv c s) (o : Nat) : holders s o = sumTo (fun j => hold (s.obj j) o) s.next := by
  unfold holders
  refine sumTo_congr _ _ _ ?_
  intro j _
  cases hj : s.obj j with
  | none => rfl
  | some y => simp [hold, h.ok.live j y hj, mentions_eq]

theorem sumTo_pos (f : Nat → Nat) : ∀ n, sumTo f n ≠ 0 → ∃ i, i < n ∧ f i ≠ 0
  | 0, h => absurd rfl h
  | n + 1, h => by
    by_cases e : f n = 0
    · obtain ⟨i, hi, hf⟩ := sumTo_pos f n (by simp only [sumTo] at h; omega)
      exact ⟨i, by omega, hf⟩
    · exact ⟨n, by omega, e⟩

theorem sumTo_add (f g : Nat → Nat) : ∀ n, sumTo (fun i => f i + g i) n = sumTo f n + sumTo g n
  | 0 => rfl
  | n + 1 => by simp only [sumTo, sumTo_add f g n]; omega

/-- The length of a duplicate-free list is the number of its members. -/
theorem length_sumTo (p : Nat → Bool) : ∀ (n : Nat) (l : List Nat), l.Nodup → (∀ i, i ∈ l ↔ i < n ∧ p i = true) →
    l.length = sumTo (fun i => if p i then 1 else 0) n
  | 0, l, _, h => by
    cases l with
    | nil => rfl
    | cons a r => have := (h a).mp (by simp); omega
  | n + 1, l, nd, h => by
    simp only [sumTo]
    by_cases hp : p n
    · have hm : n ∈ l := (h n).mpr ⟨by omega, hp⟩
      have := length_sumTo p n (l.erase n) (nd.erase n) (by
        intro i
        rw [nd.mem_erase_iff, h i]
        constructor
        · rintro ⟨h1, h2, h3⟩; exact ⟨by omega, h3⟩
        · rintro ⟨h1, h2⟩; exact ⟨by omega, by omega, h2⟩)
      rw [List.length_erase_of_mem hm] at this
      have hl := List.length_pos_of_mem hm
      simp only [hp, if_true]; omega
    · have := length_sumTo p n l nd (by
        intro i
        rw [h i]
        constructor
        · rintro ⟨h1, h2⟩; exact ⟨by rcases Nat.lt_succ_iff_lt_or_eq.mp h1 with h | h; exact h; subst h; exact absurd h2 hp, h2⟩
        · rintro ⟨h1, h2⟩; exact ⟨by omega, h2⟩)
      simp only [hp]; simpa using this

/-! ### C25 -/

/-- **C25** (state). In every reachable state the count of a live object equals the references held by clients plus those held by other live objects,
and it is positive; and an object is live exactly as long as there is such a reference. -/
theorem C25_live_iff_referenced {c : Conf} {s : St} (h : Reach c s) (o : Nat) :
    (∀ x, s.obj o = some x → x.refs = s.user o + holders s o ∧ 0 < x.refs) ∧ ((s.obj o).isSome ↔ 0 < s.user o + holders s o) := by
  have hi := inv_reach h
  have h1 : ∀ x, s.obj o = some x → x.refs = s.user o + holders s o ∧ 0 < x.refs := by
    intro x hx
    have := hi.g.count o x hx
    have h2 := hi.ok.live o x hx
    rw [holders_eq hi]
    simp at this
    omega
  refine ⟨h1, ?_, ?_⟩
  · intro hs
    obtain ⟨x, hx⟩ := Option.isSome_iff_exists.mp hs
    have := h1 x hx
    omega
  · intro hp
    by_cases hu : s.user o = 0
    · rw [holders_eq hi] at hp
      obtain ⟨j, -, hj⟩ := sumTo_pos (fun j => hold (s.obj j) o) s.next (by omega)
      cases hy : s.obj j with
      | none => simp [hy, hold] at hj
      | some y =>
        have hl := hi.ok.live j y hy
        simp only [hy, hold, hl, if_false] at hj
        exact wt_children (hi.g.kids j y hy hl) o (List.count_pos_iff.mp (by omega))
    · exact hi.g.usr o hu

/-- **C25** (registration). The repository lists, for every type, exactly the live objects of that type, each once. -/
theorem C25_registered_iff_live {c : Conf} {s : St} (h : Reach c s) (t : Ty) :
    (s.repo t).Nodup ∧ ∀ o, o ∈ s.repo t ↔ isTy s o t := by
  have hi := inv_reach h
  refine ⟨hi.g.nodup t, fun o => ?_⟩
  rw [hi.g.repo t o]
  constructor
  · rintro ⟨x, h1, -, h2⟩; exact ⟨x, h1, h2⟩
  · rintro ⟨x, h1, h2⟩; exact ⟨x, h1, hi.ok.live o x h1, h2⟩

/-- **C25** (dropping a reference). A legal `arax_object_ref_dec` returns. It destroys the object, takes it off the repository and gives at least its size back
exactly when the count was 1; otherwise it changes nothing but that count. -/
theorem C25_destroyed_exactly_at_zero {c : Conf} {s : St} (h : Reach c s) (b : Bool) (o : Nat) (hl : Legal s (.refDec o)) :
    ∃ x s', s.obj o = some x ∧ step c s b (.refDec o) = .ok s' ∧ (s'.obj o = none ↔ x.refs = 1) ∧
      (x.refs = 1 → (∀ t, o ∉ s'.repo t) ∧ s.avail + x.size ≤ s'.avail) ∧
      (x.refs ≠ 1 → s'.obj o = some { x with refs := x.refs - 1 } ∧ (∀ i, i ≠ o → s'.obj i = s.obj i) ∧ s'.repo = s.repo ∧ s'.avail = s.avail) := by
  have hi := inv_reach h
  obtain ⟨g, ok⟩ := hi
  obtain ⟨hu, hp⟩ := hl
  obtain ⟨x, hx⟩ := Option.isSome_iff_exists.mp (g.usr o (by omega))
  have g1 := ginv_userDrop g hu
  obtain ⟨s', e1, g2, f2, hd, hlv⟩ := refDec_spec c 3 (s.setUser o (s.user o - 1)) o x [] g1 hx (by cases h : x.kind.ty <;> simp [Ty.rank])
    (by
      intro y f hy hk
      have hy : s.obj o = some y := hy
      exact ⟨ok.physf o y f hy hk, fun h1 => hp y f hy hk h1⟩)
  refine ⟨x, s', hx, e1, ?_, ?_, ?_⟩
  · constructor
    · intro hn
      by_cases e : x.refs = 1
      · exact e
      · rw [hlv e] at hn; simp [St.put] at hn
    · exact hd
  · intro e
    have hn := hd e
    refine ⟨?_, ?_⟩
    · intro t ht
      obtain ⟨y, hy, -⟩ := (g2.repo t o).mp ht
      rw [hn] at hy; cases hy
    · have a1 := g.acct
      have a2 := g2.acct
      rw [f2.next, f2.lost] at a2
      have le : ∀ n, sumTo (fun j => sz (s'.obj j)) n + (if o < n then x.size else 0) ≤ sumTo (fun j => sz (s.obj j)) n := by
        intro n
        induction n with
        | zero => simp [sumTo]
        | succ n ih =>
          simp only [sumTo]
          have hn' : sz (s'.obj n) ≤ sz (s.obj n) := by
            cases hy : s'.obj n with
            | none => simp [sz]
            | some y =>
              obtain ⟨w, hw, -, hs⟩ := f2.sub n y hy
              have hw : s.obj n = some w := hw
              simp [sz, hw, hs]
          by_cases e2 : o < n
          · simp only [e2, if_true] at ih
            rw [if_pos (by omega)]; omega
          · simp only [e2, if_false] at ih
            by_cases e3 : o = n
            · subst e3
              rw [if_pos (by omega), hn, hx]
              simp only [sz] at ih ⊢; omega
            · rw [if_neg (by omega)]; omega
      have := le s.next
      rw [if_pos (g.bound o x hx)] at this
      have e3 : (s.setUser o (s.user o - 1)).next = s.next := rfl
      have e4 : (s.setUser o (s.user o - 1)).lost = s.lost := rfl
      rw [e3, e4] at a2
      omega
  · intro e
    rw [hlv e]
    refine ⟨by simp [St.put], fun i hi => by simp [St.put, St.setUser, hi], rfl, rfl⟩

/-- **C25** (no use after free). No legal call touches a destroyed object. -/
theorem C25_no_use_after_free {c : Conf} {s : St} (h : Reach c s) (b : Bool) (op : Op) (hl : Legal s op) : step c s b op ≠ .ub := by
  rcases inv_step (inv_reach h) b op hl with e | ⟨s', e, -⟩ <;> rw [e] <;> simp

/-! ### C26 -/

theorem liveSize_eq (s : St) : liveSize s = sumTo (fun j => sz (s.obj j)) s.next := by
  unfold liveSize
  refine sumTo_congr _ _ _ ?_
  intro j _
  cases s.obj j <;> rfl

/-- **C26** (accounting). Available + sizes of the live objects + bytes charged for failed allocations = total. -/
theorem C26_accounting_partial {c : Conf} {s : St} (h : Reach c s) : s.avail + liveSize s + s.lost = c.total := by
  have := (inv_reach h).g.acct
  rw [liveSize_eq]; exact this

/-- **C26** (report). `arax_object_repo_exit` reports exactly the number of live objects. -/
theorem C26_repo_exit_exact {c : Conf} {s : St} (h : Reach c s) : repoExit s = liveCount s := by
  have hi := inv_reach h
  have key : ∀ t, (s.repo t).length = sumTo (fun j => if (match s.obj j with | none => false | some y => decide (y.kind.ty = t)) then 1 else 0) s.next := by
    intro t
    refine length_sumTo (fun j => match s.obj j with | none => false | some y => decide (y.kind.ty = t)) _ _ (hi.g.nodup t) ?_
    intro i
    rw [hi.g.repo t i]
    constructor
    · rintro ⟨x, hx, -, ht⟩; exact ⟨hi.g.bound i x hx, by simp [hx, ht]⟩
    · rintro ⟨-, h2⟩
      cases hx : s.obj i with
      | none => simp [hx] at h2
      | some y => simp [hx] at h2; exact ⟨y, rfl, hi.ok.live i y hx, h2⟩
  unfold repoExit liveCount
  rw [key, key, key, key, key, ← sumTo_add, ← sumTo_add, ← sumTo_add, ← sumTo_add]
  refine sumTo_congr _ _ _ ?_
  intro j _
  cases hj : s.obj j with
  | none => simp
  | some y => cases hk : y.kind.ty <;> simp [hk]

/-- The structures are not empty. -/
def Conf.Pos (c : Conf) : Prop := 0 < c.szPhys ∧ 0 < c.szVaccel ∧ 0 < c.szProc ∧ 0 < c.szData ∧ 0 < c.szTask

/-- Every live object occupies memory. -/
theorem szOk_reach {c : Conf} {s : St} (hc : c.Pos) (h : Reach c s) : ∀ i x, s.obj i = some x → 0 < x.size := by
  have : Sigs (fun _ _ n => 0 < n) s := by
    induction h with
    | init => intro i x hx; simp [init] at hx
    | @step s s' b op _ _ e ih =>
      refine sigs_step ih ?_ e
      obtain ⟨h1, h2, h3, h4, h5⟩ := hc
      cases op with
      | newPhys => exact ⟨h1, h2⟩
      | newVaccel _ => exact h2
      | newProc _ => exact h3
      | newData _ _ => show 0 < _ + _; omega
      | issue _ _ _ _ _ => show 0 < _ + _ + _; omega
      | _ => trivial
  exact this

/-- **C26** (leak check). For a process that joined while nothing was allocated, the check of `arax_exit` passes exactly when no object is live and no
allocation ever failed; all sizes of structures are positive. -/
theorem C26_leak_check_partial {c : Conf} {s : St} (hc : c.Pos) (h : Reach c s) :
    leakCheck s c.total = .ok () ↔ (∀ o, s.obj o = none) ∧ s.lost = 0 := by
  have ha := C26_accounting_partial h
  have hb := (inv_reach h).g.bound
  have hsz := szOk_reach hc h
  have hz : liveSize s = 0 ↔ ∀ o, s.obj o = none := by
    rw [liveSize_eq]
    constructor
    · intro e o
      cases hx : s.obj o with
      | none => rfl
      | some x =>
        have h1 := sumTo_ge (fun j => sz (s.obj j)) o s.next (hb o x hx)
        have h2 := hsz o x hx
        simp only [hx, sz] at h1
        simp only [sz] at e
        omega
    · intro e
      exact sumTo_zero _ _ (fun i _ => by simp [e i, sz])
  rw [← hz]
  unfold leakCheck
  split
  · simp; omega
  · simp; omega

/-! ### C27 -/

/-- **C27** (targets). In every reachable state, the arguments of a live task are live data and its accelerator is a live virtual accelerator; the accelerator a
live data is assigned to is live; a virtual accelerator's physical accelerator is live; a physical accelerator's own queue is live. -/
theorem C27_targets_live {c : Conf} {s : St} (h : Reach c s) {o : Nat} {x : Obj} (hx : s.obj o = some x) :
    match x.kind with
    | .task io a _ => (∀ d ∈ io, isTy s d .data) ∧ ∀ v, a = some v → isTy s v .vaccel
    | .data a => ∀ v, a = some v → isTy s v .vaccel
    | .vaccel p => ∀ a, p = some a → isTy s a .phys
    | .phys f => ∃ v, f = some v ∧ isTy s v .vaccel
    | .proc _ => True := by
  have hi := inv_reach h
  have hk := hi.g.kids o x hx (hi.ok.live o x hx)
  have hp := hi.g.phys o x
  have hf := hi.ok.physf o x
  cases e : x.kind with
  | task io a p => rw [e] at hk; exact hk
  | data a => rw [e] at hk; exact hk
  | vaccel p => intro a ha; exact hp a hx (by rw [e, ha])
  | phys f =>
    rw [e] at hk
    cases f with
    | none => exact absurd rfl (hf none hx e)
    | some v => exact ⟨v, rfl, hk v rfl⟩
  | proc _ => trivial

/-- **C27** (a task is complete). After `arax_task_issue` the new task holds exactly the arguments it was given and its accelerator; they stay (see
`C27_targets_live`) for as long as the task does, whoever else drops them. -/
theorem C27_issue_holds {c : Conf} {s : St} (h : Reach c s) {v p : Nat} {ins outs : List Nat} {hs : Nat} (b : Bool) (hl : Legal s (.issue v p ins outs hs)) :
    step c s b (.issue v p ins outs hs) = .abort ∨ ∃ s' x, step c s b (.issue v p ins outs hs) = .ok s' ∧ s.obj s.next = none ∧
      s'.obj s.next = some x ∧ x.kind = .task (ins ++ outs) (some v) p ∧ x.refs = 1 ∧ s'.user s.next = 1 := by
  have hi := inv_reach h
  obtain ⟨hv, -, hio⟩ := hl
  have hn : s.obj s.next = none := by
    cases e : s.obj s.next with
    | none => rfl
    | some y => have := hi.g.bound _ y e; omega
  rcases issue_spec (p := p) (h := hs) hi.g hi.ok b hv hio with e | ⟨s', e, g', ok', h1, h2, -⟩
  · left; simp [step, e, Res.map]
  · right; exact ⟨s', _, by simp [step, e, Res.map], hn, h1, rfl, rfl, h2⟩

/-- **C27** (reclamation). When no client holds a reference any more, in whatever order they were dropped, no object is left and all memory that was charged for
successful allocations is back. -/
theorem C27_all_reclaimed {c : Conf} {s : St} (h : Reach c s) (hu : ∀ o, s.user o = 0) : (∀ o, s.obj o = none) ∧ s.avail + s.lost = c.total := by
  have hi := inv_reach h
  have key : ∀ (k : Nat) (o : Nat) (x : Obj), s.obj o = some x → 3 ≤ x.kind.ty.rank + k → False := by
    intro k
    induction k with
    | zero =>
      intro o x hx hr
      have hc := (C25_live_iff_referenced h o).1 x hx
      rw [hu, holders_eq hi] at hc
      obtain ⟨j, -, hj⟩ := sumTo_pos (fun j => hold (s.obj j) o) s.next (by omega)
      cases hy : s.obj j with
      | none => simp [hy, hold] at hj
      | some y =>
        have hl := hi.ok.live j y hy
        simp only [hy, hold, hl, if_false] at hj
        obtain ⟨z, hz, h1, -⟩ := child_rank (hi.g.kids j y hy hl) o (List.count_pos_iff.mp (by omega))
        rw [hx] at hz; cases hz
        have : y.kind.ty.rank ≤ 3 := by cases y.kind.ty <;> simp [Ty.rank]
        omega
    | succ k ih =>
      intro o x hx hr
      have hc := (C25_live_iff_referenced h o).1 x hx
      rw [hu, holders_eq hi] at hc
      obtain ⟨j, -, hj⟩ := sumTo_pos (fun j => hold (s.obj j) o) s.next (by omega)
      cases hy : s.obj j with
      | none => simp [hy, hold] at hj
      | some y =>
        have hl := hi.ok.live j y hy
        simp only [hy, hold, hl, if_false] at hj
        obtain ⟨z, hz, h1, -⟩ := child_rank (hi.g.kids j y hy hl) o (List.count_pos_iff.mp (by omega))
        rw [hx] at hz; cases hz
        exact ih j y hy (by omega)
  have hn : ∀ o, s.obj o = none := by
    intro o
    cases hx : s.obj o with
    | none => rfl
    | some x => exact (key 3 o x hx (by omega)).elim
  refine ⟨hn, ?_⟩
  have := C26_accounting_partial h
  rw [liveSize_eq, sumTo_zero _ _ (fun i _ => by simp [hn i, sz])] at this
  omega

/-! ### C50 -/

/-- Live data assigned to `v`, tasks submitted to `v`, physical accelerators whose own queue is `v`. -/
def dataOn (s : St) (v : Nat) : Nat := sumTo (fun j => match s.obj j with | some { kind := .data a, .. } => if a = some v then 1 else 0 | _ => 0) s.next
def tasksOn (s : St) (v : Nat) : Nat := sumTo (fun j => match s.obj j with | some { kind := .task _ a _, .. } => if a = some v then 1 else 0 | _ => 0) s.next
def physOn (s : St) (v : Nat) : Nat := sumTo (fun j => match s.obj j with | some { kind := .phys f, .. } => if f = some v then 1 else 0 | _ => 0) s.next

/-- **C50.** After every legal history the count of a virtual accelerator is: the references of its clients, plus one per data assigned to it, plus one per
unfinished task submitted to it, plus one for the physical accelerator that owns it. (Legal histories do not re-assign with `arax_data_set_accel`:
`C50_violated`.) -/
theorem C50_count_exact_partial {c : Conf} {s : St} (h : Reach c s) {v : Nat} {x : Obj} (hx : s.obj v = some x) (hv : x.kind.ty = .vaccel) :
    x.refs = s.user v + dataOn s v + tasksOn s v + physOn s v := by
  have hi := inv_reach h
  have hc := ((C25_live_iff_referenced h v).1 x hx).1
  have : holders s v = dataOn s v + tasksOn s v + physOn s v := by
    unfold holders dataOn tasksOn physOn
    rw [← sumTo_add, ← sumTo_add]
    refine sumTo_congr _ _ _ ?_
    intro j _
    cases hj : s.obj j with
    | none => rfl
    | some y =>
      obtain ⟨k, r, sz'⟩ := y
      cases k with
      | phys f => simp [mentions]
      | vaccel _ => rfl
      | proc _ => rfl
      | data a => simp [mentions]
      | task io a p =>
        have hk := hi.g.kids j _ hj (hi.ok.live j _ hj)
        have : v ∉ io := by
          intro hm
          obtain ⟨z, hz, hzt⟩ := hk.1 v hm
          rw [hx] at hz; cases hz
          rw [hv] at hzt; cases hzt
        simp [mentions, List.count_eq_zero.mpr this]
  omega

/-! ### Concrete histories -/

/-- Running a list of calls, every allocation succeeding. -/
def run (c : Conf) (s : St) : List Op → Res St
  | [] => .ok s
  | op :: r => (step c s true op).bind fun s => run c s r

def conf0 : Conf := { szPhys := 200, szVaccel := 150, szProc := 120, szData := 100, szTask := 80, total := 100000 }

/-- The calls are legal when made. -/
def LegalRun (c : Conf) : St → List Op → Prop
  | _, [] => True
  | s, op :: r => Legal s op ∧ ∀ s', step c s true op = .ok s' → LegalRun c s' r

theorem reach_run {c : Conf} : ∀ (l : List Op) {s s' : St}, Reach c s → LegalRun c s l → run c s l = .ok s' → Reach c s'
  | [], _, _, h, _, e => by cases e; exact h
  | op :: r, s, s', h, hl, e => by
    simp only [run] at e
    cases h1 : step c s true op with
    | ok t => rw [h1] at e; exact reach_run r (Reach.step h hl.1 h1) (hl.2 t h1) e
    | abort => rw [h1] at e; cases e
    | ub => rw [h1] at e; cases e

/-- Non-vacuity: an accelerator, a virtual accelerator on it, a procedure, two data and a task using both (one of them twice); then every client reference but the
task's is dropped. Everything the task needs is still live; dropping the task's reference reclaims it all but the accelerator. -/
def demo : List Op :=
  [.newPhys, .newVaccel (some 0), .newProc ['f'], .newData 10 1, .newData 20 8, .issue 2 3 [4, 4] [5] 16, .refDec 4, .refDec 5, .refDec 2]

example : ∃ s, run conf0 (init conf0) demo = .ok s ∧ s.repo .data = [5, 4] ∧ s.repo .task = [6] ∧ s.repo .vaccel = [2, 1] ∧
    (s.obj 4).map (·.refs) = some 2 ∧ (s.obj 2).map (·.refs) = some 3 ∧ s.user 4 = 0 ∧
    ∃ s', run conf0 s [.refDec 6] = .ok s' ∧ s'.repo .data = [] ∧ s'.repo .task = [] ∧ s'.repo .vaccel = [1] ∧
    ∃ s'', run conf0 s' [.refDec 0, .refDec 3] = .ok s'' ∧ s''.avail = 100000 ∧ repoExit s'' = 0 := by
  refine ⟨_, rfl, rfl, rfl, rfl, rfl, rfl, rfl, _, rfl, rfl, rfl, rfl, _, rfl, rfl, rfl⟩

/-- The history above is legal: its last state is reachable. -/
theorem demo_reach : ∃ s, run conf0 (init conf0) demo = .ok s ∧ Reach conf0 s := by
  refine ⟨_, rfl, reach_run demo Reach.init ?_ rfl⟩
  refine ⟨trivial, ?_⟩
  rintro s1 h1; cases h1
  refine ⟨⟨_, rfl, rfl⟩, ?_⟩
  rintro s1 h1; cases h1
  refine ⟨trivial, ?_⟩
  rintro s1 h1; cases h1
  refine ⟨trivial, ?_⟩
  rintro s1 h1; cases h1
  refine ⟨trivial, ?_⟩
  rintro s1 h1; cases h1
  refine ⟨⟨⟨_, rfl, rfl⟩, ⟨_, rfl, rfl⟩, ?_⟩, ?_⟩
  · intro d hd
    have : d = 4 ∨ d = 4 ∨ d = 5 := by simpa using hd
    rcases this with rfl | rfl | rfl <;> rfl
  rintro s1 h1; cases h1
  refine ⟨⟨by decide, ?_⟩, ?_⟩
  · intro x f hx hk; cases hx; cases hk
  rintro s1 h1; cases h1
  refine ⟨⟨by decide, ?_⟩, ?_⟩
  · intro x f hx hk; cases hx; cases hk
  rintro s1 h1; cases h1
  refine ⟨⟨by decide, ?_⟩, ?_⟩
  · intro x f hx hk; cases hx; cases hk
  rintro s1 h1; cases h1
  trivial

/-- **C26 violated** (failed allocation). After one allocation that failed and with no object ever created, the check of `arax_exit` aborts: the throttle was charged
for the object and never refunded (arax_object.c:103-107). -/
theorem C26_violated_failed_alloc : ∃ s, Reach conf0 s ∧ (∀ o, s.obj o = none) ∧ (∀ o, s.user o = 0) ∧ leakCheck s conf0.total = .abort :=
  ⟨_, Reach.step (allocOk := false) (op := .newData 10 1) Reach.init trivial rfl, fun _ => rfl, fun _ => rfl, rfl⟩

/-- **C26 violated** (late joiner). A process that joins while another one has a live buffer records that smaller size (impl.c:106); when the buffer has been freed and
it leaves last, nothing is live, nothing was lost, and yet its check aborts. -/
theorem C26_violated_late_join : ∃ s1 s2, Reach conf0 s1 ∧ step conf0 s1 true (.refDec 0) = .ok s2 ∧ Reach conf0 s2 ∧
    (∀ o, s2.obj o = none) ∧ s2.lost = 0 ∧ leakCheck s2 s1.avail = .abort := by
  have r1 := Reach.step (c := conf0) (allocOk := true) (op := .newData 10 1) Reach.init trivial rfl
  refine ⟨_, _, r1, rfl, Reach.step (allocOk := true) (op := .refDec 0) r1 ?_ rfl, ?_, rfl, by decide⟩
  · refine ⟨by decide, ?_⟩
    intro x f hx hk; cases hx; cases hk
  · intro o
    by_cases e : o = 0
    · subst e; rfl
    · simp [register, St.put, St.setRepo, St.setUser, e, init]

/-- **C27 violated** (physical accelerator). Destroying a physical accelerator that still has a virtual accelerator assigned is not prevented (the assertion in its
destructor tests a string literal, arax_accel.c:190): the release of the virtual accelerator, by its owner, then touches freed memory. -/
theorem C27_violated_phys : ∃ s, run conf0 (init conf0) [.newPhys, .newVaccel (some 0), .refDec 0] = .ok s ∧ s.obj 0 = none ∧ s.user 2 = 1 ∧
    (s.obj 2).map (·.kind) = some (.vaccel (some 0)) ∧ step conf0 s true (.refDec 2) = .ub :=
  ⟨_, rfl, rfl, rfl, rfl, rfl⟩

/-- **C57 violated.** A task does not hold a reference on its procedure: after a legal history the procedure can be gone while the task is queued. -/
theorem C57_violated : ∃ s x, Reach conf0 s ∧ s.obj 2 = some x ∧ x.kind = .task [] (some 0) 1 ∧ s.obj 1 = none := by
  have hl : LegalRun conf0 (init conf0) [.newVaccel none, .newProc ['f'], .issue 0 1 [] [] 0, .refDec 1] := by
    refine ⟨trivial, ?_⟩
    rintro s1 h1; cases h1
    refine ⟨trivial, ?_⟩
    rintro s1 h1; cases h1
    refine ⟨⟨⟨_, rfl, rfl⟩, ⟨_, rfl, rfl⟩, by simp⟩, ?_⟩
    rintro s1 h1; cases h1
    refine ⟨⟨by decide, ?_⟩, ?_⟩
    · intro x f hx hk; cases hx; cases hk
    rintro s1 h1; cases h1
    trivial
  exact ⟨_, _, reach_run _ Reach.init hl rfl, rfl, rfl, rfl⟩

/-- **C57** (what holds). As long as somebody keeps a reference on the procedure it is live, so a client that puts it only after the tasks are done is safe. -/
theorem C57_held_proc_live_partial {c : Conf} {s : St} (h : Reach c s) {p : Nat} (hu : 0 < s.user p) : (s.obj p).isSome :=
  (C25_live_iff_referenced h p).2.mpr (by omega)

/-- **C50 violated.** `arax_data_set_accel` on a data that is assigned to another queue of the same accelerator takes a reference on the new queue and forgets the old one:
after everything was released by its owner, the old queue is still live with a count of 1 that nobody holds. -/
theorem C50_violated : ∃ s x, run conf0 (init conf0)
      [.newPhys, .newVaccel (some 0), .newVaccel (some 0), .newData 10 1, .setAccel 4 2, .setAccel 4 3, .refDec 4, .refDec 2, .refDec 3] = .ok s ∧
    s.obj 2 = some x ∧ x.refs = 1 ∧ s.user 2 = 0 ∧ holders s 2 = 0 ∧ s.obj 3 = none := by
  exact ⟨_, _, rfl, rfl, rfl, rfl, rfl, rfl⟩

end Arax.Object
