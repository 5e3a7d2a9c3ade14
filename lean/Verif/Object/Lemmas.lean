import Verif.Object.Spec
/-!
# Invariant of the object machine and its preservation by the primitive updates
-/
namespace Arax.Object

/-! ### Sums -/

theorem sumTo_congr (f g : Nat → Nat) : ∀ n, (∀ i, i < n → f i = g i) → sumTo f n = sumTo g n
  | 0, _ => rfl
  | n + 1, h => by simp only [sumTo]; rw [sumTo_congr f g n (fun i hi => h i (by omega)), h n (by omega)]

theorem sumTo_update (f g : Nat → Nat) (i : Nat) (h : ∀ j, j ≠ i → g j = f j) : ∀ n, i < n → sumTo g n + f i = sumTo f n + g i
  | 0, hi => by omega
  | n + 1, hi => by
    simp only [sumTo]
    by_cases e : n = i
    · subst e
      rw [sumTo_congr g f n (fun j hj => h j (by omega))]; omega
    · have := sumTo_update f g i h n (by omega)
      rw [h n e]; omega

theorem sumTo_ge (f : Nat → Nat) (i : Nat) : ∀ n, i < n → f i ≤ sumTo f n
  | 0, hi => by omega
  | n + 1, hi => by
    simp only [sumTo]
    by_cases e : n = i
    · subst e; omega
    · have := sumTo_ge f i n (by omega); omega

theorem sumTo_zero (f : Nat → Nat) : ∀ n, (∀ i, i < n → f i = 0) → sumTo f n = 0
  | 0, _ => rfl
  | n + 1, h => by simp only [sumTo]; rw [sumTo_zero f n (fun i hi => h i (by omega)), h n (by omega)]

/-! ### The invariant -/

/-- References of a (not dying) object on `o`. -/
def hold (x : Option Obj) (o : Nat) : Nat :=
  match x with
  | none => 0
  | some y => if y.refs = 0 then 0 else y.kind.children.count o

def sz (x : Option Obj) : Nat := match x with | none => 0 | some y => y.size

/-- Well-typed references. -/
def wt (s : St) : Kind → Prop
  | .phys f => ∀ v, f = some v → isTy s v .vaccel
  | .vaccel _ => True
  | .proc _ => True
  | .data a => ∀ v, a = some v → isTy s v .vaccel
  | .task io a _ => (∀ d ∈ io, isTy s d .data) ∧ ∀ v, a = some v → isTy s v .vaccel

/-- The invariant while the references in `P` are about to be dropped or stored. Objects with count 0 are being destroyed. -/
structure GInv (c : Conf) (s : St) (P : List Nat) : Prop where
  bound : ∀ i x, s.obj i = some x → i < s.next
  count : ∀ i x, s.obj i = some x → x.refs = s.user i + sumTo (fun j => hold (s.obj j) i) s.next + P.count i
  kids  : ∀ j y, s.obj j = some y → y.refs ≠ 0 → wt s y.kind
  pend  : ∀ p ∈ P, (s.obj p).isSome
  usr   : ∀ i, s.user i ≠ 0 → (s.obj i).isSome
  phys  : ∀ v y a, s.obj v = some y → y.kind = .vaccel (some a) → isTy s a .phys
  repo  : ∀ t i, i ∈ s.repo t ↔ ∃ x, s.obj i = some x ∧ x.refs ≠ 0 ∧ x.kind.ty = t
  nodup : ∀ t, (s.repo t).Nodup
  acct  : s.avail + (sumTo (fun j => sz (s.obj j)) s.next : Nat) + (s.lost : Nat) = (c.total : Int)

theorem isTy_isSome {s : St} {o : Nat} {t : Ty} (h : isTy s o t) : (s.obj o).isSome := by
  obtain ⟨x, hx, -⟩ := h; simp [hx]

theorem wt_children {s : St} {k : Kind} (h : wt s k) : ∀ i ∈ k.children, (s.obj i).isSome := by
  intro i hi
  cases k with
  | phys f => exact isTy_isSome (h i (by cases f <;> simp_all [Kind.children]))
  | vaccel _ => simp [Kind.children] at hi
  | proc _ => simp [Kind.children] at hi
  | data a => exact isTy_isSome (h i (by cases a <;> simp_all [Kind.children]))
  | task io a p =>
    simp only [Kind.children, List.mem_append] at hi
    rcases hi with hi | hi
    · exact isTy_isSome (h.1 i hi)
    · exact isTy_isSome (h.2 i (by cases a <;> simp_all))

theorem wt_mono {s s' : St} {k : Kind} (hm : ∀ i ∈ k.children, ∀ t, isTy s i t → isTy s' i t) (h : wt s k) : wt s' k := by
  cases k with
  | phys f => exact fun v hv => hm v (by subst hv; simp [Kind.children]) _ (h v hv)
  | vaccel _ => trivial
  | proc _ => trivial
  | data a => exact fun v hv => hm v (by subst hv; simp [Kind.children]) _ (h v hv)
  | task io a p =>
    exact ⟨fun d hd => hm d (by simp [Kind.children, hd]) _ (h.1 d hd), fun v hv => hm v (by subst hv; simp [Kind.children]) _ (h.2 v hv)⟩

/-- Updating an object in place, moving references between its fields, its count and the pending list. -/
theorem ginv_put {c : Conf} {s : St} {P P' : List Nat} (g : GInv c s P) {o : Nat} {x x' : Obj} (hx : s.obj o = some x)
    (hty : x'.kind.ty = x.kind.ty) (hsz : x'.size = x.size) (hr : x.refs ≠ 0) (hr' : x'.refs ≠ 0)
    (hwt : wt s x'.kind) (hph : ∀ a, x'.kind = .vaccel (some a) → isTy s a .phys)
    (hP : ∀ p ∈ P', (s.obj p).isSome)
    (hc : ∀ i, (if i = o then x'.refs else 0) + x.kind.children.count i + P.count i =
      (if i = o then x.refs else 0) + x'.kind.children.count i + P'.count i) :
    GInv c (s.put o (some x')) P' := by
  have ho := g.bound o x hx
  have mono : ∀ i t, isTy s i t → isTy (s.put o (some x')) i t := by
    rintro i t ⟨z, hz, ht⟩
    by_cases e : i = o
    · subst e
      rw [hx] at hz; cases hz
      exact ⟨x', by simp [St.put], by rw [hty]; exact ht⟩
    · exact ⟨z, by simp [St.put, e, hz], ht⟩
  have some' : ∀ i, (s.obj i).isSome → ((s.put o (some x')).obj i).isSome := by
    intro i hi
    simp only [St.put]
    split
    · rfl
    · exact hi
  refine ⟨?_, ?_, ?_, fun p hp => some' p (hP p hp), fun i hi => some' i (g.usr i hi), ?_, ?_, g.nodup, ?_⟩
  · intro i y hi
    by_cases e : i = o
    · subst e; exact ho
    · exact g.bound i y (by simpa [St.put, e] using hi)
  · intro i y hi
    have su := sumTo_update (fun j => hold (s.obj j) i) (fun j => hold ((s.put o (some x')).obj j) i) o
      (by intro j hj; simp [St.put, hj]) s.next ho
    have e1 : hold (s.obj o) i = x.kind.children.count i := by simp [hold, hx, hr]
    have e2 : hold ((s.put o (some x')).obj o) i = x'.kind.children.count i := by simp [hold, St.put, hr']
    simp only [e1, e2] at su
    show y.refs = s.user i + sumTo (fun j => hold ((s.put o (some x')).obj j) i) s.next + P'.count i
    have hci := hc i
    by_cases e : i = o
    · subst e
      have hy : y = x' := by have := hi; simp [St.put] at this; exact this.symm
      subst hy
      have := g.count i x hx
      simp only [if_true] at hci
      omega
    · have := g.count i y (by simpa [St.put, e] using hi)
      simp only [e, if_false] at hci
      omega
  · intro j y hj hy
    by_cases e : j = o
    · subst e
      have : y = x' := by have := hj; simp [St.put] at this; exact this.symm
      subst this
      exact wt_mono (fun i _ => mono i) hwt
    · exact wt_mono (fun i _ => mono i) (g.kids j y (by simpa [St.put, e] using hj) hy)
  · intro v y a hv hk
    by_cases e : v = o
    · subst e
      have : y = x' := by have := hv; simp [St.put] at this; exact this.symm
      subst this
      exact mono a _ (hph a hk)
    · exact mono a _ (g.phys v y a (by simpa [St.put, e] using hv) hk)
  · intro t i
    show i ∈ s.repo t ↔ _
    rw [g.repo]
    by_cases e : i = o
    · subst e
      simp only [hx, St.put, if_true, Option.some.injEq]
      constructor
      · rintro ⟨y, rfl, h1, h2⟩; exact ⟨x', rfl, hr', by rw [hty]; exact h2⟩
      · rintro ⟨y, rfl, h1, h2⟩; exact ⟨x, rfl, hr, by rw [← hty]; exact h2⟩
    · simp [St.put, e]
  · have su := sumTo_update (fun j => sz (s.obj j)) (fun j => sz ((s.put o (some x')).obj j)) o
      (by intro j hj; simp [St.put, hj]) s.next ho
    have e1 : sz (s.obj o) = sz ((s.put o (some x')).obj o) := by simp [sz, hx, St.put, hsz]
    simp only [e1] at su
    have := g.acct
    show s.avail + (sumTo (fun j => sz ((s.put o (some x')).obj j)) s.next : Nat) + (s.lost : Nat) = (c.total : Int)
    have e3 : sumTo (fun j => sz ((s.put o (some x')).obj j)) s.next = sumTo (fun j => sz (s.obj j)) s.next := by omega
    rw [e3]; exact this

/-- Only the order-insensitive contents of the pending list matter. -/
theorem ginv_perm {c : Conf} {s : St} {P P' : List Nat} (g : GInv c s P) (h : ∀ i, P.count i = P'.count i) : GInv c s P' :=
  ⟨g.bound, fun i x hx => by rw [← h i]; exact g.count i x hx, g.kids,
    fun p hp => g.pend p (by
      have := List.count_pos_iff.mpr hp
      rw [← h p] at this
      exact List.count_pos_iff.mp this), g.usr, g.phys, g.repo, g.nodup, g.acct⟩

theorem refs_pos {c : Conf} {s : St} {P : List Nat} (g : GInv c s P) {o : Nat} {x : Obj} (hx : s.obj o = some x) (h : o ∈ P) : x.refs ≠ 0 := by
  have := g.count o x hx
  have := List.count_pos_iff.mpr h
  omega

theorem count_cons' (o i : Nat) (P : List Nat) : (o :: P).count i = P.count i + if i = o then 1 else 0 := by
  rw [List.count_cons]
  by_cases e : i = o
  · subst e; simp
  · have : ¬ (o == i) = true := by simp; exact Ne.symm e
    simp [e, this]

/-- `arax_object_ref_inc` on a live, not dying object. -/
theorem ginv_refInc {c : Conf} {s : St} {P : List Nat} (g : GInv c s P) {o : Nat} {x : Obj} (hx : s.obj o = some x) (hr : x.refs ≠ 0) :
    refInc s o = .ok (s.put o (some { x with refs := x.refs + 1 })) ∧ GInv c (s.put o (some { x with refs := x.refs + 1 })) (o :: P) := by
  refine ⟨by simp [refInc, hx], ginv_put g hx rfl rfl hr (by simp) (g.kids o x hx hr) (fun a ha => g.phys o x a hx ha) ?_ ?_⟩
  · intro p hp
    rcases List.mem_cons.mp hp with rfl | hp
    · simp [hx]
    · exact g.pend p hp
  · intro i
    rw [count_cons']
    split <;> simp <;> omega

/-- A client drops its claim: one of its references becomes pending. -/
theorem ginv_userDrop {c : Conf} {s : St} {P : List Nat} (g : GInv c s P) {o : Nat} (h : 1 ≤ s.user o) :
    GInv c (s.setUser o (s.user o - 1)) (o :: P) := by
  refine ⟨g.bound, ?_, g.kids, ?_, ?_, g.phys, g.repo, g.nodup, g.acct⟩
  · intro i x hx
    have := g.count i x hx
    rw [count_cons']
    show x.refs = (if i = o then s.user o - 1 else s.user i) + sumTo (fun j => hold (s.obj j) i) s.next + _
    split
    · rename_i e; subst e; omega
    · omega
  · intro p hp
    rcases List.mem_cons.mp hp with rfl | hp
    · exact g.usr p (by omega)
    · exact g.pend p hp
  · intro i hi
    by_cases e : i = o
    · subst e; exact g.usr i (by omega)
    · exact g.usr i (by simpa [St.setUser, e] using hi)

/-- A pending reference is given to a client. -/
theorem ginv_userTake {c : Conf} {s : St} {P : List Nat} {o : Nat} (g : GInv c s (o :: P)) :
    GInv c (s.setUser o (s.user o + 1)) P := by
  refine ⟨g.bound, ?_, g.kids, fun p hp => g.pend p (by simp [hp]), ?_, g.phys, g.repo, g.nodup, g.acct⟩
  · intro i x hx
    have := g.count i x hx
    rw [count_cons'] at this
    show x.refs = (if i = o then s.user o + 1 else s.user i) + sumTo (fun j => hold (s.obj j) i) s.next + _
    split
    · rename_i e; subst e; simp at this; omega
    · rename_i e; simp only [e, if_false] at this; omega
  · intro i hi
    by_cases e : i = o
    · subst e; exact g.pend i (by simp)
    · exact g.usr i (by simpa [St.setUser, e] using hi)

/-- An object nobody refers to is not mentioned by live objects. -/
theorem not_child {c : Conf} {s : St} {P : List Nat} (g : GInv c s P) {o : Nat} {x : Obj} (hx : s.obj o = some x) (hr : x.refs = 0)
    {j : Nat} {y : Obj} (hj : s.obj j = some y) (hy : y.refs ≠ 0) : o ∉ y.kind.children := by
  intro hm
  have h1 := g.count o x hx
  have h2 := sumTo_ge (fun j => hold (s.obj j) o) j s.next (g.bound j y hj)
  have h3 : hold (s.obj j) o = y.kind.children.count o := by simp [hold, hj, hy]
  have := List.count_pos_iff.mpr hm
  omega

/-- The last reference goes: the object starts to be destroyed and its own references become pending. -/
theorem ginv_kill {c : Conf} {s : St} {P : List Nat} {o : Nat} {x : Obj} (g : GInv c s (o :: P)) (hx : s.obj o = some x) (hr : x.refs = 1) :
    GInv c ((s.put o (some { x with refs := 0 })).setRepo x.kind.ty ((s.repo x.kind.ty).erase o)) (x.kind.children ++ P) := by
  have ho := g.bound o x hx
  have mono : ∀ i t, isTy s i t → isTy ((s.put o (some { x with refs := 0 })).setRepo x.kind.ty ((s.repo x.kind.ty).erase o)) i t := by
    rintro i t ⟨z, hz, ht⟩
    by_cases e : i = o
    · subst e
      rw [hx] at hz; cases hz
      exact ⟨{ x with refs := 0 }, by simp [St.put, St.setRepo], ht⟩
    · exact ⟨z, by simp [St.put, St.setRepo, e, hz], ht⟩
  have some' : ∀ i, (s.obj i).isSome → (((s.put o (some { x with refs := 0 })).setRepo x.kind.ty ((s.repo x.kind.ty).erase o)).obj i).isSome := by
    intro i hi
    simp only [St.put, St.setRepo]
    split
    · rfl
    · exact hi
  refine ⟨?_, ?_, ?_, ?_, fun i hi => some' i (g.usr i hi), ?_, ?_, ?_, ?_⟩
  · intro i y hi
    by_cases e : i = o
    · subst e; exact ho
    · exact g.bound i y (by simpa [St.put, St.setRepo, e] using hi)
  · intro i y hi
    have su := sumTo_update (fun j => hold (s.obj j) i) (fun j => hold ((s.put o (some { x with refs := 0 })).obj j) i) o
      (by intro j hj; simp [St.put, hj]) s.next ho
    have e1 : hold (s.obj o) i = x.kind.children.count i := by simp [hold, hx, hr]
    have e2 : hold ((s.put o (some { x with refs := 0 })).obj o) i = 0 := by simp [hold, St.put]
    simp only [e1, e2] at su
    show y.refs = s.user i + sumTo (fun j => hold ((s.put o (some { x with refs := 0 })).obj j) i) s.next + (x.kind.children ++ P).count i
    rw [List.count_append]
    by_cases e : i = o
    · subst e
      have hy : y = { x with refs := 0 } := by have := hi; simp [St.put, St.setRepo] at this; exact this.symm
      have := g.count i x hx
      rw [count_cons'] at this
      simp only [if_true] at this
      rw [hy]
      show 0 = _
      omega
    · have := g.count i y (by simpa [St.put, St.setRepo, e] using hi)
      rw [count_cons'] at this
      simp only [e, if_false] at this
      omega
  · intro j y hj hy
    by_cases e : j = o
    · subst e
      have : y = { x with refs := 0 } := by have := hj; simp [St.put, St.setRepo] at this; exact this.symm
      subst this
      exact absurd rfl hy
    · exact wt_mono (fun i _ => mono i) (g.kids j y (by simpa [St.put, St.setRepo, e] using hj) hy)
  · intro p hp
    rcases List.mem_append.mp hp with hp | hp
    · exact some' p (wt_children (g.kids o x hx (by omega)) p hp)
    · exact some' p (g.pend p (by simp [hp]))
  · intro v y a hv hk
    by_cases e : v = o
    · subst e
      have : y = { x with refs := 0 } := by have := hv; simp [St.put, St.setRepo] at this; exact this.symm
      subst this
      exact mono a _ (g.phys v x a hx hk)
    · exact mono a _ (g.phys v y a (by simpa [St.put, St.setRepo, e] using hv) hk)
  · intro t i
    show i ∈ (if t = x.kind.ty then (s.repo x.kind.ty).erase o else s.repo t) ↔ _
    by_cases e : i = o
    · subst e
      have : ¬ ∃ y, ((s.put i (some { x with refs := 0 })).setRepo x.kind.ty ((s.repo x.kind.ty).erase i)).obj i = some y ∧ y.refs ≠ 0 ∧ y.kind.ty = t := by
        rintro ⟨y, hy, h1, -⟩
        simp [St.put, St.setRepo] at hy
        subst hy
        exact h1 rfl
      simp only [this, iff_false]
      split
      · rename_i et
        intro hm
        exact ((g.nodup _).mem_erase_iff.mp hm).1 rfl
      · rename_i et
        intro hm
        obtain ⟨y, hy, -, h2⟩ := (g.repo t i).mp hm
        rw [hx] at hy; cases hy
        exact et h2.symm
    · have : ((s.put o (some { x with refs := 0 })).setRepo x.kind.ty ((s.repo x.kind.ty).erase o)).obj i = s.obj i := by
        simp [St.put, St.setRepo, e]
      rw [this, ← g.repo t i]
      split
      · rename_i et; subst et; exact List.mem_erase_of_ne e
      · rfl
  · intro t
    show (if t = x.kind.ty then (s.repo x.kind.ty).erase o else s.repo t).Nodup
    split
    · exact (g.nodup _).erase o
    · exact g.nodup t
  · have e3 : sumTo (fun j => sz ((s.put o (some { x with refs := 0 })).obj j)) s.next = sumTo (fun j => sz (s.obj j)) s.next := by
      apply sumTo_congr
      intro i _
      by_cases e : i = o
      · subst e; simp [St.put, sz, hx]
      · simp [St.put, e]
    show s.avail + (sumTo (fun j => sz ((s.put o (some { x with refs := 0 })).obj j)) s.next : Nat) + (s.lost : Nat) = (c.total : Int)
    rw [e3]; exact g.acct

/-- The memory of a destroyed object is released. -/
theorem ginv_remove {c : Conf} {s : St} {P : List Nat} {o : Nat} {x : Obj} (g : GInv c s P) (hx : s.obj o = some x) (hr : x.refs = 0)
    (hv : ∀ v y, s.obj v = some y → y.kind = .vaccel (some o) → False) :
    GInv c { s.put o none with avail := s.avail + x.size } P := by
  have ho := g.bound o x hx
  have hcnt := g.count o x hx
  have hobj : ∀ i, i ≠ o → ({ s.put o none with avail := s.avail + x.size } : St).obj i = s.obj i := by
    intro i hi; simp [St.put, hi]
  have hnone : ({ s.put o none with avail := s.avail + x.size } : St).obj o = none := by simp [St.put]
  have ne : ∀ i y, ({ s.put o none with avail := s.avail + x.size } : St).obj i = some y → i ≠ o ∧ s.obj i = some y := by
    intro i y h
    by_cases e : i = o
    · subst e; rw [hnone] at h; cases h
    · exact ⟨e, by rw [← hobj i e]; exact h⟩
  have mono : ∀ i, i ≠ o → ∀ t, isTy s i t → isTy { s.put o none with avail := s.avail + x.size } i t := by
    rintro i hi t ⟨z, hz, ht⟩
    exact ⟨z, by rw [hobj i hi]; exact hz, ht⟩
  refine ⟨?_, ?_, ?_, ?_, ?_, ?_, ?_, g.nodup, ?_⟩
  · intro i y h; exact g.bound i y (ne i y h).2
  · intro i y h
    obtain ⟨hi, hy⟩ := ne i y h
    have e3 : sumTo (fun j => hold (({ s.put o none with avail := s.avail + x.size } : St).obj j) i) s.next = sumTo (fun j => hold (s.obj j) i) s.next := by
      apply sumTo_congr
      intro j _
      by_cases e : j = o
      · subst e; rw [hnone]; simp [hold, hx, hr]
      · rw [hobj j e]
    show y.refs = s.user i + sumTo (fun j => hold (({ s.put o none with avail := s.avail + x.size } : St).obj j) i) s.next + P.count i
    rw [e3]; exact g.count i y hy
  · intro j y h hy0
    obtain ⟨hj, hy⟩ := ne j y h
    exact wt_mono (fun i hi => mono i (fun e => not_child g hx hr hy hy0 (e ▸ hi))) (g.kids j y hy hy0)
  · intro p hp
    have : p ≠ o := by
      rintro rfl
      have := List.count_pos_iff.mpr hp
      omega
    rw [hobj p this]; exact g.pend p hp
  · intro i hi
    have : i ≠ o := by
      rintro rfl
      have hi : s.user i ≠ 0 := hi
      omega
    rw [hobj i this]; exact g.usr i hi
  · intro v y a h hk
    obtain ⟨hj, hy⟩ := ne v y h
    have : a ≠ o := by rintro rfl; exact hv v y hy hk
    exact mono a this _ (g.phys v y a hy hk)
  · intro t i
    show i ∈ s.repo t ↔ _
    rw [g.repo]
    by_cases e : i = o
    · subst e
      rw [hnone, hx]
      constructor
      · rintro ⟨y, hy, h1, -⟩; cases hy; exact absurd hr h1
      · rintro ⟨y, hy, -⟩; cases hy
    · rw [hobj i e]
  · have su := sumTo_update (fun j => sz (s.obj j)) (fun j => sz ((s.put o none).obj j)) o
      (by intro j hj; simp [St.put, hj]) s.next ho
    have e1 : sz (s.obj o) = x.size := by simp [sz, hx]
    have e2 : sz ((s.put o none).obj o) = 0 := by simp [St.put, sz]
    simp only [e1, e2] at su
    have ha := g.acct
    show s.avail + (x.size : Int) + (sumTo (fun j => sz ((s.put o none).obj j)) s.next : Nat) + (s.lost : Nat) = (c.total : Int)
    omega

/-! ### Dropping a reference -/

def Ty.rank : Ty → Nat
  | .vaccel | .proc => 1
  | .phys | .data => 2
  | .task => 3

/-- What dropping a reference leaves alone. -/
structure Frame (s s' : St) : Prop where
  user  : s'.user = s.user
  next  : s'.next = s.next
  lost  : s'.lost = s.lost
  sub   : ∀ i x', s'.obj i = some x' → ∃ x, s.obj i = some x ∧ x.kind = x'.kind ∧ x.size = x'.size
  dying : ∀ i x, s.obj i = some x → x.refs = 0 → s'.obj i = some x
  fresh : ∀ i x', s'.obj i = some x' → x'.refs = 0 → s.obj i = some x'

theorem Frame.rfl' (s : St) : Frame s s := ⟨rfl, rfl, rfl, fun _ x' h => ⟨x', h, rfl, rfl⟩, fun _ _ h _ => h, fun _ _ h _ => h⟩

theorem Frame.trans {s t u : St} (a : Frame s t) (b : Frame t u) : Frame s u :=
  ⟨b.user.trans a.user, b.next.trans a.next, b.lost.trans a.lost,
    fun i x' h => by
      obtain ⟨y, hy, h1, h2⟩ := b.sub i x' h
      obtain ⟨z, hz, h3, h4⟩ := a.sub i y hy
      exact ⟨z, hz, h3.trans h1, h4.trans h2⟩,
    fun i x h hr => b.dying i x (a.dying i x h hr) hr, fun i x h hr => a.fresh i x (b.fresh i x h hr) hr⟩

/-- The condition under which a physical accelerator can be destroyed, as in `Legal`. -/
def PhysOk (s : St) (o : Nat) : Prop :=
  ∀ x f, s.obj o = some x → x.kind = .phys f → f ≠ none ∧ (x.refs = 1 →
    ∀ v y, s.obj v = some y → y.kind = .vaccel (some o) → f = some v ∧ y.refs = 1)

theorem physOk_of_not_phys {s : St} {o : Nat} {x : Obj} (hx : s.obj o = some x) (h : x.kind.ty ≠ .phys) : PhysOk s o := by
  intro y f hy hk
  rw [hx] at hy; cases hy
  rw [hk] at h; exact absurd rfl h

theorem child_rank {s : St} {k : Kind} (h : wt s k) : ∀ i ∈ k.children, ∃ z, s.obj i = some z ∧ z.kind.ty.rank < k.ty.rank ∧ z.kind.ty ≠ .phys := by
  intro i hi
  cases k with
  | phys f =>
    obtain ⟨z, hz, ht⟩ := h i (by cases f <;> simp_all [Kind.children])
    exact ⟨z, hz, by rw [ht]; simp [Ty.rank, Kind.ty], by simp [ht]⟩
  | vaccel _ => simp [Kind.children] at hi
  | proc _ => simp [Kind.children] at hi
  | data a =>
    obtain ⟨z, hz, ht⟩ := h i (by cases a <;> simp_all [Kind.children])
    exact ⟨z, hz, by rw [ht]; simp [Ty.rank, Kind.ty], by simp [ht]⟩
  | task io a p =>
    simp only [Kind.children, List.mem_append] at hi
    rcases hi with hi | hi
    · obtain ⟨z, hz, ht⟩ := h.1 i hi
      exact ⟨z, hz, by rw [ht]; simp [Ty.rank, Kind.ty], by simp [ht]⟩
    · obtain ⟨z, hz, ht⟩ := h.2 i (by cases a <;> simp_all)
      exact ⟨z, hz, by rw [ht]; simp [Ty.rank, Kind.ty], by simp [ht]⟩

/-- The result of dropping one pending reference. -/
theorem refDec_spec (c : Conf) : ∀ (d : Nat) (s : St) (o : Nat) (x : Obj) (P : List Nat), GInv c s (o :: P) → s.obj o = some x →
    x.kind.ty.rank ≤ d → PhysOk s o →
    ∃ s', refDec d s o = .ok s' ∧ GInv c s' P ∧ Frame s s' ∧
      (x.refs = 1 → s'.obj o = none) ∧ (x.refs ≠ 1 → s' = s.put o (some { x with refs := x.refs - 1 })) := by
  intro d
  induction d with
  | zero =>
    intro s o x P _ _ hd
    cases h : x.kind.ty <;> simp [h, Ty.rank] at hd
  | succ d ih =>
    intro s o x P g hx hd hp
    have hpos := refs_pos g hx (by simp)
    by_cases h1 : x.refs = 1
    · -- the list of children
      have fold : ∀ (l : List Nat) (s : St) (P : List Nat), GInv c s (l ++ P) →
          (∀ i ∈ l, ∃ z, s.obj i = some z ∧ z.kind.ty.rank ≤ d ∧ z.kind.ty ≠ .phys) →
          ∃ s', l.foldlM (refDec d) s = .ok s' ∧ GInv c s' P ∧ Frame s s' := by
        intro l
        induction l with
        | nil => intro s P g _; exact ⟨s, rfl, g, Frame.rfl' s⟩
        | cons i r ihl =>
          intro s P g hl
          obtain ⟨z, hz, hrk, hnp⟩ := hl i (by simp)
          obtain ⟨s1, e1, g1, f1, -, -⟩ := ih s i z (r ++ P) g hz hrk (physOk_of_not_phys hz hnp)
          obtain ⟨s2, e2, g2, f2⟩ := ihl s1 P g1 (by
            intro j hj
            obtain ⟨z', hz', hrk', hnp'⟩ := hl j (by simp [hj])
            have hpres := g1.pend j (by simp [hj])
            obtain ⟨w, hw⟩ := Option.isSome_iff_exists.mp hpres
            obtain ⟨u, hu, hk, -⟩ := f1.sub j w hw
            rw [hz'] at hu; cases hu
            exact ⟨w, hw, by rw [← hk]; exact hrk', by rw [← hk]; exact hnp'⟩)
          refine ⟨s2, ?_, g2, f1.trans f2⟩
          simp only [List.foldlM_cons]
          rw [e1]; exact e2
      have gk := ginv_kill g hx h1
      have hwt := g.kids o x hx hpos
      have hkids : ∀ i ∈ x.kind.children, ∃ z, ((s.put o (some { x with refs := 0 })).setRepo x.kind.ty ((s.repo x.kind.ty).erase o)).obj i = some z ∧
          z.kind.ty.rank ≤ d ∧ z.kind.ty ≠ .phys := by
        intro i hi
        obtain ⟨z, hz, hrk, hnp⟩ := child_rank hwt i hi
        by_cases e : i = o
        · subst e; rw [hx] at hz; cases hz; omega
        · exact ⟨z, by simp [St.put, St.setRepo, e, hz], by omega, hnp⟩
      obtain ⟨s2, e2, g2, f2⟩ := fold x.kind.children _ P gk hkids
      have ho2 := f2.dying o { x with refs := 0 } (by simp [St.put, St.setRepo]) rfl
      have hdt : dtorOk ((s.put o (some { x with refs := 0 })).setRepo x.kind.ty ((s.repo x.kind.ty).erase o)) x.kind = true := by
        cases hk : x.kind with
        | vaccel a =>
          cases a with
          | none => rfl
          | some a =>
            obtain ⟨z, hz, -⟩ := g.phys o x a hx hk
            simp only [dtorOk, St.put, St.setRepo]
            split
            · rfl
            · simp [hz]
        | phys f =>
          have := (hp x f hx hk).1
          cases f with
          | none => exact absurd rfl this
          | some _ => rfl
        | proc _ => rfl
        | data _ => rfl
        | task _ _ _ => rfl
      have hnv : ∀ v y, s2.obj v = some y → y.kind = .vaccel (some o) → False := by
        intro v y hv hk
        obtain ⟨w, hw, hwk, -⟩ := f2.sub v y hv
        by_cases e : v = o
        · subst e
          rw [ho2] at hv; cases hv
          obtain ⟨z, hz, hzt⟩ := g.phys v x v hx hk
          rw [hx] at hz; cases hz
          rw [hk] at hzt; exact absurd hzt (by simp [Kind.ty])
        · have hw' : s.obj v = some w := by simpa [St.put, St.setRepo, e] using hw
          have hwk' : w.kind = .vaccel (some o) := by rw [hwk]; exact hk
          obtain ⟨z, hz, hzt⟩ := g.phys v w o hw' hwk'
          rw [hx] at hz; cases hz
          cases hkx : x.kind with
          | phys f =>
            obtain ⟨rfl, hwr⟩ := (hp x f hx hkx).2 h1 v w hw' hwk'
            -- the accelerator's own queue was destroyed with it
            have hch : x.kind.children = [v] := by rw [hkx]; rfl
            rw [hch] at e2 gk
            obtain ⟨s3, e3, -, -, hn, -⟩ := ih _ v w P gk hw (by
              rw [hwk']; rw [hkx] at hd; simp [Kind.ty, Ty.rank] at *; omega) (physOk_of_not_phys hw (by rw [hwk']; simp [Kind.ty]))
            simp only [List.foldlM_cons, List.foldlM_nil] at e2
            rw [e3] at e2
            simp only [Res.bind_ok, Res.pure_eq, Res.ok.injEq] at e2
            subst e2
            have := hn hwr
            rw [this] at hv; cases hv
          | vaccel _ => rw [hkx] at hzt; simp [Kind.ty] at hzt
          | proc _ => rw [hkx] at hzt; simp [Kind.ty] at hzt
          | data _ => rw [hkx] at hzt; simp [Kind.ty] at hzt
          | task _ _ _ => rw [hkx] at hzt; simp [Kind.ty] at hzt
      refine ⟨{ s2.put o none with avail := s2.avail + x.size }, ?_, ?_, ?_, ?_, fun h => absurd h1 h⟩
      · have h0 : ¬ x.refs = 0 := hpos
        simp only [refDec, hx, h1, hdt, if_true, if_false, e2, Res.bind_ok, (by decide : (1 : Nat) ≠ 0)]
      · exact ginv_remove (x := { x with refs := 0 }) g2 ho2 rfl hnv
      · refine ⟨f2.user, f2.next, f2.lost, ?_, ?_, ?_⟩
        · intro i y hi
          by_cases e : i = o
          · subst e; simp [St.put] at hi
          · obtain ⟨w, hw, h3, h4⟩ := f2.sub i y (by simpa [St.put, e] using hi)
            exact ⟨w, by simpa [St.put, St.setRepo, e] using hw, h3, h4⟩
        · intro i y hi hy
          have e : i ≠ o := by rintro rfl; rw [hx] at hi; cases hi; omega
          have := f2.dying i y (by simpa [St.put, St.setRepo, e] using hi) hy
          simpa [St.put, e] using this
        · intro i y hi hy
          by_cases e : i = o
          · subst e; simp [St.put] at hi
          · have := f2.fresh i y (by simpa [St.put, e] using hi) hy
            simpa [St.put, St.setRepo, e] using this
      · intro _; simp [St.put]
    · have h0 : ¬ x.refs = 0 := hpos
      refine ⟨s.put o (some { x with refs := x.refs - 1 }), ?_, ?_, ?_, fun h => absurd h h1, fun _ => rfl⟩
      · simp only [refDec, hx, h0, h1, if_false]
      · refine ginv_put g hx rfl rfl hpos (by simp; omega) (g.kids o x hx hpos) (fun a ha => g.phys o x a hx ha) (fun p hp => g.pend p (by simp [hp])) ?_
        intro i
        rw [count_cons']
        split <;> simp <;> omega
      · refine ⟨rfl, rfl, rfl, ?_, ?_, ?_⟩
        · intro i y hi
          by_cases e : i = o
          · subst e
            simp [St.put] at hi
            subst hi
            exact ⟨x, hx, rfl, rfl⟩
          · exact ⟨y, by simpa [St.put, e] using hi, rfl, rfl⟩
        · intro i y hi hy
          have e : i ≠ o := by rintro rfl; rw [hx] at hi; cases hi; omega
          simpa [St.put, e] using hi
        · intro i y hi hy
          have e : i ≠ o := by
            rintro rfl
            simp [St.put] at hi
            subst hi
            simp at hy; omega
          simpa [St.put, e] using hi

/-! ### New objects -/

theorem ginv_register {c : Conf} {s : St} {P : List Nat} (g : GInv c s P) {k : Kind} {size : Nat} (hk : k.children = [])
    (hwt : ∀ s', wt s' k) (hph : ∀ a, k = .vaccel (some a) → isTy s a .phys) :
    GInv c (register s true k size).1 P ∧ (register s true k size).2 = some s.next ∧
    (register s true k size).1.obj s.next = some { kind := k, refs := 1, size := size } ∧
    (register s true k size).1.user s.next = 1 ∧ (register s true k size).1.next = s.next + 1 ∧
    (∀ i, i ≠ s.next → (register s true k size).1.obj i = s.obj i ∧ (register s true k size).1.user i = s.user i) := by
  have hnone : s.obj s.next = none := by
    cases h : s.obj s.next with
    | none => rfl
    | some x => exact absurd (g.bound _ _ h) (by omega)
  have hun : s.user s.next = 0 := by
    apply Decidable.byContradiction
    intro h
    have := g.usr _ h
    simp [hnone] at this
  have hPn : P.count s.next = 0 := by
    apply Decidable.byContradiction
    intro h
    have := g.pend s.next (List.count_pos_iff.mp (by omega))
    simp [hnone] at this
  have hrepo : ∀ t, s.next ∉ s.repo t := by
    intro t h
    obtain ⟨x, hx, -⟩ := (g.repo t s.next).mp h
    simp [hnone] at hx
  generalize hs' : (register s true k size).1 = s'
  have o1 : ∀ i, s'.obj i = if i = s.next then some { kind := k, refs := 1, size := size } else s.obj i := by
    intro i; subst hs'; simp [register, St.put, St.setRepo, St.setUser]
  have o2 : ∀ i, s'.user i = if i = s.next then 1 else s.user i := by
    intro i; subst hs'; simp [register, St.put, St.setRepo, St.setUser]
  have o3 : s'.next = s.next + 1 := by subst hs'; simp [register, St.put, St.setRepo, St.setUser]
  have o4 : ∀ t, s'.repo t = if t = k.ty then s.next :: s.repo t else s.repo t := by
    intro t; subst hs'; simp only [register, St.put, St.setRepo, St.setUser, if_true]
    split
    · rename_i e; subst e; rfl
    · rfl
  have o5 : s'.avail = s.avail - size := by subst hs'; simp [register, St.put, St.setRepo, St.setUser]
  have o6 : s'.lost = s.lost := by subst hs'; simp [register, St.put, St.setRepo, St.setUser]
  have mono : ∀ i t, isTy s i t → isTy s' i t := by
    rintro i t ⟨z, hz, ht⟩
    have : i ≠ s.next := by rintro rfl; rw [hnone] at hz; cases hz
    exact ⟨z, by rw [o1, if_neg this]; exact hz, ht⟩
  have some' : ∀ i, (s.obj i).isSome → (s'.obj i).isSome := by
    intro i hi; rw [o1]; split
    · rfl
    · exact hi
  have hsum : ∀ i, sumTo (fun j => hold (s'.obj j) i) s'.next = sumTo (fun j => hold (s.obj j) i) s.next := by
    intro i
    rw [o3]
    simp only [sumTo]
    have e1 : hold (s'.obj s.next) i = 0 := by rw [o1]; simp [hold, hk]
    rw [e1, Nat.add_zero]
    apply sumTo_congr
    intro j hj
    rw [o1, if_neg (by omega)]
  refine ⟨⟨?_, ?_, ?_, fun p hp => some' p (g.pend p hp), ?_, ?_, ?_, ?_, ?_⟩, ?_, ?_, ?_, o3, ?_⟩
  · intro i x hx
    rw [o1] at hx
    rw [o3]
    split at hx
    · omega
    · have := g.bound i x hx; omega
  · intro i x hx
    rw [hsum, o2]
    rw [o1] at hx
    split at hx
    · rename_i e
      subst e
      cases hx
      have hz : sumTo (fun j => hold (s.obj j) s.next) s.next = 0 := by
        apply sumTo_zero
        intro j _
        cases hj : s.obj j with
        | none => rfl
        | some y =>
          simp only [hold]
          split
          · rfl
          · rename_i hy
            apply Decidable.byContradiction
            intro hcn
            have := wt_children (g.kids j y hj hy) s.next (List.count_pos_iff.mp (by omega))
            simp [hnone] at this
      simp only [if_true]
      omega
    · rename_i e
      simp only [e, if_false]
      exact g.count i x hx
  · intro j y hj hy
    rw [o1] at hj
    split at hj
    · cases hj; exact hwt s'
    · exact wt_mono (fun i _ => mono i) (g.kids j y hj hy)
  · intro i hi
    rw [o2] at hi
    split at hi
    · rename_i e; rw [o1]; simp [e]
    · exact some' i (g.usr i hi)
  · intro v y a hv hkk
    rw [o1] at hv
    split at hv
    · cases hv; exact mono a _ (hph a hkk)
    · exact mono a _ (g.phys v y a hv hkk)
  · intro t i
    rw [o4, o1]
    by_cases e : i = s.next
    · subst e
      simp only [if_true, Option.some.injEq]
      constructor
      · intro h
        split at h
        · rename_i et; exact ⟨_, rfl, by simp, et.symm⟩
        · exact absurd h (hrepo t)
      · rintro ⟨x, rfl, -, ht⟩
        rw [if_pos ht.symm]; simp
    · rw [if_neg e, ← g.repo t i]
      split
      · simp [e]
      · rfl
  · intro t
    rw [o4]
    split
    · exact List.nodup_cons.mpr ⟨hrepo t, g.nodup t⟩
    · exact g.nodup t
  · rw [o3, o5, o6]
    simp only [sumTo]
    have e1 : sz (s'.obj s.next) = size := by rw [o1]; simp [sz]
    have e2 : sumTo (fun j => sz (s'.obj j)) s.next = sumTo (fun j => sz (s.obj j)) s.next := by
      apply sumTo_congr
      intro j hj
      rw [o1, if_neg (by omega)]
    rw [e1, e2]
    have := g.acct
    omega
  · simp [register]
  · rw [o1]; simp
  · rw [o2]; simp
  · intro i hi
    rw [o1, o2]; simp [hi]

theorem ginv_registerFail {c : Conf} {s : St} {P : List Nat} (g : GInv c s P) (k : Kind) (size : Nat) :
    GInv c (register s false k size).1 P := by
  refine ⟨g.bound, g.count, g.kids, g.pend, g.usr, g.phys, g.repo, g.nodup, ?_⟩
  have := g.acct
  show s.avail - size + (sumTo (fun j => sz (s.obj j)) s.next : Nat) + ((s.lost + size : Nat) : Int) = (c.total : Int)
  omega

end Arax.Object
