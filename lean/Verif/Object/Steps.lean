import Verif.Object.Lemmas
/-!
# Preservation of the invariant by every API call
-/
namespace Arax.Object

/-- No object is being destroyed, and every physical accelerator has its own queue. (No code of its own.) -/
structure Ok (s : St) : Prop where
  live  : ∀ i x, s.obj i = some x → x.refs ≠ 0
  physf : ∀ i x f, s.obj i = some x → x.kind = .phys f → f ≠ none

/-- For statements and proofs; no code of its own. -/
structure Inv (c : Conf) (s : St) : Prop where
  g  : GInv c s []
  ok : Ok s

theorem inv_init (c : Conf) : Inv c (init c) := by
  refine ⟨⟨?_, ?_, ?_, ?_, ?_, ?_, ?_, ?_, ?_⟩, ?_, ?_⟩ <;> simp [init, sumTo]

theorem ok_put {s : St} {o : Nat} {x : Obj} (h : Ok s) (hr : x.refs ≠ 0) (hf : ∀ f, x.kind = .phys f → f ≠ none) : Ok (s.put o (some x)) := by
  refine ⟨?_, ?_⟩
  · intro i y hi
    by_cases e : i = o
    · subst e; simp [St.put] at hi; subst hi; exact hr
    · exact h.live i y (by simpa [St.put, e] using hi)
  · intro i y f hi hk
    by_cases e : i = o
    · subst e; simp [St.put] at hi; subst hi; exact hf f hk
    · exact h.physf i y f (by simpa [St.put, e] using hi) hk

theorem ok_frame {s s' : St} (h : Ok s) (f : Frame s s') : Ok s' := by
  refine ⟨?_, ?_⟩
  · intro i x hi hr
    exact h.live i x (f.fresh i x hi hr) hr
  · intro i x fv hi hk
    obtain ⟨y, hy, hyk, -⟩ := f.sub i x hi
    exact h.physf i y fv hy (hyk.trans hk)

theorem isTy_put {s : St} {o : Nat} {x x' : Obj} (hx : s.obj o = some x) (ht : x'.kind.ty = x.kind.ty) {i : Nat} {t : Ty} (h : isTy s i t) :
    isTy (s.put o (some x')) i t := by
  obtain ⟨z, hz, hzt⟩ := h
  by_cases e : i = o
  · subst e; rw [hx] at hz; cases hz
    exact ⟨x', by simp [St.put], by rw [ht]; exact hzt⟩
  · exact ⟨z, by simp [St.put, e, hz], hzt⟩

/-- What assigning data to accelerator `v` leaves alone. (No code of its own.) -/
structure Keep (s s' : St) (v : Nat) : Prop where
  user : s'.user = s.user
  next : s'.next = s.next
  lost : s'.lost = s.lost
  oth  : ∀ i x, s.obj i = some x → x.kind.ty ≠ .vaccel → x.kind.ty ≠ .data → s'.obj i = some x
  data : ∀ i, isTy s i .data → isTy s' i .data
  vac  : isTy s v .vaccel → isTy s' v .vaccel

theorem Keep.trans {s t u : St} {v : Nat} (a : Keep s t v) (b : Keep t u v) : Keep s u v :=
  ⟨b.user.trans a.user, b.next.trans a.next, b.lost.trans a.lost, fun i x h h1 h2 => b.oth i x (a.oth i x h h1 h2) h1 h2, fun i h => b.data i (a.data i h),
    fun h => b.vac (a.vac h)⟩

theorem Keep.rfl' (s : St) (v : Nat) : Keep s s v := ⟨rfl, rfl, rfl, fun _ _ h _ _ => h, fun _ h => h, fun h => h⟩

/-- Changing a data or virtual accelerator in place. -/
theorem keep_put {s : St} {o v : Nat} {x x' : Obj} (hx : s.obj o = some x) (ht : x'.kind.ty = x.kind.ty)
    (hty : x.kind.ty = .vaccel ∨ x.kind.ty = .data) : Keep s (s.put o (some x')) v := by
  refine ⟨rfl, rfl, rfl, ?_, fun i h => isTy_put hx ht h, fun h => isTy_put hx ht h⟩
  intro i y hi h1 h2
  have : i ≠ o := by rintro rfl; rw [hx] at hi; cases hi; rcases hty with e | e <;> simp_all
  simp [St.put, this, hi]

theorem data_kind {k : Kind} (h : k.ty = .data) : ∃ a, k = .data a := by
  cases k <;> simp [Kind.ty] at h
  exact ⟨_, rfl⟩

theorem vaccel_kind {k : Kind} (h : k.ty = .vaccel) : ∃ a, k = .vaccel a := by
  cases k <;> simp [Kind.ty] at h
  exact ⟨_, rfl⟩

theorem phys_kind {k : Kind} (h : k.ty = .phys) : ∃ a, k = .phys a := by
  cases k <;> simp [Kind.ty] at h
  exact ⟨_, rfl⟩

/-- Taking a reference on `v` and storing it in the unassigned data `d`. -/
theorem link_spec {c : Conf} {s : St} {P : List Nat} (g : GInv c s P) (ok : Ok s) {d v : Nat} {x z : Obj} (hd : s.obj d = some x)
    (hk : x.kind = .data none) (hv : s.obj v = some z) (hz : z.kind.ty = .vaccel) :
    ∃ s1, refInc s v = .ok s1 ∧ s1.obj d = some x ∧
      GInv c (s1.put d (some { x with kind := .data (some v) })) P ∧ Ok (s1.put d (some { x with kind := .data (some v) })) ∧
      Keep s (s1.put d (some { x with kind := .data (some v) })) v := by
  obtain ⟨e1, g1⟩ := ginv_refInc g hv (ok.live v z hv)
  have hne : d ≠ v := by rintro rfl; rw [hd] at hv; cases hv; rw [hk] at hz; simp [Kind.ty] at hz
  have hd1 : (s.put v (some { z with refs := z.refs + 1 })).obj d = some x := by simp [St.put, hne, hd]
  have hxr := ok.live d x hd
  refine ⟨_, e1, hd1, ?_, ?_, ?_⟩
  · refine ginv_put g1 hd1 (by simp [hk, Kind.ty]) rfl hxr hxr ?_ (by simp) (fun p hp => g1.pend p (by simp [hp])) ?_
    · intro w hw
      cases hw
      exact ⟨{ z with refs := z.refs + 1 }, by simp [St.put], hz⟩
    · intro i
      rw [count_cons']
      simp only [hk, Kind.children, Option.toList, List.count_nil, List.count_cons, beq_iff_eq]
      by_cases e : i = v
      · subst e; simp
        omega
      · simp [e, Ne.symm e]
  · exact ok_put (ok_put ok (by simp) (fun f hf => ok.physf v z f hv hf)) hxr (by simp)
  · exact (keep_put (x' := { z with refs := z.refs + 1 }) hv rfl (Or.inl hz)).trans (keep_put hd1 (by simp [hk, Kind.ty]) (Or.inr (by simp [hk, Kind.ty])))

theorem migrate_spec {c : Conf} {s : St} {P : List Nat} (g : GInv c s P) (ok : Ok s) {d v : Nat} (hd : isTy s d .data) (hv : isTy s v .vaccel) :
    migrate s d v = .abort ∨ ∃ s', migrate s d v = .ok s' ∧ GInv c s' P ∧ Ok s' ∧ Keep s s' v ∧
      ∃ x, s'.obj d = some x ∧ x.kind = .data (some v) := by
  obtain ⟨x, hx, hxt⟩ := hd
  obtain ⟨z, hz, hzt⟩ := hv
  obtain ⟨acc, hk⟩ := data_kind hxt
  have hxr := ok.live d x hx
  unfold migrate
  simp only [hx, hk]
  by_cases e : acc = some v
  · right
    exact ⟨s, by simp [e], g, ok, Keep.rfl' s v, x, hx, by rw [hk, e]⟩
  · simp only [e, if_false]
    cases acc with
    | none =>
      right
      obtain ⟨s1, e1, hd1, g1, ok1, k1⟩ := link_spec g ok hx hk hz hzt
      refine ⟨_, ?_, g1, ok1, k1, { x with kind := .data (some v) }, by simp [St.put], rfl⟩
      simp only [e1, Res.bind_ok, hd1]
    | some w =>
      have hwt := g.kids d x hx hxr
      rw [hk] at hwt
      obtain ⟨y, hy, hyt⟩ := hwt w rfl
      obtain ⟨p, hyk⟩ := vaccel_kind hyt
      obtain ⟨q, hzk⟩ := vaccel_kind hzt
      simp only [hy, hz, hyk, hzk]
      by_cases epq : p = q
      · simp only [epq, if_true]
        right
        have hne : d ≠ w := by rintro rfl; rw [hx] at hy; cases hy; rw [hk] at hyt; simp [Kind.ty] at hyt
        have hwv : w ≠ v := by rintro rfl; exact e rfl
        have g0 : GInv c (s.put d (some { x with kind := .data none })) (w :: P) := by
          refine ginv_put g hx (by simp [hk, Kind.ty]) rfl hxr hxr (by simp [wt]) (by simp) ?_ ?_
          · intro p' hp'
            rcases List.mem_cons.mp hp' with rfl | hp'
            · simp [hy]
            · exact g.pend p' hp'
          · intro i
            rw [count_cons']
            simp only [hk, Kind.children, Option.toList, List.count_nil, List.count_cons, beq_iff_eq]
            by_cases e : i = w
            · subst e; simp; omega
            · simp [e, Ne.symm e]
        have ok0 : Ok (s.put d (some { x with kind := .data none })) := ok_put ok hxr (by simp)
        have hw0 : (s.put d (some { x with kind := .data none })).obj w = some y := by simp [St.put, Ne.symm hne, hy]
        obtain ⟨s1, e1, g1, f1, hdead, hlive⟩ := refDec_spec c 3 _ w y P g0 hw0 (by rw [hyt]; decide) (physOk_of_not_phys hw0 (by rw [hyt]; simp))
        have ok1 := ok_frame ok0 f1
        -- nothing but w changed
        have same : ∀ i, i ≠ w → s1.obj i = (s.put d (some { x with kind := .data none })).obj i := by
          intro i hi
          by_cases h1 : y.refs = 1
          · have e2 := e1
            have hdt : dtorOk (((s.put d (some { x with kind := .data none })).put w (some { y with refs := 0 })).setRepo y.kind.ty
                (((s.put d (some { x with kind := .data none })).repo y.kind.ty).erase w)) y.kind = true := by
              cases hd' : dtorOk (((s.put d (some { x with kind := .data none })).put w (some { y with refs := 0 })).setRepo y.kind.ty
                (((s.put d (some { x with kind := .data none })).repo y.kind.ty).erase w)) y.kind with
              | true => rfl
              | false =>
                simp only [refDec, hw0, h1, if_true, if_false, (by decide : (1 : Nat) ≠ 0), hd'] at e2
                cases e2
            have hch : y.kind.children = [] := by rw [hyk]; rfl
            simp only [refDec, hw0, h1, if_true, if_false, (by decide : (1 : Nat) ≠ 0), hdt, hch, List.foldlM_nil, Res.pure_eq, Res.bind_ok, Res.ok.injEq] at e2
            rw [← e2]
            simp [St.put, St.setRepo, hi]
          · rw [hlive h1]
            simp [St.put, hi]
        have hd1 : s1.obj d = some { x with kind := .data none } := by rw [same d hne]; simp [St.put]
        have hv1 : s1.obj v = some z := by
          rw [same v (Ne.symm hwv)]
          have : v ≠ d := by rintro rfl; rw [hx] at hz; cases hz; rw [hk] at hzt; simp [Kind.ty] at hzt
          simp [St.put, this, hz]
        have k1 : Keep s s1 v := by
          refine ⟨f1.user, f1.next, f1.lost, ?_, ?_, fun _ => ⟨z, hv1, hzt⟩⟩
          · intro i x' hi h1 h2
            have hiw : i ≠ w := by rintro rfl; rw [hy] at hi; cases hi; exact h1 hyt
            have hid : i ≠ d := by rintro rfl; rw [hx] at hi; cases hi; exact h2 hxt
            rw [same i hiw]; simp [St.put, hid, hi]
          · rintro i ⟨u, hu, hut⟩
            have hiw : i ≠ w := by rintro rfl; rw [hy] at hu; cases hu; rw [hyt] at hut; cases hut
            by_cases hid : i = d
            · subst hid; exact ⟨_, hd1, rfl⟩
            · exact ⟨u, by rw [same i hiw]; simp [St.put, hid, hu], hut⟩
        obtain ⟨s2, e2, hd2, g2, ok2, k2⟩ := link_spec g1 ok1 hd1 rfl hv1 hzt
        refine ⟨_, ?_, g2, ok2, k1.trans k2, { x with kind := .data (some v) }, by simp [St.put], rfl⟩
        simp only [e1, e2, Res.bind_ok, hd2]
      · simp only [epq, if_false]
        left; trivial

theorem addIo_spec {c : Conf} {s : St} {P : List Nat} (g : GInv c s P) (ok : Ok s) {t v d : Nat} {io : List Nat} {a : Option Nat} {p refs size : Nat}
    (ht : s.obj t = some { kind := .task io a p, refs := refs, size := size }) (hd : isTy s d .data) (hv : isTy s v .vaccel) :
    addIo t v s d = .abort ∨ ∃ s', addIo t v s d = .ok s' ∧ GInv c s' P ∧ Ok s' ∧ s'.user = s.user ∧ s'.next = s.next ∧ s'.lost = s.lost ∧
      (∀ i, isTy s i .data → isTy s' i .data) ∧ isTy s' v .vaccel ∧
      (∀ i x, i ≠ t → s.obj i = some x → x.kind.ty ≠ .vaccel → x.kind.ty ≠ .data → s'.obj i = some x) ∧
      s'.obj t = some { kind := .task (io ++ [d]) a p, refs := refs, size := size } := by
  obtain ⟨x, hx, hxt⟩ := hd
  have hxr := ok.live d x hx
  obtain ⟨e1, g1⟩ := ginv_refInc g hx hxr
  have hne : t ≠ d := by rintro rfl; rw [hx] at ht; cases ht; simp [Kind.ty] at hxt
  have ht1 : (s.put d (some { x with refs := x.refs + 1 })).obj t = some { kind := .task io a p, refs := refs, size := size } := by
    simp [St.put, hne, ht]
  have ok1 : Ok (s.put d (some { x with refs := x.refs + 1 })) := ok_put ok (by simp) (fun f hf => ok.physf d x f hx hf)
  have k1 : Keep s (s.put d (some { x with refs := x.refs + 1 })) v := keep_put hx rfl (Or.inr hxt)
  have htr : refs ≠ 0 := ok.live t _ ht
  have hwt := g1.kids t _ ht1 htr
  have g2 : GInv c ((s.put d (some { x with refs := x.refs + 1 })).put t (some { kind := .task (io ++ [d]) a p, refs := refs, size := size })) P := by
    refine ginv_put g1 ht1 rfl rfl htr htr ?_ (by simp) (fun p hp => g1.pend p (by simp [hp])) ?_
    · refine ⟨?_, hwt.2⟩
      intro d' hd'
      rcases List.mem_append.mp hd' with h | h
      · exact hwt.1 d' h
      · simp at h; subst h
        exact ⟨{ x with refs := x.refs + 1 }, by simp [St.put], hxt⟩
    · intro i
      rw [count_cons']
      simp only [Kind.children, List.count_append, List.count_singleton, beq_iff_eq]
      by_cases e : i = d
      · subst e; simp; omega
      · simp [e, Ne.symm e]; try omega
  have ok2 : Ok ((s.put d (some { x with refs := x.refs + 1 })).put t (some { kind := .task (io ++ [d]) a p, refs := refs, size := size })) :=
    ok_put ok1 htr (by simp)
  have ty2 : ∀ i t', isTy (s.put d (some { x with refs := x.refs + 1 })) i t' →
      isTy ((s.put d (some { x with refs := x.refs + 1 })).put t (some { kind := .task (io ++ [d]) a p, refs := refs, size := size })) i t' :=
    fun i t' h => isTy_put (x' := { kind := .task (io ++ [d]) a p, refs := refs, size := size }) ht1 rfl h
  have hm := migrate_spec g2 ok2 (d := d) (v := v) (ty2 d _ (k1.data d ⟨x, hx, hxt⟩)) (ty2 v _ (k1.vac hv))
  unfold addIo
  simp only [e1, Res.bind_ok, ht1]
  rcases hm with hm | ⟨s', hm, g3, ok3, k3, -⟩
  · left; exact hm
  · right
    refine ⟨s', hm, g3, ok3, k3.user, k3.next, k3.lost, fun i h => k3.data i (ty2 i _ (k1.data i h)), k3.vac (ty2 v _ (k1.vac hv)), ?_, ?_⟩
    · intro i y hi hiy h1 h2
      refine k3.oth i y ?_ h1 h2
      have : i ≠ d := by rintro rfl; rw [hx] at hiy; cases hiy; exact h2 hxt
      simp [St.put, hi, this, hiy]
    · exact k3.oth t _ (by simp [St.put]) (by simp [Kind.ty]) (by simp [Kind.ty])

theorem foldIo_spec {c : Conf} {t v : Nat} {a : Option Nat} {p refs size : Nat} {P : List Nat} : ∀ (l : List Nat) (s : St) (io : List Nat),
    GInv c s P → Ok s → s.obj t = some { kind := .task io a p, refs := refs, size := size } → (∀ d ∈ l, isTy s d .data) → isTy s v .vaccel →
    l.foldlM (addIo t v) s = .abort ∨ ∃ s', l.foldlM (addIo t v) s = .ok s' ∧ GInv c s' P ∧ Ok s' ∧ s'.user = s.user ∧ s'.next = s.next ∧ s'.lost = s.lost ∧
      isTy s' v .vaccel ∧ (∀ i x, i ≠ t → s.obj i = some x → x.kind.ty ≠ .vaccel → x.kind.ty ≠ .data → s'.obj i = some x) ∧
      s'.obj t = some { kind := .task (io ++ l) a p, refs := refs, size := size } := by
  intro l
  induction l with
  | nil => intro s io g ok ht _ hv; right; exact ⟨s, rfl, g, ok, rfl, rfl, rfl, hv, fun _ _ _ h _ _ => h, by simpa using ht⟩
  | cons d r ih =>
    intro s io g ok ht hl hv
    simp only [List.foldlM_cons]
    rcases addIo_spec g ok ht (hl d (by simp)) hv with h | ⟨s1, e1, g1, ok1, u1, n1, l1, d1, v1, o1, t1⟩
    · left; rw [h]; rfl
    · rw [e1, Res.bind_ok]
      rcases ih s1 (io ++ [d]) g1 ok1 t1 (fun d' h => d1 d' (hl d' (by simp [h]))) v1 with h | ⟨s2, e2, g2, ok2, u2, n2, l2, v2, o2, t2⟩
      · left; exact h
      · right
        refine ⟨s2, e2, g2, ok2, u2.trans u1, n2.trans n1, l2.trans l1, v2, ?_, by simpa using t2⟩
        intro i x hi hx h1 h2
        exact o2 i x hi (o1 i x hi hx h1 h2) h1 h2

theorem checkIo_spec {s : St} : ∀ l : List Nat, (∀ d ∈ l, (s.obj d).isSome) →
    (checkIo s l = .ok true ∧ ∀ d ∈ l, isTy s d .data) ∨ checkIo s l = .ok false := by
  intro l
  induction l with
  | nil => intro _; left; exact ⟨rfl, by simp⟩
  | cons d r ih =>
    intro h
    obtain ⟨x, hx⟩ := Option.isSome_iff_exists.mp (h d (by simp))
    simp only [checkIo, hx]
    by_cases ht : x.kind.ty = .data
    · simp only [ht, if_true]
      rcases ih (fun d' h' => h d' (by simp [h'])) with ⟨e, hr⟩ | e
      · left
        refine ⟨e, ?_⟩
        intro d' hd'
        rcases List.mem_cons.mp hd' with rfl | h'
        · exact ⟨x, hx, ht⟩
        · exact hr d' h'
      · right; exact e
    · right; simp [ht]

theorem ok_register {s : St} (ok : Ok s) {k : Kind} {size : Nat} (hf : ∀ f, k = .phys f → f ≠ none) (allocOk : Bool) : Ok (register s allocOk k size).1 := by
  cases allocOk with
  | false => exact ⟨ok.live, ok.physf⟩
  | true =>
    have := ok_put (s := s) (o := s.next) (x := { kind := k, refs := 1, size := size }) ok (by simp) hf
    exact ⟨this.live, this.physf⟩

/-- A successful `arax_task_issue`: the new task holds its arguments and its accelerator, and its caller holds the task. -/
theorem issue_spec {c : Conf} {s : St} (g : GInv c s []) (ok : Ok s) {v p : Nat} {ins outs : List Nat} {h : Nat} (allocOk : Bool) (hv : isTy s v .vaccel)
    (hl : ∀ d ∈ ins ++ outs, (s.obj d).isSome) :
    issue c s allocOk v p ins outs h = .abort ∨ ∃ s', issue c s allocOk v p ins outs h = .ok (s', s.next) ∧ GInv c s' [] ∧ Ok s' ∧
      s'.obj s.next = some { kind := .task (ins ++ outs) (some v) p, refs := 1, size := c.szTask + 8 * (ins ++ outs).length + h } ∧ s'.user s.next = 1 ∧
      s'.next = s.next + 1 ∧ s'.lost = s.lost ∧ (∀ i, i ≠ s.next → s'.user i = s.user i) := by
  unfold issue
  rcases checkIo_spec (ins ++ outs) hl with ⟨e0, hio⟩ | e0
  · rw [e0]
    simp only [Res.bind_ok, if_true]
    cases allocOk with
    | false => left; simp [register]
    | true =>
      obtain ⟨g1, e1, t1, u1, n1, s1⟩ := ginv_register (k := .task [] none p) (size := c.szTask + 8 * (ins ++ outs).length + h) g rfl
        (by intro s'; simp [wt]) (by simp)
      have ok1 := ok_register (k := .task [] none p) (size := c.szTask + 8 * (ins ++ outs).length + h) ok (by simp) true
      have lost1 : (register s true (.task [] none p) (c.szTask + 8 * (ins ++ outs).length + h)).1.lost = s.lost := rfl
      generalize hreg : register s true (.task [] none p) (c.szTask + 8 * (ins ++ outs).length + h) = reg at *
      obtain ⟨sr, tr⟩ := reg
      dsimp only at *
      subst e1
      dsimp only
      have ty1 : ∀ i t, isTy s i t → isTy sr i t := by
        rintro i t ⟨z, hz, hzt⟩
        exact ⟨z, by rw [(s1 i (by have := g.bound i z hz; omega)).1]; exact hz, hzt⟩
      rcases foldIo_spec (ins ++ outs) sr [] g1 ok1 t1 (fun d hd => ty1 d _ (hio d hd)) (ty1 v _ hv) with hf | ⟨s2, e2, g2, ok2, u2, n2, l2, v2, o2, t2⟩
      · left; rw [hf]; rfl
      · right
        rw [e2]
        simp only [Res.bind_ok]
        obtain ⟨z, hz, hzt⟩ := v2
        obtain ⟨e3, g3⟩ := ginv_refInc g2 hz (ok2.live v z hz)
        have hne : s.next ≠ v := by
          obtain ⟨w, hw, -⟩ := hv
          have := g.bound v w hw; omega
        have t3 : (s2.put v (some { z with refs := z.refs + 1 })).obj s.next =
            some { kind := .task (ins ++ outs) none p, refs := 1, size := c.szTask + 8 * (ins ++ outs).length + h } := by
          simp only [St.put, hne, if_false]; simpa using t2
        rw [e3]
        simp only [Res.bind_ok, t3]
        have hwt := g3.kids s.next _ t3 (by simp)
        refine ⟨_, rfl, ?_, ?_, by simp [St.put], ?_, ?_, ?_, ?_⟩
        · refine ginv_put g3 t3 rfl rfl (by simp) (by simp) ?_ (by simp) (by simp) ?_
          · refine ⟨hwt.1, ?_⟩
            intro w hw
            cases hw
            exact ⟨{ z with refs := z.refs + 1 }, by simp [St.put], hzt⟩
          · intro i
            rw [count_cons']
            simp only [Kind.children, Option.toList, List.count_append, List.count_cons, List.count_nil, beq_iff_eq]
            by_cases e : i = v
            · subst e; simp; omega
            · simp [e, Ne.symm e]
        · exact ok_put (ok_put ok2 (by simp) (fun f hf => ok2.physf v z f hz hf)) (by simp) (by simp)
        · show s2.user s.next = 1
          rw [u2]; exact u1
        · show s2.next = s.next + 1
          rw [n2]; exact n1
        · show s2.lost = s.lost
          rw [l2]; exact lost1
        · intro i hi
          show s2.user i = s.user i
          rw [u2]; exact (s1 i hi).2
  · rw [e0]
    left; simp

theorem setAssign_spec {c : Conf} {s : St} (g : GInv c s []) (ok : Ok s) {d v : Nat} (hd : isTy s d .data) (hv : isTy s v .vaccel) :
    setAssign s d v = .abort ∨ ∃ s', setAssign s d v = .ok s' ∧ GInv c s' [] ∧ Ok s' := by
  obtain ⟨⟨xk, xr, xs⟩, hx, hxt⟩ := hd
  obtain ⟨z, hz, hzt⟩ := hv
  obtain ⟨acc, hk⟩ := data_kind hxt
  dsimp only at hk
  subst hk
  unfold setAssign
  simp only [hx]
  by_cases e : acc = some v
  · right; exact ⟨s, by simp [e], g, ok⟩
  · simp only [e, if_false]
    by_cases e' : acc = none
    · subst e'
      right
      obtain ⟨s1, e1, hd1, g1, ok1, -⟩ := link_spec g ok hx rfl hz hzt
      simp only [if_true, e1, Res.bind_ok, hd1]
      exact ⟨_, rfl, g1, ok1⟩
    · left; simp [e']

/-- Every legal call either aborts the process or leads to a state that satisfies the invariant; it never touches a destroyed object. -/
theorem inv_step {c : Conf} {s : St} (h : Inv c s) (allocOk : Bool) (op : Op) (hl : Legal s op) :
    step c s allocOk op = .abort ∨ ∃ s', step c s allocOk op = .ok s' ∧ Inv c s' := by
  obtain ⟨g, ok⟩ := h
  have reg : ∀ (b : Bool) (k : Kind) (size : Nat), k.children = [] → (∀ s', wt s' k) → (∀ a, k = .vaccel (some a) → isTy s a .phys) →
      (∀ f, k = .phys f → f ≠ none) → Inv c (register s b k size).1 := by
    intro b k size h1 h2 h3 h4
    refine ⟨?_, ok_register ok h4 b⟩
    cases b with
    | false => exact ginv_registerFail g k size
    | true => exact (ginv_register g h1 h2 h3).1
  cases op with
  | newPhys =>
    right
    simp only [step]
    cases allocOk with
    | false =>
      exact ⟨_, rfl, ginv_registerFail g _ _, ok.live, ok.physf⟩
    | true =>
      obtain ⟨g1, -, t1, u1, n1, s1⟩ := ginv_register (k := .phys none) (size := c.szPhys) g rfl (by intro s'; simp [wt]) (by simp)
      have lv1 : ∀ i x, (register s true (.phys none) c.szPhys).1.obj i = some x → x.refs ≠ 0 := by
        intro i x hi
        by_cases e : i = s.next
        · subst e; rw [t1] at hi; cases hi; simp
        · rw [(s1 i e).1] at hi; exact ok.live i x hi
      have pf1 : ∀ i x f, i ≠ s.next → (register s true (.phys none) c.szPhys).1.obj i = some x → x.kind = .phys f → f ≠ none := by
        intro i x f e hi
        rw [(s1 i e).1] at hi; exact ok.physf i x f hi
      generalize hs1 : (register s true (.phys none) c.szPhys).1 = sa at *
      obtain ⟨g2, -, t2, u2, n2, s2⟩ := ginv_register (k := .vaccel (some s.next)) (size := c.szVaccel) g1 rfl (by intro s'; simp [wt])
        (by intro a ha; injection ha with ha; injection ha with ha; subst ha; exact ⟨_, t1, rfl⟩)
      generalize hs2 : (register sa true (.vaccel (some s.next)) c.szVaccel).1 = sb at *
      rw [n1] at t2 u2 s2
      have g3 := ginv_userDrop (o := s.next + 1) g2 (by omega)
      rw [u2] at g3
      have hp : (sb.setUser (s.next + 1) 0).obj s.next = some { kind := .phys none, refs := 1, size := c.szPhys } := by
        show sb.obj s.next = _
        rw [(s2 s.next (by omega)).1]; exact t1
      simp only [if_true]
      refine ⟨_, rfl, ?_, ?_, ?_⟩
      · refine ginv_put g3 hp rfl rfl (by simp) (by simp) ?_ (by simp) (by simp) ?_
        · intro v hv
          cases hv
          exact ⟨_, t2, rfl⟩
        · intro i
          rw [count_cons']
          simp only [Kind.children, Option.toList, List.count_cons, List.count_nil, beq_iff_eq]
          by_cases e : i = s.next + 1
          · subst e; simp
          · simp [e, Ne.symm e]
      · intro i x hi
        by_cases e : i = s.next
        · subst e; simp [St.put] at hi; subst hi; simp
        · have hi' : sb.obj i = some x := by simpa [St.put, St.setUser, e] using hi
          by_cases e2 : i = s.next + 1
          · subst e2; rw [t2] at hi'; cases hi'; simp
          · rw [(s2 i e2).1] at hi'; exact lv1 i x hi'
      · intro i x f hi hk
        by_cases e : i = s.next
        · subst e; simp [St.put] at hi; subst hi; injection hk with hk; subst hk; simp
        · have hi' : sb.obj i = some x := by simpa [St.put, St.setUser, e] using hi
          by_cases e2 : i = s.next + 1
          · subst e2; rw [t2] at hi'; cases hi'; cases hk
          · rw [(s2 i e2).1] at hi'; exact pf1 i x f e hi' hk
  | newVaccel a =>
    right
    cases a with
    | none => exact ⟨_, rfl, reg allocOk _ _ rfl (by intro s'; simp [wt]) (by simp) (by simp)⟩
    | some a =>
      have ha : isTy s a .phys := hl
      simp only [step, isTy_isSome ha, if_true]
      exact ⟨_, rfl, reg allocOk _ _ rfl (by intro s'; simp [wt]) (by intro a' e; cases e; exact ha) (by simp)⟩
  | newProc name => right; exact ⟨_, rfl, reg allocOk _ _ rfl (by intro s'; simp [wt]) (by simp) (by simp)⟩
  | newData size align =>
    simp only [step]
    by_cases e : align = 0
    · left; simp [e]
    · right
      simp only [e, if_false]
      exact ⟨_, rfl, reg allocOk _ _ rfl (by intro s'; simp [wt]) (by simp) (by simp)⟩
  | issue v p ins outs hs =>
    obtain ⟨hv, -, hio⟩ := hl
    rcases issue_spec (p := p) (h := hs) g ok allocOk hv hio with e | ⟨s', e, g', ok', -⟩
    · left; simp [step, e, Res.map]
    · right; exact ⟨s', by simp [step, e, Res.map], g', ok'⟩
  | refInc o =>
    right
    obtain ⟨x, hx⟩ := Option.isSome_iff_exists.mp hl
    obtain ⟨e1, g1⟩ := ginv_refInc g hx (ok.live o x hx)
    have ok1 : Ok (s.put o (some { x with refs := x.refs + 1 })) := ok_put ok (by simp) (fun f hf => ok.physf o x f hx hf)
    refine ⟨_, by simp only [step, e1, Res.map], ginv_userTake g1, ok1.live, ok1.physf⟩
  | refDec o =>
    right
    obtain ⟨hu, hp⟩ := hl
    obtain ⟨x, hx⟩ := Option.isSome_iff_exists.mp (g.usr o (by omega))
    have g1 := ginv_userDrop g hu
    obtain ⟨s', e1, g2, f2, -⟩ := refDec_spec c 3 (s.setUser o (s.user o - 1)) o x [] g1 hx (by cases h : x.kind.ty <;> simp [Ty.rank])
      (by
        intro y f hy hk
        have hy : s.obj o = some y := hy
        exact ⟨ok.physf o y f hy hk, fun h1 => hp y f hy hk h1⟩)
    exact ⟨s', e1, g2, ok_frame (s := s.setUser o (s.user o - 1)) ⟨ok.live, ok.physf⟩ f2⟩
  | setAssign d v =>
    rcases setAssign_spec g ok hl.1 hl.2 with e | ⟨s', e, g', ok'⟩
    · left; exact e
    · right; exact ⟨s', e, g', ok'⟩
  | setAccel d v =>
    right
    obtain ⟨⟨z, hz, hzt⟩, ⟨xk, xr, xs⟩, acc, hx, hk, ha⟩ := hl
    dsimp only at hk
    subst hk
    simp only [step, setAccel, hx]
    rcases ha with rfl | rfl
    · simp only [reduceCtorEq, if_false]
      have hne : v ≠ d := by rintro rfl; rw [hx] at hz; cases hz; simp [Kind.ty] at hzt
      obtain ⟨s1, e1, hd1, g1, ok1, -⟩ := link_spec g ok hx rfl hz hzt
      have e2 : refInc (s.put d (some { kind := .data (some v), refs := xr, size := xs })) v =
          .ok (s1.put d (some { kind := .data (some v), refs := xr, size := xs })) := by
        simp only [refInc, hz, Res.ok.injEq] at e1
        simp only [refInc, St.put, hne, if_false, hz, Res.ok.injEq]
        rw [← e1]
        simp only [St.put, St.mk.injEq, and_true, true_and]
        funext j
        by_cases ej : j = d
        · subst ej; simp [Ne.symm hne]
        · by_cases ev : j = v <;> simp [ej, ev]
          intro hh; exact absurd hh hne
      exact ⟨_, e2, g1, ok1⟩
    · exact ⟨s, by simp, g, ok⟩
  | assign v a =>
    obtain ⟨⟨⟨xk, xr, xs⟩, hx, hxt⟩, ha⟩ := hl
    obtain ⟨q, hk⟩ := vaccel_kind hxt
    dsimp only at hk
    subst hk
    obtain ⟨y, hy, hyt⟩ := ha
    simp only [step, assign, hx, hy]
    by_cases e1 : q = some a
    · right; exact ⟨s, by simp [e1], g, ok⟩
    · by_cases e2 : q = none
      · right
        subst e2
        simp only [reduceCtorEq, if_true, if_false]
        have hr := ok.live v _ hx
        refine ⟨_, rfl, ?_, ok_put ok hr (by simp)⟩
        refine ginv_put g hx rfl rfl hr hr (by simp [wt]) ?_ (by simp) (by intro i; simp [Kind.children])
        intro a' e'
        cases e'
        exact ⟨y, hy, hyt⟩
      · left; simp [e1, e2]
  | unassign v =>
    right
    obtain ⟨⟨xk, xr, xs⟩, a, hx, hk⟩ := hl
    dsimp only at hk
    subst hk
    have hp := g.phys v _ a hx rfl
    simp only [step, unassign, hx, isTy_isSome hp, if_true]
    have hr := ok.live v _ hx
    exact ⟨_, rfl, ginv_put g hx rfl rfl hr hr (by simp [wt]) (by simp) (by simp) (by intro i; simp [Kind.children]), ok_put ok hr (by simp)⟩

theorem inv_reach {c : Conf} {s : St} (h : Reach c s) : Inv c s := by
  induction h with
  | init => exact inv_init c
  | step _ hl e ih =>
    rcases inv_step ih _ _ hl with h | ⟨s', h, hi⟩
    · rw [h] at e; cases e
    · rw [h] at e; cases e; exact hi

end Arax.Object
