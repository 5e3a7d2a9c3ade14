import Verif.Stream.Spec
import Mathlib.Data.List.Induction

/-!
# Programs on flat memory: frame, simulation, the built-in programs stay in bounds (C81)
-/
namespace Arax.Stream

@[simp] theorem upd_same {α : Type} (f : Nat → α) (i : Nat) (a : α) : upd f i a i = a := by simp [upd]
theorem upd_other {α : Type} (f : Nat → α) (i j : Nat) (a : α) (h : j ≠ i) : upd f i a j = f j := by simp [upd, h]
theorem upd_apply {α : Type} (f : Nat → α) (i j : Nat) (a : α) : upd f i a j = if j = i then a else f j := rfl

/-- All steps of an operation on device memory. (Proof device: what is left to do in a stream.) -/
def Prog.runAt (base : Nat → Nat) : Prog → (Nat → Nat) → (Nat → Nat) → (Nat → Nat) × (Nat → Nat)
  | .done, m, h => (m, h)
  | .rd k off f, m, h => (f (m (base k + off))).runAt base m h
  | .wr k off b q, m, h => q.runAt base (upd m (base k + off) b) h
  | .hrd off f, m, h => (f (h off)).runAt base m h
  | .hwr off b q, m, h => q.runAt base m (upd h off b)

theorem runAt_step (base m h) (q : Prog) : (q.step base m h).1.runAt base (q.step base m h).2.1 (q.step base m h).2.2 = q.runAt base m h := by
  cases q <;> rfl

theorem step_fits (base m h len sz) (q : Prog) (hf : q.Fits len sz) : (q.step base m h).1.Fits len sz := by
  cases q with
  | done => trivial
  | rd k off f => exact hf.2.2 _
  | wr k off b q => exact hf.2.2
  | hrd off f => exact hf _
  | hwr off b q => exact hf

theorem step_noHost (base m h) (q : Prog) (hf : q.NoHost) : (q.step base m h).1.NoHost ∧ (q.step base m h).2.2 = h := by
  cases q with
  | done => exact ⟨trivial, rfl⟩
  | rd k off f => exact ⟨hf _, rfl⟩
  | wr k off b q => exact ⟨hf, rfl⟩
  | hrd off f => exact hf.elim
  | hwr off b q => exact hf.elim

/-- A step writes only into the buffers. -/
theorem step_mem (base m h len sz a) (q : Prog) (hf : q.Fits len sz) (ha : ∀ k off, k < len → off < sz k → a ≠ base k + off) : (q.step base m h).2.1 a = m a := by
  cases q with
  | done => rfl
  | rd k off f => rfl
  | wr k off b q => exact upd_other _ _ _ _ (ha k off hf.1 hf.2.1)
  | hrd off f => rfl
  | hwr off b q => rfl

/-- What a program does depends only on its buffers and its host area; the latter not if it does not touch it. -/
theorem runAt_frame (base : Nat → Nat) (len : Nat) (sz : Nat → Nat) (P : Nat → Prop) (hP : ∀ k off, k < len → off < sz k → P (base k + off)) :
    ∀ (q : Prog) (m m' h h' : Nat → Nat), q.Fits len sz → (h = h' ∨ q.NoHost) → (∀ a, P a → m a = m' a) →
      (∀ a, P a → (q.runAt base m h).1 a = (q.runAt base m' h').1 a) ∧ (h = h' → (q.runAt base m h).2 = (q.runAt base m' h').2) := by
  intro q
  induction q with
  | done => intro m m' h h' _ _ hm; exact ⟨hm, fun e => e⟩
  | rd k off f ih =>
    intro m m' h h' hf hn hm
    have e := hm _ (hP k off hf.1 hf.2.1)
    simp only [Prog.runAt]
    rw [e]
    exact ih _ m m' h h' (hf.2.2 _) (hn.imp id fun x => x _) hm
  | wr k off b q ih =>
    intro m m' h h' hf hn hm
    refine ih _ _ h h' hf.2.2 hn fun a ha => ?_
    simp only [upd]; split
    · rfl
    · exact hm a ha
  | hrd off f ih =>
    intro m m' h h' hf hn hm
    rcases hn with e | e
    · subst e; exact ih _ m m' h h (hf _) (.inl rfl) hm
    · exact e.elim
  | hwr off b q ih =>
    intro m m' h h' hf hn hm
    rcases hn with e | e
    · subst e
      have := ih m m' (upd h off b) (upd h off b) hf (.inl rfl) hm
      exact ⟨this.1, fun _ => this.2 rfl⟩
    · exact e.elim

/-- All operations of a stream, one after the other. (Proof device.) -/
def flush : List Op → (Nat → Nat) → (Nat → Nat → Nat) → (Nat → Nat) × (Nat → Nat → Nat)
  | [], m, H => (m, H)
  | o :: l, m, H => flush l (o.prog.runAt o.base m (H o.t)).1 (upd H o.t (o.prog.runAt o.base m (H o.t)).2)

theorem flush_append (l k m H) : flush (l ++ k) m H = flush k (flush l m H).1 (flush l m H).2 := by
  induction l generalizing m H with
  | nil => rfl
  | cons o l ih => exact ih _ _

theorem flush_host (l : List Op) (m H t) (h : ∀ o ∈ l, o.t ≠ t) : (flush l m H).2 t = H t := by
  induction l generalizing m H with
  | nil => rfl
  | cons o l ih =>
    simp only [flush]
    rw [ih _ _ fun x hx => h x (.tail _ hx)]
    exact upd_other _ _ _ _ (h o (.head _)).symm

/-- What a stream does depends only on the memory its operations use, and on the host areas of the tasks that use them. -/
theorem flush_frame (len : Nat → Nat) (sz : Nat → Nat → Nat) (P : Nat → Prop) (G : Nat → Prop) (l : List Op)
    (hl : ∀ o ∈ l, o.prog.Fits (len o.t) (sz o.t) ∧ (G o.t → o.prog.NoHost) ∧ ∀ k off, k < len o.t → off < sz o.t k → P (o.base k + off))
    (m m' : Nat → Nat) (H H' : Nat → Nat → Nat) (hm : ∀ a, P a → m a = m' a) (hH : ∀ t, ¬ G t → H t = H' t) :
    (∀ a, P a → (flush l m H).1 a = (flush l m' H').1 a) ∧ (∀ t, ¬ G t → (flush l m H).2 t = (flush l m' H').2 t) := by
  induction l generalizing m m' H H' with
  | nil => exact ⟨hm, hH⟩
  | cons o l ih =>
    obtain ⟨h1, h2, h3⟩ := hl o (.head _)
    have hd : H o.t = H' o.t ∨ o.prog.NoHost := by
      by_cases g : G o.t
      · exact .inr (h2 g)
      · exact .inl (hH _ g)
    have fr := runAt_frame o.base (len o.t) (sz o.t) P h3 o.prog m m' (H o.t) (H' o.t) h1 hd hm
    refine ih (fun x hx => hl x (.tail _ hx)) _ _ _ _ fr.1 fun t ht => ?_
    simp only [upd]; split
    · next e => subst e; exact fr.2 (hH _ ht)
    · exact hH t ht

/-- On allocations that do not overlap a program does to flat memory what it does to the contents. -/
theorem run_sim (io : List Nat) (dsz : Nat → Nat) (rb : Nat → Option Nat) (base : Nat → Nat) (D : Nat → Prop)
    (hb : ∀ k, k < io.length → D (arg io k) ∧ rb (arg io k) = some (base k))
    (hd : ∀ d e b c, d ≠ e → rb d = some b → rb e = some c → b + dsz d ≤ c ∨ c + dsz e ≤ b) :
    ∀ (q : Prog) (m h : Nat → Nat) (c : Nat → Nat → Nat), q.Fits io.length (fun k => dsz (arg io k)) →
      (∀ d b off, D d → rb d = some b → off < dsz d → m (b + off) = c d off) →
      (∀ d b off, D d → rb d = some b → off < dsz d → (q.runAt base m h).1 (b + off) = (q.run io c h).1 d off) ∧ (q.runAt base m h).2 = (q.run io c h).2 := by
  intro q
  induction q with
  | done => intro m h c _ hm; exact ⟨hm, rfl⟩
  | rd k off f ih =>
    intro m h c hf hm
    have e := hm _ _ off (hb k hf.1).1 (hb k hf.1).2 hf.2.1
    simp only [Prog.runAt, Prog.run]
    rw [e]
    exact ih _ m h c (hf.2.2 _) hm
  | wr k off x q ih =>
    intro m h c hf hm
    refine ih _ h _ hf.2.2 fun d b off' h1 h2 h3 => ?_
    have hk := hb k hf.1
    by_cases e : d = arg io k
    · subst e
      have : base k = b := by have := hk.2; rw [h2] at this; exact (Option.some.inj this).symm
      subst this
      rw [upd_same]
      by_cases e2 : off' = off
      · subst e2; rw [upd_same, upd_same]
      · rw [upd_other _ _ _ _ e2, upd_other _ _ _ _ (by omega)]
        exact hm _ _ _ h1 h2 h3
    · rw [upd_other _ _ _ _ e, upd_other]
      · exact hm _ _ _ h1 h2 h3
      · have := hd _ _ _ _ e h2 hk.2
        have := hf.2.1
        simp only at this
        omega
  | hrd off f ih => intro m h c hf hm; exact ih _ m h c (hf _) hm
  | hwr off x q ih => intro m h c hf hm; exact ih m _ c hf hm

/-- A program leaves the contents of data objects that are not among its arguments alone and does not depend on them. -/
theorem run_ini (io : List Nat) (d : Nat) (hd : d ∉ io) (x : Nat → Nat) (sz) :
    ∀ (q : Prog) (h : Nat → Nat) (c : Nat → Nat → Nat), q.Fits io.length sz →
      (q.run io (upd c d x) h).1 = upd (q.run io c h).1 d x ∧ (q.run io (upd c d x) h).2 = (q.run io c h).2 := by
  have hne : ∀ k, k < io.length → arg io k ≠ d := by
    intro k hk e
    apply hd
    rw [← e, arg, List.getD_eq_getElem?_getD, List.getElem?_eq_getElem hk]
    exact List.getElem_mem hk
  intro q
  induction q with
  | done => intro h c _; exact ⟨rfl, rfl⟩
  | rd k off f ih =>
    intro h c hf
    simp only [Prog.run]
    rw [upd_other _ _ _ _ (hne k hf.1)]
    exact ih _ h c (hf.2.2 _)
  | wr k off b q ih =>
    intro h c hf
    simp only [Prog.run]
    rw [upd_other _ _ _ _ (hne k hf.1)]
    have : upd (upd c d x) (arg io k) (upd (c (arg io k)) off b) = upd (upd c (arg io k) (upd (c (arg io k)) off b)) d x := by
      funext e
      have := hne k hf.1
      simp only [upd]
      grind
    rw [this]
    exact ih h _ hf.2.2
  | hrd off f ih => intro h c hf; exact ih _ h c (hf _)
  | hwr off b q ih => intro h c hf; exact ih _ c hf

theorem run_keeps (io : List Nat) (d : Nat) (hd : d ∉ io) (sz) (q : Prog) (h : Nat → Nat) (c : Nat → Nat → Nat) (hf : q.Fits io.length sz) :
    (q.run io c h).1 d = c d := by
  have := (run_ini io d hd (c d) sz q h c hf).1
  have e : upd c d (c d) = c := by funext j; simp only [upd]; split <;> simp_all
  rw [e] at this
  rw [this, upd_same]

/-! ## The built-in programs -/

theorem copyIn_fits (n i len sz) (h0 : 0 < len) (h : i + n ≤ sz 0) : (copyIn n i).Fits len sz := by
  induction n generalizing i with
  | zero => trivial
  | succ n ih => exact fun b => ⟨h0, by omega, ih _ (by omega)⟩

theorem copyOut_fits (n i len sz) (h0 : 0 < len) (h : i + n ≤ sz 0) : (copyOut n i).Fits len sz := by
  induction n generalizing i with
  | zero => trivial
  | succ n ih => exact ⟨h0, by omega, fun b => ih _ (by omega)⟩

theorem fill_fits (f n i len sz) (h0 : 0 < len) (h : i + n ≤ sz 0) : (fill f n i).Fits len sz := by
  induction n generalizing i f with
  | zero => trivial
  | succ n ih => exact ⟨h0, by omega, ih _ _ (by omega)⟩

theorem copyBuf_fits (n a b len sz) (h0 : 1 < len) (h : a + n ≤ sz 0) (h' : b + n ≤ sz 1) : (copyBuf n a b).Fits len sz := by
  induction n generalizing a b with
  | zero => trivial
  | succ n ih => exact ⟨by omega, by omega, fun x => ⟨h0, by omega, ih _ _ (by omega) (by omega)⟩⟩

theorem fill_noHost (f n i) : (fill f n i).NoHost := by
  induction n generalizing i f with
  | zero => trivial
  | succ n ih => exact ih _ _

theorem copyBuf_noHost (n a b) : (copyBuf n a b).NoHost := by
  induction n generalizing a b with
  | zero => trivial
  | succ n ih => exact fun x => ih _ _

theorem usub_eq (a b : Nat) (ha : a < 2 ^ 64) (h : b ≤ a) : usub a b = a - b := by
  have e : b % 2 ^ 64 = b := Nat.mod_eq_of_lt (by omega)
  rw [usub, e]
  omega

theorem legal_ok (cf : Conf) (hs : cf.Sane) (r : Req) (hr : r.Legal cf) (q) (hq : cf.prog r = some q) :
    q.Fits r.io.length (fun k => cf.dsz (arg r.io k)) ∧ (cf.waits r = false → q.NoHost) := by
  cases r with
  | set d bs =>
    simp only [Conf.prog, Option.some.injEq] at hq; subst hq
    exact ⟨copyIn_fits _ _ _ _ (by simp [Req.io]) (by simp [arg, Req.io]), fun h => by simp [Conf.waits] at h⟩
  | get d =>
    simp only [Conf.prog, Option.some.injEq] at hq; subst hq
    exact ⟨copyOut_fits _ _ _ _ (by simp [Req.io]) (by simp [arg, Req.io]), fun h => by simp [Conf.waits] at h⟩
  | memset d off val n =>
    have hr : off + n ≤ cf.size d := hr
    simp only [Conf.prog] at hq
    split at hq
    · split at hq
      · cases hq; exact ⟨trivial, fun _ => trivial⟩
      · split at hq
        · next h => cases hq; exact ⟨fill_fits _ _ _ _ _ (by simp [Req.io]) (by simpa [arg, Req.io] using h.1), fun _ => fill_noHost _ _ _⟩
        · cases hq; exact ⟨trivial, fun _ => trivial⟩
    · next hbe =>
      cases hq
      refine ⟨fill_fits _ _ _ _ _ (by simp [Req.io]) ?_, fun _ => fill_noHost _ _ _⟩
      have : cf.dsz d = cf.size d := by unfold Conf.dsz; split <;> simp_all
      simpa [arg, Req.io, this] using hr
  | memcpy a b so dof n w =>
    obtain ⟨hr1, hr2⟩ : so ≤ cf.size a ∧ dof ≤ cf.size b := hr
    simp only [Conf.prog] at hq
    split at hq
    · cases hq
    · next hc =>
      rw [usub_eq _ _ (hs b) hr2, usub_eq _ _ (hs a) hr1] at hc
      split at hq
      · split at hq
        · split at hq
          · next h => cases hq; exact ⟨copyBuf_fits _ _ _ _ _ (by simp [Req.io]) (by simpa [arg, Req.io] using h.1) (by simpa [arg, Req.io] using h.2), fun _ => copyBuf_noHost _ _ _⟩
          · cases hq; exact ⟨trivial, fun _ => trivial⟩
        · cases hq; exact ⟨trivial, fun _ => trivial⟩
      · next hbe =>
        cases hq
        have e : ∀ d, cf.dsz d = cf.size d := by intro d; unfold Conf.dsz; split <;> simp_all
        refine ⟨copyBuf_fits _ _ _ _ _ (by simp [Req.io]) ?_ ?_, fun _ => copyBuf_noHost _ _ _⟩
        · simp only [arg, Req.io, e, List.getD_cons_zero]; omega
        · simp only [arg, Req.io, e, List.getD_cons_zero, List.getD_cons_succ]; omega
  | kernel io p hh w =>
    simp only [Conf.prog, Option.some.injEq] at hq; subst hq
    exact ⟨hr.1, fun h => by rcases hr.2 with e | e; · simp [Conf.waits, e] at h
                             · exact e⟩

/-! ## Sequential execution -/

theorem seq_append (cf task l t ini) : seq cf task (l ++ [t]) ini = (seq cf task l ini).one cf task t := by
  simp [seq, List.foldl_append]

theorem seq_task (cf : Conf) (task task' : Nat → Task) (l : List Nat) (ini) (h : ∀ t ∈ l, task t = task' t) : seq cf task l ini = seq cf task' l ini := by
  induction l using List.reverseRecOn with
  | nil => rfl
  | append_singleton l t ih =>
    rw [seq_append, seq_append, ih fun x hx => h x (by simp [hx])]
    simp only [Seq.one, h t (by simp)]

/-- The contents of a data object no task uses are not seen and not changed. -/
theorem seq_ini (cf : Conf) (hs : cf.Sane) (task : Nat → Task) (l : List Nat) (ini) (d x) (hl : ∀ t ∈ l, (task t).req.Legal cf ∧ d ∉ (task t).req.io) :
    (seq cf task l (upd ini d x)).c = upd (seq cf task l ini).c d x ∧ (seq cf task l (upd ini d x)).h = (seq cf task l ini).h := by
  induction l using List.reverseRecOn with
  | nil => exact ⟨rfl, rfl⟩
  | append_singleton l t ih =>
    obtain ⟨h1, h2⟩ := ih fun y hy => hl y (by simp [hy])
    obtain ⟨g1, g2⟩ := hl t (by simp)
    rw [seq_append, seq_append]
    simp only [Seq.one, h1, h2]
    have hf : ((cf.prog (task t).req).getD .done).Fits (task t).req.io.length (fun k => cf.dsz (arg (task t).req.io k)) := by
      cases e : cf.prog (task t).req with
      | none => trivial
      | some q => exact (legal_ok cf hs _ g1 q e).1
    have := run_ini _ d g2 x _ _ (task t).req.host (seq cf task l ini).c hf
    exact ⟨this.1, by rw [this.2]⟩

theorem seq_h_other (cf : Conf) (task : Nat → Task) (A B : List Nat) (t : Nat) (ini) (h : t ∉ B) : (seq cf task (A ++ B) ini).h t = (seq cf task A ini).h t := by
  induction B using List.reverseRecOn with
  | nil => simp
  | append_singleton l u ih =>
    rw [← List.append_assoc, seq_append]
    simp only [Seq.one]
    rw [upd_other _ _ _ _ (by simp at h; exact h.2), ih (by simp at h; exact h.1)]

end Arax.Stream
