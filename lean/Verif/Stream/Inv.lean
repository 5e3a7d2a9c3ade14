import Verif.Stream.Frame

/-!
# What holds at every moment of device execution (C81)
-/
namespace Arax.Stream

/-- Queued, or taken but not started. -/
def St.Pending (s : St) (t : Nat) : Prop := (∃ v, (v, t) ∈ s.queue) ∨ ∃ p, s.worker p = .begin t

/-- An operation of a stream: whose it is, its buffers are where the data objects are, it stays within them. -/
structure OpOk (cf : Conf) (s : St) (p : Nat) (o : Op) : Prop where
  log : o.t ∈ s.log
  ph : cf.ph (s.task o.t).vac = p
  base : ∀ k, k < (s.task o.t).req.io.length → s.remote (arg (s.task o.t).req.io k) = some (o.base k)
  fits : o.prog.Fits (s.task o.t).req.io.length (fun k => cf.dsz (arg (s.task o.t).req.io k))
  wait : cf.waits (s.task o.t).req = true → s.worker p = .wait o.t
  noHost : cf.waits (s.task o.t).req = false → o.prog.NoHost

/-- Once its stream is through, the device memory of accelerator `p` holds what sequential execution gives. -/
structure Sim (cf : Conf) (s : St) (ini : Nat → Nat → Nat) (p : Nat) : Prop where
  mem : ∀ d b off, s.remote d = some b → s.phys cf d = some p → off < cf.dsz d →
    (flush (s.stream p) s.mem s.host).1 (b + off) = (seq cf s.task s.log ini).c d off
  host : ∀ t ∈ s.log, cf.ph (s.task t).vac = p → s.gone t = false →
    (flush (s.stream p) s.mem s.host).2 t = (seq cf s.task s.log ini).h t

/-- The invariant without the simulation. -/
structure Inv (cf : Conf) (all : List Nat) (s : St) : Prop where
  queue : ∀ v t, (v, t) ∈ s.queue → t < s.n ∧ (s.task t).vac = v
  nodupQ : (s.queue.map (·.2)).Nodup
  begins : ∀ p t, s.worker p = .begin t → t < s.n ∧ p < cf.nw ∧ cf.ph (s.task t).vac = p ∧ ∀ v, (v, t) ∉ s.queue
  waits : ∀ p t, s.worker p = .wait t → p < cf.nw ∧ cf.ph (s.task t).vac = p ∧ t ∈ s.log ∧ s.done t = false ∧ s.gone t = false ∧ cf.waits (s.task t).req = true
  log : ∀ t, t ∈ s.log → t < s.n
  nodup : s.log.Nodup
  legal : ∀ t, t < s.n → (s.task t).req.Legal cf
  args : ∀ t d, t < s.n → d ∈ (s.task t).req.io → d ∈ all ∧ s.phys cf d = some (cf.ph (s.task t).vac)
  remote : ∀ d b, s.remote d = some b → d ∈ all ∧ ∃ p, s.phys cf d = some p
  disj : ∀ d e b c, d ≠ e → s.remote d = some b → s.remote e = some c → b + cf.dsz d ≤ c ∨ c + cf.dsz e ≤ b
  fresh : ∀ t, s.Pending t → t ∉ s.log ∧ s.host t = (s.task t).req.host ∧ ∀ d ∈ (s.task t).req.io, s.dropped d = false
  used : ∀ t d, t ∈ s.log → d ∈ (s.task t).req.io → s.dropped d = true ∨ s.remote d ≠ none
  marked : ∀ t, s.done t = true → t ∈ s.log
  freed : ∀ t, s.gone t = true → t ∈ s.log
  ops : ∀ p o, o ∈ s.stream p → OpOk cf s p o

theorem arg_mem (io : List Nat) (k : Nat) (hk : k < io.length) : arg io k ∈ io := by
  rw [arg, List.getD_eq_getElem?_getD, List.getElem?_eq_getElem hk]
  exact List.getElem_mem hk

/-- Addresses of accelerator `p`. -/
def Region (cf : Conf) (s : St) (p a : Nat) : Prop := ∃ d b off, s.remote d = some b ∧ s.phys cf d = some p ∧ off < cf.dsz d ∧ a = b + off

theorem region_apart {cf all s} (hi : Inv cf all s) {p q a a'} (hpq : p ≠ q) (h : Region cf s p a) (h' : Region cf s q a') : a ≠ a' := by
  obtain ⟨d, b, off, h1, h2, h3, rfl⟩ := h
  obtain ⟨e, c, off', g1, g2, g3, rfl⟩ := h'
  have hne : d ≠ e := by rintro rfl; rw [h2] at g2; exact hpq (Option.some.inj g2)
  have := hi.disj _ _ _ _ hne h1 g1
  omega

theorem op_region {cf all s} (hi : Inv cf all s) {p o} (ho : OpOk cf s p o) {k off} (hk : k < (s.task o.t).req.io.length)
    (hoff : off < cf.dsz (arg (s.task o.t).req.io k)) : Region cf s p (o.base k + off) :=
  ⟨_, _, off, ho.base k hk, by rw [(hi.args o.t _ (hi.log _ ho.log) (arg_mem _ _ hk)).2, ho.ph], hoff, rfl⟩

/-- Memory of other accelerators and host areas of tasks whose operations do not use them do not matter. -/
theorem stream_frame {cf all s} (hi : Inv cf all s) (p : Nat) (m' : Nat → Nat) (H' : Nat → Nat → Nat) (G : Nat → Prop)
    (hG : ∀ o ∈ s.stream p, G o.t → o.prog.NoHost) (hm : ∀ a, Region cf s p a → s.mem a = m' a) (hH : ∀ t, ¬ G t → s.host t = H' t) :
    (∀ a, Region cf s p a → (flush (s.stream p) s.mem s.host).1 a = (flush (s.stream p) m' H').1 a) ∧
    (∀ t, ¬ G t → (flush (s.stream p) s.mem s.host).2 t = (flush (s.stream p) m' H').2 t) := by
  refine flush_frame (fun t => (s.task t).req.io.length) (fun t k => cf.dsz (arg (s.task t).req.io k)) (Region cf s p) G _ (fun o ho => ?_) _ _ _ _ hm hH
  have h := hi.ops p o ho
  exact ⟨h.fits, hG o ho, fun k off hk hoff => op_region hi h hk hoff⟩

theorem inv_start (cf : Conf) (all) (m) : Inv cf all (start m) := by
  constructor <;> simp [start, St.Pending]

theorem sim_start (cf : Conf) (m ini p) : Sim cf (start m) ini p := by
  constructor <;> simp [start]

theorem first_some {i : Nat} {l : List (Nat × Nat)} {a r} (h : first i l = some (a, r)) : ∃ x y, l = x ++ (i, a) :: y ∧ r = x ++ y ∧ ∀ z ∈ x, z.1 ≠ i := by
  induction l generalizing a r with
  | nil => cases h
  | cons c l ih =>
    obtain ⟨j, b⟩ := c
    simp only [first] at h
    split at h
    · next e => cases h; subst e; exact ⟨[], _, rfl, rfl, by simp⟩
    · next e =>
      split at h
      · cases h
      · next b' r' he =>
        cases h
        obtain ⟨x, y, h1, h2, h3⟩ := ih he
        refine ⟨(j, b) :: x, y, by simp [h1], by simp [h2], ?_⟩
        intro z hz
        rcases List.mem_cons.1 hz with rfl | hz
        · exact e
        · exact h3 z hz

/-! ## Issue -/

theorem phys_issue {cf : Conf} {s : St} {v d : Nat} {r : Req} {all : List Nat} {P : Prop} (h : ∀ d ∈ r.io, d ∈ all ∧ s.dropped d = false ∧ s.accepts cf v d r = true)
    (hd : P → s.bound d ≠ none) :
    (if d ∈ r.io then some v else s.bound d).map cf.ph = s.phys cf d ∨ (s.bound d = none ∧ d ∈ r.io ∧ ¬ P) := by
  by_cases e : d ∈ r.io
  · rw [if_pos e]
    cases hb : s.bound d with
    | none => exact .inr ⟨rfl, e, fun p => hd p hb⟩
    | some w =>
      left
      have := (h d e).2.2
      cases r <;> simp only [St.accepts, St.phys, hb, Option.map_some] at this ⊢ <;> simp_all
  · rw [if_neg e]; exact .inl rfl

theorem inv_issue {cf : Conf} {all : List Nat} {s : St} (hi : Inv cf all s) (v : Nat) (r : Req) (hr : r.Legal cf)
    (h : ∀ d ∈ r.io, d ∈ all ∧ s.dropped d = false ∧ s.accepts cf v d r = true) :
    let s' : St := { s with n := s.n + 1, task := upd s.task s.n ⟨v, r⟩, bound := fun d => if d ∈ r.io then some v else s.bound d, queue := s.queue ++ [(v, s.n)], host := upd s.host s.n r.host }
    Inv cf all s' ∧ ∀ ini, (∀ p, Sim cf s ini p) → ∀ p, Sim cf s' ini p := by
  intro s'
  have tk : ∀ t, t < s.n → s'.task t = s.task t := fun t ht => upd_other _ _ _ _ (by omega)
  have tn : s'.task s.n = ⟨v, r⟩ := upd_same _ _ _
  have lt : ∀ t, t ∈ s.log → t ≠ s.n := fun t ht => by have := hi.log t ht; omega
  have ph : ∀ d p, s.phys cf d = some p → s'.phys cf d = some p := by
    intro d p hp
    have hb : True → s.bound d ≠ none := fun _ hb => by simp [St.phys, hb] at hp
    rcases phys_issue h hb with e | e
    · rw [← hp]; exact e
    · exact absurd trivial e.2.2
  have ph' : ∀ d p, s.remote d ≠ none → s'.phys cf d = some p → s.phys cf d = some p := by
    intro d p hne hp
    obtain ⟨b, hb⟩ := Option.ne_none_iff_exists'.1 hne
    obtain ⟨q, hq⟩ := (hi.remote d b hb).2
    rw [ph d q hq] at hp; rw [hq, hp]
  constructor
  · refine ⟨?_, ?_, ?_, ?_, ?_, hi.nodup, ?_, ?_, ?_, hi.disj, ?_, ?_, hi.marked, hi.freed, ?_⟩
    · intro w t ht
      rcases List.mem_append.1 ht with ht | ht
      · obtain ⟨h1, h2⟩ := hi.queue w t ht
        exact ⟨by show t < s.n + 1; omega, by rw [tk t h1]; exact h2⟩
      · simp only [List.mem_singleton, Prod.mk.injEq] at ht
        obtain ⟨rfl, rfl⟩ := ht
        exact ⟨Nat.lt_succ_self _, by rw [tn]⟩
    · show ((s.queue ++ [(v, s.n)]).map (·.2)).Nodup
      rw [List.map_append, List.nodup_append]
      refine ⟨hi.nodupQ, by simp, ?_⟩
      intro a ha b hb
      simp only [List.map_cons, List.map_nil, List.mem_singleton] at hb
      obtain ⟨⟨w, t⟩, h1, rfl⟩ := List.mem_map.1 ha
      have := (hi.queue w t h1).1
      simp only; omega
    · intro p t ht
      obtain ⟨h1, h2, h3, h4⟩ := hi.begins p t ht
      refine ⟨by show t < s.n + 1; omega, h2, by rw [tk t h1]; exact h3, fun w hw => ?_⟩
      rcases List.mem_append.1 hw with hw | hw
      · exact h4 w hw
      · simp only [List.mem_singleton, Prod.mk.injEq] at hw; omega
    · intro p t ht
      obtain ⟨h1, h2, h3, h4, h5, h6⟩ := hi.waits p t ht
      rw [tk t (hi.log t h3)]
      exact ⟨h1, h2, h3, h4, h5, h6⟩
    · intro t ht; have := hi.log t ht; show t < s.n + 1; omega
    · intro t ht
      by_cases e : t = s.n
      · subst e; rw [tn]; exact hr
      · have e2 : t < s.n := by have : t < s.n + 1 := ht; omega
        rw [tk t e2]; exact hi.legal t e2
    · intro t d ht hd
      by_cases e : t = s.n
      · subst e; rw [tn] at hd ⊢
        refine ⟨(h d hd).1, ?_⟩
        show (if d ∈ r.io then some v else s.bound d).map cf.ph = _
        rw [if_pos hd]; rfl
      · have e2 : t < s.n := by have : t < s.n + 1 := ht; omega
        rw [tk t e2] at hd ⊢
        obtain ⟨h1, h2⟩ := hi.args t d e2 hd
        exact ⟨h1, ph _ _ h2⟩
    · intro d b hb
      obtain ⟨h1, q, hq⟩ := hi.remote d b hb
      exact ⟨h1, q, ph _ _ hq⟩
    · intro t ht
      by_cases e : t = s.n
      · subst e
        refine ⟨fun hl => lt _ hl rfl, ?_, ?_⟩
        · rw [tn]; exact upd_same _ _ _
        · rw [tn]; exact fun d hd => (h d hd).2.1
      · have hp : s.Pending t := by
          rcases ht with ⟨w, hw⟩ | hp
          · rcases List.mem_append.1 hw with hw | hw
            · exact .inl ⟨w, hw⟩
            · simp only [List.mem_singleton, Prod.mk.injEq] at hw; exact absurd hw.2 e
          · exact .inr hp
        have hlt : t < s.n := by
          rcases hp with ⟨w, hw⟩ | ⟨p, hp⟩
          · exact (hi.queue w t hw).1
          · exact (hi.begins p t hp).1
        obtain ⟨h1, h2, h3⟩ := hi.fresh t hp
        rw [tk t hlt]
        exact ⟨h1, by rw [← h2]; exact upd_other _ _ _ _ e, h3⟩
    · intro t d ht hd
      rw [tk t (hi.log t ht)] at hd
      exact hi.used t d ht hd
    · intro p o ho
      have := hi.ops p o ho
      have e := tk o.t (hi.log _ this.log)
      constructor <;> (try rw [e])
      · exact this.log
      · exact this.ph
      · exact this.base
      · exact this.fits
      · exact this.wait
      · exact this.noHost
  · intro ini hsim p
    have fr := stream_frame hi p s.mem s'.host (· = s.n) (fun o ho e => absurd e (lt _ (hi.ops p o ho).log)) (fun _ _ => rfl) (fun t ht => (upd_other _ _ _ _ ht).symm)
    have sq : seq cf s'.task s.log ini = seq cf s.task s.log ini := seq_task _ _ _ _ _ fun t ht => tk t (hi.log t ht)
    constructor
    · intro d b off h1 h2 h3
      have h2' := ph' d p (by rw [show s.remote d = some b from h1]; simp) h2
      show (flush (s.stream p) s.mem s'.host).1 (b + off) = (seq cf s'.task s.log ini).c d off
      rw [sq, ← fr.1 _ ⟨d, b, off, h1, h2', h3, rfl⟩]
      exact (hsim p).mem d b off h1 h2' h3
    · intro t h1 h2 h3
      show (flush (s.stream p) s.mem s'.host).2 t = (seq cf s'.task s.log ini).h t
      rw [sq, ← fr.2 t (lt t h1)]
      rw [tk t (hi.log t h1)] at h2
      exact (hsim p).host t h1 h2 h3

/-! ## Take -/

theorem inv_take {cf : Conf} {all : List Nat} {s : St} (hi : Inv cf all s) (p v t : Nat) (r) (hp : p < cf.nw) (hv : cf.ph v = p) (hw : s.worker p = .idle)
    (hf : first v s.queue = some (t, r)) :
    let s' : St := { s with queue := r, worker := upd s.worker p (.begin t) }
    Inv cf all s' ∧ ∀ ini, (∀ p, Sim cf s ini p) → ∀ p, Sim cf s' ini p := by
  intro s'
  obtain ⟨x, y, h1, h2, _⟩ := first_some hf
  have sub : ∀ z, z ∈ r → z ∈ s.queue := by
    intro z hz; rw [h1]; rw [h2] at hz
    simp only [List.mem_append, List.mem_cons] at hz ⊢
    rcases hz with h | h <;> simp [h]
  have tin : (v, t) ∈ s.queue := by rw [h1]; simp
  have hnd := hi.nodupQ
  rw [h1, List.map_append, List.map_cons] at hnd
  have tnot : ∀ w, (w, t) ∉ r := by
    intro w hm
    rw [h2] at hm
    rw [List.nodup_append] at hnd
    rcases List.mem_append.1 hm with h | h
    · exact hnd.2.2 t (List.mem_map.2 ⟨(w, t), h, rfl⟩) t (by simp) rfl
    · have := List.nodup_cons.1 hnd.2.1
      exact this.1 (List.mem_map.2 ⟨(w, t), h, rfl⟩)
  have wo : ∀ q, q ≠ p → s'.worker q = s.worker q := fun q hq => upd_other _ _ _ _ hq
  have wp : s'.worker p = .begin t := upd_same _ _ _
  obtain ⟨hq1, hq2⟩ := hi.queue v t tin
  constructor
  · refine ⟨?_, ?_, ?_, ?_, hi.log, hi.nodup, hi.legal, hi.args, hi.remote, hi.disj, ?_, hi.used, hi.marked, hi.freed, ?_⟩
    · exact fun w u hu => hi.queue w u (sub _ hu)
    · show (r.map (·.2)).Nodup
      rw [h2, List.map_append]
      rw [List.nodup_append] at hnd ⊢
      refine ⟨hnd.1, (List.nodup_cons.1 hnd.2.1).2, fun a ha b hb => hnd.2.2 a ha b (.tail _ hb)⟩
    · intro q u hu
      by_cases e : q = p
      · subst e; rw [wp] at hu; cases hu
        exact ⟨hq1, hp, by show cf.ph (s.task t).vac = q; rw [hq2, hv], tnot⟩
      · rw [wo q e] at hu
        obtain ⟨g1, g2, g3, g4⟩ := hi.begins q u hu
        exact ⟨g1, g2, g3, fun w hw => g4 w (sub _ hw)⟩
    · intro q u hu
      by_cases e : q = p
      · subst e; rw [wp] at hu; cases hu
      · rw [wo q e] at hu; exact hi.waits q u hu
    · intro u hu
      refine hi.fresh u ?_
      rcases hu with ⟨w, hw⟩ | ⟨q, hq⟩
      · exact .inl ⟨w, sub _ hw⟩
      · by_cases e : q = p
        · subst e; rw [wp] at hq; cases hq; exact .inl ⟨v, tin⟩
        · rw [wo q e] at hq; exact .inr ⟨q, hq⟩
    · intro q o ho
      have g := hi.ops q o ho
      refine ⟨g.log, g.ph, g.base, g.fits, fun hwt => ?_, g.noHost⟩
      have := g.wait hwt
      by_cases e : q = p
      · subst e; rw [hw] at this; cases this
      · rw [wo q e]; exact this
  · intro ini hsim q
    exact ⟨(hsim q).mem, (hsim q).host⟩

/-! ## Memory -/

theorem room_disj {cf : Conf} {all : List Nat} {s : St} {b n : Nat} (h : s.roomAt cf all b n = true) (e c) (he : e ∈ all) (hc : s.remote e = some c) :
    b + n ≤ c ∨ c + cf.dsz e ≤ b := by
  have := List.all_eq_true.1 h e he
  simpa [hc, apart] using this

theorem inv_alloc {cf : Conf} (hs : cf.Sane) {all : List Nat} {s : St} (hi : Inv cf all s) (p d b t : Nat) (hw : s.worker p = .begin t) (hd : d ∈ (s.task t).req.io)
    (hn : s.remote d = none) (hr : s.roomAt cf all b (cf.dsz d) = true) :
    let s' : St := { s with remote := upd s.remote d (some b) }
    Inv cf all s' ∧ ∀ ini, (∀ p, Sim cf s ini p) → ∃ ini', ∀ p, Sim cf s' ini' p := by
  intro s'
  obtain ⟨h1, h2, h3, h4⟩ := hi.begins p t hw
  obtain ⟨a1, a2⟩ := hi.args t d h1 hd
  rw [h3] at a2
  have nd := (hi.fresh t (.inr ⟨p, hw⟩)).2.2 d hd
  have ro : ∀ e, e ≠ d → s'.remote e = s.remote e := fun e he => upd_other _ _ _ _ he
  have rd : s'.remote d = some b := upd_same _ _ _
  have keep : ∀ e c, s.remote e = some c → s'.remote e = some c := by
    intro e c hc
    rw [ro e]; exact hc
    rintro rfl; rw [hn] at hc; cases hc
  have unused : ∀ u, u ∈ s.log → d ∉ (s.task u).req.io := by
    intro u hu hdu
    rcases hi.used u d hu hdu with g | g
    · rw [nd] at g; cases g
    · exact g hn
  constructor
  · refine ⟨hi.queue, hi.nodupQ, hi.begins, hi.waits, hi.log, hi.nodup, hi.legal, hi.args, ?_, ?_, hi.fresh, ?_, hi.marked, hi.freed, ?_⟩
    · intro e c hc
      by_cases g : e = d
      · subst g; exact ⟨a1, p, a2⟩
      · rw [ro e g] at hc; exact hi.remote e c hc
    · intro e f c c' hne he hf
      by_cases g : e = d
      · subst g
        rw [rd] at he; cases he
        rw [ro f (Ne.symm hne)] at hf
        exact room_disj hr f c' (hi.remote f c' hf).1 hf
      · rw [ro e g] at he
        by_cases g' : f = d
        · subst g'
          rw [rd] at hf; cases hf
          exact (room_disj hr e c (hi.remote e c he).1 he).symm
        · rw [ro f g'] at hf; exact hi.disj _ _ _ _ hne he hf
    · intro u e hu he
      rcases hi.used u e hu he with g | g
      · exact .inl g
      · right
        obtain ⟨c, hc⟩ := Option.ne_none_iff_exists'.1 g
        rw [keep e c hc]; simp
    · intro q o ho
      have g := hi.ops q o ho
      exact ⟨g.log, g.ph, fun k hk => keep _ _ (g.base k hk), g.fits, g.wait, g.noHost⟩
  · intro ini hsim
    refine ⟨upd ini d fun off => (flush (s.stream p) s.mem s.host).1 (b + off), fun q => ?_⟩
    have sq := seq_ini cf hs s.task s.log ini d (fun off => (flush (s.stream p) s.mem s.host).1 (b + off)) fun u hu => ⟨hi.legal u (hi.log u hu), unused u hu⟩
    constructor
    · intro e c off g1 g2 g3
      show (flush (s.stream q) s.mem s.host).1 (c + off) = (seq cf s.task s.log _).c e off
      rw [sq.1]
      by_cases g : e = d
      · subst g
        rw [rd] at g1; cases g1
        have : p = q := by have g2 : s.phys cf e = some q := g2; rw [a2] at g2; exact Option.some.inj g2
        subst this
        rw [upd_same]
      · rw [upd_other _ _ _ _ g]
        rw [ro e g] at g1
        exact (hsim q).mem e c off g1 g2 g3
    · intro u g1 g2 g3
      show (flush (s.stream q) s.mem s.host).2 u = (seq cf s.task s.log _).h u
      rw [sq.2]
      exact (hsim q).host u g1 g2 g3

theorem inv_freeDev {cf : Conf} {all : List Nat} {s : St} (hi : Inv cf all s) (p d : Nat) (hdr : s.dropped d = true) (hp : s.phys cf d = some p) (hst : s.stream p = []) :
    let s' : St := { s with remote := upd s.remote d none }
    Inv cf all s' ∧ ∀ ini, (∀ p, Sim cf s ini p) → ∀ p, Sim cf s' ini p := by
  intro s'
  have ro : ∀ e, e ≠ d → s'.remote e = s.remote e := fun e he => upd_other _ _ _ _ he
  have rd : s'.remote d = none := upd_same _ _ _
  have old : ∀ e c, s'.remote e = some c → s.remote e = some c := by
    intro e c hc
    by_cases g : e = d
    · subst g; rw [rd] at hc; cases hc
    · rw [ro e g] at hc; exact hc
  constructor
  · refine ⟨hi.queue, hi.nodupQ, hi.begins, hi.waits, hi.log, hi.nodup, hi.legal, hi.args, ?_, ?_, hi.fresh, ?_, hi.marked, hi.freed, ?_⟩
    · exact fun e c hc => hi.remote e c (old e c hc)
    · exact fun e f c c' hne he hf => hi.disj _ _ _ _ hne (old _ _ he) (old _ _ hf)
    · intro u e hu he
      by_cases g : e = d
      · subst g; exact .inl hdr
      · rw [ro e g]; exact hi.used u e hu he
    · intro q o ho
      have g := hi.ops q o ho
      refine ⟨g.log, g.ph, fun k hk => ?_, g.fits, g.wait, g.noHost⟩
      rw [ro]; exact g.base k hk
      intro e
      have := (hi.args o.t _ (hi.log _ g.log) (arg_mem _ _ hk)).2
      rw [e, hp, g.ph] at this
      cases this
      rw [hst] at ho; cases ho
  · intro ini hsim q
    exact ⟨fun e c off g1 g2 g3 => (hsim q).mem e c off (old e c g1) g2 g3, (hsim q).host⟩

/-! ## The device -/

theorem inv_dev {cf : Conf} {all : List Nat} {s : St} (hi : Inv cf all s) (p : Nat) (o : Op) (l) (hst : s.stream p = o :: l) :
    let r := o.prog.step o.base s.mem (s.host o.t)
    let s' : St := { s with stream := upd s.stream p (⟨o.t, o.base, r.1⟩ :: l), mem := r.2.1, host := upd s.host o.t r.2.2 }
    Inv cf all s' ∧ ∀ ini, (∀ p, Sim cf s ini p) → ∀ p, Sim cf s' ini p := by
  intro r s'
  have ho := hi.ops p o (by rw [hst]; exact .head _)
  have so : ∀ q, q ≠ p → s'.stream q = s.stream q := fun q hq => upd_other _ _ _ _ hq
  have sp : s'.stream p = ⟨o.t, o.base, r.1⟩ :: l := upd_same _ _ _
  constructor
  · refine ⟨hi.queue, hi.nodupQ, hi.begins, hi.waits, hi.log, hi.nodup, hi.legal, hi.args, hi.remote, hi.disj, ?_, hi.used, hi.marked, hi.freed, ?_⟩
    · intro t ht
      obtain ⟨h1, h2, h3⟩ := hi.fresh t ht
      refine ⟨h1, ?_, h3⟩
      rw [← h2]; exact upd_other _ _ _ _ fun e => h1 (e ▸ ho.log)
    · intro q o' ho'
      by_cases e : q = p
      · subst e
        rw [sp] at ho'
        rcases List.mem_cons.1 ho' with rfl | ho'
        · exact ⟨ho.log, ho.ph, ho.base, step_fits _ _ _ _ _ _ ho.fits, ho.wait, fun hw => (step_noHost _ _ _ _ (ho.noHost hw)).1⟩
        · have g := hi.ops q o' (by rw [hst]; exact .tail _ ho')
          exact ⟨g.log, g.ph, g.base, g.fits, g.wait, g.noHost⟩
      · rw [so q e] at ho'
        have g := hi.ops q o' ho'
        exact ⟨g.log, g.ph, g.base, g.fits, g.wait, g.noHost⟩
  · intro ini hsim q
    by_cases e : q = p
    · subst e
      have key : flush (s'.stream q) s'.mem s'.host = flush (s.stream q) s.mem s.host := by
        rw [sp, hst]
        show flush l _ _ = flush l _ _
        have : s'.host o.t = r.2.2 := upd_same _ _ _
        simp only [this]
        have e2 := runAt_step o.base s.mem (s.host o.t) o.prog
        show flush l ((r.1).runAt o.base r.2.1 r.2.2).1 (upd s'.host o.t ((r.1).runAt o.base r.2.1 r.2.2).2) = _
        rw [show (r.1).runAt o.base r.2.1 r.2.2 = o.prog.runAt o.base s.mem (s.host o.t) from e2]
        congr 1
        funext j
        show upd (upd s.host o.t _) o.t _ j = _
        simp only [upd]; split <;> rfl
      constructor
      · intro d b off g1 g2 g3
        rw [key]; exact (hsim q).mem d b off g1 g2 g3
      · intro t g1 g2 g3
        rw [key]; exact (hsim q).host t g1 g2 g3
    · have ne : ∀ t, cf.ph (s.task t).vac = q → t ≠ o.t := by
        rintro t ht rfl
        exact e (ht.symm.trans ho.ph)
      have fr := stream_frame hi q s'.mem s'.host (· = o.t) (fun o' ho' e' => absurd e' (ne _ (hi.ops q o' ho').ph))
        (fun a ha => (step_mem _ _ _ _ _ _ _ ho.fits fun k off hk hoff => region_apart hi e ha (op_region hi ho hk hoff)).symm)
        (fun t ht => (upd_other _ _ _ _ ht).symm)
      constructor
      · intro d b off g1 g2 g3
        rw [so q e, ← fr.1 _ ⟨d, b, off, g1, g2, g3, rfl⟩]
        exact (hsim q).mem d b off g1 g2 g3
      · intro t g1 g2 g3
        rw [so q e, ← fr.2 t (ne t g2)]
        exact (hsim q).host t g1 g2 g3

theorem inv_pop {cf : Conf} {all : List Nat} {s : St} (hi : Inv cf all s) (p : Nat) (o : Op) (l) (hst : s.stream p = o :: l) (hd : o.prog = .done) :
    let s' : St := { s with stream := upd s.stream p l }
    Inv cf all s' ∧ ∀ ini, (∀ p, Sim cf s ini p) → ∀ p, Sim cf s' ini p := by
  intro s'
  have so : ∀ q, q ≠ p → s'.stream q = s.stream q := fun q hq => upd_other _ _ _ _ hq
  have sp : s'.stream p = l := upd_same _ _ _
  constructor
  · refine ⟨hi.queue, hi.nodupQ, hi.begins, hi.waits, hi.log, hi.nodup, hi.legal, hi.args, hi.remote, hi.disj, hi.fresh, hi.used, hi.marked, hi.freed, ?_⟩
    intro q o' ho'
    have ho'' : o' ∈ s.stream q := by
      by_cases e : q = p
      · subst e; rw [sp] at ho'; rw [hst]; exact .tail _ ho'
      · rw [so q e] at ho'; exact ho'
    have g := hi.ops q o' ho''
    exact ⟨g.log, g.ph, g.base, g.fits, g.wait, g.noHost⟩
  · intro ini hsim q
    have key : flush (s'.stream q) s'.mem s'.host = flush (s.stream q) s.mem s.host := by
      by_cases e : q = p
      · subst e
        rw [sp, hst]
        simp only [flush, hd, Prog.runAt]
        show flush l s.mem s.host = _
        congr 1
        funext j; simp only [upd]; split
        · next e => rw [e]
        · rfl
      · rw [so q e]
    constructor
    · intro d b off g1 g2 g3
      rw [key]; exact (hsim q).mem d b off g1 g2 g3
    · intro t g1 g2 g3
      rw [key]; exact (hsim q).host t g1 g2 g3

/-! ## The handlers -/

theorem inv_launch {cf : Conf} (hs : cf.Sane) {all : List Nat} {s : St} (hi : Inv cf all s) (p t : Nat) (q : Prog) (hw : s.worker p = .begin t)
    (hr : ∀ d ∈ (s.task t).req.io, (s.remote d).isSome) (hq : cf.prog (s.task t).req = some q) (W' : W)
    (hW : (cf.waits (s.task t).req = true ∧ W' = .wait t) ∨ (cf.waits (s.task t).req = false ∧ W' = .idle)) :
    let s' : St := { s with log := s.log ++ [t], stream := upd s.stream p (s.stream p ++ [Op.mk t (fun k => (s.remote (arg (s.task t).req.io k)).getD 0) q]), worker := upd s.worker p W' }
    Inv cf all s' ∧ ∀ ini, (∀ p, Sim cf s ini p) → ∀ p, Sim cf s' ini p := by
  intro s'
  obtain ⟨b1, b2, b3, b4⟩ := hi.begins p t hw
  obtain ⟨f1, f2, f3⟩ := hi.fresh t (.inr ⟨p, hw⟩)
  have lok := legal_ok cf hs _ (hi.legal t b1) q hq
  have so : ∀ x, x ≠ p → s'.stream x = s.stream x := fun x hx => upd_other _ _ _ _ hx
  have sp : s'.stream p = s.stream p ++ [Op.mk t (fun k => (s.remote (arg (s.task t).req.io k)).getD 0) q] := upd_same _ _ _
  have wo : ∀ x, x ≠ p → s'.worker x = s.worker x := fun x hx => upd_other _ _ _ _ hx
  have wp : s'.worker p = W' := upd_same _ _ _
  have hbase : ∀ k, k < (s.task t).req.io.length → s.remote (arg (s.task t).req.io k) = some ((s.remote (arg (s.task t).req.io k)).getD 0) := by
    intro k hk
    have := hr _ (arg_mem _ _ hk)
    obtain ⟨c, hc⟩ := Option.isSome_iff_exists.1 this
    rw [hc]; rfl
  have notwait : ∀ o ∈ s.stream p, cf.waits (s.task o.t).req = false := by
    intro o ho
    cases e : cf.waits (s.task o.t).req with
    | false => rfl
    | true => have := (hi.ops p o ho).wait e; rw [hw] at this; cases this
  constructor
  · refine ⟨hi.queue, hi.nodupQ, ?_, ?_, ?_, ?_, hi.legal, hi.args, hi.remote, hi.disj, ?_, ?_, ?_, ?_, ?_⟩
    · intro x u hu
      by_cases e : x = p
      · subst e; rw [wp] at hu
        rcases hW with ⟨_, rfl⟩ | ⟨_, rfl⟩ <;> cases hu
      · rw [wo x e] at hu; exact hi.begins x u hu
    · intro x u hu
      by_cases e : x = p
      · subst e; rw [wp] at hu
        rcases hW with ⟨g, rfl⟩ | ⟨g, rfl⟩
        · cases hu
          refine ⟨b2, b3, by show t ∈ s.log ++ [t]; simp, ?_, ?_, g⟩
          · cases hdn : s'.done t with
            | false => rfl
            | true => exact absurd (hi.marked t hdn) f1
          · cases hdn : s'.gone t with
            | false => rfl
            | true => exact absurd (hi.freed t hdn) f1
        · cases hu
      · rw [wo x e] at hu
        obtain ⟨h1, h2, h3, h4, h5, h6⟩ := hi.waits x u hu
        exact ⟨h1, h2, List.mem_append_left _ h3, h4, h5, h6⟩
    · intro u hu
      rcases List.mem_append.1 hu with hu | hu
      · exact hi.log u hu
      · rw [List.mem_singleton] at hu; subst hu; exact b1
    · show (s.log ++ [t]).Nodup
      rw [List.nodup_append]
      refine ⟨hi.nodup, by simp, ?_⟩
      rintro a ha b hb rfl
      rw [List.mem_singleton] at hb; subst hb; exact f1 ha
    · intro u hu
      have hu' : s.Pending u ∧ u ≠ t := by
        rcases hu with ⟨w, h⟩ | ⟨x, h⟩
        · exact ⟨.inl ⟨w, h⟩, fun e => b4 w (e ▸ h)⟩
        · by_cases e : x = p
          · subst e; rw [wp] at h
            rcases hW with ⟨_, rfl⟩ | ⟨_, rfl⟩ <;> cases h
          · rw [wo x e] at h
            refine ⟨.inr ⟨x, h⟩, ?_⟩
            rintro rfl
            exact e ((hi.begins x u h).2.2.1.symm.trans b3)
      obtain ⟨h1, h2, h3⟩ := hi.fresh u hu'.1
      refine ⟨fun hm => ?_, h2, h3⟩
      rcases List.mem_append.1 hm with hm | hm
      · exact h1 hm
      · exact hu'.2 (List.mem_singleton.1 hm)
    · intro u d hu hd
      rcases List.mem_append.1 hu with hu | hu
      · exact hi.used u d hu hd
      · rw [List.mem_singleton] at hu; subst hu
        right
        have := hr d hd
        intro e
        have e : s.remote d = none := e
        rw [e] at this; cases this
    · exact fun u hu => List.mem_append_left _ (hi.marked u hu)
    · exact fun u hu => List.mem_append_left _ (hi.freed u hu)
    · intro x o ho
      have oldok : o ∈ s.stream x → OpOk cf s' x o := by
        intro ho2
        have g := hi.ops x o ho2
        refine ⟨List.mem_append_left _ g.log, g.ph, g.base, g.fits, fun hwt => ?_, g.noHost⟩
        by_cases e : x = p
        · subst e
          rw [show s'.task = s.task from rfl, notwait o ho2] at hwt; cases hwt
        · rw [wo x e]; exact g.wait hwt
      by_cases e : x = p
      · subst e
        rw [sp] at ho
        rcases List.mem_append.1 ho with ho | ho
        · exact oldok ho
        · rw [List.mem_singleton] at ho; subst ho
          refine ⟨by show t ∈ s.log ++ [t]; simp, b3, hbase, lok.1, fun hwt => ?_, lok.2⟩
          rw [wp]
          rcases hW with ⟨_, rfl⟩ | ⟨g, rfl⟩
          · rfl
          · rw [show s'.task = s.task from rfl] at hwt; rw [g] at hwt; cases hwt
      · rw [so x e] at ho; exact oldok ho
  · intro ini hsim x
    have sq : seq cf s'.task s'.log ini = (seq cf s.task s.log ini).one cf s.task t := seq_append _ _ _ _ _
    have hgd : (cf.prog (s.task t).req).getD .done = q := by rw [hq]; rfl
    have hht : (flush (s.stream p) s.mem s.host).2 t = (s.task t).req.host := by
      rw [flush_host]; exact f2
      intro o ho e
      exact f1 (e ▸ (hi.ops p o ho).log)
    by_cases e : x = p
    · subst e
      have rs := run_sim (s.task t).req.io cf.dsz s.remote (fun k => (s.remote (arg (s.task t).req.io k)).getD 0) (fun d => s.phys cf d = some x)
        (fun k hk => ⟨by rw [(hi.args t _ b1 (arg_mem _ _ hk)).2, b3], hbase k hk⟩) hi.disj q (flush (s.stream x) s.mem s.host).1 (s.task t).req.host
        (seq cf s.task s.log ini).c lok.1 (fun d b off h1 h2 h3 => (hsim x).mem d b off h2 h1 h3)
      have key : flush (s'.stream x) s'.mem s'.host = (((q.runAt (fun k => (s.remote (arg (s.task t).req.io k)).getD 0) (flush (s.stream x) s.mem s.host).1 (s.task t).req.host).1,
          upd (flush (s.stream x) s.mem s.host).2 t (q.runAt (fun k => (s.remote (arg (s.task t).req.io k)).getD 0) (flush (s.stream x) s.mem s.host).1 (s.task t).req.host).2)) := by
        rw [sp, flush_append]
        show flush [_] (flush (s.stream x) s.mem s.host).1 (flush (s.stream x) s.mem s.host).2 = _
        simp only [flush, hht]
      constructor
      · intro d b off g1 g2 g3
        rw [key, sq]
        simp only [Seq.one, hgd]
        exact rs.1 d b off g2 g1 g3
      · intro u g1 g2 g3
        rw [key, sq]
        simp only [Seq.one, hgd]
        by_cases eu : u = t
        · subst eu; rw [upd_same, upd_same]; exact rs.2
        · rw [upd_other _ _ _ _ eu, upd_other _ _ _ _ eu]
          rcases List.mem_append.1 g1 with g1 | g1
          · exact (hsim x).host u g1 g2 g3
          · exact absurd (List.mem_singleton.1 g1) eu
    · constructor
      · intro d b off g1 g2 g3
        rw [so x e, sq]
        simp only [Seq.one]
        rw [run_keeps _ d _ (fun k => cf.dsz (arg (s.task t).req.io k)) _ _ _ (by rw [hgd]; exact lok.1)]
        · exact (hsim x).mem d b off g1 g2 g3
        · intro hm
          have := (hi.args t d b1 hm).2
          have g2 : s.phys cf d = some x := g2
          rw [g2, b3] at this
          exact e (Option.some.inj this)
      · intro u g1 g2 g3
        rw [so x e, sq]
        simp only [Seq.one]
        have eu : u ≠ t := by rintro rfl; exact e (g2.symm.trans b3)
        rw [upd_other _ _ _ _ eu]
        rcases List.mem_append.1 g1 with g1 | g1
        · exact (hsim x).host u g1 g2 g3
        · exact absurd (List.mem_singleton.1 g1) eu

/-- A task whose handler is at its end: marked, perhaps freed; no worker has it any more. -/
theorem inv_complete {cf : Conf} {all : List Nat} {s : St} (hi : Inv cf all s) (t : Nat) (ht : t ∈ s.log) (hn : ∀ p, s.worker p ≠ .wait t) :
    Inv cf all (s.complete cf t) ∧ ∀ ini, (∀ p, Sim cf s ini p) → (s.gone t = false) → ∀ p, Sim cf (s.complete cf t) ini p := by
  constructor
  · refine ⟨hi.queue, hi.nodupQ, hi.begins, ?_, hi.log, hi.nodup, hi.legal, hi.args, hi.remote, hi.disj, hi.fresh, hi.used, ?_, ?_, ?_⟩
    · intro p u hu
      obtain ⟨h1, h2, h3, h4, h5, h6⟩ := hi.waits p u hu
      have e : u ≠ t := by rintro rfl; exact hn p hu
      refine ⟨h1, h2, h3, ?_, ?_, h6⟩
      · simp only [St.complete]; rw [upd_other _ _ _ _ e]; exact h4
      · simp only [St.complete]; rw [upd_other _ _ _ _ e]; exact h5
    · intro u hu
      by_cases e : u = t
      · subst e; exact ht
      · simp only [St.complete] at hu; rw [upd_other _ _ _ _ e] at hu; exact hi.marked u hu
    · intro u hu
      by_cases e : u = t
      · subst e; exact ht
      · simp only [St.complete] at hu; rw [upd_other _ _ _ _ e] at hu; exact hi.freed u hu
    · intro q o ho
      have g := hi.ops q o ho
      exact ⟨g.log, g.ph, g.base, g.fits, g.wait, g.noHost⟩
  · intro ini hsim hg p
    refine ⟨(hsim p).mem, fun u g1 g2 g3 => (hsim p).host u g1 g2 ?_⟩
    by_cases e : u = t
    · subst e; exact hg
    · simp only [St.complete] at g3; rw [upd_other _ _ _ _ e] at g3; exact g3

theorem inv_idle {cf : Conf} {all : List Nat} {s : St} (hi : Inv cf all s) (p t : Nat) (hw : s.worker p = .wait t) (hst : s.stream p = []) :
    let s' : St := { s with worker := upd s.worker p .idle }
    Inv cf all s' ∧ ∀ ini, (∀ p, Sim cf s ini p) → ∀ p, Sim cf s' ini p := by
  intro s'
  have wo : ∀ x, x ≠ p → s'.worker x = s.worker x := fun x hx => upd_other _ _ _ _ hx
  have wp : s'.worker p = .idle := upd_same _ _ _
  constructor
  · refine ⟨hi.queue, hi.nodupQ, ?_, ?_, hi.log, hi.nodup, hi.legal, hi.args, hi.remote, hi.disj, ?_, hi.used, hi.marked, hi.freed, ?_⟩
    · intro x u hu
      by_cases e : x = p
      · subst e; rw [wp] at hu; cases hu
      · rw [wo x e] at hu; exact hi.begins x u hu
    · intro x u hu
      by_cases e : x = p
      · subst e; rw [wp] at hu; cases hu
      · rw [wo x e] at hu; exact hi.waits x u hu
    · intro u hu
      refine hi.fresh u ?_
      rcases hu with h | ⟨x, h⟩
      · exact .inl h
      · by_cases e : x = p
        · subst e; rw [wp] at h; cases h
        · rw [wo x e] at h; exact .inr ⟨x, h⟩
    · intro x o ho
      have g := hi.ops x o ho
      have e : x ≠ p := by rintro rfl; rw [show s'.stream x = s.stream x from rfl, hst] at ho; cases ho
      exact ⟨g.log, g.ph, g.base, g.fits, fun h => by rw [wo x e]; exact g.wait h, g.noHost⟩
  · exact fun ini hsim x => ⟨(hsim x).mem, (hsim x).host⟩

/-! ## The users -/

theorem inUse_pending {cf : Conf} {all : List Nat} {s : St} (hi : Inv cf all s) {d t} (hu : s.inUse cf d = false) (ht : s.Pending t) : d ∉ (s.task t).req.io := by
  intro hd
  simp only [St.inUse, Bool.or_eq_false_iff] at hu
  rcases ht with ⟨v, hv⟩ | ⟨p, hp⟩
  · have := List.any_eq_false.1 hu.1 (v, t) hv
    exact this (by simpa using hd)
  · have := List.any_eq_false.1 hu.2 p (by simpa using (hi.begins p t hp).2.1)
    rw [hp] at this
    exact this (by simpa using hd)

theorem inv_drop {cf : Conf} {all : List Nat} {s : St} (hi : Inv cf all s) (d : Nat) (hu : s.inUse cf d = false) :
    let s' : St := { s with dropped := upd s.dropped d true }
    Inv cf all s' ∧ ∀ ini, (∀ p, Sim cf s ini p) → ∀ p, Sim cf s' ini p := by
  intro s'
  constructor
  · refine ⟨hi.queue, hi.nodupQ, hi.begins, hi.waits, hi.log, hi.nodup, hi.legal, hi.args, hi.remote, hi.disj, ?_, ?_, hi.marked, hi.freed, ?_⟩
    · intro t ht
      obtain ⟨h1, h2, h3⟩ := hi.fresh t ht
      refine ⟨h1, h2, fun e he => ?_⟩
      have : e ≠ d := by rintro rfl; exact inUse_pending hi hu ht he
      show upd s.dropped d true e = false
      rw [upd_other _ _ _ _ this]; exact h3 e he
    · intro t e ht he
      rcases hi.used t e ht he with g | g
      · left; show upd s.dropped d true e = true
        simp only [upd]; split
        · rfl
        · exact g
      · exact .inr g
    · intro x o ho
      have g := hi.ops x o ho
      exact ⟨g.log, g.ph, g.base, g.fits, g.wait, g.noHost⟩
  · exact fun ini hsim x => ⟨(hsim x).mem, (hsim x).host⟩

theorem inv_userFree {cf : Conf} {all : List Nat} {s : St} (hi : Inv cf all s) (t : Nat) (hd : s.done t = true) :
    let s' : St := { s with gone := upd s.gone t true }
    Inv cf all s' ∧ ∀ ini, (∀ p, Sim cf s ini p) → ∀ p, Sim cf s' ini p := by
  intro s'
  constructor
  · refine ⟨hi.queue, hi.nodupQ, hi.begins, ?_, hi.log, hi.nodup, hi.legal, hi.args, hi.remote, hi.disj, hi.fresh, hi.used, hi.marked, ?_, ?_⟩
    · intro p u hu
      obtain ⟨h1, h2, h3, h4, h5, h6⟩ := hi.waits p u hu
      have e : u ≠ t := by rintro rfl; rw [hd] at h4; cases h4
      exact ⟨h1, h2, h3, h4, by show upd s.gone t true u = false; rw [upd_other _ _ _ _ e]; exact h5, h6⟩
    · intro u hu
      by_cases e : u = t
      · subst e; exact hi.marked u hd
      · have hu : upd s.gone t true u = true := hu
        rw [upd_other _ _ _ _ e] at hu; exact hi.freed u hu
    · intro x o ho
      have g := hi.ops x o ho
      exact ⟨g.log, g.ph, g.base, g.fits, g.wait, g.noHost⟩
  · intro ini hsim x
    refine ⟨(hsim x).mem, fun u g1 g2 g3 => (hsim x).host u g1 g2 ?_⟩
    have g3 : upd s.gone t true u = false := g3
    simp only [upd] at g3
    split at g3
    · cases g3
    · exact g3

theorem inv_scribble {cf : Conf} {all : List Nat} {s : St} (hi : Inv cf all s) (t : Nat) (f : Nat → Nat) (hg : s.gone t = true) :
    let s' : St := { s with host := upd s.host t f }
    Inv cf all s' ∧ ∀ ini, (∀ p, Sim cf s ini p) → ∀ p, Sim cf s' ini p := by
  intro s'
  constructor
  · refine ⟨hi.queue, hi.nodupQ, hi.begins, hi.waits, hi.log, hi.nodup, hi.legal, hi.args, hi.remote, hi.disj, ?_, hi.used, hi.marked, hi.freed, ?_⟩
    · intro u hu
      obtain ⟨h1, h2, h3⟩ := hi.fresh u hu
      refine ⟨h1, ?_, h3⟩
      rw [← h2]
      exact upd_other _ _ _ _ fun e => h1 (e ▸ hi.freed t hg)
    · intro x o ho
      have g := hi.ops x o ho
      exact ⟨g.log, g.ph, g.base, g.fits, g.wait, g.noHost⟩
  · intro ini hsim x
    have fr := stream_frame hi x s.mem s'.host (· = t) (fun o ho e => by
        have g := hi.ops x o ho
        apply g.noHost
        cases hwt : cf.waits (s.task o.t).req with
        | false => rfl
        | true =>
          have := (hi.waits x o.t (g.wait hwt)).2.2.2.2.1
          rw [e, hg] at this; cases this) (fun _ _ => rfl) (fun u hu => (upd_other _ _ _ _ hu).symm)
    constructor
    · intro d b off g1 g2 g3
      show (flush (s.stream x) s.mem s'.host).1 _ = _
      rw [← fr.1 _ ⟨d, b, off, g1, g2, g3, rfl⟩]
      exact (hsim x).mem d b off g1 g2 g3
    · intro u g1 g2 g3
      show (flush (s.stream x) s.mem s'.host).2 u = _
      rw [← fr.2 u (by rintro rfl; have g3 : s.gone u = false := g3; rw [hg] at g3; cases g3)]
      exact (hsim x).host u g1 g2 g3

/-! ## All together -/

/-- The invariant. -/
def Good (cf : Conf) (all : List Nat) (s : St) : Prop := Inv cf all s ∧ ∃ ini, ∀ p, Sim cf s ini p

theorem good_of {cf all s s'} (hg : Good cf all s) (h : Inv cf all s → Inv cf all s' ∧ ∀ ini, (∀ p, Sim cf s ini p) → ∀ p, Sim cf s' ini p) : Good cf all s' := by
  obtain ⟨hi, ini, hsim⟩ := hg
  exact ⟨(h hi).1, ini, (h hi).2 ini hsim⟩

theorem good_dead {cf all s} (hg : Good cf all s) : Good cf all { s with dead := true } := by
  obtain ⟨hi, ini, hsim⟩ := hg
  refine ⟨⟨hi.queue, hi.nodupQ, hi.begins, hi.waits, hi.log, hi.nodup, hi.legal, hi.args, hi.remote, hi.disj, hi.fresh, hi.used, hi.marked, hi.freed, fun x o ho => ?_⟩, ini, fun x => ⟨(hsim x).mem, (hsim x).host⟩⟩
  have g := hi.ops x o ho
  exact ⟨g.log, g.ph, g.base, g.fits, g.wait, g.noHost⟩

theorem good_step {cf : Conf} (hs : cf.Sane) {all : List Nat} {s s' : St} (hg : Good cf all s) (a : Act) (ha : ∀ v r, a = .issue v r → r.Legal cf)
    (h : s.step cf all a = some s') : Good cf all s' := by
  cases a with
  | issue v r =>
    simp only [St.step] at h
    split at h
    · next hc => cases h; exact good_of hg fun hi => inv_issue hi v r (ha v r rfl) hc
    · cases h
  | take p v =>
    simp only [St.step] at h
    split at h
    · next hc =>
      split at h
      · cases h
      · next t r hf => cases h; exact good_of hg fun hi => inv_take hi p v t r hc.1 hc.2.1 hc.2.2 hf
    · cases h
  | alloc p d b =>
    simp only [St.step] at h
    split at h
    · next t hw =>
      split at h
      · next hc =>
        split at h
        · cases h
          obtain ⟨hi, ini, hsim⟩ := hg
          have := inv_alloc hs hi p d b t hw hc.1 hc.2.1 hc.2.2
          exact ⟨this.1, this.2 ini hsim⟩
        · cases h; exact good_dead hg
      · cases h
    · cases h
  | launch p =>
    simp only [St.step] at h
    split at h
    · next t hw =>
      split at h
      · next hr =>
        split at h
        · cases h; exact good_dead hg
        · next q hq =>
          split at h
          · next hwt =>
            cases h
            exact good_of hg fun hi => inv_launch hs hi p t q hw hr hq (.wait t) (.inl ⟨hwt, rfl⟩)
          · next hwt =>
            cases h
            obtain ⟨hi, ini, hsim⟩ := hg
            have l := inv_launch hs hi p t q hw hr hq .idle (.inr ⟨by simpa using hwt, rfl⟩)
            have f1 := (hi.fresh t (.inr ⟨p, hw⟩)).1
            have g1 : s.gone t = false := by
              cases e : s.gone t with
              | false => rfl
              | true => exact absurd (hi.freed t e) f1
            have c := inv_complete l.1 t (by simp) (fun x hx => by
              have := (l.1.waits x t hx).2.2.2.2.2
              exact hwt this)
            exact ⟨c.1, ini, c.2 ini (l.2 ini hsim) g1⟩
      · cases h
    · cases h
  | dev p =>
    simp only [St.step] at h
    split at h
    · cases h
    · next o l hst =>
      split at h
      · next hd => cases h; exact good_of hg fun hi => inv_pop hi p o l hst hd
      · cases h; exact good_of hg fun hi => inv_dev hi p o l hst
  | finish p =>
    simp only [St.step] at h
    split at h
    · next t hw =>
      split at h
      · next hst =>
        cases h
        obtain ⟨hi, ini, hsim⟩ := hg
        have l := inv_idle hi p t hw hst
        have w := hi.waits p t hw
        have c := inv_complete l.1 t w.2.2.1 (fun x hx => by
          by_cases e : x = p
          · subst e; have hx : upd s.worker x .idle x = .wait t := hx; rw [upd_same] at hx; cases hx
          · exact e ((l.1.waits x t hx).2.1.symm.trans w.2.1))
        exact ⟨c.1, ini, c.2 ini (l.2 ini hsim) w.2.2.2.2.1⟩
      · cases h
    · cases h
  | drop d =>
    simp only [St.step] at h
    split at h
    · next hc => cases h; exact good_of hg fun hi => inv_drop hi d hc.2
    · cases h
  | freeDev p d =>
    simp only [St.step] at h
    split at h
    · next hc =>
      split at h
      · next hst => cases h; exact good_of hg fun hi => inv_freeDev hi p d hc.2.2.1 hc.2.2.2 hst
      · cases h
    · cases h
  | userFree t =>
    simp only [St.step] at h
    split at h
    · next hc => cases h; exact good_of hg fun hi => inv_userFree hi t hc.1
    · cases h
  | scribble t f =>
    simp only [St.step] at h
    split at h
    · next hc => cases h; exact good_of hg fun hi => inv_scribble hi t f hc
    · cases h

theorem good_exec {cf : Conf} (hs : cf.Sane) (all : List Nat) (s : St) (hg : Good cf all s) (h : List Act) (hl : AllLegal cf h) : Good cf all (s.exec cf all h) := by
  induction h generalizing s with
  | nil => exact hg
  | cons a h ih =>
    refine ih _ ?_ fun v r hr => hl v r (.tail _ hr)
    simp only [St.act]
    split
    · exact hg
    · cases e : s.step cf all a with
      | none => exact hg
      | some s' => exact good_step hs hg a (fun v r e' => hl v r (e' ▸ .head _)) e

theorem good_start (cf : Conf) (all m) : Good cf all (start m) := ⟨inv_start cf all m, fun _ _ => 0, fun p => sim_start cf m _ p⟩

end Arax.Stream
