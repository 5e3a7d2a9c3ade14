import Verif.DevMem.Model
/-!
# C67, C68: accounting of device memory
-/
set_option linter.unusedSimpArgs false
namespace Arax.DevMem

/-! ## Specification -/

/-- What data object `d` takes on physical accelerator `p`: its size, from the moment device memory of `p` is allocated for it until it is freed. (Memory that
the user supplied with arax_data_set_remote does not count.) -/
def liveAt (cf : Conf) (s : St) (p d : Nat) : Nat :=
  if s.remote d = true ∧ s.other d = false ∧ s.freed d = false ∧ s.dphys d = some p then cf.sz d else 0

/-- Bytes of device memory on `p` that belong to existing data objects. -/
def live (cf : Conf) (s : St) (p : Nat) : Nat := Live.sum (liveAt cf s p) cf.n

/-- Bytes a "free" task gives back to `p`. -/
def refundTo (p : Nat) (t : Task) : Nat := match t.refund with
  | some (b, q) => if q = p then b else 0
  | none => 0

/-- Bytes that the task running on a worker gives back to `p`. -/
def workerRefund (p : Nat) (w : Worker) : Nat := match w.task with
  | some t => refundTo p t
  | none => 0

/-- Bytes of device memory on `p` of freed data objects whose "free" task has not been executed yet. -/
def freeing (cf : Conf) (s : St) (p : Nat) : Nat :=
  (s.pending.map (refundTo p)).sum + Live.sum (fun w => workerRefund p (s.worker w)) cf.nw

/-- Virtual accelerator `v` is only ever assigned to physical accelerator `dev v`, data object `d` is only used with virtual accelerators of `hd d`. -/
def Event.Stable (dev hd : Nat → Nat) : Event → Prop
  | .issue v ins outs _ => ∀ d ∈ ins ++ outs, hd d = dev v
  | .allocRemote _ d v => hd d = dev v
  | .setAccel d v => hd d = dev v
  | .setRemote d v => hd d = dev v
  | .assign v q => q = dev v
  | _ => True

/-! ## Invariant -/

def devOf (dev : Nat → Nat) : Target → Nat
  | .vac v => dev v
  | .free p => p

def TaskOk (cf : Conf) (dev hd : Nat → Nat) (freed : Nat → Bool) (t : Task) : Prop :=
  (∀ x ∈ t.allocs, hd x.1 = devOf dev t.target ∧ x.1 ∈ t.datas) ∧ ∀ d ∈ t.datas, d < cf.n ∧ freed d = false

def WorkerOk (cf : Conf) (dev hd : Nat → Nat) (freed : Nat → Bool) (accel dphys : Nat → Option Nat) (remote : Nat → Bool) (p : Nat) : Worker → Prop
  | .idle => True
  | .run t => TaskOk cf dev hd freed t ∧ devOf dev t.target = p ∧ p < cf.nw
  | .dec t d => TaskOk cf dev hd freed t ∧ devOf dev t.target = p ∧ p < cf.nw ∧ d ∈ t.datas ∧ hd d = p ∧ dphys d = some p ∧ remote d = false ∧ accel d ≠ none
  | .charge t d q => TaskOk cf dev hd freed t ∧ devOf dev t.target = p ∧ p < cf.nw ∧ d ∈ t.datas ∧ hd d = p ∧ dphys d = some p ∧ remote d = false ∧ accel d ≠ none ∧ q = p

structure Inv (cf : Conf) (dev hd : Nat → Nat) (s : St) : Prop where
  vp : ∀ v q, s.vphys v = some q → q = dev v
  ac : ∀ d v, s.accel d = some v → dev v = hd d
  pt : ∀ t ∈ s.pending, TaskOk cf dev hd s.freed t
  wk : ∀ p, WorkerOk cf dev hd s.freed s.accel s.dphys s.remote p (s.worker p)
  rd : ∀ d, s.remote d = true → s.other d = false → s.dphys d = some (hd d)
  ot : ∀ d, s.other d = true → s.remote d = true
  bal : ∀ p, s.avail p + live cf s p + freeing cf s p + s.over p = cf.avail0 p + s.gift p

section
variable {cf : Conf} {dev hd : Nat → Nat}

theorem upd_same {α : Type} (f : Nat → α) (i : Nat) (a : α) : upd f i a i = a := by simp [upd]

theorem upd_other {α : Type} (f : Nat → α) {i j : Nat} (a : α) (h : j ≠ i) : upd f i a j = f j := by simp [upd, h]

theorem inv_init (cf : Conf) (dev hd : Nat → Nat) : Inv cf dev hd (init cf) := by
  refine ⟨fun _ _ h => (by simp [init] at h), fun _ _ h => (by simp [init] at h), fun _ h => (by simp [init] at h), fun _ => trivial, fun _ h => (by simp [init] at h),
    fun _ h => (by simp [init] at h), fun p => ?_⟩
  have h1 : live cf (init cf) p = 0 := by
    unfold live; apply Live.sum_zero; intro i _; simp [liveAt, init]
  have h2 : freeing cf (init cf) p = 0 := by
    unfold freeing
    rw [Live.sum_zero (f := fun w => workerRefund p ((init cf).worker w)) (fun i _ => rfl)]; rfl
  rw [h1, h2]; simp [init]

theorem migrate_spec {s s' : St} {d v : Nat} (h : s.migrate d v = some s') :
    ∃ f, s' = { s with accel := f } ∧ ∀ x, f x = s.accel x ∨ (x = d ∧ f x = some v) := by
  unfold St.migrate at h
  have key : ∀ x, upd s.accel d (some v) x = s.accel x ∨ (x = d ∧ upd s.accel d (some v) x = some v) := by
    intro x
    by_cases e : x = d
    · exact Or.inr ⟨e, by rw [e, upd_same]⟩
    · exact Or.inl (upd_other _ _ e)
  split at h
  · split at h
    · cases h
    · cases h; exact ⟨_, rfl, key⟩
  · split at h
    · cases h; exact ⟨s.accel, rfl, fun x => Or.inl rfl⟩
    · split at h
      · cases h; exact ⟨_, rfl, key⟩
      · cases h

theorem migrateAll_spec {v : Nat} : ∀ {ds : List Nat} {s s' : St}, s.migrateAll v ds = some s' →
    ∃ f, s' = { s with accel := f } ∧ ∀ x, f x = s.accel x ∨ (x ∈ ds ∧ f x = some v)
  | [], s, s', h => by cases h; exact ⟨s.accel, rfl, fun x => Or.inl rfl⟩
  | d :: ds, s, s', h => by
    unfold St.migrateAll at h
    split at h
    · cases h
    · rename_i s1 h1
      obtain ⟨f1, e1, k1⟩ := migrate_spec h1
      obtain ⟨f, e, k⟩ := migrateAll_spec h
      subst e1
      refine ⟨f, e, fun x => ?_⟩
      rcases k x with a | ⟨a, b⟩
      · rcases k1 x with a1 | ⟨a1, b1⟩
        · exact Or.inl (a.trans a1)
        · exact Or.inr ⟨by simp [a1], a.trans b1⟩
      · exact Or.inr ⟨List.mem_cons_of_mem _ a, b⟩

theorem accel_ok {s : St} {f : Nat → Option Nat} {ds : List Nat} {v : Nat} (hi : ∀ d v, s.accel d = some v → dev v = hd d)
    (hk : ∀ x, f x = s.accel x ∨ (x ∈ ds ∧ f x = some v)) (hs : ∀ d ∈ ds, hd d = dev v) : ∀ d u, f d = some u → dev u = hd d := by
  intro d u h
  rcases hk d with a | ⟨a, b⟩
  · exact hi d u (a ▸ h)
  · rw [b] at h; cases h; exact (hs d a).symm

theorem allocsOf_mem (cf : Conf) (ins outs : List Nat) (k : Kind) : ∀ x ∈ allocsOf cf ins outs k, x.1 ∈ ins ++ outs := by
  have g : ∀ (i : Nat) (b : Bool) (x : Nat × Bool), x ∈ ((ins ++ outs)[i]?.toList.map fun d => (d, b)) → x.1 ∈ ins ++ outs := by
    intro i b x hx
    simp only [List.mem_map, Option.mem_toList] at hx
    obtain ⟨d, hd, rfl⟩ := hx
    exact List.mem_of_getElem? hd
  intro x hx
  unfold allocsOf at hx
  rcases List.mem_append.1 hx with h | h
  · simp only [List.mem_map] at h
    obtain ⟨d, hd, rfl⟩ := h
    exact List.mem_append.2 (Or.inr hd)
  · cases k with
    | plain => cases h
    | memset => exact g _ _ _ h
    | memcpy =>
      rcases List.mem_append.1 h with h | h
      · exact g _ _ _ h
      · exact g _ _ _ h

theorem freeing_push (cf : Conf) (s : St) (t : Task) (p : Nat) :
    freeing cf { s with pending := s.pending ++ [t] } p = freeing cf s p + refundTo p t := by
  simp only [freeing, List.map_append, List.sum_append, List.map_cons, List.map_nil, List.sum_cons, List.sum_nil]; omega

theorem sum_eraseIdx : ∀ (l : List Task) (k : Nat) (t : Task) (p : Nat), l[k]? = some t →
    ((l.eraseIdx k).map (refundTo p)).sum + refundTo p t = (l.map (refundTo p)).sum
  | [], k, t, p, h => by simp at h
  | a :: l, 0, t, p, h => by simp at h; subst h; simp; omega
  | a :: l, k + 1, t, p, h => by
    simp only [List.getElem?_cons_succ] at h
    have := sum_eraseIdx l k t p h
    simp only [List.eraseIdx_cons_succ, List.map_cons, List.sum_cons]; omega

/-- Changing one worker changes `freeing` by the difference of the refunds. -/
theorem freeing_worker (cf : Conf) (s : St) (p : Nat) (w : Worker) (hp : p < cf.nw) (q : Nat) :
    freeing cf { s with worker := upd s.worker p w } q + workerRefund q (s.worker p) = freeing cf s q + workerRefund q w := by
  have := Live.sum_at (f := fun x => workerRefund q (upd s.worker p w x)) (g := fun x => workerRefund q (s.worker x)) p (n := cf.nw) hp
    (fun j hj => by simp only [upd_other _ _ hj])
  simp only [upd_same] at this
  simp only [freeing]; omega

theorem workerOk_frame {freed : Nat → Bool} {accel dphys dphys' : Nat → Option Nat} {remote remote' : Nat → Bool} {p d : Nat} {w : Worker} (hd' : hd d ≠ p)
    (h1 : ∀ x, x ≠ d → dphys' x = dphys x) (h2 : ∀ x, x ≠ d → remote' x = remote x) (h : WorkerOk cf dev hd freed accel dphys remote p w) :
    WorkerOk cf dev hd freed accel dphys' remote' p w := by
  cases w with
  | idle => trivial
  | run t => exact h
  | dec t x =>
    obtain ⟨a, b, b', c, e, f, g, j⟩ := h
    have hx : x ≠ d := fun hh => hd' (hh ▸ e)
    exact ⟨a, b, b', c, e, by rw [h1 x hx]; exact f, by rw [h2 x hx]; exact g, j⟩
  | charge t x q =>
    obtain ⟨a, b, b', c, e, f, g, j, i⟩ := h
    have hx : x ≠ d := fun hh => hd' (hh ▸ e)
    exact ⟨a, b, b', c, e, by rw [h1 x hx]; exact f, by rw [h2 x hx]; exact g, j, i⟩

theorem physOf_dev {s : St} (hi : Inv cf dev hd s) {d q : Nat} (h : s.physOf d = some q) : q = hd d := by
  unfold St.physOf at h
  split at h
  · cases h
  · rename_i v hv
    rw [hi.vp v q h, hi.ac d v hv]

theorem live_congr {s s' : St} (h1 : s'.remote = s.remote) (h2 : s'.other = s.other) (h3 : s'.freed = s.freed) (h4 : s'.dphys = s.dphys) (p : Nat) :
    live cf s' p = live cf s p := by
  unfold live; apply Live.sum_congr; intro i _; unfold liveAt; rw [h1, h2, h3, h4]

theorem freeing_congr {s s' : St} (h1 : s'.pending = s.pending) (h2 : s'.worker = s.worker) (p : Nat) : freeing cf s' p = freeing cf s p := by
  unfold freeing; rw [h1, h2]

/-- Allocating device memory of `q` for data object `d`. -/
theorem live_alloc {s s' : St} {d q : Nat} (hn : d < cf.n) (hr : s.remote d = false) (ho : s.other d = false) (hf : s.freed d = false)
    (h1 : s'.remote = upd s.remote d (decide (0 < cf.sz d))) (h2 : s'.other = s.other) (h3 : s'.freed = s.freed) (h4 : ∀ x, x ≠ d → s'.dphys x = s.dphys x)
    (h5 : s'.dphys d = some q) (p : Nat) : live cf s' p = live cf s p + (if q = p then cf.sz d else 0) := by
  have := Live.sum_at (f := liveAt cf s' p) (g := liveAt cf s p) d (n := cf.n) hn (fun j hj => by
    unfold liveAt; rw [h1, h2, h3, h4 j hj, upd_other _ _ hj])
  have e1 : liveAt cf s p d = 0 := by simp [liveAt, hr]
  have e2 : liveAt cf s' p d = if q = p then cf.sz d else 0 := by
    unfold liveAt; rw [h1, h2, h3, h5, upd_same, ho, hf]
    by_cases hz : 0 < cf.sz d
    · by_cases hq : q = p <;> simp [hz, hq]
    · have : cf.sz d = 0 := by omega
      simp [this]
  unfold live; omega

theorem inv_abort {s : St} (hi : Inv cf dev hd s) : Inv cf dev hd { s with aborted := true } :=
  ⟨hi.vp, hi.ac, hi.pt, hi.wk, hi.rd, hi.ot, hi.bal⟩

/-- A step that touches only one worker, leaving its refund as it was. -/
theorem inv_worker {s : St} (hi : Inv cf dev hd s) {p : Nat} {w : Worker} (hp : p < cf.nw)
    (hw : WorkerOk cf dev hd s.freed s.accel s.dphys s.remote p w) (hr : ∀ q, workerRefund q w = workerRefund q (s.worker p)) :
    Inv cf dev hd { s with worker := upd s.worker p w } := by
  refine ⟨hi.vp, hi.ac, hi.pt, fun p' => ?_, hi.rd, hi.ot, fun q => ?_⟩
  · show WorkerOk cf dev hd s.freed s.accel s.dphys s.remote p' (upd s.worker p w p')
    by_cases e : p' = p
    · subst e; rw [upd_same]; exact hw
    · rw [upd_other _ _ e]; exact hi.wk p'
  · have h1 := freeing_worker cf s p w hp q
    have h2 := hi.bal q
    have h3 := hr q
    show s.avail q + (live cf s q : Nat) + (freeing cf { s with worker := upd s.worker p w } q : Nat) + s.over q = _
    show _ = cf.avail0 q + (s.gift q : Int)
    omega

theorem taskOk_tail {freed : Nat → Bool} {t : Task} {x : Nat × Bool} {rest : List (Nat × Bool)} (h : TaskOk cf dev hd freed t) (ha : t.allocs = x :: rest) :
    TaskOk cf dev hd freed { t with allocs := rest } :=
  ⟨fun y hy => h.1 y (by rw [ha]; exact List.mem_cons_of_mem _ hy), h.2⟩

theorem other_false {s : St} (hi : Inv cf dev hd s) {d : Nat} (hr : s.remote d = false) : s.other d = false := by
  cases h : s.other d with
  | false => rfl
  | true => rw [hi.ot d h] at hr; cases hr

theorem inv_work {s : St} (hi : Inv cf dev hd s) (p : Nat) : Inv cf dev hd (workStep cf s p) := by
  have hw := hi.wk p
  unfold workStep
  cases hwp : s.worker p with
  | idle => exact hi
  | run t =>
    rw [hwp] at hw
    obtain ⟨ht, hdv, hp⟩ := hw
    simp only
    split
    · rename_i d ch rest ha
      have hx := ht.1 (d, ch) (by rw [ha]; exact List.mem_cons_self ..)
      have hdd := ht.2 d hx.2
      have ht' := taskOk_tail ht ha
      split
      · exact inv_worker hi hp ⟨ht', hdv, hp⟩ (fun q => by rw [hwp]; rfl)
      · rename_i hr
        have hr : s.remote d = false := by simpa using hr
        split
        · exact inv_abort hi
        · rename_i q hq
          have hq' : q = p := by rw [physOf_dev hi hq]; exact hx.1.trans hdv
          subst hq'
          have hdq : hd d = q := (physOf_dev hi hq).symm
          have hac : s.accel d ≠ none := fun h => by simp [St.physOf, h] at hq
          split
          · -- charged: data->phys is written
            have hk : ∀ x, x ≠ d → upd s.dphys d (some q) x = s.dphys x := fun x hx => upd_other _ _ hx
            refine ⟨hi.vp, hi.ac, hi.pt, fun p' => ?_, fun x hx ho => ?_, hi.ot, fun b => ?_⟩
            · show WorkerOk cf dev hd s.freed s.accel (upd s.dphys d (some q)) s.remote p' (upd s.worker q _ p')
              by_cases e : p' = q
              · subst e; rw [upd_same]; exact ⟨ht', hdv, hp, hx.2, hdq, upd_same .., hr, hac⟩
              · rw [upd_other _ _ e]
                exact workerOk_frame (d := d) (fun h => e (by rw [← h, hdq])) hk (fun _ _ => rfl) (hi.wk p')
            · show upd s.dphys d (some q) x = some (hd x)
              have : x ≠ d := fun h => by subst h; simp [hr] at hx
              rw [upd_other _ _ this]; exact hi.rd x hx ho
            · have h1 := freeing_worker cf s q (.dec { t with allocs := rest } d) hp b
              have h2 := hi.bal b
              have h3 : workerRefund b (s.worker q) = workerRefund b (.dec { t with allocs := rest } d) := by rw [hwp]; rfl
              have h4 : live cf { s with dphys := upd s.dphys d (some q), worker := upd s.worker q (.dec { t with allocs := rest } d) } b = live cf s b := by
                unfold live; apply Live.sum_congr; intro i _; unfold liveAt
                by_cases e : i = d
                · subst e; simp [hr]
                · simp only [upd_other _ _ e]
              have h5 := freeing_congr (cf := cf) (s := { s with worker := upd s.worker q (.dec { t with allocs := rest } d) })
                (s' := { s with dphys := upd s.dphys d (some q), worker := upd s.worker q (.dec { t with allocs := rest } d) }) rfl rfl b
              rw [h4, h5]
              show s.avail b + _ + _ + s.over b = cf.avail0 b + (s.gift b : Int)
              omega
          · -- not charged (CUDA)
            have hk : ∀ x, x ≠ d → upd s.dphys d (some q) x = s.dphys x := fun x hx => upd_other _ _ hx
            refine ⟨hi.vp, hi.ac, hi.pt, fun p' => ?_, fun x hx ho => ?_, fun x ho => ?_, fun b => ?_⟩
            · show WorkerOk cf dev hd s.freed s.accel (upd s.dphys d (some q)) (upd s.remote d _) p' (upd s.worker q _ p')
              by_cases e : p' = q
              · subst e; rw [upd_same]; exact ⟨ht', hdv, hp⟩
              · rw [upd_other _ _ e]
                exact workerOk_frame (d := d) (fun h => e (by rw [← h, hdq])) hk (fun x hx => upd_other _ _ hx) (hi.wk p')
            · show upd s.dphys d (some q) x = some (hd x)
              by_cases e : x = d
              · subst e; rw [upd_same, hdq]
              · rw [upd_other _ _ e]
                have hx : upd s.remote d (decide (0 < cf.sz d)) x = true := hx
                rw [upd_other _ _ e] at hx
                exact hi.rd x hx ho
            · show upd s.remote d _ x = true
              have ho : s.other x = true := ho
              have : x ≠ d := fun h => by subst h; rw [hi.ot x ho] at hr; cases hr
              rw [upd_other _ _ this]; exact hi.ot x ho
            · have h1 := freeing_worker cf s q (.run { t with allocs := rest }) hp b
              have h2 := hi.bal b
              have h3 : workerRefund b (s.worker q) = workerRefund b (.run { t with allocs := rest }) := by rw [hwp]; rfl
              have h4 := live_alloc (cf := cf) (s := s) (q := q) (s' := { s with dphys := upd s.dphys d (some q), remote := upd s.remote d (decide (0 < cf.sz d)), gift := upd s.gift q (s.gift q + cf.sz d), worker := upd s.worker q (.run { t with allocs := rest }) })
                hdd.1 hr (other_false hi hr) hdd.2 rfl rfl rfl hk (upd_same ..) b
              have h5 := freeing_congr (cf := cf) (s := { s with worker := upd s.worker q (.run { t with allocs := rest }) })
                (s' := { s with dphys := upd s.dphys d (some q), remote := upd s.remote d (decide (0 < cf.sz d)), gift := upd s.gift q (s.gift q + cf.sz d), worker := upd s.worker q (.run { t with allocs := rest }) }) rfl rfl b
              rw [h4, h5]
              show s.avail b + _ + _ + s.over b = cf.avail0 b + ((upd s.gift q (s.gift q + cf.sz d) b : Nat) : Int)
              by_cases e : q = b
              · subst e; rw [upd_same]; simp only [if_true]; omega
              · rw [upd_other _ _ (Ne.symm e)]; simp only [e, if_false]; omega
    · rename_i ha
      split
      · rename_i b q hre
        split
        · exact inv_abort hi
        · refine ⟨hi.vp, hi.ac, hi.pt, fun p' => ?_, hi.rd, hi.ot, fun x => ?_⟩
          · show WorkerOk cf dev hd s.freed s.accel s.dphys s.remote p' (upd s.worker p .idle p')
            by_cases e : p' = p
            · subst e; rw [upd_same]; trivial
            · rw [upd_other _ _ e]; exact hi.wk p'
          · have h1 := freeing_worker cf s p .idle hp x
            have h2 := hi.bal x
            have h3 : workerRefund x (s.worker p) = if q = x then b else 0 := by rw [hwp]; simp [workerRefund, Worker.task, refundTo, hre]
            have h4 : workerRefund x .idle = 0 := rfl
            show upd s.avail q (s.avail q + b) x + (live cf s x : Nat) + (freeing cf { s with worker := upd s.worker p .idle } x : Nat) + s.over x = cf.avail0 x + (s.gift x : Int)
            by_cases e : q = x
            · subst e; rw [upd_same]; simp only [if_true] at h3; omega
            · rw [upd_other _ _ (Ne.symm e)]; simp only [e, if_false] at h3; omega
      · rename_i hre
        have hz : ∀ q, workerRefund q .idle = workerRefund q (s.worker p) := fun q => by rw [hwp]; simp [workerRefund, Worker.task, refundTo, hre]
        split
        · exact inv_worker hi hp trivial hz
        · split
          · split
            · have := inv_worker hi hp (w := .idle) trivial hz
              exact ⟨this.vp, this.ac, this.pt, this.wk, this.rd, this.ot, this.bal⟩
            · exact inv_abort hi
          · exact hi
  | dec t d =>
    rw [hwp] at hw
    obtain ⟨ht, hdv, hp, hm, hh, hph, hr, hac⟩ := hw
    simp only
    split
    · exact inv_abort hi
    · rename_i q hq
      exact inv_worker hi hp ⟨ht, hdv, hp, hm, hh, hph, hr, hac, (physOf_dev hi hq).trans hh⟩ (fun q => by rw [hwp]; rfl)
  | charge t d q =>
    rw [hwp] at hw
    obtain ⟨ht, hdv, hp, hm, hh, hph, hr, hac, hqp⟩ := hw
    subst hqp
    simp only
    split
    · exact hi
    · have hdd := ht.2 d hm
      refine ⟨hi.vp, hi.ac, hi.pt, fun p' => ?_, fun x hx ho => ?_, fun x ho => ?_, fun b => ?_⟩
      · show WorkerOk cf dev hd s.freed s.accel s.dphys (upd s.remote d _) p' (upd s.worker q _ p')
        by_cases e : p' = q
        · subst e; rw [upd_same]; exact ⟨ht, hdv, hp⟩
        · rw [upd_other _ _ e]
          exact workerOk_frame (d := d) (fun h => e (by rw [← h, hh])) (fun _ _ => rfl) (fun x hx => upd_other _ _ hx) (hi.wk p')
      · by_cases e : x = d
        · subst e; rw [hh]; exact hph
        · have hx : upd s.remote d (decide (0 < cf.sz d)) x = true := hx
          rw [upd_other _ _ e] at hx
          exact hi.rd x hx ho
      · show upd s.remote d _ x = true
        have ho : s.other x = true := ho
        have : x ≠ d := fun h => by subst h; rw [hi.ot x ho] at hr; cases hr
        rw [upd_other _ _ this]; exact hi.ot x ho
      · have h1 := freeing_worker cf s q (.run t) hp b
        have h2 := hi.bal b
        have h3 : workerRefund b (s.worker q) = workerRefund b (.run t) := by rw [hwp]; rfl
        have h4 := live_alloc (cf := cf) (s := s) (q := q) (s' := { s with avail := upd s.avail q (s.avail q - cf.sz d), remote := upd s.remote d (decide (0 < cf.sz d)), worker := upd s.worker q (.run t) })
          hdd.1 hr (other_false hi hr) hdd.2 rfl rfl rfl (fun _ _ => rfl) hph b
        have h5 := freeing_congr (cf := cf) (s := { s with worker := upd s.worker q (.run t) })
          (s' := { s with avail := upd s.avail q (s.avail q - cf.sz d), remote := upd s.remote d (decide (0 < cf.sz d)), worker := upd s.worker q (.run t) }) rfl rfl b
        rw [h4, h5]
        show upd s.avail q (s.avail q - cf.sz d) b + _ + _ + s.over b = cf.avail0 b + (s.gift b : Int)
        by_cases e : q = b
        · subst e; rw [upd_same]; simp only [if_true]; omega
        · rw [upd_other _ _ (Ne.symm e)]; simp only [e, if_false]; omega

theorem inv_client {s : St} (hi : Inv cf dev hd s) (c : Nat) : Inv cf dev hd (clientStep cf s c) := by
  unfold clientStep
  split
  · split
    · split
      · exact inv_abort hi
      · exact ⟨hi.vp, hi.ac, hi.pt, hi.wk, hi.rd, hi.ot, hi.bal⟩
    · exact inv_abort hi
  · rename_i d q _
    split
    · exact hi
    · refine ⟨hi.vp, hi.ac, hi.pt, hi.wk, hi.rd, hi.ot, fun b => ?_⟩
      have h2 := hi.bal b
      show upd s.avail q (s.avail q - cf.sz d) b + (live cf s b : Nat) + (freeing cf s b : Nat) + ((upd s.over q (s.over q + cf.sz d) b : Nat) : Int) = cf.avail0 b + (s.gift b : Int)
      by_cases e : q = b
      · subst e; rw [upd_same, upd_same]; omega
      · rw [upd_other _ _ (Ne.symm e), upd_other _ _ (Ne.symm e)]; exact h2
  · exact hi

theorem unused_spec {s : St} {d : Nat} (hi : Inv cf dev hd s) (h : s.unused cf d = true) :
    (∀ t ∈ s.pending, d ∉ t.datas) ∧ (∀ p t, (s.worker p).task = some t → d ∉ t.datas) := by
  unfold St.unused at h
  simp only [Bool.and_eq_true] at h
  obtain ⟨⟨h1, h2⟩, -⟩ := h
  refine ⟨fun t ht => ?_, fun p t ht => ?_⟩
  · have := List.all_eq_true.1 h1 t ht
    simpa [Task.uses] using this
  · have hp : p < cf.nw := by
      have := hi.wk p
      cases hw : s.worker p with
      | idle => rw [hw] at ht; cases ht
      | run t => rw [hw] at this; exact this.2.2
      | dec t d => rw [hw] at this; exact this.2.2.1
      | charge t d q => rw [hw] at this; exact this.2.2.1
    have := List.all_eq_true.1 h2 p (List.mem_range.2 hp)
    rw [ht] at this
    simpa [Task.uses] using this

theorem taskOk_free {freed : Nat → Bool} {t : Task} {d : Nat} (h : TaskOk cf dev hd freed t) (hn : d ∉ t.datas) :
    TaskOk cf dev hd (upd freed d true) t :=
  ⟨h.1, fun x hx => ⟨(h.2 x hx).1, by rw [upd_other _ _ (show x ≠ d from fun e => hn (e ▸ hx))]; exact (h.2 x hx).2⟩⟩

theorem workerOk_free {freed : Nat → Bool} {accel dphys : Nat → Option Nat} {remote : Nat → Bool} {p d : Nat} {w : Worker}
    (h : WorkerOk cf dev hd freed accel dphys remote p w) (hn : ∀ t, w.task = some t → d ∉ t.datas) :
    WorkerOk cf dev hd (upd freed d true) accel dphys remote p w := by
  cases w with
  | idle => trivial
  | run t => exact ⟨taskOk_free h.1 (hn t rfl), h.2⟩
  | dec t x => exact ⟨taskOk_free h.1 (hn t rfl), h.2⟩
  | charge t x q => exact ⟨taskOk_free h.1 (hn t rfl), h.2⟩

theorem workerOk_accel {freed : Nat → Bool} {accel accel' dphys : Nat → Option Nat} {remote : Nat → Bool} {p : Nat} {w : Worker}
    (ha : ∀ d, accel d ≠ none → accel' d ≠ none) (h : WorkerOk cf dev hd freed accel dphys remote p w) : WorkerOk cf dev hd freed accel' dphys remote p w := by
  cases w with
  | idle => trivial
  | run t => exact h
  | dec t x => obtain ⟨a, b, b', c, e, f, g, j⟩ := h; exact ⟨a, b, b', c, e, f, g, ha _ j⟩
  | charge t x q => obtain ⟨a, b, b', c, e, f, g, j, i⟩ := h; exact ⟨a, b, b', c, e, f, g, ha _ j, i⟩

theorem some_keep {accel f : Nat → Option Nat} {P : Nat → Prop} {v : Nat} (hk : ∀ x, f x = accel x ∨ (P x ∧ f x = some v)) : ∀ d, accel d ≠ none → f d ≠ none := by
  intro d h
  rcases hk d with a | ⟨_, a⟩
  · rw [a]; exact h
  · rw [a]; simp

theorem some_upd {accel : Nat → Option Nat} {x v : Nat} : ∀ d, accel d ≠ none → upd accel x (some v) d ≠ none := by
  intro d h
  by_cases e : d = x
  · subst e; rw [upd_same]; simp
  · rw [upd_other _ _ e]; exact h

theorem mine_dev {s : St} (hi : Inv cf dev hd s) {p : Nat} {g : Target} (h : s.mine p g = true) : devOf dev g = p := by
  cases g with
  | vac v => exact (hi.vp v p (by simpa [St.mine] using h)).symm
  | free q => simpa [St.mine, devOf] using h

theorem inv_step {s : St} (hi : Inv cf dev hd s) {e : Event} (hs : e.Stable dev hd) : Inv cf dev hd (step cf s e) := by
  unfold step
  split
  · exact hi
  cases e with
  | issue v ins outs k =>
    simp only
    split
    · rename_i hg
      split
      · exact inv_abort hi
      · rename_i s' hm
        obtain ⟨f, e, hk⟩ := migrateAll_spec hm
        subst e
        refine ⟨hi.vp, accel_ok hi.ac hk hs, fun t ht => ?_, fun p => workerOk_accel (some_keep hk) (hi.wk p), hi.rd, hi.ot, fun p => ?_⟩
        · rcases List.mem_append.1 ht with h | h
          · exact hi.pt t h
          · rw [List.mem_singleton] at h; subst h
            exact ⟨fun x hx => ⟨hs x.1 (allocsOf_mem cf ins outs k x hx), allocsOf_mem cf ins outs k x hx⟩, fun d hd => hg d hd⟩
        · have := freeing_push cf s ⟨.vac v, ins ++ outs, allocsOf cf ins outs k, none, none⟩ p
          have h2 := hi.bal p
          show s.avail p + (live cf s p : Nat) + (freeing cf { s with pending := s.pending ++ [_] } p : Nat) + s.over p = cf.avail0 p + (s.gift p : Int)
          rw [this]; exact h2
    · exact hi
  | allocRemote c d v =>
    simp only
    split
    · rename_i hg
      split
      · split
        · exact inv_abort hi
        · exact hi
      · split
        · exact inv_abort hi
        · rename_i s' hm
          obtain ⟨f, e, hk⟩ := migrate_spec hm
          subst e
          refine ⟨hi.vp, accel_ok (ds := [d]) hi.ac (fun x => (hk x).imp id (fun h => ⟨by simp [h.1], h.2⟩)) (fun x hx => ?_), fun t ht => ?_, fun p => workerOk_accel (some_keep hk) (hi.wk p), hi.rd, hi.ot, fun p => ?_⟩
          · rw [List.mem_singleton] at hx; subst hx; exact hs
          · rcases List.mem_append.1 ht with h | h
            · exact hi.pt t h
            · rw [List.mem_singleton] at h; subst h
              refine ⟨fun x hx => ?_, fun x hx => ?_⟩
              · rw [List.mem_singleton] at hx; subst hx; exact ⟨hs, List.mem_singleton.2 rfl⟩
              · rw [List.mem_singleton] at hx; subst hx; exact ⟨hg.2.1, hg.2.2.1⟩
          · have := freeing_push cf s ⟨.vac v, [d], [(d, true)], none, some c⟩ p
            have h2 := hi.bal p
            show s.avail p + (live cf s p : Nat) + (freeing cf { s with pending := s.pending ++ [_] } p : Nat) + s.over p = cf.avail0 p + (s.gift p : Int)
            rw [this]; exact h2
    · exact hi
  | clientGo c => exact inv_client hi c
  | setAccel d v =>
    simp only
    split
    · refine ⟨hi.vp, fun x u h => ?_, hi.pt, fun p => workerOk_accel some_upd (hi.wk p), hi.rd, hi.ot, hi.bal⟩
      have h : upd s.accel d (some v) x = some u := h
      by_cases e : x = d
      · subst e; rw [upd_same] at h; cases h; exact hs.symm
      · rw [upd_other _ _ e] at h; exact hi.ac x u h
    · exact hi
  | setRemote d v =>
    simp only
    split
    · split
      · rename_i hg
        refine ⟨hi.vp, fun x u h => ?_, hi.pt, fun p => ?_, fun x hx ho => ?_, fun x ho => ?_, fun p => ?_⟩
        · have h : upd s.accel d (some v) x = some u := h
          by_cases e : x = d
          · subst e; rw [upd_same] at h; cases h; exact hs.symm
          · rw [upd_other _ _ e] at h; exact hi.ac x u h
        · show WorkerOk cf dev hd s.freed (upd s.accel d (some v)) s.dphys (upd s.remote d true) p (s.worker p)
          have hw := workerOk_accel (some_upd (x := d) (v := v)) (hi.wk p)
          have hold := hi.wk p
          cases hwp : s.worker p with
          | idle => trivial
          | run t => rw [hwp] at hw; exact hw
          | dec t x =>
            rw [hwp] at hw hold
            have hx : x ≠ d := fun h => hold.2.2.2.2.2.2.2 (h ▸ hg.1)
            obtain ⟨a, b, b', c, e, f, g, j⟩ := hw
            exact ⟨a, b, b', c, e, f, by rw [upd_other _ _ hx]; exact g, j⟩
          | charge t x q =>
            rw [hwp] at hw hold
            have hx : x ≠ d := fun h => hold.2.2.2.2.2.2.2.1 (h ▸ hg.1)
            obtain ⟨a, b, b', c, e, f, g, j⟩ := hw
            exact ⟨a, b, b', c, e, f, by rw [upd_other _ _ hx]; exact g, j⟩
        · have ho : upd s.other d true x = false := ho
          have hx : upd s.remote d true x = true := hx
          by_cases e : x = d
          · subst e; rw [upd_same] at ho; cases ho
          · rw [upd_other _ _ e] at ho hx; exact hi.rd x hx ho
        · have ho : upd s.other d true x = true := ho
          show upd s.remote d true x = true
          by_cases e : x = d
          · subst e; rw [upd_same]
          · rw [upd_other _ _ e] at ho ⊢; exact hi.ot x ho
        · have h2 := hi.bal p
          have h3 : live cf { s with accel := upd s.accel d (some v), remote := upd s.remote d true, other := upd s.other d true } p = live cf s p := by
            unfold live; apply Live.sum_congr; intro i _; unfold liveAt
            by_cases e : i = d
            · subst e; simp [upd_same, hg.2]
            · simp only [upd_other _ _ e]
          rw [h3]; exact h2
      · exact inv_abort hi
    · exact hi
  | free d =>
    simp only
    split
    · rename_i hg
      have hu := unused_spec hi hg.2.2
      have hpt : ∀ t ∈ s.pending, TaskOk cf dev hd (upd s.freed d true) t := fun t ht => taskOk_free (hi.pt t ht) (hu.1 t ht)
      have hwk : ∀ p, WorkerOk cf dev hd (upd s.freed d true) s.accel s.dphys s.remote p (s.worker p) := fun p => workerOk_free (hi.wk p) (hu.2 p)
      have hl : ∀ (s' : St) p, s'.remote = s.remote → s'.other = s.other → s'.dphys = s.dphys → s'.freed = upd s.freed d true →
          live cf s' p + liveAt cf s p d = live cf s p := by
        intro s' p h1 h2 h3 h4
        have := Live.sum_at (f := liveAt cf s' p) (g := liveAt cf s p) d (n := cf.n) hg.1 (fun j hj => by
          unfold liveAt; rw [h1, h2, h3, h4, upd_other _ _ hj])
        have e1 : liveAt cf s' p d = 0 := by unfold liveAt; rw [h4, upd_same]; simp
        unfold live; omega
      split
      · rename_i hr
        simp only [Bool.and_eq_true, Bool.not_eq_true'] at hr
        split
        · exact inv_abort hi
        · rename_i q hq
          refine ⟨hi.vp, hi.ac, fun t ht => ?_, hwk, hi.rd, hi.ot, fun p => ?_⟩
          · rcases List.mem_append.1 ht with h | h
            · exact hpt t h
            · rw [List.mem_singleton] at h; subst h
              exact ⟨fun x hx => (by cases hx), fun x hx => (by cases hx)⟩
          · have h1 := freeing_push cf { s with freed := upd s.freed d true } ⟨.free q, [], [], some (cf.sz d, q), none⟩ p
            have h2 := hi.bal p
            have h3 := hl { s with freed := upd s.freed d true, pending := s.pending ++ [⟨.free q, [], [], some (cf.sz d, q), none⟩] } p rfl rfl rfl rfl
            have h4 : liveAt cf s p d = refundTo p ⟨.free q, [], [], some (cf.sz d, q), none⟩ := by
              simp [liveAt, refundTo, hr, hg.2.1, hq]
            have h5 : freeing cf { s with freed := upd s.freed d true } p = freeing cf s p := rfl
            generalize live cf _ p = l' at h3
            have h6 : freeing cf { s with freed := upd s.freed d true, pending := s.pending ++ [⟨.free q, [], [], some (cf.sz d, q), none⟩] } p = freeing cf s p + refundTo p ⟨.free q, [], [], some (cf.sz d, q), none⟩ := h1
            rw [h6]
            show s.avail p + (l' : Nat) + _ + s.over p = cf.avail0 p + (s.gift p : Int)
            omega
      · rename_i hr
        refine ⟨hi.vp, hi.ac, hpt, hwk, hi.rd, hi.ot, fun p => ?_⟩
        have h2 := hi.bal p
        have h3 := hl { s with freed := upd s.freed d true } p rfl rfl rfl rfl
        have h4 : liveAt cf s p d = 0 := by
          unfold liveAt
          rw [if_neg]
          intro h; exact hr (by simp [h.1, h.2.1])
        have h5 : freeing cf { s with freed := upd s.freed d true } p = freeing cf s p := rfl
        show s.avail p + (live cf _ p : Nat) + (freeing cf { s with freed := upd s.freed d true } p : Nat) + s.over p = cf.avail0 p + (s.gift p : Int)
        omega
    · exact hi
  | assign v q =>
    simp only
    split
    · refine ⟨fun u q' h => ?_, hi.ac, hi.pt, hi.wk, hi.rd, hi.ot, hi.bal⟩
      have h : upd s.vphys v (some q) u = some q' := h
      by_cases e : u = v
      · subst e; rw [upd_same] at h; cases h; exact hs
      · rw [upd_other _ _ e] at h; exact hi.vp u q' h
    · exact hi
  | take p k =>
    simp only
    split
    · rename_i t hw hk
      split
      · rename_i hm
        have hmem : t ∈ s.pending := List.mem_of_getElem? hk
        refine ⟨hi.vp, hi.ac, fun t' h => hi.pt t' (List.mem_of_mem_eraseIdx h), fun p' => ?_, hi.rd, hi.ot, fun x => ?_⟩
        · show WorkerOk cf dev hd s.freed s.accel s.dphys s.remote p' (upd s.worker p _ p')
          by_cases e : p' = p
          · subst e; rw [upd_same]; exact ⟨hi.pt t hmem, mine_dev hi hm.2, hm.1⟩
          · rw [upd_other _ _ e]; exact hi.wk p'
        · have h1 := freeing_worker cf { s with pending := s.pending.eraseIdx k } p (.run t) hm.1 x
          have h2 := sum_eraseIdx s.pending k t x hk
          have h3 := hi.bal x
          have h4 : workerRefund x (s.worker p) = 0 := by rw [hw]; rfl
          have h5 : workerRefund x (.run t) = refundTo x t := rfl
          have h6 : freeing cf { s with pending := s.pending.eraseIdx k } x + refundTo x t = freeing cf s x := by simp only [freeing]; omega
          show s.avail x + (live cf s x : Nat) + (freeing cf { s with worker := upd s.worker p (.run t), pending := s.pending.eraseIdx k } x : Nat) + s.over x = cf.avail0 x + (s.gift x : Int)
          have h7 : freeing cf { s with worker := upd s.worker p (.run t), pending := s.pending.eraseIdx k } x + workerRefund x (s.worker p) = freeing cf { s with pending := s.pending.eraseIdx k } x + workerRefund x (.run t) := h1
          omega
      · exact hi
    · exact hi
  | work p => exact inv_work hi p

theorem inv_exec {s : St} (hi : Inv cf dev hd s) : ∀ {h : List Event}, (∀ e ∈ h, e.Stable dev hd) → Inv cf dev hd (exec cf s h) := by
  intro h
  induction h generalizing s with
  | nil => intro _; exact hi
  | cons e h ih => intro hs; exact ih (inv_step hi (hs e (List.mem_cons_self ..))) (fun x hx => hs x (List.mem_cons_of_mem _ hx))

end

/-! ## C67: the balance -/

/-- The balance of every physical accelerator, at every moment of every history in which virtual accelerators and data objects stay with one device:
available + allocated + being freed = initially available, up to the bytes charged a second time by `arax_data_allocate_remote` (`over`) and the bytes the
CUDA handlers allocate without a charge (`gift`). -/
theorem C67_balance_partial (cf : Conf) (dev hd : Nat → Nat) (h : List Event) (hs : ∀ e ∈ h, e.Stable dev hd) (p : Nat) :
    (exec cf (init cf) h).avail p + live cf (exec cf (init cf) h) p + freeing cf (exec cf (init cf) h) p + (exec cf (init cf) h).over p =
      cf.avail0 p + (exec cf (init cf) h).gift p :=
  (inv_exec (inv_init cf dev hd) hs).bal p

/-- Histories without `arax_data_allocate_remote`, and, with CUDA, without `memset` and `memcpy` tasks. -/
def Event.Exact (cf : Conf) : Event → Prop
  | .allocRemote _ _ _ => False
  | .issue _ _ _ k => cf.backend = .cuda → k = .plain
  | _ => True

def ChargedTask (t : Task) : Prop := (∀ x ∈ t.allocs, x.2 = true) ∧ t.client = none

structure Exact (s : St) : Prop where
  pt : ∀ t ∈ s.pending, ChargedTask t
  wk : ∀ p t, (s.worker p).task = some t → ChargedTask t
  cl : ∀ c, s.client c = .idle
  ov : ∀ p, s.over p = 0
  gi : ∀ p, s.gift p = 0

theorem exact_worker {s : St} (hx : Exact s) {p : Nat} {w : Worker} (hw : ∀ t, w.task = some t → ChargedTask t) :
    ∀ p' t, (upd s.worker p w p').task = some t → ChargedTask t := by
  intro p' t h
  by_cases e : p' = p
  · subst e; rw [upd_same] at h; exact hw t h
  · rw [upd_other _ _ e] at h; exact hx.wk p' t h

theorem charged_tail {t : Task} {x : Nat × Bool} {rest : List (Nat × Bool)} (h : ChargedTask t) (ha : t.allocs = x :: rest) : ChargedTask { t with allocs := rest } :=
  ⟨fun y hy => h.1 y (by rw [ha]; exact List.mem_cons_of_mem _ hy), h.2⟩

theorem exact_work (cf : Conf) {s : St} (hx : Exact s) (p : Nat) : Exact (workStep cf s p) := by
  have hab : Exact { s with aborted := true } := ⟨hx.pt, hx.wk, hx.cl, hx.ov, hx.gi⟩
  have hw := hx.wk p
  unfold workStep
  cases hwp : s.worker p with
  | idle => exact hx
  | run t =>
    rw [hwp] at hw
    have ht := hw t rfl
    simp only
    split
    · rename_i d ch rest ha
      have hch : ch = true := ht.1 (d, ch) (by rw [ha]; exact List.mem_cons_self ..)
      have ht' := charged_tail ht ha
      split
      · exact ⟨hx.pt, exact_worker hx (fun u hu => by cases hu; exact ht'), hx.cl, hx.ov, hx.gi⟩
      · split
        · exact hab
        · subst hch
          exact ⟨hx.pt, exact_worker hx (fun u hu => by cases hu; exact ht'), hx.cl, hx.ov, hx.gi⟩
    · split
      · split
        · exact hab
        · exact ⟨hx.pt, exact_worker hx (fun u hu => by cases hu), hx.cl, hx.ov, hx.gi⟩
      · rw [ht.2]
        exact ⟨hx.pt, exact_worker hx (fun u hu => by cases hu), hx.cl, hx.ov, hx.gi⟩
  | dec t d =>
    rw [hwp] at hw
    simp only
    split
    · exact hab
    · exact ⟨hx.pt, exact_worker hx (fun u hu => by cases hu; exact hw t rfl), hx.cl, hx.ov, hx.gi⟩
  | charge t d q =>
    rw [hwp] at hw
    simp only
    split
    · exact hx
    · exact ⟨hx.pt, exact_worker hx (fun u hu => by cases hu; exact hw t rfl), hx.cl, hx.ov, hx.gi⟩

theorem allocsOf_charged (cf : Conf) (ins outs : List Nat) (k : Kind) (hk : cf.backend = .cuda → k = .plain) : ∀ x ∈ allocsOf cf ins outs k, x.2 = true := by
  intro x hx
  unfold allocsOf at hx
  rcases List.mem_append.1 hx with h | h
  · simp only [List.mem_map] at h; obtain ⟨_, _, rfl⟩ := h; rfl
  · by_cases hb : cf.backend = .cuda
    · rw [hk hb] at h; cases h
    · have hd : decide (cf.backend ≠ .cuda) = true := by simp [hb]
      rw [hd] at h
      cases k with
      | plain => cases h
      | memset => simp only [List.mem_map] at h; obtain ⟨_, _, rfl⟩ := h; rfl
      | memcpy =>
        rcases List.mem_append.1 h with h | h <;>
        · simp only [List.mem_map] at h; obtain ⟨_, _, rfl⟩ := h; rfl

theorem exact_step (cf : Conf) {s : St} (hx : Exact s) {e : Event} (he : e.Exact cf) : Exact (step cf s e) := by
  have hab : Exact { s with aborted := true } := ⟨hx.pt, hx.wk, hx.cl, hx.ov, hx.gi⟩
  unfold step
  split
  · exact hx
  cases e with
  | issue v ins outs k =>
    simp only
    split
    · split
      · exact hab
      · rename_i s' hm
        obtain ⟨f, e, hk⟩ := migrateAll_spec hm
        subst e
        refine ⟨fun t ht => ?_, hx.wk, hx.cl, hx.ov, hx.gi⟩
        rcases List.mem_append.1 ht with h | h
        · exact hx.pt t h
        · rw [List.mem_singleton] at h; subst h
          exact ⟨allocsOf_charged cf ins outs k he, rfl⟩
    · exact hx
  | allocRemote c d v => exact he.elim
  | clientGo c =>
    simp only [clientStep, hx.cl c]; exact hx
  | setAccel d v => simp only; split <;> exact ⟨hx.pt, hx.wk, hx.cl, hx.ov, hx.gi⟩
  | setRemote d v =>
    simp only
    split
    · split <;> exact ⟨hx.pt, hx.wk, hx.cl, hx.ov, hx.gi⟩
    · exact hx
  | free d =>
    simp only
    split
    · split
      · split
        · exact hab
        · refine ⟨fun t ht => ?_, hx.wk, hx.cl, hx.ov, hx.gi⟩
          rcases List.mem_append.1 ht with h | h
          · exact hx.pt t h
          · rw [List.mem_singleton] at h; subst h
            exact ⟨fun x hx => (by cases hx), rfl⟩
      · exact ⟨hx.pt, hx.wk, hx.cl, hx.ov, hx.gi⟩
    · exact hx
  | assign v q => simp only; split <;> exact ⟨hx.pt, hx.wk, hx.cl, hx.ov, hx.gi⟩
  | take p k =>
    simp only
    split
    · rename_i t hw hk
      split
      · exact ⟨fun u hu => hx.pt u (List.mem_of_mem_eraseIdx hu), exact_worker hx (fun u hu => by cases hu; exact hx.pt t (List.mem_of_getElem? hk)), hx.cl, hx.ov, hx.gi⟩
      · exact hx
    · exact hx
  | work p => exact exact_work cf hx p

theorem exact_exec (cf : Conf) {s : St} (hx : Exact s) : ∀ {h : List Event}, (∀ e ∈ h, e.Exact cf) → Exact (exec cf s h) := by
  intro h
  induction h generalizing s with
  | nil => intro _; exact hx
  | cons e h ih => intro hs; exact ih (exact_step cf hx (hs e (List.mem_cons_self ..))) (fun x hx => hs x (List.mem_cons_of_mem _ hx))

theorem exact_init (cf : Conf) : Exact (init cf) :=
  ⟨fun _ h => (by simp [init] at h), fun _ _ h => (by simp [init, Worker.task] at h), fun _ => rfl, fun _ => rfl, fun _ => rfl⟩

/-- C67, for histories in which data objects stay with one device, without arax_data_allocate_remote and, with CUDA, without memset and memcpy tasks: at every
moment the available size is exactly the initial one minus what is allocated or not yet given back. -/
theorem C67_exact_partial (cf : Conf) (dev hd : Nat → Nat) (h : List Event) (hs : ∀ e ∈ h, e.Stable dev hd) (hx : ∀ e ∈ h, e.Exact cf) (p : Nat) :
    (exec cf (init cf) h).avail p = cf.avail0 p - live cf (exec cf (init cf) h) p - freeing cf (exec cf (init cf) h) p := by
  have h1 := C67_balance_partial cf dev hd h hs p
  have h2 := exact_exec cf (exact_init cf) hx
  rw [h2.ov p, h2.gi p] at h1
  omega

/-- … so once every data object is freed and every task executed, everything is available again. -/
theorem C67_returned_partial (cf : Conf) (dev hd : Nat → Nat) (h : List Event) (hs : ∀ e ∈ h, e.Stable dev hd) (hx : ∀ e ∈ h, e.Exact cf)
    (hf : ∀ d, d < cf.n → (exec cf (init cf) h).freed d = true) (hp : (exec cf (init cf) h).pending = []) (hw : ∀ w, (exec cf (init cf) h).worker w = .idle) (p : Nat) :
    (exec cf (init cf) h).avail p = cf.avail0 p := by
  rw [C67_exact_partial cf dev hd h hs hx p]
  have h1 : live cf (exec cf (init cf) h) p = 0 := by
    unfold live; apply Live.sum_zero; intro i hi; simp [liveAt, hf i hi]
  have h2 : freeing cf (exec cf (init cf) h) p = 0 := by
    unfold freeing; rw [hp, Live.sum_zero (fun i _ => by rw [hw i]; rfl)]; rfl
  rw [h1, h2]; simp

/-! ## C67: where the balance is broken -/

/-- One data object of size `z`, one physical accelerator with `a` bytes. -/
def conf1 (b : Backend) (en : Bool) (z a : Nat) : Conf := { backend := b, enforce := en, sz := fun _ => z, cap := fun _ => a, avail0 := fun _ => a, n := 1, nw := 1, nc := 1 }

/-- One thread allocates device memory for its data object with arax_data_allocate_remote and frees the object again. -/
def remoteHistory : List Event :=
  [.assign 0 0, .allocRemote 0 0 0, .take 0 0, .work 0, .work 0, .work 0, .work 0, .clientGo 0, .clientGo 0, .free 0, .take 0 0, .work 0]

/-- C67 fails: after `arax_data_allocate_remote`, `arax_data_free` and the execution of all tasks, the accelerator has lost the size of the data object, for
every back-end and every size. -/
theorem C67_violated_remote (b : Backend) (z a : Nat) (hz : 1 ≤ z) :
    (exec (conf1 b false z a) (init (conf1 b false z a)) remoteHistory).aborted = false ∧
    (exec (conf1 b false z a) (init (conf1 b false z a)) remoteHistory).freed 0 = true ∧
    (exec (conf1 b false z a) (init (conf1 b false z a)) remoteHistory).pending = [] ∧
    (exec (conf1 b false z a) (init (conf1 b false z a)) remoteHistory).worker 0 = .idle ∧
    (exec (conf1 b false z a) (init (conf1 b false z a)) remoteHistory).client 0 = .idle ∧
    (exec (conf1 b false z a) (init (conf1 b false z a)) remoteHistory).avail 0 = a - z := by
  have hz' : 0 < z := hz
  simp [exec, remoteHistory, step, workStep, clientStep, init, conf1, upd, St.migrate, St.mine, St.physOf, St.blocks, St.unused, Worker.task, Client.data, Task.uses, hz']

/-- Two data objects of sizes `z0`, `z1`, `nw` physical accelerators with `a` bytes each. -/
def conf2 (b : Backend) (en : Bool) (z0 z1 a nw : Nat) : Conf :=
  { backend := b, enforce := en, sz := fun d => if d = 0 then z0 else z1, cap := fun _ => a, avail0 := fun _ => a, n := 2, nw := nw, nc := 1 }

/-- A `memcpy` task from data object 0, which has no device memory yet, to data object 1; then both are freed. -/
def copyHistory : List Event :=
  [.assign 0 0, .issue 0 [0] [1] .memcpy, .take 0 0, .work 0, .work 0, .work 0, .work 0, .work 0, .work 0, .free 0, .free 1, .take 0 0, .work 0, .take 0 0, .work 0]

/-- C67 fails with CUDA: the source of a `memcpy` task is allocated without a charge but given back when it is freed. In the end more is available than the
accelerator has. -/
theorem C67_violated_cuda (z0 z1 a : Nat) (h0 : 1 ≤ z0) (h1 : 1 ≤ z1) :
    (exec (conf2 .cuda false z0 z1 a 1) (init (conf2 .cuda false z0 z1 a 1)) copyHistory).aborted = false ∧
    (exec (conf2 .cuda false z0 z1 a 1) (init (conf2 .cuda false z0 z1 a 1)) copyHistory).pending = [] ∧
    (exec (conf2 .cuda false z0 z1 a 1) (init (conf2 .cuda false z0 z1 a 1)) copyHistory).worker 0 = .idle ∧
    (exec (conf2 .cuda false z0 z1 a 1) (init (conf2 .cuda false z0 z1 a 1)) copyHistory).avail 0 = a + z0 ∧
    (conf2 .cuda false z0 z1 a 1).cap 0 = a := by
  have h0' : 0 < z0 := h0
  have h1' : 0 < z1 := h1
  simp [exec, step, workStep, clientStep, init, upd, St.migrate, St.migrateAll, St.mine, St.physOf, St.blocks, St.unused, Worker.task, Client.data, Task.uses, allocsOf, copyHistory, conf2, h0', h1'] <;> omega

/-- … and with ARAX_THROTTLE_ENFORCE the same history ends with the controller's assertion. -/
theorem C67_violated_cuda_abort (z0 z1 a : Nat) (h0 : 1 ≤ z0) (h1 : 1 ≤ z1) (ha : z1 ≤ a) :
    (exec (conf2 .cuda true z0 z1 a 1) (init (conf2 .cuda true z0 z1 a 1)) copyHistory).aborted = true := by
  have h0' : 0 < z0 := h0
  have h1' : 0 < z1 := h1
  have e1 : ¬ ((a : Int) < (z1 : Int)) := by omega
  by_cases e2 : (a : Int) < (a : Int) - z1 + z0
  · simp [exec, step, workStep, clientStep, init, upd, St.migrate, St.migrateAll, St.mine, St.physOf, St.blocks, St.unused, Worker.task, Client.data, Task.uses, allocsOf, copyHistory, conf2, h0', h1', e1, e2]
  · have e3 : (a : Int) < (a : Int) - z1 + z0 + z1 := by omega
    simp [exec, step, workStep, clientStep, init, upd, St.migrate, St.migrateAll, St.mine, St.physOf, St.blocks, St.unused, Worker.task, Client.data, Task.uses, allocsOf, copyHistory, conf2, h0', h1', e1, e2, e3]

/-- One data object is the output of tasks on two virtual accelerators that are not assigned yet (so the check for device-to-device migration passes); then these are
assigned to different physical accelerators, and their workers run at the same time. -/
def twoDevHistory : List Event :=
  [.issue 0 [] [0] .plain, .issue 1 [] [0] .plain, .assign 0 0, .assign 1 1, .take 0 0, .take 1 0, .work 0, .work 1, .work 0, .work 0, .work 0, .work 1, .work 1, .work 1,
    .free 0, .take 1 0, .work 1]

/-- C67 fails for data objects used on two devices: both workers charge the second device, one charge is given back. -/
theorem C67_violated_two_devices (b : Backend) (z a : Nat) (hz : 1 ≤ z) :
    (exec (conf2 b false z 0 a 2) (init (conf2 b false z 0 a 2)) twoDevHistory).aborted = false ∧
    (exec (conf2 b false z 0 a 2) (init (conf2 b false z 0 a 2)) twoDevHistory).freed 0 = true ∧
    (exec (conf2 b false z 0 a 2) (init (conf2 b false z 0 a 2)) twoDevHistory).pending = [] ∧
    (exec (conf2 b false z 0 a 2) (init (conf2 b false z 0 a 2)) twoDevHistory).worker 0 = .idle ∧
    (exec (conf2 b false z 0 a 2) (init (conf2 b false z 0 a 2)) twoDevHistory).worker 1 = .idle ∧
    (exec (conf2 b false z 0 a 2) (init (conf2 b false z 0 a 2)) twoDevHistory).avail 0 = a ∧
    (exec (conf2 b false z 0 a 2) (init (conf2 b false z 0 a 2)) twoDevHistory).avail 1 = a - z := by
  have hz' : 0 < z := hz
  simp [exec, step, workStep, clientStep, init, upd, St.migrate, St.migrateAll, St.mine, St.physOf, St.blocks, St.unused, Worker.task, Client.data, Task.uses, allocsOf, twoDevHistory, conf2, hz', show List.range 2 = [0, 1] from rfl]

/-! ## C68: waiting for device memory -/

/-- Only the worker of `q` executes tasks that give memory back to `q`. -/
structure RInv (s : St) : Prop where
  pt : ∀ t ∈ s.pending, ∀ b q, t.refund = some (b, q) → t.target = .free q
  wk : ∀ p t, (s.worker p).task = some t → ∀ b q, t.refund = some (b, q) → q = p

theorem rinv_worker {s : St} (hx : RInv s) {p : Nat} {w : Worker} (hw : ∀ t, w.task = some t → ∀ b q, t.refund = some (b, q) → q = p) :
    ∀ p' t, (upd s.worker p w p').task = some t → ∀ b q, t.refund = some (b, q) → q = p' := by
  intro p' t h
  by_cases e : p' = p
  · subst e; rw [upd_same] at h; exact hw t h
  · rw [upd_other _ _ e] at h; exact hx.wk p' t h

theorem rinv_work (cf : Conf) {s : St} (hx : RInv s) (p : Nat) : RInv (workStep cf s p) := by
  have hab : RInv { s with aborted := true } := ⟨hx.pt, hx.wk⟩
  have hw := hx.wk p
  unfold workStep
  cases hwp : s.worker p with
  | idle => exact hx
  | run t =>
    rw [hwp] at hw
    have ht := hw t rfl
    simp only
    split
    · split
      · exact ⟨hx.pt, rinv_worker hx (fun u hu => by cases hu; exact ht)⟩
      · split
        · exact hab
        · split
          · exact ⟨hx.pt, rinv_worker hx (fun u hu => by cases hu; exact ht)⟩
          · exact ⟨hx.pt, rinv_worker hx (fun u hu => by cases hu; exact ht)⟩
    · split
      · split
        · exact hab
        · exact ⟨hx.pt, rinv_worker hx (fun u hu => by cases hu)⟩
      · split
        · exact ⟨hx.pt, rinv_worker hx (fun u hu => by cases hu)⟩
        · split
          · split
            · exact ⟨hx.pt, rinv_worker hx (fun u hu => by cases hu)⟩
            · exact hab
          · exact hx
  | dec t d =>
    rw [hwp] at hw
    simp only
    split
    · exact hab
    · exact ⟨hx.pt, rinv_worker hx (fun u hu => by cases hu; exact hw t rfl)⟩
  | charge t d q =>
    rw [hwp] at hw
    simp only
    split
    · exact hx
    · exact ⟨hx.pt, rinv_worker hx (fun u hu => by cases hu; exact hw t rfl)⟩

theorem rinv_step (cf : Conf) {s : St} (hx : RInv s) (e : Event) : RInv (step cf s e) := by
  have hab : RInv { s with aborted := true } := ⟨hx.pt, hx.wk⟩
  unfold step
  split
  · exact hx
  cases e with
  | issue v ins outs k =>
    simp only
    split
    · split
      · exact hab
      · rename_i s' hm
        obtain ⟨f, e, hk⟩ := migrateAll_spec hm
        subst e
        refine ⟨fun t ht => ?_, hx.wk⟩
        rcases List.mem_append.1 ht with h | h
        · exact hx.pt t h
        · rw [List.mem_singleton] at h; subst h; intro b q h; cases h
    · exact hx
  | allocRemote c d v =>
    simp only
    split
    · split
      · split
        · exact hab
        · exact hx
      · split
        · exact hab
        · rename_i s' hm
          obtain ⟨f, e, hk⟩ := migrate_spec hm
          subst e
          refine ⟨fun t ht => ?_, hx.wk⟩
          rcases List.mem_append.1 ht with h | h
          · exact hx.pt t h
          · rw [List.mem_singleton] at h; subst h; intro b q h; cases h
    · exact hx
  | clientGo c =>
    simp only [clientStep]
    split
    · split
      · split
        · exact hab
        · exact ⟨hx.pt, hx.wk⟩
      · exact hab
    · split
      · exact hx
      · exact ⟨hx.pt, hx.wk⟩
    · exact hx
  | setAccel d v => simp only; split <;> exact ⟨hx.pt, hx.wk⟩
  | setRemote d v =>
    simp only
    split
    · split <;> exact ⟨hx.pt, hx.wk⟩
    · exact hx
  | free d =>
    simp only
    split
    · split
      · split
        · exact hab
        · refine ⟨fun t ht => ?_, hx.wk⟩
          rcases List.mem_append.1 ht with h | h
          · exact hx.pt t h
          · rw [List.mem_singleton] at h; subst h; intro b q h; cases h; rfl
      · exact ⟨hx.pt, hx.wk⟩
    · exact hx
  | assign v q => simp only; split <;> exact ⟨hx.pt, hx.wk⟩
  | take p k =>
    simp only
    split
    · rename_i t hw hk
      split
      · rename_i hm
        refine ⟨fun u hu => hx.pt u (List.mem_of_mem_eraseIdx hu), rinv_worker hx (fun u hu b q hr => ?_)⟩
        cases hu
        have h1 := hx.pt t (List.mem_of_getElem? hk) b q hr
        have h2 := hm.2
        rw [h1] at h2
        simpa [St.mine] using h2
      · exact hx
    · exact hx
  | work p => exact rinv_work cf hx p

/-- Worker `p` waits for memory of its own accelerator. -/
def Stuck (cf : Conf) (p : Nat) (t : Task) (d : Nat) (s : St) : Prop := s.worker p = .charge t d p ∧ s.avail p < cf.sz d

theorem stuck_work (cf : Conf) (he : cf.enforce = true) {s : St} (hx : RInv s) {p d : Nat} {t : Task} (hs : Stuck cf p t d s) (p' : Nat) :
    Stuck cf p t d (workStep cf s p') := by
  by_cases e : p' = p
  · subst e
    have : workStep cf s p' = s := by
      unfold workStep; rw [hs.1]; simp [St.blocks, he, hs.2]
    rw [this]; exact hs
  · have hk : ∀ w, upd s.worker p' w p = .charge t d p := fun w => by rw [upd_other _ _ (Ne.symm e)]; exact hs.1
    have hw := hx.wk p'
    unfold workStep
    cases hwp : s.worker p' with
    | idle => exact hs
    | run u =>
      rw [hwp] at hw
      have hr := hw u rfl
      simp only
      split
      · split
        · exact ⟨hk _, hs.2⟩
        · split
          · exact hs
          · split
            · exact ⟨hk _, hs.2⟩
            · exact ⟨hk _, hs.2⟩
      · split
        · rename_i b q hre
          split
          · exact hs
          · refine ⟨hk _, ?_⟩
            show upd s.avail q _ p < _
            rw [upd_other _ _ (fun h => e ((hr b q hre ▸ h).symm))]; exact hs.2
        · split
          · exact ⟨hk _, hs.2⟩
          · split
            · split
              · exact ⟨hk _, hs.2⟩
              · exact hs
            · exact hs
    | dec u x =>
      simp only
      split
      · exact hs
      · exact ⟨hk _, hs.2⟩
    | charge u x q =>
      simp only
      split
      · exact hs
      · refine ⟨hk _, ?_⟩
        show upd s.avail q (s.avail q - cf.sz x) p < _
        by_cases hq : p = q
        · subst hq; rw [upd_same]; have := hs.2; omega
        · rw [upd_other _ _ hq]; exact hs.2

theorem stuck_step (cf : Conf) (he : cf.enforce = true) {s : St} (hx : RInv s) {p d : Nat} {t : Task} (hs : Stuck cf p t d s) (e : Event) :
    Stuck cf p t d (step cf s e) := by
  unfold step
  split
  · exact hs
  cases e with
  | issue v ins outs k =>
    simp only
    split
    · split
      · exact hs
      · rename_i s' hm
        obtain ⟨f, e, hk⟩ := migrateAll_spec hm
        subst e; exact hs
    · exact hs
  | allocRemote c d' v =>
    simp only
    split
    · split
      · split <;> exact hs
      · split
        · exact hs
        · rename_i s' hm
          obtain ⟨f, e, hk⟩ := migrate_spec hm
          subst e; exact hs
    · exact hs
  | clientGo c =>
    simp only [clientStep]
    split
    · split
      · split <;> exact hs
      · exact hs
    · rename_i x q _
      split
      · exact hs
      · refine ⟨hs.1, ?_⟩
        show upd s.avail q (s.avail q - cf.sz x) p < _
        by_cases hq : p = q
        · subst hq; rw [upd_same]; have := hs.2; omega
        · rw [upd_other _ _ hq]; exact hs.2
    · exact hs
  | setAccel d v => simp only; split <;> exact hs
  | setRemote d v =>
    simp only
    split
    · split <;> exact hs
    · exact hs
  | free d =>
    simp only
    split
    · split
      · split <;> exact hs
      · exact hs
    · exact hs
  | assign v q => simp only; split <;> exact hs
  | take p' k =>
    simp only
    split
    · rename_i u hw hk
      split
      · refine ⟨?_, hs.2⟩
        show upd s.worker p' _ p = _
        have : p ≠ p' := fun h => by subst h; rw [hs.1] at hw; cases hw
        rw [upd_other _ _ this]; exact hs.1
      · exact hs
    · exact hs
  | work p' => exact stuck_work cf he hx hs p'

theorem rinv_exec (cf : Conf) (h : List Event) : ∀ {s : St}, RInv s → RInv (exec cf s h) := by
  induction h with
  | nil => intro s hs; exact hs
  | cons e h ih => intro s hs; exact ih (rinv_step cf hs e)

theorem stuck_exec (cf : Conf) (he : cf.enforce = true) {p d : Nat} {t : Task} (h : List Event) : ∀ {s : St}, RInv s → Stuck cf p t d s → Stuck cf p t d (exec cf s h) := by
  induction h with
  | nil => intro s _ hs; exact hs
  | cons e h ih => intro s hr hs; exact ih (rinv_step cf hr e) (stuck_step cf he hr hs e)

theorem rinv_init (cf : Conf) : RInv (init cf) :=
  ⟨fun _ h => (by simp [init] at h), fun _ _ h => (by simp [init, Worker.task] at h)⟩

/-- With ARAX_THROTTLE_ENFORCE: a worker that once waits for memory of its own accelerator waits forever, whatever anybody does afterwards: the tasks that would
give memory back are executed by nobody else. -/
theorem C68_never_released (cf : Conf) (he : cf.enforce = true) (h h' : List Event) (p d : Nat) (t : Task)
    (hw : (exec cf (init cf) h).worker p = .charge t d p) (ha : (exec cf (init cf) h).avail p < cf.sz d) :
    (exec cf (init cf) (h ++ h')).worker p = .charge t d p := by
  have := stuck_exec cf he h' (rinv_exec cf h (rinv_init cf)) (⟨hw, ha⟩ : Stuck cf p t d _)
  rw [show exec cf (init cf) (h ++ h') = exec cf (exec cf (init cf) h) h' from List.foldl_append]
  exact this.1

/-- Data object 0 fills the device. Its user frees it while the task of data object 1 is already waiting in the queue. -/
def waitHistory : List Event :=
  [.assign 0 0, .issue 0 [] [0] .plain, .take 0 0, .work 0, .work 0, .work 0, .work 0, .issue 0 [] [1] .plain, .free 0, .take 0 0, .work 0, .work 0, .work 0]

/-- C68 fails, for every capacity: data object 0 has been freed, what it occupied would do for data object 1, and yet the task of data object 1 is never executed. -/
theorem C68_violated (b : Backend) (a z : Nat) (hz : 1 ≤ z) (ha : z ≤ a) :
    (exec (conf2 b true a z a 1) (init (conf2 b true a z a 1)) waitHistory).aborted = false ∧
    (exec (conf2 b true a z a 1) (init (conf2 b true a z a 1)) waitHistory).freed 0 = true ∧
    freeing (conf2 b true a z a 1) (exec (conf2 b true a z a 1) (init (conf2 b true a z a 1)) waitHistory) 0 = a ∧
    ∀ h', ∃ t, (exec (conf2 b true a z a 1) (init (conf2 b true a z a 1)) (waitHistory ++ h')).worker 0 = .charge t 1 0 := by
  have ha' : 0 < a := by omega
  have hz' : 0 < z := hz
  have hz'' : (0 : Int) < z := by omega
  refine ⟨?_, ?_, ?_, fun h' => ⟨⟨.vac 0, [1], [], none, none⟩, C68_never_released _ rfl waitHistory h' 0 1 _ ?_ ?_⟩⟩
  · simp [exec, step, workStep, clientStep, init, upd, St.migrate, St.migrateAll, St.mine, St.physOf, St.blocks, St.unused, Worker.task, Client.data, Task.uses, allocsOf, waitHistory, conf2, ha', hz', hz'']
  · simp [exec, step, workStep, clientStep, init, upd, St.migrate, St.migrateAll, St.mine, St.physOf, St.blocks, St.unused, Worker.task, Client.data, Task.uses, allocsOf, waitHistory, conf2, ha', hz', hz'']
  · simp [exec, step, workStep, clientStep, init, upd, St.migrate, St.migrateAll, St.mine, St.physOf, St.blocks, St.unused, Worker.task, Client.data, Task.uses, allocsOf, waitHistory, conf2, ha', hz', hz'', freeing, workerRefund, refundTo, Live.sum]
  · simp [exec, step, workStep, clientStep, init, upd, St.migrate, St.migrateAll, St.mine, St.physOf, St.blocks, St.unused, Worker.task, Client.data, Task.uses, allocsOf, waitHistory, conf2, ha', hz', hz'']
  · simp [exec, step, workStep, clientStep, init, upd, St.migrate, St.migrateAll, St.mine, St.physOf, St.blocks, St.unused, Worker.task, Client.data, Task.uses, allocsOf, waitHistory, conf2, ha', hz', hz'']

/-! ### arax_data_allocate_remote with ARAX_THROTTLE_ENFORCE -/

/-- The only client is inside arax_data_allocate_remote, waiting for a second helping of the same size. -/
structure Hung (cf : Conf) (s : St) : Prop where
  cl : s.client 0 = .charge 0 0
  lo : s.avail 0 < cf.sz 0
  rm : s.remote 0 = true
  ac : s.accel 0 ≠ none
  pt : ∀ t ∈ s.pending, t.refund = none ∧ (∀ x ∈ t.allocs, x.1 = 0) ∧ t.client ≠ some 0
  wk : ∀ p, match s.worker p with
    | .idle => True
    | .run t => t.refund = none ∧ (∀ x ∈ t.allocs, x.1 = 0) ∧ t.client ≠ some 0
    | _ => False

theorem hung_worker {cf : Conf} {s : St} (hs : Hung cf s) {p : Nat} {t : Task} (ht : t.refund = none ∧ (∀ x ∈ t.allocs, x.1 = 0) ∧ t.client ≠ some 0) :
    ∀ p', match upd s.worker p (.run t) p' with
    | .idle => True
    | .run t => t.refund = none ∧ (∀ x ∈ t.allocs, x.1 = 0) ∧ t.client ≠ some 0
    | _ => False := by
  intro p'
  by_cases e : p' = p
  · subst e; rw [upd_same]; exact ht
  · rw [upd_other _ _ e]; exact hs.wk p'

theorem hung_idle {cf : Conf} {s : St} (hs : Hung cf s) {p : Nat} :
    ∀ p', match upd s.worker p .idle p' with
    | .idle => True
    | .run t => t.refund = none ∧ (∀ x ∈ t.allocs, x.1 = 0) ∧ t.client ≠ some 0
    | _ => False := by
  intro p'
  by_cases e : p' = p
  · subst e; rw [upd_same]; trivial
  · rw [upd_other _ _ e]; exact hs.wk p'

theorem hung_step (cf : Conf) (he : cf.enforce = true) (hn : cf.n = 1) (hc : cf.nc = 1) {s : St} (hs : Hung cf s) (e : Event) : Hung cf (step cf s e) := by
  have hab : Hung cf { s with aborted := true } := ⟨hs.cl, hs.lo, hs.rm, hs.ac, hs.pt, hs.wk⟩
  unfold step
  split
  · exact hs
  cases e with
  | issue v ins outs k =>
    simp only
    split
    · rename_i hg
      split
      · exact hab
      · rename_i s' hm
        obtain ⟨f, e, hk⟩ := migrateAll_spec hm
        subst e
        refine ⟨hs.cl, hs.lo, hs.rm, some_keep hk 0 hs.ac, fun t ht => ?_, hs.wk⟩
        rcases List.mem_append.1 ht with h | h
        · exact hs.pt t h
        · rw [List.mem_singleton] at h; subst h
          refine ⟨rfl, fun x hx => ?_, by simp⟩
          have := (hg x.1 (allocsOf_mem cf ins outs k x hx)).1
          omega
    · exact hs
  | allocRemote c d v =>
    simp only
    split
    · rename_i hg
      have : d = 0 := by omega
      subst this
      rw [if_pos hs.rm]
      split
      · exact hab
      · exact hs
    · exact hs
  | clientGo c =>
    simp only [clientStep]
    by_cases e : c = 0
    · subst e; rw [hs.cl]; simp only [St.blocks, he, hs.lo, Bool.true_and, decide_true, if_true]; exact hs
    · have hk : ∀ w, upd s.client c w 0 = .charge 0 0 := fun w => by rw [upd_other _ _ (Ne.symm e)]; exact hs.cl
      split
      · split
        · split
          · exact hab
          · exact ⟨hk _, hs.lo, hs.rm, hs.ac, hs.pt, hs.wk⟩
        · exact hab
      · rename_i x q _
        split
        · exact hs
        · refine ⟨hk _, ?_, hs.rm, hs.ac, hs.pt, hs.wk⟩
          show upd s.avail q (s.avail q - cf.sz x) 0 < _
          by_cases hq : 0 = q
          · subst hq; rw [upd_same]; have := hs.lo; omega
          · rw [upd_other _ _ hq]; exact hs.lo
      · exact hs
  | setAccel d v =>
    simp only; split
    · exact ⟨hs.cl, hs.lo, hs.rm, some_upd 0 hs.ac, hs.pt, hs.wk⟩
    · exact hs
  | setRemote d v =>
    simp only
    split
    · rename_i hg
      have : d = 0 := by omega
      subst this
      rw [if_neg (fun h => hs.ac h.1)]; exact hab
    · exact hs
  | free d =>
    simp only
    split
    · rename_i hg
      have : d = 0 := by omega
      subst this
      have hu := hg.2.2
      unfold St.unused at hu
      simp [hc, hs.cl, Client.data] at hu
    · exact hs
  | assign v q =>
    simp only; split
    · exact ⟨hs.cl, hs.lo, hs.rm, hs.ac, hs.pt, hs.wk⟩
    · exact hs
  | take p k =>
    simp only
    split
    · rename_i t hw hk
      split
      · exact ⟨hs.cl, hs.lo, hs.rm, hs.ac, fun u hu => hs.pt u (List.mem_of_mem_eraseIdx hu), hung_worker hs (hs.pt t (List.mem_of_getElem? hk))⟩
      · exact hs
    · exact hs
  | work p =>
    have hw := hs.wk p
    simp only [workStep]
    cases hwp : s.worker p with
    | idle => exact hs
    | run t =>
      rw [hwp] at hw
      simp only
      split
      · rename_i d ch rest ha
        have hd : d = 0 := hw.2.1 (d, ch) (by rw [ha]; exact List.mem_cons_self ..)
        subst hd
        rw [if_pos hs.rm]
        exact ⟨hs.cl, hs.lo, hs.rm, hs.ac, hs.pt, hung_worker hs ⟨hw.1, fun x hx => hw.2.1 x (by rw [ha]; exact List.mem_cons_of_mem _ hx), hw.2.2⟩⟩
      · rw [hw.1]
        simp only
        split
        · exact ⟨hs.cl, hs.lo, hs.rm, hs.ac, hs.pt, hung_idle hs⟩
        · rename_i c hcc
          have hc0 : c ≠ 0 := fun h => hw.2.2 (h ▸ hcc)
          split
          · split
            · refine ⟨?_, hs.lo, hs.rm, hs.ac, hs.pt, hung_idle hs⟩
              show upd s.client c _ 0 = _
              rw [upd_other _ _ (Ne.symm hc0)]; exact hs.cl
            · exact hab
          · exact hs
    | dec t d => rw [hwp] at hw; exact hw.elim
    | charge t d q => rw [hwp] at hw; exact hw.elim

theorem hung_exec (cf : Conf) (he : cf.enforce = true) (hn : cf.n = 1) (hc : cf.nc = 1) (h : List Event) : ∀ {s : St}, Hung cf s → Hung cf (exec cf s h) := by
  induction h with
  | nil => intro s hs; exact hs
  | cons e h ih => intro s hs; exact ih (hung_step cf he hn hc hs e)

/-- With ARAX_THROTTLE_ENFORCE `arax_data_allocate_remote` on an otherwise unused device never returns when the device holds the data object once but not twice:
whatever happens after the device memory has been allocated. -/
theorem C67_violated_hang (b : Backend) (z a : Nat) (hz : 1 ≤ z) (h1 : z ≤ a) (h2 : a < 2 * z) :
    (exec (conf1 b true z a) (init (conf1 b true z a)) (remoteHistory.take 8)).aborted = false ∧
    (exec (conf1 b true z a) (init (conf1 b true z a)) (remoteHistory.take 8)).remote 0 = true ∧
    ∀ h', (exec (conf1 b true z a) (init (conf1 b true z a)) (remoteHistory.take 8 ++ h')).client 0 = .charge 0 0 := by
  have hz' : 0 < z := hz
  have e1 : ¬ ((a : Int) < z) := by omega
  refine ⟨?_, ?_, fun h' => ?_⟩
  · simp [exec, step, workStep, clientStep, init, upd, St.migrate, St.migrateAll, St.mine, St.physOf, St.blocks, St.unused, Worker.task, Client.data, Task.uses, allocsOf, remoteHistory, conf1, hz', e1]
  · simp [exec, step, workStep, clientStep, init, upd, St.migrate, St.migrateAll, St.mine, St.physOf, St.blocks, St.unused, Worker.task, Client.data, Task.uses, allocsOf, remoteHistory, conf1, hz', e1]
  · rw [show exec (conf1 b true z a) (init (conf1 b true z a)) (remoteHistory.take 8 ++ h') =
      exec (conf1 b true z a) (exec (conf1 b true z a) (init (conf1 b true z a)) (remoteHistory.take 8)) h' from List.foldl_append]
    refine (hung_exec (conf1 b true z a) rfl rfl rfl h' ⟨?_, ?_, ?_, ?_, ?_, fun p => ?_⟩).cl
    · simp [exec, step, workStep, clientStep, init, upd, St.migrate, St.migrateAll, St.mine, St.physOf, St.blocks, St.unused, Worker.task, Client.data, Task.uses, allocsOf, remoteHistory, conf1, hz', e1]
    · simp [exec, step, workStep, clientStep, init, upd, St.migrate, St.migrateAll, St.mine, St.physOf, St.blocks, St.unused, Worker.task, Client.data, Task.uses, allocsOf, remoteHistory, conf1, hz', e1]; omega
    · simp [exec, step, workStep, clientStep, init, upd, St.migrate, St.migrateAll, St.mine, St.physOf, St.blocks, St.unused, Worker.task, Client.data, Task.uses, allocsOf, remoteHistory, conf1, hz', e1]
    · simp [exec, step, workStep, clientStep, init, upd, St.migrate, St.migrateAll, St.mine, St.physOf, St.blocks, St.unused, Worker.task, Client.data, Task.uses, allocsOf, remoteHistory, conf1, hz', e1]
    · simp [exec, step, workStep, clientStep, init, upd, St.migrate, St.migrateAll, St.mine, St.physOf, St.blocks, St.unused, Worker.task, Client.data, Task.uses, allocsOf, remoteHistory, conf1, hz', e1]
    · have : (exec (conf1 b true z a) (init (conf1 b true z a)) (remoteHistory.take 8)).worker p = .idle := by
        by_cases hp : p = 0
        · subst hp; simp [exec, step, workStep, clientStep, init, upd, St.migrate, St.migrateAll, St.mine, St.physOf, St.blocks, St.unused, Worker.task, Client.data, Task.uses, allocsOf, remoteHistory, conf1, hz', e1]
        · simp [exec, step, workStep, clientStep, init, upd, St.migrate, St.migrateAll, St.mine, St.physOf, St.blocks, St.unused, Worker.task, Client.data, Task.uses, allocsOf, remoteHistory, conf1, hz', e1, hp]
      rw [this]; trivial

/-! ### C68: enough memory -/

/-- The sizes of all data objects of device `p`. -/
def total (cf : Conf) (hd : Nat → Nat) (p : Nat) : Nat := Live.sum (fun d => if hd d = p then cf.sz d else 0) cf.n

/-- The sizes of all freed data objects of device `p`. -/
def gone (cf : Conf) (hd : Nat → Nat) (s : St) (p : Nat) : Nat := Live.sum (fun d => if hd d = p ∧ s.freed d = true then cf.sz d else 0) cf.n

theorem gone_congr {cf : Conf} {hd : Nat → Nat} {s s' : St} (h : s'.freed = s.freed) (p : Nat) : gone cf hd s' p = gone cf hd s p := by
  unfold gone; rw [h]

theorem freeing_same {cf : Conf} {s : St} {p : Nat} {w : Worker} (hp : p < cf.nw) (hr : ∀ q, workerRefund q w ≤ workerRefund q (s.worker p)) (q : Nat) :
    freeing cf { s with worker := upd s.worker p w } q ≤ freeing cf s q := by
  have := freeing_worker cf s p w hp q
  have := hr q
  omega

theorem worker_lt {cf : Conf} {dev hd : Nat → Nat} {s : St} (hi : Inv cf dev hd s) {p : Nat} (h : s.worker p ≠ .idle) : p < cf.nw := by
  have := hi.wk p
  cases hw : s.worker p with
  | idle => exact absurd hw h
  | run t => rw [hw] at this; exact this.2.2
  | dec t d => rw [hw] at this; exact this.2.2.1
  | charge t d q => rw [hw] at this; exact this.2.2.1

theorem freeing_work {cf : Conf} {dev hd : Nat → Nat} {s : St} (hi : Inv cf dev hd s) (p q : Nat) : freeing cf (workStep cf s p) q ≤ freeing cf s q := by
  have hlt := worker_lt hi (p := p)
  have h0 : freeing cf { s with aborted := true } q ≤ freeing cf s q := Nat.le_refl _
  unfold workStep
  cases hwp : s.worker p with
  | idle => exact Nat.le_refl _
  | run t =>
    have hp := hlt (by rw [hwp]; simp)
    have hsame : ∀ rest, freeing cf { s with worker := upd s.worker p (.run { t with allocs := rest }) } q ≤ freeing cf s q :=
      fun rest => freeing_same hp (fun q => by rw [hwp]; exact Nat.le_refl _) q
    have hdec : ∀ rest d, freeing cf { s with worker := upd s.worker p (.dec { t with allocs := rest } d) } q ≤ freeing cf s q :=
      fun rest d => freeing_same hp (fun q => by rw [hwp]; exact Nat.le_refl _) q
    have hidle : freeing cf { s with worker := upd s.worker p .idle } q ≤ freeing cf s q := freeing_same hp (fun q => Nat.zero_le _) q
    simp only
    split
    · split
      · exact hsame _
      · split
        · exact h0
        · split
          · exact hdec _ _
          · exact hsame _
    · split
      · split
        · exact h0
        · exact hidle
      · split
        · exact hidle
        · split
          · split
            · exact hidle
            · exact h0
          · exact Nat.le_refl _
  | dec t d =>
    have hp := hlt (by rw [hwp]; simp)
    simp only
    split
    · exact h0
    · exact freeing_same (s := s) hp (fun q => by rw [hwp]; exact Nat.le_refl _) q
  | charge t d b =>
    have hp := hlt (by rw [hwp]; simp)
    simp only
    split
    · exact Nat.le_refl _
    · exact freeing_same (s := s) (w := .run t) hp (fun q => by rw [hwp]; exact Nat.le_refl _) q

theorem freed_work (cf : Conf) (s : St) (p : Nat) : (workStep cf s p).freed = s.freed := by
  unfold workStep
  repeat' (first | rfl | split | simp only)

theorem gone_step {cf : Conf} {dev hd : Nat → Nat} {s : St} (hi : Inv cf dev hd s) {e : Event} (hg : ∀ p, freeing cf s p ≤ gone cf hd s p) :
    ∀ p, freeing cf (step cf s e) p ≤ gone cf hd (step cf s e) p := by
  intro p
  have hgp := hg p
  unfold step
  split
  · exact hgp
  cases e with
  | issue v ins outs k =>
    simp only
    split
    · split
      · exact hgp
      · rename_i s' hm
        obtain ⟨f, e, hk⟩ := migrateAll_spec hm
        subst e
        have := freeing_push cf s ⟨.vac v, ins ++ outs, allocsOf cf ins outs k, none, none⟩ p
        have h2 : refundTo p ⟨.vac v, ins ++ outs, allocsOf cf ins outs k, none, none⟩ = 0 := rfl
        show freeing cf { s with pending := s.pending ++ [_] } p ≤ gone cf hd s p
        omega
    · exact hgp
  | allocRemote c d v =>
    simp only
    split
    · split
      · split <;> exact hgp
      · split
        · exact hgp
        · rename_i s' hm
          obtain ⟨f, e, hk⟩ := migrate_spec hm
          subst e
          have := freeing_push cf s ⟨.vac v, [d], [(d, true)], none, some c⟩ p
          have h2 : refundTo p ⟨.vac v, [d], [(d, true)], none, some c⟩ = 0 := rfl
          show freeing cf { s with pending := s.pending ++ [_] } p ≤ gone cf hd s p
          omega
    · exact hgp
  | clientGo c =>
    simp only [clientStep]
    split
    · split
      · split <;> exact hgp
      · exact hgp
    · split <;> exact hgp
    · exact hgp
  | setAccel d v => simp only; split <;> exact hgp
  | setRemote d v =>
    simp only
    split
    · split <;> exact hgp
    · exact hgp
  | free d =>
    simp only
    split
    · rename_i hgd
      have hsum : ∀ q, gone cf hd { s with freed := upd s.freed d true } q = gone cf hd s q + (if hd d = q then cf.sz d else 0) := by
        intro q
        have := Live.sum_at (f := fun x => if hd x = q ∧ upd s.freed d true x = true then cf.sz x else 0) (g := fun x => if hd x = q ∧ s.freed x = true then cf.sz x else 0)
          d (n := cf.n) hgd.1 (fun j hj => by simp only [upd_other _ _ hj])
        simp only [upd_same, hgd.2.1] at this
        simp only [gone]
        simp at this
        omega
      split
      · rename_i hr
        simp only [Bool.and_eq_true, Bool.not_eq_true'] at hr
        split
        · exact hgp
        · rename_i q hq
          have hqd : q = hd d := by rw [hi.rd d hr.1 hr.2] at hq; cases hq; rfl
          have h1 := freeing_push cf { s with freed := upd s.freed d true } ⟨.free q, [], [], some (cf.sz d, q), none⟩ p
          have h2 : refundTo p ⟨.free q, [], [], some (cf.sz d, q), none⟩ = if hd d = p then cf.sz d else 0 := by simp [refundTo, hqd]
          have h3 := hsum p
          have h4 : freeing cf { s with freed := upd s.freed d true } p = freeing cf s p := rfl
          show freeing cf { s with freed := upd s.freed d true, pending := s.pending ++ [⟨.free q, [], [], some (cf.sz d, q), none⟩] } p ≤ gone cf hd { s with freed := upd s.freed d true } p
          have h5 : freeing cf { s with freed := upd s.freed d true, pending := s.pending ++ [⟨.free q, [], [], some (cf.sz d, q), none⟩] } p = freeing cf { s with freed := upd s.freed d true } p + refundTo p ⟨.free q, [], [], some (cf.sz d, q), none⟩ := h1
          omega
      · have h3 := hsum p
        show freeing cf s p ≤ gone cf hd { s with freed := upd s.freed d true } p
        omega
    · exact hgp
  | assign v q => simp only; split <;> exact hgp
  | take p' k =>
    simp only
    split
    · rename_i t hw hk
      split
      · rename_i hm
        have h1 := freeing_worker cf { s with pending := s.pending.eraseIdx k } p' (.run t) hm.1 p
        have h2 := sum_eraseIdx s.pending k t p hk
        have h4 : workerRefund p (s.worker p') = 0 := by rw [hw]; rfl
        have h5 : workerRefund p (.run t) = refundTo p t := rfl
        have h6 : freeing cf { s with pending := s.pending.eraseIdx k } p + refundTo p t = freeing cf s p := by simp only [freeing]; omega
        have h7 : freeing cf { s with worker := upd s.worker p' (.run t), pending := s.pending.eraseIdx k } p + workerRefund p (s.worker p') = freeing cf { s with pending := s.pending.eraseIdx k } p + workerRefund p (.run t) := h1
        show freeing cf { s with worker := upd s.worker p' (.run t), pending := s.pending.eraseIdx k } p ≤ gone cf hd s p
        omega
      · exact hgp
    · exact hgp
  | work w =>
    rw [gone_congr (freed_work cf s w)]
    exact Nat.le_trans (freeing_work hi w p) hgp

theorem gone_exec {cf : Conf} {dev hd : Nat → Nat} : ∀ {h : List Event} {s : St}, Inv cf dev hd s → (∀ e ∈ h, e.Stable dev hd) →
    (∀ p, freeing cf s p ≤ gone cf hd s p) → ∀ p, freeing cf (exec cf s h) p ≤ gone cf hd (exec cf s h) p
  | [], s, _, _, hg => hg
  | e :: h, s, hi, hs, hg =>
    gone_exec (h := h) (s := step cf s e) (inv_step hi (hs e (List.mem_cons_self ..))) (fun x hx => hs x (List.mem_cons_of_mem _ hx)) (gone_step hi hg)

/-- C68, for devices that hold all data objects ever used with them at once (and histories as in `C67_exact_partial`): no worker ever waits for memory. -/
theorem C68_no_wait_partial (cf : Conf) (dev hd : Nat → Nat) (h : List Event) (hs : ∀ e ∈ h, e.Stable dev hd) (hx : ∀ e ∈ h, e.Exact cf)
    (hfit : ∀ p, total cf hd p ≤ cf.avail0 p) (p d q : Nat) (t : Task) (hw : (exec cf (init cf) h).worker p = .charge t d q) :
    (exec cf (init cf) h).blocks cf q (cf.sz d) = false := by
  have hi := inv_exec (inv_init cf dev hd) hs
  have hbal := C67_exact_partial cf dev hd h hs hx q
  have hg := gone_exec (inv_init cf dev hd) hs (fun p => by
    have : freeing cf (init cf) p = 0 := by
      unfold freeing
      rw [Live.sum_zero (f := fun w => workerRefund p ((init cf).worker w)) (fun i _ => rfl)]; rfl
    omega) q
  generalize exec cf (init cf) h = s at *
  have hwk := hi.wk p
  rw [hw] at hwk
  obtain ⟨ht, -, -, hm, hh, -, hr, -, hqp⟩ := hwk
  have hdd := ht.2 d hm
  have key : live cf s q + gone cf hd s q + cf.sz d ≤ total cf hd q := by
    have e1 : live cf s q + gone cf hd s q = Live.sum (fun x => liveAt cf s q x + if hd x = q ∧ s.freed x = true then cf.sz x else 0) cf.n := by
      unfold live gone
      have : ∀ (f g : Nat → Nat) n, Live.sum f n + Live.sum g n = Live.sum (fun x => f x + g x) n := by
        intro f g n
        induction n with
        | zero => rfl
        | succ n ih => simp only [Live.sum]; omega
      exact this _ _ _
    have hle : ∀ (f g : Nat → Nat) (i : Nat), (∀ j, f j ≤ g j) → ∀ n, i < n → Live.sum f n + g i ≤ Live.sum g n + f i := by
      intro f g i hfg n
      induction n with
      | zero => intro h; omega
      | succ n ih =>
        intro hin
        simp only [Live.sum]
        by_cases e : i = n
        · subst e
          have : ∀ m, Live.sum f m ≤ Live.sum g m := by
            intro m
            induction m with
            | zero => exact Nat.le_refl _
            | succ m ih => simp only [Live.sum]; have := hfg m; omega
          have := this i
          omega
        · have := ih (by omega); have := hfg n; omega
    have := hle (fun x => liveAt cf s q x + if hd x = q ∧ s.freed x = true then cf.sz x else 0) (fun x => if hd x = q then cf.sz x else 0) d (fun x => by
      show liveAt cf s q x + (if hd x = q ∧ s.freed x = true then cf.sz x else 0) ≤ if hd x = q then cf.sz x else 0
      unfold liveAt
      by_cases hl : s.remote x = true ∧ s.other x = false ∧ s.freed x = false ∧ s.dphys x = some q
      · have hdx : hd x = q := by
          have := hi.rd x hl.1 hl.2.1
          rw [hl.2.2.2] at this; cases this; rfl
        rw [if_pos hl]; simp [hl.2.2.1, hdx]
      · rw [if_neg hl]
        by_cases h1 : hd x = q <;> by_cases h2 : s.freed x = true <;> simp [h1, h2]) cf.n hdd.1
    have z1 : liveAt cf s q d = 0 := by simp [liveAt, hr]
    simp only [z1, hdd.2, hh, hqp] at this
    simp at this
    rw [e1, hqp]; unfold total
    rw [hqp] at z1
    omega
  have := hfit q
  simp only [St.blocks, Bool.and_eq_false_iff, decide_eq_false_iff_not]
  right
  omega

/-! ## The hypotheses are met by concrete histories -/

/-- Three data objects on two devices: tasks with outputs, a memset, a memcpy, user-supplied memory, frees. -/
def busyHistory : List Event :=
  [.assign 0 0, .assign 1 1, .issue 0 [] [0] .plain, .issue 1 [] [1] .plain, .take 0 0, .take 1 0, .work 0, .work 1, .work 0, .work 1, .work 0, .work 1, .work 0, .work 1,
   .issue 0 [0] [2] .memcpy, .take 0 0, .work 0, .work 0, .work 0, .work 0, .work 0, .work 0, .free 0, .free 1]

def busyConf : Conf := { backend := .hip, enforce := true, sz := fun d => 10 + d, cap := fun _ => 50, avail0 := fun _ => 40, n := 3, nw := 2, nc := 1 }

/-- `C67_balance_partial`, `C67_exact_partial` and `C68_no_wait_partial` apply to it; at the end 12 bytes are live and 10 and 11 are being freed. -/
example : (∀ e ∈ busyHistory, e.Stable (fun v => v) (fun d => d % 2)) ∧ (∀ e ∈ busyHistory, e.Exact busyConf) ∧
    (∀ p, total busyConf (fun d => d % 2) p ≤ busyConf.avail0 p) ∧
    (exec busyConf (init busyConf) busyHistory).aborted = false ∧
    live busyConf (exec busyConf (init busyConf) busyHistory) 0 = 12 ∧ freeing busyConf (exec busyConf (init busyConf) busyHistory) 0 = 10 ∧
    freeing busyConf (exec busyConf (init busyConf) busyHistory) 1 = 11 ∧ (exec busyConf (init busyConf) busyHistory).avail 0 = 18 := by
  refine ⟨?_, ?_, ?_, by decide +kernel, by decide +kernel, by decide +kernel, by decide +kernel, by decide +kernel⟩
  · simp [busyHistory, Event.Stable]
  · simp [busyHistory, Event.Exact, busyConf]
  · intro p
    simp only [total, busyConf, Live.sum]
    repeat' split
    all_goals omega

/-- A worker in the act of being charged (`C68_no_wait_partial`). -/
example : ((exec busyConf (init busyConf) (busyHistory.take 10)).worker 0).task.isSome = true ∧
    (match (exec busyConf (init busyConf) (busyHistory.take 10)).worker 0 with | .charge _ 0 0 => true | _ => false) = true := by decide +kernel

/-- Everything freed and executed (`C67_returned_partial`). -/
example : (∀ d, d < 3 → (exec busyConf (init busyConf) (busyHistory ++ [.free 2, .take 0 0, .work 0, .take 1 0, .work 1, .take 0 0, .work 0])).freed d = true) ∧
    (exec busyConf (init busyConf) (busyHistory ++ [.free 2, .take 0 0, .work 0, .take 1 0, .work 1, .take 0 0, .work 0])).pending = [] ∧
    (exec busyConf (init busyConf) (busyHistory ++ [.free 2, .take 0 0, .work 0, .take 1 0, .work 1, .take 0 0, .work 0])).avail 0 = 40 ∧
    (exec busyConf (init busyConf) (busyHistory ++ [.free 2, .take 0 0, .work 0, .take 1 0, .work 1, .take 0 0, .work 0])).avail 1 = 40 := by
  decide +kernel
end Arax.DevMem
