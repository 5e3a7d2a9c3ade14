import Verif.Locks.Model
/-!
# The order of the locks

Every call takes locks in one order, gives back the last one it took, and waits for other things only without locks, but for two cases.
-/
namespace Arax.Locks

/-- The order. (No code of its own: it is the order the code follows, see `C79_ordered`.) -/
def rank : Lk → Nat
  | .setup => 0 | .print => 1 | .prep => 2 | .ready => 3 | .procs => 4
  | .repo .task => 5 | .repo .data => 6 | .repo .phys => 7 | .repo .virt => 8 | .repo .proc => 9
  | .orphan => 10 | .vac _ => 11 | .acc _ => 12 | .thr _ => 13 | .heap _ => 14 | .glob _ => 15 | .bits => 16 | .kv _ => 17

/-- All of `H` come before rank `k`. -/
def Below (k : Nat) (H : List Lk) : Prop := ∀ h ∈ H, rank h < k

/-- What is left to do, with the locks `H` (the last one taken first), keeps the rules; `e`: `ARAX_THROTTLE_ENFORCE`. -/
def Good (e : Bool) : List Lk → List Op → Prop
  | H, [] => H = []
  | H, .lock l :: r => Below (rank l) H ∧ Good e (l :: H) r
  | H, .unlock l :: r => ∃ H', H = l :: H' ∧ Good e H' r
  | H, .use l :: r => l ∈ H ∧ Good e H r
  | H, .wait l :: r => (H = [l] ∨ e = true ∧ l = .thr 0 ∧ H = [l, .print]) ∧ Good e H r
  | H, .sleep :: r => (H = [] ∨ e = true ∧ H = [.print]) ∧ Good e H r
  | H, .room v :: r => H = [.vac v] ∧ Good e H r
  | H, .await :: r => H = [] ∧ Good e H r

/-- `c` keeps the rules when it starts with `H`, and ends with `H'`. -/
def Safe (e : Bool) (H : List Lk) (c : Cmd) (H' : List Lk) : Prop := ∀ p, Path c p → ∀ r, Good e H' r → Good e H (p ++ r)

variable {e : Bool}

theorem Below.mono {k m : Nat} {H : List Lk} (h : Below k H) (hm : k ≤ m) : Below m H := fun x hx => Nat.lt_of_lt_of_le (h x hx) hm
theorem Below.cons {k : Nat} {l : Lk} {H : List Lk} (hl : rank l < k) (h : Below k H) : Below k (l :: H) := by
  intro x hx; cases hx with
  | head => exact hl
  | tail _ hx => exact h x hx
theorem Below.nil (k : Nat) : Below k [] := by intro x hx; cases hx

theorem Safe.skip (H : List Lk) : Safe e H .skip H := by intro p hp r hr; cases hp; exact hr
theorem Safe.seq {H M H' : List Lk} {a b : Cmd} (ha : Safe e H a M) (hb : Safe e M b H') : Safe e H (a ;; b) H' := by
  intro p hp r hr
  cases hp with
  | seq h1 h2 => rw [List.append_assoc]; exact ha _ h1 _ (hb _ h2 _ hr)
theorem Safe.alt {H H' : List Lk} {a b : Cmd} (ha : Safe e H a H') (hb : Safe e H b H') : Safe e H (a ∥ b) H' := by
  intro p hp r hr
  cases hp with
  | left h => exact ha _ h _ hr
  | right h => exact hb _ h _ hr
theorem Safe.any {H H' : List Lk} {f : Nat → Cmd} (h : ∀ i, Safe e H (f i) H') : Safe e H (.any f) H' := by
  intro p hp r hr
  cases hp with
  | any i hi => exact h i _ hi _ hr
theorem Safe.rep {H : List Lk} {a : Cmd} (h : Safe e H a H) : Safe e H (.rep a) H := by
  intro p hp
  generalize hc : Cmd.rep a = c at hp
  induction hp with
  | rep0 => intro r hr; exact hr
  | rep h1 _ _ ih =>
    cases hc
    intro r hr
    rw [List.append_assoc]
    exact h _ h1 _ (ih rfl _ hr)
  | skip | op | seq | left | right | any => cases hc
theorem Safe.opt {H : List Lk} {a : Cmd} (h : Safe e H a H) : Safe e H (.skip ∥ a) H := (Safe.skip H).alt h
theorem Safe.use {H : List Lk} {l : Lk} (h : l ∈ H) : Safe e H (.op (.use l)) H := by intro p hp r hr; cases hp; exact ⟨h, hr⟩
theorem Safe.await : Safe e [] (.op .await) [] := by intro p hp r hr; cases hp; exact ⟨rfl, hr⟩
theorem Safe.wait (l : Lk) : Safe e [l] (.op (.wait l)) [l] := by intro p hp r hr; cases hp; exact ⟨Or.inl rfl, hr⟩
theorem Safe.crit {H : List Lk} {l : Lk} {c : Cmd} (h : Below (rank l) H) (hc : Safe e (l :: H) c (l :: H)) : Safe e H (Locks.crit l c) H := by
  refine Safe.seq (M := l :: H) ?_ (Safe.seq (M := l :: H) (Safe.use List.mem_cons_self) (Safe.seq hc ?_))
  · intro p hp r hr; cases hp; exact ⟨h, hr⟩
  · intro p hp r hr; cases hp; exact ⟨H, rfl, hr⟩
theorem Safe.crit0 {H : List Lk} {l : Lk} (h : Below (rank l) H) : Safe e H (Locks.crit l .skip) H := Safe.crit h (Safe.skip _)

/-! ## Function by function -/

theorem bmpOp_safe {H : List Lk} (h : Below 16 H) : Safe e H bmpOp H := Safe.crit0 h
theorem ensure_safe {H : List Lk} (c : Cfg) (h : Below 15 H) : Safe c.enf H (ensure c) H := Safe.opt (Safe.crit0 h)
theorem mmalloc_safe {H : List Lk} (c : Cfg) (i : Nat) (h : Below 14 H) : Safe c.enf H (mmalloc c i) H := by
  have h1 : Below 15 (Lk.heap i :: H) := Below.cons (by simp [rank]) (h.mono (by decide))
  exact Safe.crit h (Safe.opt ((ensure_safe c h1).seq (bmpOp_safe (h1.mono (by decide)))))
theorem mfree_safe {H : List Lk} (c : Cfg) (i : Nat) (h : Below 14 H) : Safe c.enf H (mfree c i) H := by
  have h1 : Below 15 (Lk.heap i :: H) := Below.cons (by simp [rank]) (h.mono (by decide))
  exact Safe.crit h (Safe.opt ((ensure_safe c h1).seq (Safe.rep (bmpOp_safe (h1.mono (by decide))))))
theorem mcreate_safe {H : List Lk} (c : Cfg) (h : Below 15 H) : Safe c.enf H (mcreate c) H := (ensure_safe c h).seq (bmpOp_safe (h.mono (by decide)))
theorem mdestroy_safe {H : List Lk} (h : Below 16 H) : Safe e H mdestroy H := Safe.rep (bmpOp_safe h)
theorem inc_safe {H : List Lk} (k : Nat) (h : Below 13 H) : Safe e H (inc k) H := Safe.opt (Safe.crit0 h)
theorem dec_safe (c : Cfg) (k : Nat) : Safe c.enf [] (dec c k) [] := by
  refine Safe.opt (Safe.crit (Below.nil _) ?_)
  cases c.enf
  · exact Safe.skip _
  · exact Safe.rep (Safe.wait _)
theorem dec_safe_print (c : Cfg) : Safe c.enf [.print] (dec c 0) [.print] := by
  refine Safe.opt (Safe.crit (Below.cons (by decide) (Below.nil _)) ?_)
  cases c.enf
  · exact Safe.skip _
  · refine Safe.rep ?_
    intro p hp r hr; cases hp; exact ⟨Or.inr ⟨rfl, rfl, rfl⟩, hr⟩

/-- The locks with which objects are made: none, or `print` while an accelerator starts. -/
def Top (H : List Lk) : Prop := H = [] ∨ H = [.print]

theorem Top.below {H : List Lk} (h : Top H) {k : Nat} (hk : 2 ≤ k) : Below k H := by
  rcases h with rfl | rfl
  · exact Below.nil _
  · exact Below.cons (by simp only [rank]; omega) (Below.nil _)

theorem register_safe {H : List Lk} (c : Cfg) (t : Ty) (h : Top H) : Safe c.enf H (register c t) H := by
  refine Safe.seq (M := H) ?_ ((mmalloc_safe c 0 (h.below (by decide))).seq ((mmalloc_safe c 0 (h.below (by decide))).seq (Safe.crit0 (h.below (by cases t <;> decide)))))
  rcases h with rfl | rfl
  · exact dec_safe c 0
  · exact dec_safe_print c
theorem rename_safe {H : List Lk} (c : Cfg) (h : Below 14 H) : Safe c.enf H (rename c) H := Safe.opt ((mfree_safe c 0 h).seq (mmalloc_safe c 0 h))
theorem after_safe {H : List Lk} (c : Cfg) {d : Cmd} (h : Below 13 H) (hd : Safe c.enf H d H) : Safe c.enf H (d ;; mfree c 0 ;; mfree c 0 ;; inc 0) H :=
  hd.seq ((mfree_safe c 0 (h.mono (by decide))).seq ((mfree_safe c 0 (h.mono (by decide))).seq (inc_safe 0 h)))
theorem refDec_safe {H : List Lk} (c : Cfg) (t : Ty) {d : Cmd} (h : Below (rank (.repo t)) H) (hd : Safe c.enf H d H) : Safe c.enf H (refDec c t d) H :=
  (Safe.crit0 h).seq (Safe.opt (after_safe c (h.mono (by cases t <;> decide)) hd))
theorem refDecPre_safe {H : List Lk} (c : Cfg) (t : Ty) {d : Cmd} (h : Below 13 H) (ht : .repo t ∈ H) (hd : Safe c.enf H d H) : Safe c.enf H (refDecPre c t d) H :=
  Safe.opt ((Safe.use ht).seq (after_safe c h hd))
theorem orphanOp_safe {H : List Lk} (h : Below 10 H) : Safe e H orphanOp H := Safe.crit0 h
theorem getOrphan_safe : Safe e [] getOrphan [] := Safe.crit (Below.nil _) ((Safe.opt (Safe.wait _)).seq (Safe.use (by simp)))
theorem accOp_safe {H : List Lk} (a : Nat) (h : Below 12 H) : Safe e H (accOp a) H := Safe.crit0 h
theorem waitForTask_safe (a : Nat) : Safe e [] (waitForTask a) [] := Safe.crit (Below.nil _) ((Safe.rep (Safe.wait _)).seq (Safe.use (by simp)))
theorem addVac_safe {H : List Lk} (a v : Nat) (h : Below 10 H) : Safe e H (addVac a v) H :=
  Safe.opt ((orphanOp_safe h).seq (Safe.crit (h.mono (by simp [rank])) (Safe.opt (Safe.crit0 (Below.cons (by simp [rank]) (h.mono (by simp [rank])))))))
theorem delVac_safe {H : List Lk} (a v : Nat) (h : Below 11 H) : Safe e H (delVac a v) H :=
  Safe.crit h (Safe.crit0 (Below.cons (by simp [rank]) (h.mono (by simp [rank]))))
theorem vacDtor_safe {H : List Lk} (v : Nat) (h : Below 10 H) : Safe e H (vacDtor v) H := (Safe.any fun a => delVac_safe a v (h.mono (by decide))).alt (orphanOp_safe h)
theorem vacDec_safe {H : List Lk} (c : Cfg) (h : Below 8 H) : Safe c.enf H (vacDec c) H := Safe.any fun v => refDec_safe c .virt h (vacDtor_safe v (h.mono (by decide)))
theorem accDtor_safe {H : List Lk} (c : Cfg) (a : Nat) (h : Below 8 H) : Safe c.enf H (accDtor c a) H := (Safe.crit0 (h.mono (by simp [rank]))).seq (vacDec_safe c h)
theorem accDec_safe {H : List Lk} (c : Cfg) (h : Below 7 H) : Safe c.enf H (accDec c) H := Safe.any fun a => refDec_safe c .phys h (accDtor_safe c a (h.mono (by decide)))
theorem vacInit_safe {H : List Lk} (c : Cfg) (h : Top H) : Safe c.enf H (vacInit c) H :=
  (register_safe c .virt h).seq ((Safe.any fun v => Safe.any fun a => addVac_safe a v (h.below (by decide))).alt (orphanOp_safe (h.below (by decide))))
theorem accInit_safe {H : List Lk} (c : Cfg) (h : Top H) : Safe c.enf H (accInit c) H := (register_safe c .phys h).seq (vacInit_safe c h)
theorem addTask_safe (v : Nat) : Safe e [] (addTask v) [] := by
  refine Safe.crit (Below.nil _) (Safe.seq (M := [Lk.vac v]) ?_ (Safe.opt (Safe.any fun a => accOp_safe a (Below.cons (by simp [rank]) (Below.nil _)))))
  intro p hp r hr; cases hp; exact ⟨rfl, hr⟩
theorem find_safe {H : List Lk} (t : Ty) (h : Below 5 H) : Safe e H (find t) H := Safe.crit0 (h.mono (by cases t <;> decide))
theorem accelList_safe (c : Cfg) (k : Bool) : Safe c.enf [] (accelList c (if k then .phys else .virt) (if k then .phys else .virt)) [] := by
  refine Safe.crit (Below.nil _) (Safe.opt (Safe.rep ?_))
  cases k
  · exact Safe.any fun v => refDecPre_safe c .virt (Below.cons (by decide) (Below.nil _)) (by simp) (vacDtor_safe v (Below.cons (by decide) (Below.nil _)))
  · exact Safe.any fun a => refDecPre_safe c .phys (Below.cons (by decide) (Below.nil _)) (by simp) (accDtor_safe c a (Below.cons (by decide) (Below.nil _)))

theorem none_below (k : Nat) : Below k [] := Below.nil k
theorem listFree_safe (c : Cfg) : Safe c.enf [] (listFree c) [] := Safe.rep ((accDec_safe c (none_below _)).alt (vacDec_safe c (none_below _)))
theorem procRegister_safe (c : Cfg) : Safe c.enf [] (procRegister c) [] := (find_safe .proc (none_below _)).seq (Safe.opt (register_safe c .proc (Or.inl rfl)))
theorem procPut_safe (c : Cfg) : Safe c.enf [] (procPut c) [] := refDec_safe c .proc (none_below _) (Safe.skip _)
theorem migrate_safe (c : Cfg) : Safe c.enf [] (migrate c) [] := Safe.opt (vacDec_safe c (none_below _))
theorem taskAlloc_safe (c : Cfg) : Safe c.enf [] (taskAlloc c) [] := (register_safe c .task (Or.inl rfl)).seq (Safe.rep ((migrate_safe c).seq (rename_safe c (none_below _))))
theorem issue_safe (c : Cfg) : Safe c.enf [] (issue c) [] := (taskAlloc_safe c).seq (Safe.any addTask_safe)
theorem procGet_safe : Safe e [] procGet [] := find_safe .proc (none_below _)
theorem dataDtor_safe (c : Cfg) : Safe c.enf [] (dataDtor c) [] :=
  (procGet_safe.seq ((issue_safe c).seq (vacDec_safe c (none_below _)))).alt ((vacDec_safe c (none_below _)).alt (Safe.skip _))
theorem dataDec_safe (c : Cfg) : Safe c.enf [] (dataDec c) [] := refDec_safe c .data (none_below _) (dataDtor_safe c)
theorem taskDtor_safe (c : Cfg) : Safe c.enf [] (taskDtor c) [] := (Safe.rep (dataDec_safe c)).seq (Safe.opt (vacDec_safe c (none_below _)))
theorem taskDec_safe (c : Cfg) : Safe c.enf [] (taskDec c) [] := refDec_safe c .task (none_below _) (taskDtor_safe c)
theorem dataGet_safe (c : Cfg) : Safe c.enf [] (dataGet c) [] := procGet_safe.seq ((issue_safe c).seq (Safe.await.seq ((taskDec_safe c).seq (procPut_safe c))))
theorem dataSet_safe (c : Cfg) : Safe c.enf [] (dataSet c) [] := procGet_safe.seq ((issue_safe c).seq (procPut_safe c))
theorem allocRemote_safe (c : Cfg) : Safe c.enf [] (allocRemote c) [] :=
  Safe.opt (procGet_safe.seq ((issue_safe c).seq (Safe.await.seq ((taskDec_safe c).seq (Safe.any fun _ => dec_safe c _)))))
theorem init_safe (c : Cfg) (w : Bool) : Safe c.enf [] (init c w) [] := by
  refine Safe.seq (M := []) (((Safe.crit0 (none_below _)).seq ((mcreate_safe c (none_below _)).alt Safe.await)).alt Safe.await) ?_
  cases w
  · exact Safe.skip _
  · exact Safe.crit (none_below _) (Safe.rep (Safe.wait _))
theorem exit_safe : Safe e [] exit [] := Safe.opt ((Safe.opt (mdestroy_safe (none_below _))).seq (Safe.crit0 (none_below _)))
theorem execute_safe (c : Cfg) : Safe c.enf [] (execute c) [] :=
  (Safe.rep (Safe.any fun _ => dec_safe c _)).seq ((Safe.opt (Safe.any fun _ => inc_safe _ (none_below _))).seq (Safe.opt (taskDec_safe c)))
theorem workerStart_safe (c : Cfg) : Safe c.enf [] (workerStart c) [] :=
  (Safe.crit0 (none_below _)).seq ((Safe.crit (none_below _) (accInit_safe c (Or.inr rfl))).seq (Safe.crit0 (none_below _)))
theorem workerRound_safe (c : Cfg) (a : Nat) : Safe c.enf [] (workerRound c a) [] :=
  (Safe.opt Safe.await).seq ((waitForTask_safe a).seq ((accOp_safe a (none_below _)).seq ((init_safe c true).seq (Safe.opt ((execute_safe c).seq (taskDec_safe c))))))
theorem workerEnd_safe (a : Nat) : Safe e [] (workerEnd a) [] := Safe.crit (none_below _) (inc_safe _ (Below.cons (by decide) (none_below _)))
theorem balancerRound_safe : Safe e [] balancerRound [] :=
  getOrphan_safe.seq ((Safe.opt getOrphan_safe).seq (Safe.any fun v => Safe.any fun a => (Safe.opt (Safe.any fun m => Safe.any fun b => (delVac_safe a m (none_below _)).seq (addVac_safe b m (none_below _)))).seq (addVac_safe a v (none_below _))))

/-- Every call starts and ends without locks, and keeps the rules on every way. -/
theorem api_safe (c : Cfg) (f : Api) : Safe c.enf [] (f.cmd c) [] := by
  cases f with
  | init => exact init_safe c true
  | controllerInit => exact init_safe c false
  | exit => exact exit_safe
  | ptrValid => exact init_safe c true
  | accelList k => exact accelList_safe c k
  | accelListFree => exact listFree_safe c
  | acquirePhys => exact Safe.opt (vacInit_safe c (Or.inl rfl))
  | acquireType => exact vacInit_safe c (Or.inl rfl)
  | release => exact (accDec_safe c (none_below _)).alt (vacDec_safe c (none_below _))
  | setPhysical a v => exact addVac_safe a v (none_below _)
  | accelInit => exact accInit_safe c (Or.inl rfl)
  | addVaccel a v => exact addVac_safe a v (none_below _)
  | delVaccel a v => exact delVac_safe a v (none_below _)
  | addAccelTask a => exact accOp_safe a (none_below _)
  | waitForTask a => exact waitForTask_safe a
  | getAssigned a => exact accOp_safe a (none_below _)
  | getOrphan => exact getOrphan_safe
  | addOrphan => exact orphanOp_safe (none_below _)
  | orphanStop => exact orphanOp_safe (none_below _)
  | findAccel => exact find_safe .phys (none_below _)
  | deleteAccel => exact (find_safe .phys (none_below _)).seq (Safe.opt (accDec_safe c (none_below _)))
  | procRegister => exact procRegister_safe c
  | procGet => exact procGet_safe
  | procPut => exact procPut_safe c
  | issue => exact issue_safe c
  | issueSync => exact (issue_safe c).seq (Safe.await.seq (taskDec_safe c))
  | taskWait => exact Safe.await
  | taskFree => exact taskDec_safe c
  | dataInit => exact register_safe c .data (Or.inl rfl)
  | dataGet => exact dataGet_safe c
  | dataSet => exact dataSet_safe c
  | dataMemcpy => exact Safe.opt ((dataGet_safe c).seq (dataSet_safe c))
  | dataFree => exact dataDec_safe c
  | allocRemote => exact allocRemote_safe c
  | refOffset => exact (init_safe c true).seq ((Safe.opt (init_safe c true)).seq (Safe.opt (find_safe .data (none_below _))))
  | annotate => exact rename_safe c (none_below _)
  | sizeInc k => exact inc_safe k (none_below _)
  | sizeDec k => exact dec_safe c k
  | allocate i => exact mmalloc_safe c i (none_below _)
  | free i => exact mfree_safe c i (none_below _)
  | stats i => exact (ensure_safe c (none_below _)).seq (Safe.crit0 (none_below _))
  | inspect i => exact Safe.crit (none_below _) (Safe.rep (Safe.skip _))
  | subAlloc => exact Safe.any fun i => (mmalloc_safe c i (none_below _)).seq (mcreate_safe c (none_below _))
  | allocExit => exact mdestroy_safe (none_below _)
  | metric => exact (init_safe c true).seq (((init_safe c true).alt (mmalloc_safe c 0 (none_below _))).seq ((mmalloc_safe c 0 (none_below _)).seq (Safe.crit0 (none_below _))))
  | kv k => exact Safe.crit0 (none_below _)
  | workerStart => exact workerStart_safe c
  | workerRound a => exact workerRound_safe c a
  | workerEnd a => exact workerEnd_safe a
  | balancerRound => exact balancerRound_safe

theorem calls_good {c : Cfg} {l : List Api} {p : List Op} (h : Calls c l p) : Good c.enf [] p := by
  induction h with
  | nil => rfl
  | cons h1 _ ih => exact api_safe c _ _ h1 _ ih

end Arax.Locks
