import Verif.Dl.LSys
import Verif.Dl.SimMalloc2
import Verif.Dl.SimFree
/-!
# The segment with real bins behaves as the segment with lists of free chunks
-/
namespace Arax.Dl
open Arax.Bitmap (bit Bmp)

/-- The segment without the lists of free chunks. -/
def bareSys (σ : Sys) : Sys := { σ with heap := fun i => bare (σ.heap i) }

/-- The same segment; and the bins hold the listed chunks. -/
def RelS (σ : Sys) (κ : LSys) : Prop := κ.sys = bareSys σ ∧ ∀ i, σ.up i = true → Linked (σ.heap i) (κ.links i)

/-- The event, when the chunk of a request is given by `pick`. -/
def LAct.as : LAct → Nat → List SAct
  | .create i, _ => [.create i]
  | .alloc i bytes, pick => [.alloc i bytes pick]
  | .free i a, _ => [.free i a]
  | .write i x v, _ => [.write i x v]
  | .junk _ _ _, _ => []
  | .destroy i, _ => [.destroy i]

/-- The history, when the chunks of the requests are given by `picks`. -/
def plan : List LAct → List Nat → List SAct
  | [], _ => []
  | a :: t, ps => a.as (ps.headD 0) ++ plan t ps.tail

theorem after_bare (σ : Sys) (i : Nat) (s : Heap) (live : List (Nat × Nat)) (env env' : Nat → Bool) : (bareSys σ).after i ⟨bare s, live, env⟩ = bareSys (σ.after i ⟨s, live, env'⟩) := by
  unfold Sys.after bareSys
  simp only
  congr 1
  funext j
  split <;> rfl

theorem rel_after {σ : Sys} {κ : LSys} (h : RelS σ κ) (i : Nat) {s : Heap} {b : LHeap} (hr : Rel s b) (live : List (Nat × Nat)) (env : Nat → Bool) : RelS (σ.after i ⟨s, live, env⟩) (κ.after i b live) := by
  obtain ⟨h1, h2⟩ := hr
  refine ⟨?_, fun j hj => ?_⟩
  · unfold LSys.after
    simp only
    rw [h.1, h1]
    exact after_bare σ i s live _ _
  · simp only [Sys.after, LSys.after] at hj ⊢
    by_cases e : j = i
    · simp only [if_pos e]; exact h2
    · simp only [if_neg e] at hj ⊢; exact h.2 j hj

theorem lheap_bare {σ : Sys} {κ : LSys} (h : RelS σ κ) (i : Nat) (env : Nat → Bool) : κ.lheap i = ⟨bare (σ.view i env).heap, κ.links i⟩ := by
  unfold LSys.lheap; rw [h.1]; rfl

/-- New bins are empty. -/
theorem init_ok {least ms : Nat} (l : Links) (h : 0 < least) (sz : Nat → Nat) : BinsOK ⟨sz, least, ms⟩ (l.init ⟨sz, least, ms⟩) [] := by
  refine ⟨h, by simp, by simp, fun i hi => ⟨?_, ?_⟩, fun i hi => ⟨.leaf, rfl, trivial, by simp [Trie.all, trees], ?_, by simp [Trie.all]⟩⟩
  · simp [Links.init, smalls]
  · simp [smalls]
  · simp [Links.init]

theorem create_bins {cf : Conf} {mem0 : Nat → Nat} {b : Bmp} {s : Heap} (h : create cf mem0 b = .ok s) : s.bins = [] := by
  unfold create at h
  cases hm : mmap cf { mem := mem0, bmp := b, segs := [], bins := [], dv := 0, dvsize := 0, top := 0, topsize := 0, least := 0, trim := 0, checks := 0, foot := 0, maxFoot := 0, mst := 0 } 65536 with
  | corrupt => rw [hm] at h; cases h
  | noMem => rw [hm] at h; cases h
  | ok r =>
    obtain ⟨t, a⟩ := r
    have hk := (mmap_keeps hm).1
    rw [hm] at h
    simp only [Out.bind_ok, Out.ok.injEq] at h
    subst h
    exact hk

theorem create_sim {cf : Conf} {mem0 : Nat → Nat} {b : Bmp} (l0 : Links) (hbok : BOK b) (hst : cf.start % 4096 = 0 ∧ 0 < cf.start) (hroom : cf.start + 4096 * (64 * b.endc) < W ∧ b.endc = cf.groups) :
    Sim Rel (create cf mem0 b) (LHeap.create cf mem0 b l0) := by
  unfold LHeap.create
  rcases create_core mem0 hbok hst hroom with ⟨h, -⟩ | ⟨s, L, h, hi, -⟩
  · rw [h]; exact rfl
  · have hb := create_bins h
    rw [h]
    refine ⟨_, rfl, ?_, ?_⟩
    · cases s; simp only at hb; subst hb; rfl
    · unfold Linked
      rw [hb]
      exact ⟨_, init_ok l0 hi.lpos _⟩

/-- Writing where no binned chunk is. -/
theorem scribble_ok {c : Ctx} {l : Links} {bins : List (Nat × Nat)} (h : BinsOK c l bins) {p : Nat} (hp : p ∉ bins.map Prod.fst) (hh : ∀ i < 32, p ≠ c.sbin i) (f : Fields) : BinsOK c (l.scribble p f) bins := by
  have hs : SameL l (l.scribble p f) (· ≠ p) := by
    refine ⟨fun x hx => put_ne _ _ hx, fun x hx => put_ne _ _ hx, fun x hx => ?_, fun x hx => put_ne _ _ hx⟩
    funext y
    simp [Links.scribble, putC, hx]
  refine ⟨h.least0, h.nd, h.ok, fun i hi => ⟨(h.small i hi).1, fun hne => ?_⟩, fun i hi => ?_⟩
  · have hx : ∀ y ∈ c.sbin i :: smalls bins i, y ≠ p := by
      intro y hy e
      subst e
      rcases List.mem_cons.mp hy with e | hy
      · exact hh i hi e
      · exact hp (smalls_mem hy)
    exact ring_congr ((h.small i hi).2 hne) (fun y hy => hs.fd y (hx y hy)) (fun y hy => hs.bk y (hx y hy))
  · obtain ⟨T, h1, h2, h3, h4, h5⟩ := h.tree i hi
    have hx : ∀ q ∈ T.all, q ≠ p := fun q hq e => hp (trees_mem (e ▸ h3.mem_iff.mp hq))
    refine ⟨T, at_congr h1 (hs.mono hx), h2, h3, h4, fun q hq => ?_⟩
    rw [← h5 q hq]
    exact put_ne _ _ (hx q hq)

/-- Binned chunks are found by walking. -/
theorem linked_bins {cf : Conf} {σ : Sys} {L : Nat → Lay} {D : Nat → List (Nat × Nat)} (hi : SInv cf σ L D) {κ : LSys} (hr : RelS σ κ) {i p : Nat} (hu : σ.up i = true) (hl : κ.linked cf i p = false) :
    p ∉ ((σ.heap i).bins).map Prod.fst ∧ ∀ k < 32, p ≠ (σ.heap i).mst + 16 + 72 + 16 * k := by
  unfold LSys.linked at hl
  rw [hr.1] at hl
  simp only [Bool.or_eq_false_iff] at hl
  obtain ⟨h1, h2⟩ := hl
  refine ⟨fun hp => ?_, fun k hk e => ?_⟩
  · have hinv := (hi.one i hu).inv
    have hs : (σ.heap i).segs = (L i).map Prod.fst := hinv.segs
    have hc := count_segs (n := 4096 * (64 * cf.groups) + 1) hinv (L i) (fun z hz => ⟨hz, by
      have hin : (z.1.base, z.1.size) ∈ regs (L i) (D i) := List.mem_append_left _ (List.mem_map_of_mem hz)
      have h3 := hinv.low _ hin
      have h4 := hinv.top64.2
      rw [h4] at h3
      have := h3.1
      have := h3.2.2
      simp only at *
      omega⟩)
    have hc : countSegs σ.mem (σ.heap i).top (4096 * (64 * cf.groups) + 1) ((L i).map Prod.fst) = some (((flat (L i)).filter notTop).map (seen σ.mem)) := hc
    have hb : (bareSys σ).heap i = bare (σ.heap i) := rfl
    simp only [hb, bare] at h2
    rw [hs] at h2
    have h2 : (match countSegs σ.mem (σ.heap i).top (4096 * (64 * cf.groups) + 1) ((L i).map Prod.fst) with | some l => l.any fun c => c.1 == p && !isInuse c.2 | none => true) = false := h2
    rw [hc] at h2
    simp only at h2
    obtain ⟨⟨q, n⟩, hq, e⟩ := List.mem_map.mp hp
    simp only at e; subst e
    have hfr := (hinv.bins q n).mp hq
    rw [List.any_eq_false] at h2
    have h3 := h2 (q, σ.mem (q + 8)) (List.mem_map.mpr ⟨(q, ⟨n, .free⟩), List.mem_filter.mpr ⟨hfr.1, rfl⟩, rfl⟩)
    obtain ⟨pr, hck⟩ := flat_ok hinv hfr.1
    have hh : σ.mem (q + 8) = enc ⟨n, .free⟩ pr := hck.head
    have hmul := hck.mul
    simp only at hmul
    rw [hh] at h3
    simp only [BEq.rfl, Bool.true_and, Bool.not_eq_true', Bool.not_eq_false] at h3
    have : isInuse (enc ⟨n, .free⟩ pr) = false := by
      simp only [isInuse, enc, Kind.live]
      cases pr with
      | false => have := hck.adj rfl; cases this
      | true => simp; omega
    rw [this] at h3; cases h3
  · rw [List.any_eq_false] at h1
    have := h1 k (List.mem_range.mpr hk)
    rw [e] at this
    simp [bareSys, bare] at this

theorem lstep_sim {cf : Conf} (hc : Small cf) {σ : Sys} {L : Nat → Lay} {D : Nat → List (Nat × Nat)} (hi : SInv cf σ L D) {κ : LSys} (hr : RelS σ κ) (a : LAct) :
    ∃ pick, Sim RelS (srun cf (a.as pick) σ) (lstep cf κ a) := by
  have hs1 : ∀ e : SAct, srun cf [e] σ = sstep cf σ e := by intro e; simp only [srun]; cases sstep cf σ e <;> rfl
  have hup : κ.sys.up = σ.up := by rw [hr.1]; rfl
  have hlive : κ.sys.live = σ.live := by rw [hr.1]; rfl
  have hmem : κ.sys.mem = σ.mem := by rw [hr.1]; rfl
  have hbmp : κ.sys.bmp = σ.bmp := by rw [hr.1]; rfl
  cases a with
  | create i =>
    refine ⟨0, ?_⟩
    simp only [LAct.as, hs1, sstep, lstep]
    rw [hup]
    split
    · exact Sim.ok hr
    · rw [hmem, hbmp]
      refine Sim.bind (create_sim (κ.links i) hi.bok hi.start hi.room) fun s b _ hb => Sim.ok (rel_after hr i hb [] _)
  | alloc i bytes =>
    by_cases hu : σ.up i = true
    · have hw := hi.one i hu
      obtain ⟨pick, hm⟩ := malloc_sim hc (s := (σ.view i (fun _ => false)).heap) hw.inv (l := κ.links i) (hr.2 i hu) bytes
      refine ⟨pick, ?_⟩
      simp only [LAct.as, hs1, sstep, lstep, Sys.at]
      rw [hup, if_pos hu, if_pos hu, lheap_bare hr i (fun _ => false)]
      simp only [step]
      revert hm
      cases malloc cf (σ.view i (fun _ => false)).heap bytes pick with
      | corrupt => intro _; exact trivial
      | noMem => intro hm; have hm : LHeap.malloc cf _ bytes = .noMem := hm; rw [hm]; rfl
      | ok r =>
        rintro ⟨⟨b, m⟩, e, hrel, em⟩
        rw [e]
        simp only at em
        simp only [Out.bind_ok]
        rw [em, hlive]
        exact Sim.ok (rel_after hr i hrel _ _)
    · refine ⟨0, ?_⟩
      simp only [LAct.as, hs1, sstep, lstep, Sys.at]
      rw [hup, if_neg hu, if_neg hu]
      exact Sim.ok hr
  | free i m =>
    refine ⟨0, ?_⟩
    simp only [LAct.as, hs1, sstep, lstep, Sys.at, step]
    rw [hup, hlive]
    by_cases hu : σ.up i = true
    · have hw := hi.one i hu
      simp only [hu, if_true]
      by_cases hm : m = 0 ∨ ((σ.live i).any (·.1 == m)) = true
      · have hm' : m = 0 ∨ (((σ.view i (fun _ => false)).live).any (·.1 == m)) = true := hm
        rw [if_pos hm, if_pos hm', lheap_bare hr i (fun _ => false)]
        have hf : Sim Rel (free cf (σ.view i (fun _ => false)).heap m) (LHeap.free cf ⟨bare (σ.view i (fun _ => false)).heap, κ.links i⟩ m) := by
          refine free_sim (s := (σ.view i (fun _ => false)).heap) (env := others cf σ.bmp (regs (L i) (D i))) hc (hr.2 i hu) hw.inv.trim ?_
          intro c T t hT ht
          have hinv := hw.inv.misc T c (σ.heap i).maxFoot hT
          rcases hm with hm | hm
          · subst hm
            simp only [free, if_true, Out.ok.injEq] at ht
            subst ht
            exact ⟨L i, D i, hinv⟩
          · rw [List.any_eq_true] at hm
            obtain ⟨c0, hc0, e⟩ := hm
            simp only [beq_iff_eq] at e
            obtain ⟨p, n, hp, hbk, -, hne⟩ := hw.fwd c0 hc0
            obtain ⟨s', h1, h2⟩ := free_ok hinv hbk hne
            have e2 : m = p + 16 := by omega
            rw [e2] at ht
            have ht' : free cf { (σ.view i (fun _ => false)).heap with trim := T, checks := c, maxFoot := (σ.heap i).maxFoot } (p + 16) = .ok t := ht
            have h1' : free cf { (σ.view i (fun _ => false)).heap with trim := T, checks := c, maxFoot := (σ.heap i).maxFoot } (p + 16) = .ok s' := h1
            rw [h1'] at ht'
            simp only [Out.ok.injEq] at ht'
            subst ht'
            obtain ⟨⟨L', D', hi', -⟩, -⟩ := h2
            exact ⟨L', D', hi'⟩
        revert hf
        cases free cf (σ.view i (fun _ => false)).heap m with
        | corrupt => intro _; exact trivial
        | noMem => intro hf; have hf : LHeap.free cf _ m = .noMem := hf; rw [hf]; rfl
        | ok s =>
          rintro ⟨b, e, hrel⟩
          rw [e]
          exact Sim.ok (rel_after hr i hrel _ _)
      · have hm' : ¬ (m = 0 ∨ (((σ.view i (fun _ => false)).live).any (·.1 == m)) = true) := hm
        rw [if_neg hm, if_neg hm']
        rw [lheap_bare hr i (fun _ => false)]
        exact Sim.ok (rel_after hr i ⟨rfl, hr.2 i hu⟩ _ _)
    · rw [if_neg hu, if_neg hu]
      exact Sim.ok hr
  | write i x v =>
    refine ⟨0, ?_⟩
    simp only [LAct.as, hs1, sstep, lstep, Sys.at, step]
    rw [hup, hlive]
    by_cases hu : σ.up i = true
    · rw [if_pos hu, if_pos hu, lheap_bare hr i (fun _ => false)]
      simp only [Out.bind_ok]
      have e : (σ.view i (fun _ => false)).live = σ.live i := rfl
      rw [e]
      split
      · exact Sim.ok (rel_after hr i ⟨rfl, hr.2 i hu⟩ _ _)
      · exact Sim.ok (rel_after hr i ⟨rfl, hr.2 i hu⟩ _ _)
    · rw [if_neg hu, if_neg hu]
      exact Sim.ok hr
  | junk i p f =>
    refine ⟨0, ?_⟩
    simp only [LAct.as, srun, lstep]
    refine Sim.ok ?_
    rw [hup]
    split
    · exact hr
    · rename_i hn
      refine ⟨hr.1, fun j hj => ?_⟩
      by_cases e : j = i
      · subst e
        simp only [if_true]
        have hl : κ.linked cf j p = false := by
          cases hl : κ.linked cf j p with
          | false => rfl
          | true => exact absurd ⟨hj, hl⟩ hn
        obtain ⟨h1, h2⟩ := linked_bins hi hr hj hl
        obtain ⟨sz, hb⟩ := hr.2 j hj
        exact ⟨sz, scribble_ok hb h1 h2 f⟩
      · simp only [if_neg e]; exact hr.2 j hj
  | destroy i =>
    refine ⟨0, ?_⟩
    simp only [LAct.as, hs1, lstep]
    rw [hr.1]
    simp only [sstep]
    have hu' : (bareSys σ).up = σ.up := rfl
    rw [hu']
    split
    · have hd : ∀ (gs : List Seg) (s : Heap), destroyLoop cf gs (bare s) = (destroyLoop cf gs s).bind fun t => .ok (bare t) := by
        intro gs
        induction gs with
        | nil => intro s; rfl
        | cons g t ih =>
          intro s
          simp only [destroyLoop]
          rw [munmap_bare]
          cases munmap cf s g.base g.size with
          | ok s' => simp only [Out.bind_ok]; exact ih s'
          | corrupt => rfl
          | noMem => rfl
      have e := hd (σ.heap i).segs { σ.heap i with mem := σ.mem, bmp := σ.bmp }
      have e : destroyLoop cf ((bareSys σ).heap i).segs { (bareSys σ).heap i with mem := (bareSys σ).mem, bmp := (bareSys σ).bmp } = (destroyLoop cf (σ.heap i).segs { σ.heap i with mem := σ.mem, bmp := σ.bmp }).bind fun t => .ok (bare t) := e
      rw [e]
      cases destroyLoop cf (σ.heap i).segs { σ.heap i with mem := σ.mem, bmp := σ.bmp } with
      | corrupt => exact trivial
      | noMem => rfl
      | ok t =>
        simp only [Out.bind_ok]
        refine Sim.ok ⟨rfl, fun j hj => ?_⟩
        simp only at hj ⊢
        by_cases e : j = i
        · simp [e] at hj
        · simp only [if_neg e] at hj; exact hr.2 j hj
    · simp only [Out.bind_ok]
      exact Sim.ok ⟨rfl, hr.2⟩

end Arax.Dl
