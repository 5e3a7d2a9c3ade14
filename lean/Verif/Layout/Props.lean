import Verif.Layout.Spec
import Verif.Bitmap.Props
/-!
# Properties C38 (buffer placement), C39 (buffer ↔ object), C40 (host data), C41 (segment layout)
-/
namespace Arax.Layout

/-! ## Byte memory lemmas -/

theorem readLE_congr (m m' : Mem) (n : Nat) : ∀ a, (∀ x, a ≤ x → x < a + n → m x = m' x) →
    readLE m a n = readLE m' a n := by
  induction n with
  | zero => intro a _; rfl
  | succ n ih =>
    intro a h
    simp only [readLE]
    rw [h a (by omega) (by omega), ih (a + 1) (fun x h1 h2 => h x (by omega) (by omega))]

theorem readLE_bytes (m : Mem) (n : Nat) : ∀ a v, (∀ i, i < n → m (a + i) = BitVec.ofNat 8 (v / 256 ^ i)) →
    readLE m a n = v % 256 ^ n := by
  induction n with
  | zero => intro a v _; simp [readLE]; omega
  | succ n ih =>
    intro a v h
    simp only [readLE]
    rw [ih (a + 1) (v / 256)]
    · have := h 0 (by omega)
      simp only [Nat.add_zero, Nat.pow_zero, Nat.div_one] at this
      rw [this, BitVec.toNat_ofNat, show (256:Nat) ^ (n+1) = 256 * 256 ^ n by rw [Nat.pow_succ, Nat.mul_comm], Nat.mod_mul]
    · intro i hi
      rw [show a + 1 + i = a + (i + 1) by omega, h (i + 1) (by omega), Nat.pow_succ, Nat.div_div_eq_div_mul, Nat.mul_comm]

theorem read_write (m : Mem) (a n v : Nat) : readLE (writeLE m a n v) a n = v % 256 ^ n := by
  apply readLE_bytes
  intro i hi
  simp only [writeLE]
  rw [if_pos ⟨by omega, by omega⟩, show a + i - a = i by omega]

theorem read_write_ne (m : Mem) (a n v b k : Nat) (h : b + k ≤ a ∨ a + n ≤ b) :
    readLE (writeLE m a n v) b k = readLE m b k := by
  apply readLE_congr
  intro x h1 h2
  simp only [writeLE]
  rw [if_neg (by omega)]

theorem read_writeByte_ne (m : Mem) (x : Nat) (v : BitVec 8) (b k : Nat) (h : x < b ∨ b + k ≤ x) :
    readLE (writeByte m x v) b k = readLE m b k := by
  apply readLE_congr
  intro y h1 h2
  simp only [writeByte]
  rw [if_neg (by omega)]

/-! ## C38 -/

/-- **C38** (address arithmetic) For every block address, size and non-zero alignment for which the
block does not exceed the address space: the buffer is a multiple of the alignment, starts after the header
and the 8-byte back pointer, and ends inside the block. -/
theorem C38_placement (L : Lay) (a size align : Nat) (hal : 0 < align)
    (hfit : a + (L.hdr + (size + align + 8)) < 2 ^ 64) :
    bufAddr L a align % align = 0 ∧ a + L.hdr + 8 ≤ bufAddr L a align ∧
    bufAddr L a align + size ≤ a + allocSize L size align := by
  have hlt := Nat.mod_lt (a + L.hdr + 8) hal
  have hb : bufAddr L a align = a + L.hdr + 8 + align - (a + L.hdr + 8) % align := by
    simp only [bufAddr]; rw [Nat.mod_eq_of_lt (by omega)]
  have hs : allocSize L size align = L.hdr + (size + align + 8) := by
    simp only [allocSize]; rw [Nat.mod_eq_of_lt (by omega)]
  rw [hb, hs]
  refine ⟨?_, by omega, by omega⟩
  rw [show a + L.hdr + 8 + align - (a + L.hdr + 8) % align
      = (a + L.hdr + 8) - (a + L.hdr + 8) % align + align by
    have := Nat.mod_le (a + L.hdr + 8) align; omega, Nat.add_mod_right]
  exact Nat.mod_eq_zero_of_dvd (Nat.dvd_sub_mod _)

/-- Alignment 0 aborts (arax_data.c:26). -/
theorem C38_align_zero (L : Lay) (m : Mem) (a size : Nat) : initAligned L m a size 0 = .abort := by
  simp [initAligned]

/-- Outside the quantifier of C38: when the requested total wraps around 2^64 the block that is requested is
smaller than the buffer that is promised; nothing in `arax_data_init_aligned` checks this. -/
theorem C38_wraps (L : Lay) (size align : Nat) (h1 : 2 ^ 64 ≤ L.hdr + (size + align + 8))
    (h2 : L.hdr + align + 8 < 2 ^ 64) (hs : size < 2 ^ 64) : allocSize L size align < size := by
  simp only [allocSize]
  rw [Nat.mod_eq_sub_mod h1, Nat.mod_eq_of_lt (by omega)]
  omega

/-! ## Invariant of reachable memories -/

/-- What every live object's memory looks like. -/
structure ObjOk (L : Lay) (m : Mem) (o : Obj) : Prop where
  al : 0 < o.align
  lo : L.base ≤ o.addr
  hi : o.blockEnd L ≤ L.base + L.len
  ty : typeOf L m o.addr = L.tyData
  sz : readLE m (o.addr + L.offSize) 8 = o.size
  buf : readLE m (o.addr + L.offBuf) 8 = bufAddr L o.addr o.align
  back : readLE m (bufAddr L o.addr o.align - 8) 8 = o.addr

structure Inv (L : Lay) (s : St) : Prop where
  objs : ∀ o ∈ s.live, ObjOk L s.mem o
  disj : s.live.Pairwise (fun o o' => ∀ x, ¬ (o.Has L x ∧ o'.Has L x))

theorem bufAddr_bounds (L : Lay) (hL : L.Valid) {o : Obj} (al : 0 < o.align) (hi : o.blockEnd L ≤ L.base + L.len) :
    o.addr + L.hdr + 8 ≤ bufAddr L o.addr o.align ∧ bufAddr L o.addr o.align + o.size ≤ o.blockEnd L ∧
    bufAddr L o.addr o.align % o.align = 0 := by
  have := hL.seg_end
  have hlt : o.addr + (L.hdr + (o.size + o.align + 8)) < 2 ^ 64 := by unfold Obj.blockEnd at hi; omega
  have h := C38_placement L o.addr o.size o.align al hlt
  have hs : allocSize L o.size o.align = L.hdr + (o.size + o.align + 8) := by
    simp only [allocSize]; rw [Nat.mod_eq_of_lt (by omega)]
  rw [hs] at h
  exact ⟨h.2.1, h.2.2, h.1⟩

/-- An object stays fine when memory changes only at bytes outside its header and back pointer. -/
theorem ObjOk.keep {L : Lay} (hL : L.Valid) {m m' : Mem} {o : Obj} (h : ObjOk L m o)
    (hm : ∀ x, o.Has L x → x < bufAddr L o.addr o.align → m' x = m x) : ObjOk L m' o := by
  have hb := bufAddr_bounds L hL h.al h.hi
  have v1 := hL.type_size
  have v2 := hL.size_buf
  have v3 := hL.buf_end
  have cong : ∀ a n, o.addr ≤ a → a + n ≤ bufAddr L o.addr o.align → readLE m' a n = readLE m a n := by
    intro a n h1 h2
    apply readLE_congr
    intro x hx1 hx2
    exact hm x ⟨by omega, by have := hb.2.1; omega⟩ (by omega)
  refine ⟨h.al, h.lo, h.hi, ?_, ?_, ?_, ?_⟩
  · unfold typeOf; rw [cong _ _ (by omega) (by omega)]; exact h.ty
  · rw [cong _ _ (by omega) (by omega)]; exact h.sz
  · rw [cong _ _ (by omega) (by omega)]; exact h.buf
  · rw [cong _ _ (by omega) (by omega)]; exact h.back

theorem deref_ok {L : Lay} {m : Mem} {o : Obj} (h : ObjOk L m o) :
    deref L m o.addr = .ok (bufAddr L o.addr o.align) := by
  simp [deref, h.ty, h.buf]

theorem size_ok {L : Lay} {m : Mem} {o : Obj} (h : ObjOk L m o) : dataSize L m o.addr = .ok o.size := by
  simp [dataSize, h.ty, h.sz]

theorem init_ok {L : Lay} (hL : L.Valid) {m1 m2 : Mem} {a size align : Nat}
    (hb : L.hdr + (size + align + 8) < 2 ^ 64) (hlo : L.base ≤ a)
    (hhi : a + allocSize L size align ≤ L.base + L.len)
    (he : initAligned L m1 a size align = .ok m2) :
    ObjOk L m2 ⟨a, size, align⟩ ∧ ∀ x, ¬ (⟨a, size, align⟩ : Obj).Has L x → m2 x = m1 x := by
  have hs : allocSize L size align = L.hdr + (size + align + 8) := by
    simp only [allocSize]; rw [Nat.mod_eq_of_lt hb]
  rw [hs] at hhi
  have hal : 0 < align := by
    rcases Nat.eq_zero_or_pos align with h0 | h0
    · subst h0; simp [initAligned] at he
    · exact h0
  have hbd := bufAddr_bounds L hL (o := ⟨a, size, align⟩) hal hhi
  simp only [Obj.blockEnd] at hbd
  have v1 := hL.type_size
  have v2 := hL.size_buf
  have v3 := hL.buf_end
  have v4 := hL.ty
  have v5 := hL.seg_end
  simp only [initAligned] at he
  rw [if_neg (by omega)] at he
  have he := Res.ok.inj he
  subst he
  refine ⟨⟨hal, hlo, hhi, ?_, ?_, ?_, ?_⟩, ?_⟩
  · show typeOf L _ a = _
    unfold typeOf
    rw [read_write_ne _ _ _ _ _ _ (by omega), read_write_ne _ _ _ _ _ _ (by omega),
      read_write_ne _ _ _ _ _ _ (by omega), read_write]
    exact Nat.mod_eq_of_lt (by omega)
  · show readLE _ (a + L.offSize) 8 = size
    rw [read_write_ne _ _ _ _ _ _ (by omega), read_write]
    exact Nat.mod_eq_of_lt (by omega)
  · show readLE _ (a + L.offBuf) 8 = bufAddr L a align
    rw [read_write]
    exact Nat.mod_eq_of_lt (by omega)
  · show readLE _ (bufAddr L a align - 8) 8 = a
    rw [read_write_ne _ _ _ _ _ _ (by omega), read_write_ne _ _ _ _ _ _ (by omega), read_write]
    exact Nat.mod_eq_of_lt (by omega)
  · intro x hx
    simp only [Obj.Has, Obj.blockEnd] at hx
    simp only [writeLE]
    rw [if_neg (by omega), if_neg (by omega), if_neg (by omega), if_neg (by omega)]

theorem pairwise_ne {L : Lay} {l : List Obj} (h : l.Pairwise (fun o o' => ∀ x, ¬ (o.Has L x ∧ o'.Has L x)))
    {o o' : Obj} (ho : o ∈ l) (ho' : o' ∈ l) (hne : o ≠ o') : ∀ x, ¬ (o.Has L x ∧ o'.Has L x) := by
  induction l with
  | nil => simp at ho
  | cons a l ih =>
    rw [List.pairwise_cons] at h
    intro x hx
    rcases List.mem_cons.mp ho with e1 | h1
    · rcases List.mem_cons.mp ho' with e2 | h2
      · exact hne (e1.trans e2.symm)
      · subst e1; exact h.1 _ h2 x hx
    · rcases List.mem_cons.mp ho' with e2 | h2
      · subst e2; exact h.1 _ h1 x ⟨hx.2, hx.1⟩
      · exact ih h.2 h1 h2 x hx

theorem inv_of_reach {L : Lay} (hL : L.Valid) {s : St} (h : Reach L s) : Inv L s := by
  induction h with
  | init m => exact ⟨by intro o ho; simp at ho, List.Pairwise.nil⟩
  | @create s m1 m2 a size align _ hb hlo hhi hd hm he ih =>
    obtain ⟨hnew, hframe⟩ := init_ok hL hb hlo hhi he
    constructor
    · intro o ho
      rcases List.mem_append.mp ho with ho | ho
      · apply (ih.objs o ho).keep hL
        intro x hx _
        have hnx : ¬ (⟨a, size, align⟩ : Obj).Has L x := fun hx' => hd o ho x ⟨hx, hx'⟩
        show m2 x = s.mem x
        rw [hframe x hnx, hm x hnx]
      · rw [List.mem_singleton] at ho; subst ho; exact hnew
    · rw [List.pairwise_append]
      refine ⟨ih.disj, List.pairwise_singleton _ _, ?_⟩
      intro o ho o' ho' x
      rw [List.mem_singleton] at ho'; subst ho'
      exact hd o ho x
  | @userWrite s o p x v _ ho hp hx1 hx2 ih =>
    constructor
    · intro o' ho'
      apply (ih.objs o' ho').keep hL
      intro y hy1 hy2
      rw [deref_ok (ih.objs o ho)] at hp
      have hp := Res.ok.inj hp
      subst hp
      show (if y = x then v else s.mem y) = s.mem y
      by_cases hyx : y = x
      · exfalso
        subst hyx
        have hb := bufAddr_bounds L hL (ih.objs o ho).al (ih.objs o ho).hi
        by_cases heq : o = o'
        · subst heq; omega
        · have hxo : o.Has L y := ⟨by omega, by omega⟩
          have hpw := ih.disj
          exact pairwise_ne hpw ho ho' heq y ⟨hxo, hy1⟩
      · rw [if_neg hyx]
    · exact ih.disj
  | @otherWrite s x v _ hx ih =>
    constructor
    · intro o ho
      apply (ih.objs o ho).keep hL
      intro y hy _
      show (if y = x then v else s.mem y) = s.mem y
      rw [if_neg]
      rintro rfl
      exact hx o ho hy
    · exact ih.disj
  | @free s o _ ho ih =>
    exact ⟨fun o' ho' => ih.objs o' (List.mem_of_mem_erase ho'), ih.disj.sublist List.erase_sublist⟩

/-- **C38** (observable form) In every reachable state the buffer of every live data object, as returned by
`arax_data_deref`, is aligned as requested, lies in the object's block behind header and back pointer,
and `arax_data_size` is the requested size. -/
theorem C38_live_buffers {L : Lay} (hL : L.Valid) {s : St} (h : Reach L s) {o : Obj} (ho : o ∈ s.live) :
    ∃ p, deref L s.mem o.addr = .ok p ∧ dataSize L s.mem o.addr = .ok o.size ∧ p % o.align = 0 ∧
      o.addr + L.hdr + 8 ≤ p ∧ p + o.size ≤ o.blockEnd L ∧ o.blockEnd L ≤ L.base + L.len := by
  have ok := (inv_of_reach hL h).objs o ho
  have hb := bufAddr_bounds L hL ok.al ok.hi
  exact ⟨_, deref_ok ok, size_ok ok, hb.2.2, hb.1, hb.2.1, ok.hi⟩

/-- C38, second part: the buffers of different live data never overlap. -/
theorem C38_buffers_disjoint {L : Lay} (hL : L.Valid) {s : St} (h : Reach L s) {o o' : Obj} (ho : o ∈ s.live)
    (ho' : o' ∈ s.live) (hne : o ≠ o') {p p' : Nat} (hp : deref L s.mem o.addr = .ok p)
    (hp' : deref L s.mem o'.addr = .ok p') : ∀ x, ¬ ((p ≤ x ∧ x < p + o.size) ∧ (p' ≤ x ∧ x < p' + o'.size)) := by
  intro x hx
  obtain ⟨q, hq, -, -, h1, h2, -⟩ := C38_live_buffers hL h ho
  obtain ⟨q', hq', -, -, h1', h2', -⟩ := C38_live_buffers hL h ho'
  rw [hp] at hq; rw [hp'] at hq'
  have e := Res.ok.inj hq
  have e' := Res.ok.inj hq'
  subst e; subst e'
  exact pairwise_ne (inv_of_reach hL h).disj ho ho' hne x ⟨⟨by omega, by omega⟩, ⟨by omega, by omega⟩⟩

/-! ## C39 -/

/-- **C39** (first half, as stated) Whatever was stored through any buffer, `arax_data_ref` of the buffer
pointer of a live data object is that object. -/
theorem C39_round_trip {L : Lay} (hL : L.Valid) {s : St} (h : Reach L s) {o : Obj} (ho : o ∈ s.live) :
    ∃ p, deref L s.mem o.addr = .ok p ∧ dataRef L s.mem p = .ok (some o.addr) := by
  have ok := (inv_of_reach hL h).objs o ho
  have hb := bufAddr_bounds L hL ok.al ok.hi
  refine ⟨_, deref_ok ok, ?_⟩
  have hpos := hL.base_pos
  have hlo := ok.lo
  have hend : o.addr < L.base + L.len := by have := ok.hi; omega
  have hv : ptrValid L o.addr = true := by simp [ptrValid]; omega
  simp only [dataRef, ok.back]
  rw [if_neg (by omega), if_neg (by omega), hv, ok.ty]
  simp

/-- The eight bytes in front of `p` do not spell the address of a data object. -/
def NoFakeOwner (L : Lay) (m : Mem) (p : Nat) : Prop :=
  ∀ v, readLE m (p - 8) 8 = v → ¬ (L.base ≤ v ∧ v < L.base + L.len ∧ typeOf L m v = L.tyData)

theorem dataRef_none {L : Lay} {m : Mem} {p : Nat} (hp : 0 < p) (h : NoFakeOwner L m p) :
    dataRef L m p = .ok none := by
  have h := h _ rfl
  simp only [dataRef]
  rw [if_neg (by omega)]
  split
  · rfl
  · split
    · rfl
    · split
      · rfl
      · rename_i h1 h2 h3
        exfalso
        have h3 := Classical.not_not.mp h3
        have h2 := Bool.not_eq_false _ |>.mp h2
        simp [ptrValid] at h2
        exact h ⟨h2.1, h2.2, h3⟩

theorem scan_found {L : Lay} (hL : L.Valid) {m : Mem} {p : Nat} : ∀ {l : List Obj} (_ : ∀ o ∈ l, ObjOk L m o)
    (_ : l.Pairwise (fun o o' => ∀ x, ¬ (o.Has L x ∧ o'.Has L x))) {o : Obj} (_ : o ∈ l)
    (_ : bufAddr L o.addr o.align < p) (_ : p < bufAddr L o.addr o.align + o.size),
    scan L m p (l.map Obj.addr) = .ok (some o.addr) := by
  intro l
  induction l with
  | nil => intro _ _ o ho; simp at ho
  | cons a l ih =>
    intro hok hpw o ho h1 h2
    have ha := hok a (List.mem_cons_self)
    simp only [List.map_cons, scan, deref_ok ha, size_ok ha, Res.bind_ok]
    by_cases hao : a = o
    · subst hao; rw [if_pos ⟨h1, h2⟩]
    · rw [if_neg]
      · rcases List.mem_cons.mp ho with e | ho
        · exact absurd e.symm hao
        · exact ih (fun o ho => hok o (List.mem_cons_of_mem _ ho)) (List.pairwise_cons.mp hpw).2 ho h1 h2
      · intro hx
        have b1 := bufAddr_bounds L hL ha.al ha.hi
        have b2 := bufAddr_bounds L hL (hok o ho).al (hok o ho).hi
        exact pairwise_ne hpw List.mem_cons_self ho hao p ⟨⟨by omega, by omega⟩, ⟨by omega, by omega⟩⟩

theorem scan_not_found {L : Lay} {m : Mem} {p : Nat} : ∀ {l : List Obj} (_ : ∀ o ∈ l, ObjOk L m o)
    (_ : ∀ o ∈ l, ¬ (bufAddr L o.addr o.align < p ∧ p < bufAddr L o.addr o.align + o.size)),
    scan L m p (l.map Obj.addr) = .ok none := by
  intro l
  induction l with
  | nil => intro _ _; rfl
  | cons a l ih =>
    intro hok hno
    have ha := hok a (List.mem_cons_self)
    simp only [List.map_cons, scan, deref_ok ha, size_ok ha, Res.bind_ok]
    rw [if_neg (hno a List.mem_cons_self)]
    exact ih (fun o ho => hok o (List.mem_cons_of_mem _ ho)) (fun o ho => hno o (List.mem_cons_of_mem _ ho))

/-- **C39** (second half, partial) `arax_data_ref_offset` maps the start of the buffer of a live data object, and
every address inside it, to that object - for inner addresses provided the eight user bytes in front of
the address do not happen to spell the address of a data object.  Missing: that proviso
(`C39_violated`). -/
theorem C39_offset_partial {L : Lay} (hL : L.Valid) {s : St} (h : Reach L s) {o : Obj} (ho : o ∈ s.live)
    {p q : Nat} (hp : deref L s.mem o.addr = .ok p) (hq1 : p ≤ q) (hq2 : q < p + o.size)
    (hfake : q ≠ p → NoFakeOwner L s.mem q) :
    refOffset L s.mem (s.live.map Obj.addr) q = .ok (some o.addr) := by
  have inv := inv_of_reach hL h
  have ok := inv.objs o ho
  have hb := bufAddr_bounds L hL ok.al ok.hi
  have hpos := hL.base_pos
  have hlo := ok.lo
  have hhi := ok.hi
  rw [deref_ok ok] at hp
  have e := Res.ok.inj hp
  subst e
  have hv : ptrValid L q = true := by simp [ptrValid]; omega
  simp only [refOffset]
  rw [if_neg (by omega), hv, if_neg (by simp)]
  by_cases hqp : q = bufAddr L o.addr o.align
  · obtain ⟨p', hp', hr⟩ := C39_round_trip hL h ho
    rw [deref_ok ok] at hp'
    have e := Res.ok.inj hp'
    subst e
    rw [hqp, hr]; rfl
  · rw [dataRef_none (by omega) (hfake hqp)]
    exact scan_found hL inv.objs inv.disj ho (by omega) hq2

/-- C39: an address of the segment that lies in no live buffer gives NULL (same proviso). -/
theorem C39_outside_partial {L : Lay} (hL : L.Valid) {s : St} (h : Reach L s) {q : Nat} (hq0 : L.base ≤ q)
    (hq1 : q < L.base + L.len)
    (hno : ∀ o ∈ s.live, ∀ p, deref L s.mem o.addr = .ok p → ¬ (p ≤ q ∧ q < p + o.size))
    (hfake : NoFakeOwner L s.mem q) :
    refOffset L s.mem (s.live.map Obj.addr) q = .ok none := by
  have inv := inv_of_reach hL h
  have hpos := hL.base_pos
  have hv : ptrValid L q = true := by simp [ptrValid]; omega
  simp only [refOffset]
  rw [if_neg (by omega), hv, if_neg (by simp), dataRef_none (by omega) hfake]
  apply scan_not_found inv.objs
  intro o ho hx
  exact hno o ho _ (deref_ok (inv.objs o ho)) ⟨by omega, by omega⟩

theorem Reach.create' {L : Lay} {s : St} {a size align : Nat} (h : Reach L s)
    (hb : L.hdr + (size + align + 8) < 2 ^ 64) (hlo : L.base ≤ a) (hhi : a + allocSize L size align ≤ L.base + L.len)
    (hd : ∀ o ∈ s.live, o.blockEnd L ≤ a ∨ (⟨a, size, align⟩ : Obj).blockEnd L ≤ o.addr) (hal : 0 < align) :
    Reach L ⟨writeLE (writeLE (writeLE (writeLE s.mem (a + L.offType) 4 L.tyData)
      (bufAddr L a align - 8) 8 a) (a + L.offSize) 8 size) (a + L.offBuf) 8 (bufAddr L a align),
      s.live ++ [⟨a, size, align⟩]⟩ := by
  refine Reach.create (m1 := s.mem) h hb hlo hhi ?_ (fun _ _ => rfl) ?_
  · intro o ho x hx
    have h1 : o.addr ≤ x ∧ x < o.blockEnd L := hx.1
    have h2 : a ≤ x ∧ x < (⟨a, size, align⟩ : Obj).blockEnd L := hx.2
    rcases hd o ho with h | h <;> omega
  · simp only [initAligned]; rw [if_neg (by omega)]

/-- A small concrete segment for the witnesses. -/
def exLay : Lay := { base := 4096, len := 4096, hdr := 64, offType := 8, offSize := 16, offBuf := 24, tyData := 3 }

theorem exLay_valid : exLay.Valid := by constructor <;> decide

def exA : Obj := ⟨4096, 16, 8⟩
def exB : Obj := ⟨4224, 8, 8⟩

/-- Two live data objects, and the user stored the address of the second into the first one's buffer. -/
theorem ex_reach : ∃ m, Reach exLay ⟨m, [exA, exB]⟩ ∧ deref exLay m 4096 = .ok 4176 ∧
    refOffset exLay m [4096, 4224] 4184 = .ok (some 4224) := by
  have h1 := (Reach.init (L := exLay) (fun _ => 0)).create' (a := 4096) (size := 16) (align := 8) (by decide) (by decide)
    (by decide) (by simp) (by decide)
  have h2 := h1.create' (a := 4224) (size := 8) (align := 8) (by decide) (by decide)
    (by decide) (by simp [Obj.blockEnd, exLay]) (by decide)
  have h3 := h2.userWrite (o := exA) (p := 4176) (x := 4176) (v := 0x80) (by simp [exA]) (by decide +kernel)
    (by decide) (by decide)
  have h4 := h3.userWrite (o := exA) (p := 4176) (x := 4177) (v := 0x10) (by simp [exA]) (by decide +kernel)
    (by decide) (by decide)
  exact ⟨_, h4, by decide +kernel, by decide +kernel⟩

/-- **C39 is violated by the code** in its second half: `arax_data_ref_offset` first interprets the eight
bytes in front of the given address as a back pointer (arax_data.c:300).  If the user's own data there is
the address of another data object, it returns that one. -/
theorem C39_violated : ∃ (L : Lay) (s : St) (o o' : Obj) (p q : Nat), L.Valid ∧ Reach L s ∧ o ∈ s.live ∧ o' ∈ s.live ∧
    o.addr ≠ o'.addr ∧ deref L s.mem o.addr = .ok p ∧ p < q ∧ q < p + o.size ∧
    refOffset L s.mem (s.live.map Obj.addr) q = .ok (some o'.addr) := by
  obtain ⟨m, hr, hd, ho⟩ := ex_reach
  exact ⟨exLay, ⟨m, [exA, exB]⟩, exA, exB, 4176, 4184, exLay_valid, hr, by simp, by simp, by decide, hd, by decide,
    by decide, ho⟩

/-- Non-vacuity: two live data, user bytes stored; an inner address whose preceding bytes are harmless. -/
example : ∃ m, Reach exLay ⟨m, [exA, exB]⟩ ∧ NoFakeOwner exLay m 4177 ∧ deref exLay m exA.addr = .ok 4176 := by
  have h1 := (Reach.init (L := exLay) (fun _ => 0)).create' (a := 4096) (size := 16) (align := 8) (by decide) (by decide)
    (by decide) (by simp) (by decide)
  have h2 := h1.create' (a := 4224) (size := 8) (align := 8) (by decide) (by decide)
    (by decide) (by simp [Obj.blockEnd, exLay]) (by decide)
  have h3 := h2.userWrite (o := exA) (p := 4176) (x := 4176) (v := 0x80) (by simp [exA]) (by decide +kernel)
    (by decide) (by decide)
  refine ⟨_, h3, ?_, by decide +kernel⟩
  intro v hv hx
  have e : v = 0x8000000000000010 := by rw [← hv]; decide +kernel
  have := hx.2.1
  simp [exLay] at this
  omega

/-! ## C40 -/

/-- **C40** For every non-negative in/out counts and every host size whose total fits the address space:
the host data area of a task at `t` is NULL iff `host_size = 0`; otherwise its `host` bytes lie in the
requested block, behind the header and behind every slot of the in/out array. -/
theorem C40_host_area (T : TaskLay) (hT : T.offIo ≤ T.hdr) (t ins outs host n : Nat) (hn : n = ins + outs)
    (hint : n < 2 ^ 31) (hfit : t + (T.hdr + 8 * n + host) < 2 ^ 64) :
    ∃ total r, taskAllocSize T ins outs host = .ok total ∧ hostData T t ins outs host host = .ok r ∧
      (r = none ↔ host = 0) ∧
      ∀ p, r = some p → t + T.hdr ≤ p ∧ (∀ i, i < n → ioSlot T t i + 8 ≤ p) ∧ p + host = t + total := by
  have hio : ioSize (ins : Int) (outs : Int) = .ok (8 * n) := by
    have hs : (ins : Int) + outs = (n : Int) := by omega
    simp only [ioSize, hs]
    rw [if_neg (by omega)]
    congr 1
    omega
  simp only [taskAllocSize, hostData, hio, Res.bind_ok]
  rw [Nat.mod_eq_of_lt (by omega)]
  by_cases h0 : host = 0
  · refine ⟨_, none, rfl, by simp [h0], by simp [h0], by simp⟩
  · refine ⟨_, some (t + T.hdr + 8 * n), rfl, ?_, by simp [h0], ?_⟩
    · rw [if_neg (by simp), if_neg h0, Nat.mod_eq_of_lt (by omega)]
    · intro p hp
      have e := Option.some.inj hp
      subst e
      refine ⟨by omega, ?_, by omega⟩
      intro i hi
      simp only [ioSlot]
      omega

/-- **C40** The slots of the in/out array are where the task's fields have ended, do not overlap, and lie in the requested
block; this also holds without a host area. -/
theorem C40_io_slots (T : TaskLay) (hT : T.offIo ≤ T.hdr) (t ins outs host n : Nat) (hn : n = ins + outs)
    (hint : n < 2 ^ 31) (hfit : t + (T.hdr + 8 * n + host) < 2 ^ 64) :
    ∃ total, taskAllocSize T ins outs host = .ok total ∧
      (∀ i, i < n → t + T.offIo ≤ ioSlot T t i ∧ ioSlot T t i + 8 ≤ t + total) ∧
      (∀ i j, i < j → j < n → ioSlot T t i + 8 ≤ ioSlot T t j) ∧ ioSlot T t 0 = t + T.offIo := by
  have hio : ioSize (ins : Int) (outs : Int) = .ok (8 * n) := by
    have hs : (ins : Int) + outs = (n : Int) := by omega
    simp only [ioSize, hs]
    rw [if_neg (by omega)]
    congr 1
    omega
  simp only [taskAllocSize, hio, Res.bind_ok]
  rw [Nat.mod_eq_of_lt (by omega)]
  refine ⟨_, rfl, fun i hi => ?_, fun i j hi hj => ?_, ?_⟩ <;> simp only [ioSlot] <;> omega

/-- C40: a wrong size aborts. -/
theorem C40_wrong_size (T : TaskLay) (t : Nat) (ins outs : Int) (host size : Nat) (h : size ≠ host) :
    hostData T t ins outs host size = .abort := by
  simp [hostData, h]

example : ∃ r, hostData ⟨200, 196⟩ 4096 2 1 40 40 = .ok (some r) ∧ r = 4096 + 200 + 24 := by
  exact ⟨_, by decide +kernel, rfl⟩

/-! ## C41 -/

/-- **C41** (layout) For every allocator address and size that leaves at least two pages behind the allocator
structure (one for the bitmap, one usable): the page area starts page aligned, the chunk array lies
between the allocator structure and the page area, the page area ends inside `[alloc, alloc+size)`, and
there is at least one page. -/
theorem C41_layout (inner alloc size : Nat) (hsz : size < 2 ^ 64)
    (hbig : (alloc + inner + 4095) / 4096 * 4096 - alloc + 8192 ≤ size) :
    let A := allocInit inner alloc size
    A.start % 4096 = 0 ∧ alloc + inner ≤ A.bits ∧ A.bits + 8 * ((A.pages + 63) / 64) ≤ A.start ∧
    A.start + 4096 * A.pages ≤ alloc + size ∧ 1 ≤ A.pages ∧ A.pages + 63 < 2 ^ 64 := by
  simp only [allocInit]
  rw [Bitmap.subSz_eq _ _ (by omega) (by omega)]
  refine ⟨by omega, by omega, by omega, by omega, by omega, by omega⟩

/-- C41 (layout of a whole segment): the pages of a pipe of `size` bytes at `base` end inside the segment. -/
theorem C41_pipe_layout (P : PipeLay) (base size : Nat) (hP : P.offAlloc ≤ P.sizeof) (hsz : size < 2 ^ 64)
    (hbig : P.sizeof + ((base + P.offAlloc + P.inner + 4095) / 4096 * 4096 - (base + P.offAlloc)) + 8192 ≤ size) :
    let A := pipeAlloc P base size
    A.start % 4096 = 0 ∧ base + P.offAlloc + P.inner ≤ A.bits ∧ A.bits + 8 * ((A.pages + 63) / 64) ≤ A.start ∧
    A.start + 4096 * A.pages ≤ base + size ∧ 1 ≤ A.pages ∧ A.pages + 63 < 2 ^ 64 := by
  have h := C41_layout P.inner (base + P.offAlloc) (size - P.sizeof) (by omega) (by omega)
  simp only [pipeAlloc]
  rw [Bitmap.subSz_eq _ _ (by omega) (by omega)]
  dsimp only at h ⊢
  refine ⟨h.1, h.2.1, h.2.2.1, ?_, h.2.2.2.2⟩
  have := h.2.2.2.1
  omega

/-- Outside the quantifier: a segment smaller than its own headers is not rejected; the size computation
wraps and the allocator believes in at least 2^51 pages. -/
theorem C41_too_small_wraps (inner alloc size : Nat) (hs : size < (alloc + inner + 4095) / 4096 * 4096 - alloc)
    (hsm : (alloc + inner + 4095) / 4096 * 4096 - alloc ≤ 2 ^ 32) :
    2 ^ 51 ≤ (allocInit inner alloc size).pages := by
  simp only [allocInit, Bitmap.subSz]
  rw [if_neg (by omega)]
  omega

/-- A history of `arax_mmap`/`arax_ummap` on a segment: `Pages A mem0 b runs` with the live runs
`(address, bytes)`; only live runs are unmapped. -/
inductive Pages (A : AllocLay) (mem0 : Nat → BitVec 64) : Bitmap.Bmp → List (Nat × Nat) → Prop where
  | init : Pages A mem0 (Bitmap.init mem0 A.pages) []
  | mmap {b b' runs s a} : Pages A mem0 b runs → 0 < s → mmap A b s = .ok (b', a) → Pages A mem0 b' ((a, s) :: runs)
  | ummap {b b' runs s a} : Pages A mem0 b runs → (a, s) ∈ runs → ummap A b a s = .ok b' →
      Pages A mem0 b' (runs.erase (a, s))

/-- A run of bytes as a run of pages. -/
def toPages (A : AllocLay) (r : Nat × Nat) : Nat × Nat := ((r.1 - A.start) / 4096, r.2 / 4096)
def ofPages (A : AllocLay) (r : Nat × Nat) : Nat × Nat := (A.start + r.1 * 4096, r.2 * 4096)

theorem mmap_ok {A : AllocLay} {b b' : Bitmap.Bmp} {s a : Nat} (h : mmap A b s = .ok (b', a)) :
    s % 4096 = 0 ∧ ∃ off, Bitmap.alloc b (s / 4096) = (b', some off) ∧ a = A.start + off * 4096 := by
  simp only [mmap] at h
  split at h
  · simp at h
  · rename_i h0
    refine ⟨by omega, ?_⟩
    split at h
    · simp at h
    · rename_i b2 off he
      have h := Res.ok.inj h
      exact ⟨off, by rw [he]; congr 1; exact (Prod.mk.inj h).1, (Prod.mk.inj h).2.symm⟩

theorem ofPages_inj (A : AllocLay) : Function.Injective (ofPages A) := by
  intro a b h
  simp only [ofPages, Prod.mk.injEq] at h
  apply Prod.ext <;> omega

theorem erase_map {α β : Type} [BEq α] [LawfulBEq α] [BEq β] [LawfulBEq β] (f : α → β) (hf : Function.Injective f) (l : List α) (x : α) :
    (l.map f).erase (f x) = (l.erase x).map f := by
  induction l with
  | nil => rfl
  | cons a l ih =>
    simp only [List.map_cons, List.erase_cons]
    by_cases h : a = x
    · subst h; simp
    · have h' : f a ≠ f x := fun e => h (hf e)
      rw [beq_false_of_ne h, beq_false_of_ne h']
      simp [ih]

/-- The bytes handed out are the pages of a bitmap history. -/
theorem pages_reach {A : AllocLay} {mem0 : Nat → BitVec 64} (hp : A.pages + 63 < 2 ^ 64)
    (hst : A.start + 4096 * (64 * ((A.pages + 63) / 64)) < 2 ^ 64) {b : Bitmap.Bmp} {runs : List (Nat × Nat)}
    (h : Pages A mem0 b runs) : ∃ live, Bitmap.Reach mem0 A.pages b live ∧ runs = live.map (ofPages A) ∧
      ∀ r ∈ live, 0 < r.2 ∧ r.1 + r.2 ≤ 64 * ((A.pages + 63) / 64) := by
  induction h with
  | init => exact ⟨[], Bitmap.Reach.init, rfl, by simp⟩
  | @mmap b b' runs s a _ hs he ih =>
    obtain ⟨live, hr, hl, hb⟩ := ih
    obtain ⟨hm, off, ha, rfl⟩ := mmap_ok he
    refine ⟨(off, s / 4096) :: live, Bitmap.Reach.allocOk hr ha, ?_, ?_⟩
    · simp only [List.map_cons, hl, ofPages]
      congr 2
      omega
    · intro r hr'
      rcases List.mem_cons.mp hr' with rfl | hr'
      · exact ⟨by show 0 < s / 4096; omega, Bitmap.C04_in_chunks_partial hp hr ha⟩
      · exact hb r hr'
  | @ummap b b' runs s a _ hm he ih =>
    obtain ⟨live, hr, hl, hb⟩ := ih
    rw [hl] at hm
    obtain ⟨⟨off, n⟩, hmem, hofp⟩ := List.mem_map.mp hm
    have hn := hb _ hmem
    dsimp only at hn
    simp only [ofPages, Prod.mk.injEq] at hofp
    obtain ⟨rfl, rfl⟩ := hofp
    simp only [ummap] at he
    rw [Bitmap.subSz_eq _ _ (by omega) (by omega), show (A.start + off * 4096 - A.start) / 4096 = off by omega,
      show n * 4096 / 4096 = n by omega] at he
    refine ⟨live.erase (off, n), Bitmap.Reach.free hr hmem (by omega) he, ?_, ?_⟩
    · rw [hl]
      exact erase_map (ofPages A) (ofPages_inj A) live (off, n)
    · intro r hr'; exact hb r (List.mem_of_mem_erase hr')

/-- C41: live page runs never share a byte. -/
theorem C41_runs_disjoint {A : AllocLay} {mem0 : Nat → BitVec 64} (hp : A.pages + 63 < 2 ^ 64)
    (hst : A.start + 4096 * (64 * ((A.pages + 63) / 64)) < 2 ^ 64) {b : Bitmap.Bmp} {runs : List (Nat × Nat)}
    (h : Pages A mem0 b runs) :
    runs.Pairwise (fun r r' => ∀ x, ¬ ((r.1 ≤ x ∧ x < r.1 + r.2) ∧ (r'.1 ≤ x ∧ x < r'.1 + r'.2))) := by
  obtain ⟨live, hr, rfl, -⟩ := pages_reach hp hst h
  rw [List.pairwise_map]
  refine (Bitmap.C02_live_disjoint hp hr).imp ?_
  intro r r' hd x hx
  simp only [ofPages] at hx
  exact hd ((x - A.start) / 4096) ⟨⟨by omega, by omega⟩, ⟨by omega, by omega⟩⟩

/-- **C41** (page runs, partial) When the number of pages is a multiple of 64, every run handed out by
`arax_mmap` is page aligned (relative to the page-aligned start) and lies in the page area. Missing: other page
counts, for which it is false (`C41_violated`). -/
theorem C41_runs_inside_partial {A : AllocLay} {mem0 : Nat → BitVec 64} (hp : A.pages + 63 < 2 ^ 64)
    (h64 : A.pages % 64 = 0)
    (hst : A.start + 4096 * (64 * ((A.pages + 63) / 64)) < 2 ^ 64) {b : Bitmap.Bmp} {runs : List (Nat × Nat)}
    (h : Pages A mem0 b runs) : ∀ r ∈ runs, A.start ≤ r.1 ∧ (r.1 - A.start) % 4096 = 0 ∧
      r.1 + r.2 ≤ A.start + 4096 * A.pages := by
  obtain ⟨live, hr, rfl, hb⟩ := pages_reach hp hst h
  intro r hm
  obtain ⟨q, hq, rfl⟩ := List.mem_map.mp hm
  have := hb q hq
  simp only [ofPages]
  omega

/-- C41 (any page count): one-page requests are always inside. -/
theorem C41_one_page_inside {A : AllocLay} {mem0 : Nat → BitVec 64} (hp : A.pages + 63 < 2 ^ 64)
    (hst : A.start + 4096 * (64 * ((A.pages + 63) / 64)) < 2 ^ 64) {b b' : Bitmap.Bmp} {runs : List (Nat × Nat)}
    (h : Pages A mem0 b runs) {a : Nat} (he : mmap A b 4096 = .ok (b', a)) :
    A.start ≤ a ∧ a + 4096 ≤ A.start + 4096 * A.pages := by
  obtain ⟨live, hr, -, -⟩ := pages_reach hp hst h
  obtain ⟨-, off, ha, rfl⟩ := mmap_ok he
  have := Bitmap.C04_single_chunk_partial hp (by decide) (by omega) hr ha
  omega

/-- C41: unmapping a live run succeeds and gives its pages back. -/
theorem C41_ummap_ok {A : AllocLay} {mem0 : Nat → BitVec 64} (hp : A.pages + 63 < 2 ^ 64)
    (hst : A.start + 4096 * (64 * ((A.pages + 63) / 64)) < 2 ^ 64) {b : Bitmap.Bmp} {runs : List (Nat × Nat)}
    (h : Pages A mem0 b runs) {a s : Nat} (hm : (a, s) ∈ runs) :
    ∃ b', ummap A b a s = .ok b' ∧ Bitmap.usedBits b' + s / 4096 = Bitmap.usedBits b := by
  obtain ⟨live, hr, rfl, hb⟩ := pages_reach hp hst h
  obtain ⟨⟨off, n⟩, hmem, hofp⟩ := List.mem_map.mp hm
  have hn := hb _ hmem
  dsimp only at hn
  simp only [ofPages, Prod.mk.injEq] at hofp
  obtain ⟨rfl, rfl⟩ := hofp
  obtain ⟨b', hok, -, hu⟩ := Bitmap.C05_free_exact hp hr hmem hn.1
  refine ⟨b', ?_, by rw [show n * 4096 / 4096 = n by omega]; exact hu⟩
  simp only [ummap]
  rw [Bitmap.subSz_eq _ _ (by omega) (by omega), show (A.start + off * 4096 - A.start) / 4096 = off by omega,
    show n * 4096 / 4096 = n by omega]
  exact hok

theorem Pages.mmap' {A : AllocLay} {mem0 : Nat → BitVec 64} {b : Bitmap.Bmp} {runs : List (Nat × Nat)} (h : Pages A mem0 b runs)
    {n off : Nat} (hn : 0 < n) (ha : (Bitmap.alloc b n).2 = some off) :
    Pages A mem0 (Bitmap.alloc b n).1 ((A.start + off * 4096, n * 4096) :: runs) := by
  refine Pages.mmap h (by omega) ?_
  simp only [Arax.Layout.mmap]
  rw [if_neg (by omega), show n * 4096 / 4096 = n by omega, Bitmap.pair_of_snd ha]

/-- The segment of the witness: allocator structure of 200 bytes at 0x10000, 0x66000 bytes. -/
def exAlloc : AllocLay := allocInit 200 0x10000 (4096 * 102)

theorem exAlloc_eq : exAlloc = ⟨65736, 73728, 100⟩ := by rfl

theorem C41_violated_aux (b2 : Bitmap.Bmp) (h2 : Pages exAlloc (fun _ => 0) b2 [(73728 + 30 * 4096, 30 * 4096), (73728, 30 * 4096)])
    (hk : (match Bitmap.free b2 0 30 with | .ok b => (Bitmap.alloc b 64).2 | _ => none) = some 60) :
    ∃ b runs, Pages exAlloc (fun _ => 0) b runs ∧ (73728 + 60 * 4096, 64 * 4096) ∈ runs := by
  obtain ⟨b3, hok, -⟩ := C41_ummap_ok (by decide) (by decide) h2 (a := 73728) (s := 30 * 4096) (by simp)
  have h3 := Pages.ummap h2 (by simp) hok
  have hok' : Bitmap.free b2 0 30 = .ok b3 := hok
  rw [hok'] at hk
  exact ⟨_, _, h3.mmap' (by decide) hk, by simp [exAlloc_eq]⟩

/-- **C41 is violated by the code**: with 100 usable pages (a segment of 102 pages behind the allocator's
address), mapping 30, mapping 30, unmapping the first and mapping 64 pages returns a run that ends 24 pages
behind the end of the segment. -/
theorem C41_violated : ∃ b runs a s, Pages exAlloc (fun _ => 0) b runs ∧ (a, s) ∈ runs ∧
    0x10000 + 4096 * 102 < a + s := by
  have h1 := (Pages.init (A := exAlloc) (mem0 := fun _ => 0)).mmap' (n := 30) (off := 0) (by decide) (by decide +kernel)
  have h2 := h1.mmap' (n := 30) (off := 30) (by decide) (by decide +kernel)
  obtain ⟨b, runs, hp, hm⟩ := C41_violated_aux _ h2 (by decide +kernel)
  exact ⟨b, runs, _, _, hp, hm, by decide⟩

/-- Non-vacuity: a segment with 128 usable pages and two live runs. -/
example : ∃ b runs, Pages (allocInit 200 0x10000 (4096 * 130)) (fun _ => 0) b runs ∧ runs.length = 2 ∧
    (allocInit 200 0x10000 (4096 * 130)).pages % 64 = 0 := by
  have h1 := (Pages.init (A := allocInit 200 0x10000 (4096 * 130)) (mem0 := fun _ => 0)).mmap' (n := 30) (off := 0)
    (by decide) (by decide +kernel)
  have h2 := h1.mmap' (n := 70) (off := 30) (by decide) (by decide +kernel)
  exact ⟨_, _, h2, rfl, by decide⟩

end Arax.Layout
