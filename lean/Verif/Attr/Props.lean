import Verif.Attr.Spec
/-!
# C87: proofs about layout and the invariant
-/
namespace Arax.Attr
open Arax.Layout (Mem readLE writeLE readLE_congr read_write read_write_ne)

theorem up_ge (a n : Nat) (h : 0 < a) : n ≤ up a n := by
  unfold up
  have h1 := Nat.div_add_mod (n + (a - 1)) a
  have h2 := Nat.mod_lt (n + (a - 1)) h
  rw [Nat.mul_comm] at h1
  omega

/-- Fields do not start before the start of the struct. -/
theorem off_ge : ∀ (fs : List (Nat × Nat)) i o, (∀ f ∈ fs, 0 < f.2) → o ≤ off fs i o
  | [], _, _, _ => Nat.le_refl _
  | (_, a) :: _, 0, o, h => up_ge a o (h _ (List.mem_cons_self ..))
  | (s, a) :: fs, i + 1, o, h => by
    have h1 := off_ge fs i (up a o + s) (fun f hf => h f (List.mem_cons_of_mem _ hf))
    have h2 := up_ge a o (h (s, a) (List.mem_cons_self ..))
    simp only [off]; omega

/-- A field ends before the next ones start, in every struct. -/
theorem off_lt : ∀ (fs : List (Nat × Nat)) i j o, (∀ f ∈ fs, 0 < f.2) → i < j → j ≤ fs.length → off fs i o + sz fs i ≤ off fs j o
  | [], i, j, _, _, h1, h2 => by simp at h2; omega
  | (s, a) :: fs, 0, j + 1, o, h, _, _ => by
    have h1 := off_ge fs j (up a o + s) (fun f hf => h f (List.mem_cons_of_mem _ hf))
    simpa [off, sz] using h1
  | (s, a) :: fs, i + 1, j + 1, o, h, h1, h2 => by
    have := off_lt fs i j (up a o + s) (fun f hf => h f (List.mem_cons_of_mem _ hf)) (by omega) (by simpa using h2)
    simpa [off, sz] using this

variable {k : K}

theorem vf_pos (hk : k.Ok) : ∀ f ∈ vf k, 0 < f.2 := by
  have := hk.spin
  simp [vf]; omega

theorem af_pos (hk : k.Ok) : ∀ f ∈ af k, 0 < f.2 := by
  have := hk.al
  simp [af]; omega

theorem of3 : off of 3 0 = 40 := by decide

theorem v1 : off (vf k) 1 0 = 56 := rfl
theorem v2 : off (vf k) 2 0 = 60 := rfl
theorem a1 : off (af k) 1 0 = 56 := rfl
theorem a2 : off (af k) 2 0 = 60 := rfl

/-- Where the attributes of a virtual accelerator are. -/
theorem vlay (hk : k.Ok) : 64 ≤ off (vf k) 5 0 ∧ off (vf k) 5 0 + 8 ≤ off (vf k) 6 0 ∧ off (vf k) 6 0 + 8 ≤ off (vf k) 7 0 ∧
    off (vf k) 7 0 + 8 ≤ off (vf k) 8 0 ∧ off (vf k) 8 0 + 8 ≤ size (vf k) :=
  ⟨off_lt (vf k) 2 5 0 (vf_pos hk) (by decide) (by simp [vf]), off_lt (vf k) 5 6 0 (vf_pos hk) (by decide) (by simp [vf]),
    off_lt (vf k) 6 7 0 (vf_pos hk) (by decide) (by simp [vf]), off_lt (vf k) 7 8 0 (vf_pos hk) (by decide) (by simp [vf]),
    off_lt (vf k) 8 10 0 (vf_pos hk) (by decide) (by simp [vf])⟩

/-- Where the attributes of a physical accelerator are. -/
theorem alay (hk : k.Ok) : 64 ≤ off (af k) 5 0 ∧ off (af k) 5 0 + 8 ≤ off (af k) 6 0 ∧ off (af k) 6 0 + 8 ≤ size (af k) :=
  ⟨off_lt (af k) 2 5 0 (af_pos hk) (by decide) (by simp [af]), off_lt (af k) 5 6 0 (af_pos hk) (by decide) (by simp [af]),
    off_lt (af k) 6 10 0 (af_pos hk) (by decide) (by simp [af])⟩

/-- Memory at `a` holds `o`. -/
def Holds (k : K) (m : Mem) (a : Nat) : Obj → Prop
  | .phys t r => readLE m (a + 40) 4 = 0 ∧ readLE m (a + 56) 4 = t ∧ readLE m (a + 60) 4 = 1 ∧ readLE m (a + off (af k) 6 0) 8 = r % 2 ^ 64
  | .virt t o c q md p => readLE m (a + 40) 4 = 1 ∧ readLE m (a + 56) 4 = t ∧ readLE m (a + 60) 4 = o ∧ readLE m (a + off (vf k) 5 0) 8 = c ∧
      readLE m (a + off (vf k) 6 0) 8 = q ∧ readLE m (a + off (vf k) 7 0) 8 = p ∧ readLE m (a + off (vf k) 8 0) 8 = md

/-- Only the bytes of attributes matter. -/
theorem holds_congr {m m' : Mem} {a : Nat} {o : Obj} (h : ∀ x, a ≤ x → IsAttr k o (x - a) → m' x = m x) (hh : Holds k m a o) : Holds k m' a o := by
  have hof : ∀ x, a + 40 ≤ x → x < a + 40 + 4 → m' x = m x := fun x h1 h2 => h x (by omega) (.inl (by rw [of3]; omega))
  cases o with
  | phys t r =>
    have hf : ∀ i ∈ [1, 2, 6], ∀ x, a + off (af k) i 0 ≤ x → x < a + off (af k) i 0 + sz (af k) i → m' x = m x :=
      fun i hi x h1 h2 => h x (by omega) (.inr ⟨i, hi, by omega, by omega⟩)
    obtain ⟨h1, h2, h3, h4⟩ := hh
    exact ⟨by rw [readLE_congr m' m 4 _ hof, h1], by rw [readLE_congr m' m 4 (a + 56) (hf 1 (by simp)), h2], by rw [readLE_congr m' m 4 (a + 60) (hf 2 (by simp)), h3],
      by rw [readLE_congr m' m 8 _ (hf 6 (by simp)), h4]⟩
  | virt t o c q md p =>
    have hf : ∀ i ∈ [1, 2, 5, 6, 7, 8], ∀ x, a + off (vf k) i 0 ≤ x → x < a + off (vf k) i 0 + sz (vf k) i → m' x = m x :=
      fun i hi x h1 h2 => h x (by omega) (.inr ⟨i, hi, by omega, by omega⟩)
    obtain ⟨h1, h2, h3, h4, h5, h6, h7⟩ := hh
    exact ⟨by rw [readLE_congr m' m 4 _ hof, h1], by rw [readLE_congr m' m 4 (a + 56) (hf 1 (by simp)), h2], by rw [readLE_congr m' m 4 (a + 60) (hf 2 (by simp)), h3],
      by rw [readLE_congr m' m 8 _ (hf 5 (by simp)), h4], by rw [readLE_congr m' m 8 _ (hf 6 (by simp)), h5],
      by rw [readLE_congr m' m 8 _ (hf 7 (by simp)), h6], by rw [readLE_congr m' m 8 _ (hf 8 (by simp)), h7]⟩

/-- Attributes are inside the struct. -/
theorem attr_lt (hk : k.Ok) {o : Obj} {x : Nat} (h : IsAttr k o x) : x < o.size k := by
  cases o with
  | phys t r =>
    have := alay hk
    simp only [Obj.size]
    rcases h with h | ⟨i, hi, h⟩
    · rw [of3] at h; omega
    · simp only [List.mem_cons, List.not_mem_nil, or_false] at hi
      rcases hi with rfl | rfl | rfl
      · simp only [a1, show sz (af k) 1 = 4 from rfl] at h; omega
      · simp only [a2, show sz (af k) 2 = 4 from rfl] at h; omega
      · simp only [show sz (af k) 6 = 8 from rfl] at h; omega
  | virt t o c q md p =>
    have := vlay hk
    simp only [Obj.size]
    rcases h with h | ⟨i, hi, h⟩
    · rw [of3] at h; omega
    · simp only [List.mem_cons, List.not_mem_nil, or_false] at hi
      rcases hi with rfl | rfl | rfl | rfl | rfl | rfl
      · simp only [v1, show sz (vf k) 1 = 4 from rfl] at h; omega
      · simp only [v2, show sz (vf k) 2 = 4 from rfl] at h; omega
      · simp only [show sz (vf k) 5 = 8 from rfl] at h; omega
      · simp only [show sz (vf k) 6 = 8 from rfl] at h; omega
      · simp only [show sz (vf k) 7 = 8 from rfl] at h; omega
      · simp only [show sz (vf k) 8 = 8 from rfl] at h; omega

/-- A store outside the struct changes nothing. -/
theorem holds_frame (hk : k.Ok) {m m' : Mem} {a lo hi : Nat} {o : Obj} (hm : ∀ x, x < lo ∨ hi ≤ x → m' x = m x) (hd : a + o.size k ≤ lo ∨ hi ≤ a)
    (hh : Holds k m a o) : Holds k m' a o := by
  refine holds_congr (fun x h1 h2 => hm x ?_) hh
  have := attr_lt hk h2
  omega

structure Inv (k : K) (m : Mem) (s : Abs) : Prop where
  holds : ∀ a o, s a = some o → Holds k m a o
  bound : ∀ a o, s a = some o → 0 < a ∧ a + o.size k ≤ 2 ^ 64
  apart : ∀ a o b o', s a = some o → s b = some o' → a ≠ b → a + o.size k ≤ b ∨ b + o'.size k ≤ a
  link : ∀ a t o c q md p, s a = some (.virt t o c q md p) → p = 0 ∨ ∃ t r, s p = some (.phys t r)

theorem set_eq (s : Abs) (a : Nat) (o : Option Obj) : s.set a o a = o := by simp [Abs.set]
theorem set_ne (s : Abs) {a x : Nat} (o : Option Obj) (h : x ≠ a) : s.set a o x = s x := by simp [Abs.set, h]

/-- A store into the struct of one object, which keeps its kind. -/
theorem inv_set (hk : k.Ok) {m m' : Mem} {s : Abs} {a : Nat} {o o' : Obj} (hi : Inv k m s) (ha : s a = some o) (hz : o'.size k = o.size k)
    (hm : ∀ x, x < a ∨ a + o.size k ≤ x → m' x = m x) (hh : Holds k m' a o')
    (hl : ∀ t q c r md p y, o' = .virt t q c r md p → p = y → y = 0 ∨ ∃ t r, s y = some (.phys t r))
    (hp : ∀ t r, o = .phys t r → ∃ t r, o' = .phys t r) : Inv k m' (s.set a (some o')) := by
  have key : ∀ b ob, s.set a (some o') b = some ob → (b = a ∧ ob = o') ∨ (b ≠ a ∧ s b = some ob) := by
    intro b ob h
    by_cases e : b = a
    · subst e; rw [set_eq] at h; exact .inl ⟨rfl, (Option.some.inj h).symm⟩
    · rw [set_ne _ _ e] at h; exact .inr ⟨e, h⟩
  have hph : ∀ p, (∃ t r, s p = some (.phys t r)) → ∃ t r, s.set a (some o') p = some (.phys t r) := by
    rintro p ⟨t, r, h⟩
    by_cases e : p = a
    · subst e
      rw [ha] at h
      obtain ⟨t, r, e⟩ := hp t r (Option.some.inj h)
      exact ⟨t, r, by rw [set_eq, e]⟩
    · exact ⟨t, r, by rw [set_ne _ _ e, h]⟩
  refine ⟨?_, ?_, ?_, ?_⟩
  · intro b ob h
    rcases key b ob h with ⟨rfl, rfl⟩ | ⟨e, h⟩
    · exact hh
    · exact holds_frame hk hm (by have := hi.apart b ob a o h ha e; omega) (hi.holds b ob h)
  · intro b ob h
    rcases key b ob h with ⟨rfl, rfl⟩ | ⟨e, h⟩
    · rw [hz]; exact hi.bound _ _ ha
    · exact hi.bound b ob h
  · intro b ob c oc h h' e
    rcases key b ob h with ⟨rfl, rfl⟩ | ⟨e1, g⟩ <;> rcases key c oc h' with ⟨rfl, rfl⟩ | ⟨e2, g'⟩
    · exact absurd rfl e
    · rw [hz]; exact hi.apart _ _ _ _ ha g' e
    · rw [hz]; exact hi.apart _ _ _ _ g ha e
    · exact hi.apart _ _ _ _ g g' e
  · intro b t q c r md p h
    rcases key b _ h with ⟨_, g⟩ | ⟨e, h⟩
    · rcases hl t q c r md p p g.symm rfl with h | h
      · exact .inl h
      · exact .inr (hph p h)
    · rcases hi.link b t q c r md p h with h | h
      · exact .inl h
      · exact .inr (hph p h)

theorem bump_eq {s : Abs} {p t r : Nat} (h : s p = some (.phys t r)) : s.bump p = s.set p (some (.phys t (r + 1))) := by
  funext x
  simp only [Abs.bump, Abs.set, h]

theorem writeLE_out {m : Mem} {a n v x : Nat} (h : x < a ∨ a + n ≤ x) : writeLE m a n v x = m x := by
  simp only [writeLE]; rw [if_neg (by omega)]

/-- One more revision. -/
theorem inv_rev (hk : k.Ok) {m : Mem} {s : Abs} {p t r : Nat} (hi : Inv k m s) (hp : s p = some (.phys t r)) :
    Inv k (incRevision k m p) (s.bump p) := by
  rw [bump_eq hp]
  have hl := alay hk
  refine inv_set hk hi hp rfl ?_ ?_ (by intro _ _ _ _ _ _ _ h; cases h) (fun _ _ _ => ⟨_, _, rfl⟩)
  · intro x hx
    exact writeLE_out (by simp only [Obj.size] at hx; rw [show sz (af k) 6 = 8 from rfl]; omega)
  · obtain ⟨h1, h2, h3, h4⟩ := hi.holds p _ hp
    simp only [incRevision, st, ld, show sz (af k) 6 = 8 from rfl]
    refine ⟨by rw [read_write_ne _ _ _ _ _ _ (by omega), h1], by rw [read_write_ne _ _ _ _ _ _ (by omega), h2],
      by rw [read_write_ne _ _ _ _ _ _ (by omega), h3], ?_⟩
    rw [read_write, h4]
    omega

/-- A store to one attribute of a virtual accelerator. -/
theorem inv_virt (hk : k.Ok) {m : Mem} {s : Abs} {a t o c q md p t' o' c' q' md' p' : Nat} {off n v : Nat} (hi : Inv k m s)
    (ha : s a = some (.virt t o c q md p)) (hz : off + n ≤ size (vf k))
    (hh : Holds k m a (.virt t o c q md p) → Holds k (writeLE m (a + off) n v) a (.virt t' o' c' q' md' p'))
    (hp : p' = p ∨ p' = 0 ∨ ∃ t r, s p' = some (.phys t r)) :
    Inv k (writeLE m (a + off) n v) (s.set a (some (.virt t' o' c' q' md' p'))) := by
  refine inv_set hk hi ha rfl ?_ (hh (hi.holds _ _ ha)) ?_ (by intro _ _ h; cases h)
  · intro x hx
    exact writeLE_out (by simp only [Obj.size] at hx; omega)
  · rintro _ _ _ _ _ _ y h rfl
    cases h
    rcases hp with h | h
    · rw [h]; exact hi.link _ _ _ _ _ _ _ ha
    · exact h

theorem inv_cid (hk : k.Ok) {m : Mem} {s : Abs} {a v t o c q md p : Nat} (hi : Inv k m s) (ha : s a = some (.virt t o c q md p)) (hv : v < 2 ^ 64) :
    Inv k (st (vf k) 5 m a v) (s.set a (some (.virt t o v q md p))) := by
  have hl := vlay hk
  refine inv_virt hk hi ha (by rw [show sz (vf k) 5 = 8 from rfl]; omega) ?_ (.inl rfl)
  rintro ⟨h1, h2, h3, h4, h5, h6, h7⟩
  rw [show sz (vf k) 5 = 8 from rfl]
  exact ⟨by rw [read_write_ne _ _ _ _ _ _ (by omega), h1], by rw [read_write_ne _ _ _ _ _ _ (by omega), h2], by rw [read_write_ne _ _ _ _ _ _ (by omega), h3], by rw [read_write]; omega, by rw [read_write_ne _ _ _ _ _ _ (by omega), h5], by rw [read_write_ne _ _ _ _ _ _ (by omega), h6], by rw [read_write_ne _ _ _ _ _ _ (by omega), h7]⟩

theorem inv_priority (hk : k.Ok) {m : Mem} {s : Abs} {a v t o c q md p : Nat} (hi : Inv k m s) (ha : s a = some (.virt t o c q md p)) (hv : v < 2 ^ 64) :
    Inv k (st (vf k) 6 m a v) (s.set a (some (.virt t o c v md p))) := by
  have hl := vlay hk
  refine inv_virt hk hi ha (by rw [show sz (vf k) 6 = 8 from rfl]; omega) ?_ (.inl rfl)
  rintro ⟨h1, h2, h3, h4, h5, h6, h7⟩
  rw [show sz (vf k) 6 = 8 from rfl]
  exact ⟨by rw [read_write_ne _ _ _ _ _ _ (by omega), h1], by rw [read_write_ne _ _ _ _ _ _ (by omega), h2], by rw [read_write_ne _ _ _ _ _ _ (by omega), h3], by rw [read_write_ne _ _ _ _ _ _ (by omega), h4], by rw [read_write]; omega, by rw [read_write_ne _ _ _ _ _ _ (by omega), h6], by rw [read_write_ne _ _ _ _ _ _ (by omega), h7]⟩

theorem inv_ordering (hk : k.Ok) {m : Mem} {s : Abs} {a v t o c q md p : Nat} (hi : Inv k m s) (ha : s a = some (.virt t o c q md p)) (hv : v < 2 ^ 32) :
    Inv k (st (vf k) 2 m a v) (s.set a (some (.virt t v c q md p))) := by
  have hl := vlay hk
  refine inv_virt hk hi ha (by rw [show sz (vf k) 2 = 4 from rfl, v2]; omega) ?_ (.inl rfl)
  rintro ⟨h1, h2, h3, h4, h5, h6, h7⟩
  rw [show sz (vf k) 2 = 4 from rfl, v2]
  exact ⟨by rw [read_write_ne _ _ _ _ _ _ (by omega), h1], by rw [read_write_ne _ _ _ _ _ _ (by omega), h2], by rw [read_write]; omega, by rw [read_write_ne _ _ _ _ _ _ (by omega), h4], by rw [read_write_ne _ _ _ _ _ _ (by omega), h5], by rw [read_write_ne _ _ _ _ _ _ (by omega), h6], by rw [read_write_ne _ _ _ _ _ _ (by omega), h7]⟩

theorem inv_md (hk : k.Ok) {m : Mem} {s : Abs} {a v t o c q md p : Nat} (hi : Inv k m s) (ha : s a = some (.virt t o c q md p)) (hv : v < 2 ^ 64) :
    Inv k (st (vf k) 8 m a v) (s.set a (some (.virt t o c q v p))) := by
  have hl := vlay hk
  refine inv_virt hk hi ha (by rw [show sz (vf k) 8 = 8 from rfl]; omega) ?_ (.inl rfl)
  rintro ⟨h1, h2, h3, h4, h5, h6, h7⟩
  rw [show sz (vf k) 8 = 8 from rfl]
  exact ⟨by rw [read_write_ne _ _ _ _ _ _ (by omega), h1], by rw [read_write_ne _ _ _ _ _ _ (by omega), h2], by rw [read_write_ne _ _ _ _ _ _ (by omega), h3], by rw [read_write_ne _ _ _ _ _ _ (by omega), h4], by rw [read_write_ne _ _ _ _ _ _ (by omega), h5], by rw [read_write_ne _ _ _ _ _ _ (by omega), h6], by rw [read_write]; omega⟩

theorem inv_phys (hk : k.Ok) {m : Mem} {s : Abs} {a v t o c q md p : Nat} (hi : Inv k m s) (ha : s a = some (.virt t o c q md p))
    (hv : v = 0 ∨ ∃ t r, s v = some (.phys t r)) :
    Inv k (st (vf k) 7 m a v) (s.set a (some (.virt t o c q md v))) := by
  have hl := vlay hk
  have hlt : v < 2 ^ 64 := by
    rcases hv with rfl | ⟨t, r, h⟩
    · omega
    · have := hi.bound _ _ h
      have h2 := (alay hk)
      simp only [Obj.size] at this
      omega
  refine inv_virt hk hi ha (by rw [show sz (vf k) 7 = 8 from rfl]; omega) ?_ (.inr hv)
  rintro ⟨h1, h2, h3, h4, h5, h6, h7⟩
  rw [show sz (vf k) 7 = 8 from rfl]
  exact ⟨by rw [read_write_ne _ _ _ _ _ _ (by omega), h1], by rw [read_write_ne _ _ _ _ _ _ (by omega), h2], by rw [read_write_ne _ _ _ _ _ _ (by omega), h3], by rw [read_write_ne _ _ _ _ _ _ (by omega), h4], by rw [read_write_ne _ _ _ _ _ _ (by omega), h5], by rw [read_write]; omega, by rw [read_write_ne _ _ _ _ _ _ (by omega), h7]⟩

/-- A new object in fresh memory. -/
theorem inv_new (hk : k.Ok) {m m' : Mem} {s : Abs} {a : Nat} {o : Obj} (hi : Inv k m s) (hf : Fresh k s a (o.size k)) (hpos : 0 < o.size k)
    (hm : ∀ x, x < a ∨ a + o.size k ≤ x → m' x = m x) (hh : Holds k m' a o)
    (hl : ∀ t q c r md p, o = .virt t q c r md p → p = 0) : Inv k m' (s.set a (some o)) := by
  obtain ⟨h0, h64, hd⟩ := hf
  have hno : s a = none := by
    cases e : s a with
    | none => rfl
    | some o' =>
      have := hd a o' e
      cases o' with
      | phys t r =>
        have h := alay hk
        have h' : Obj.size k (.phys t r) = size (af k) := rfl
        omega
      | virt t q c u md p =>
        have h := vlay hk
        have h' : Obj.size k (.virt t q c u md p) = size (vf k) := rfl
        omega
  have key : ∀ b ob, s.set a (some o) b = some ob → (b = a ∧ ob = o) ∨ (b ≠ a ∧ s b = some ob) := by
    intro b ob h
    by_cases e : b = a
    · subst e; rw [set_eq] at h; exact .inl ⟨rfl, (Option.some.inj h).symm⟩
    · rw [set_ne _ _ e] at h; exact .inr ⟨e, h⟩
  refine ⟨?_, ?_, ?_, ?_⟩
  · intro b ob h
    rcases key b ob h with ⟨rfl, rfl⟩ | ⟨e, h⟩
    · exact hh
    · exact holds_frame hk hm (by have := hd b ob h; omega) (hi.holds b ob h)
  · intro b ob h
    rcases key b ob h with ⟨rfl, rfl⟩ | ⟨e, h⟩
    · exact ⟨h0, h64⟩
    · exact hi.bound b ob h
  · intro b ob c oc h h' e
    rcases key b ob h with ⟨rfl, rfl⟩ | ⟨e1, g⟩ <;> rcases key c oc h' with ⟨rfl, rfl⟩ | ⟨e2, g'⟩
    · exact absurd rfl e
    · exact hd _ _ g'
    · exact (hd _ _ g).symm
    · exact hi.apart _ _ _ _ g g' e
  · intro b t q c r md p h
    rcases key b _ h with ⟨_, g⟩ | ⟨e, h⟩
    · exact .inl (hl _ _ _ _ _ _ g.symm)
    · rcases hi.link b t q c r md p h with h | ⟨t', r', g⟩
      · exact .inl h
      · refine .inr ⟨t', r', ?_⟩
        rw [set_ne _ _ (by rintro rfl; rw [hno] at g; cases g), g]

/-- Stores into a struct leave the rest of memory. -/
theorem st_out {fs : List (Nat × Nat)} {i : Nat} {m : Mem} {a v n x : Nat} (h : off fs i 0 + sz fs i ≤ n) (hx : x < a ∨ a + n ≤ x) : st fs i m a v x = m x :=
  writeLE_out (by omega)

theorem inv_newPhys (hk : k.Ok) {m : Mem} {s : Abs} {a t : Nat} (hi : Inv k m s) (hf : Fresh k s a (size (af k))) (ht : t < 2 ^ 32) :
    Inv k (accelInit k m a t) (s.set a (some (.phys t 0))) := by
  have hl := alay hk
  refine inv_new hk hi hf (by simp only [Obj.size]; omega) ?_ ?_ (by intro _ _ _ _ _ _ h; cases h)
  · intro x hx
    simp only [Obj.size] at hx
    simp only [accelInit]
    rw [st_out (n := size (af k)) _ hx, st_out (n := size (af k)) _ hx, st_out (n := size (af k)) _ hx, st_out (n := size (af k)) _ hx, st_out (n := size (af k)) _ hx]
    · rw [of3, show sz of 3 = 4 from rfl]; omega
    · rw [show sz (af k) 5 = 8 from rfl]; omega
    · rw [a1, show sz (af k) 1 = 4 from rfl]; omega
    · rw [a2, show sz (af k) 2 = 4 from rfl]; omega
    · rw [show sz (af k) 6 = 8 from rfl]; omega
  · simp only [accelInit, st, of3, a1, a2, show sz of 3 = 4 from rfl, show sz (af k) 5 = 8 from rfl, show sz (af k) 1 = 4 from rfl, show sz (af k) 2 = 4 from rfl,
      show sz (af k) 6 = 8 from rfl]
    refine ⟨?_, ?_, ?_, ?_⟩
    · rw [read_write_ne _ _ _ _ _ _ (by omega), read_write_ne _ _ _ _ _ _ (by omega), read_write_ne _ _ _ _ _ _ (by omega), read_write_ne _ _ _ _ _ _ (by omega), read_write]
    · rw [read_write_ne _ _ _ _ _ _ (by omega), read_write_ne _ _ _ _ _ _ (by omega), read_write]; omega
    · rw [read_write_ne _ _ _ _ _ _ (by omega), read_write]
    · rw [read_write]

/-- The stores of `arax_vaccel_init` before the accelerator is linked. -/
def vinit (k : K) (m : Mem) (a type : Nat) : Mem :=
  st (vf k) 2 (st (vf k) 8 (st (vf k) 1 (st (vf k) 6 (st (vf k) 5 (st (vf k) 7 (st of 3 m a 1) a 0) a (2 ^ 64 - 1)) a (2 ^ 64 - 1)) a type) a 0) a 0

theorem vaccelInit_eq (m : Mem) (a type p : Nat) : vaccelInit k m a type p = if p = 0 then some (vinit k m a type) else addVaccel k (vinit k m a type) p a := rfl

theorem inv_newVirt (hk : k.Ok) {m : Mem} {s : Abs} {a t : Nat} (hi : Inv k m s) (hf : Fresh k s a (size (vf k))) (ht : t < 2 ^ 32) :
    Inv k (vinit k m a t) (s.set a (some (.virt t 0 (2 ^ 64 - 1) (2 ^ 64 - 1) 0 0))) := by
  have hl := vlay hk
  refine inv_new hk hi hf (by simp only [Obj.size]; omega) ?_ ?_ (by intro _ _ _ _ _ _ h; cases h; rfl)
  · intro x hx
    simp only [Obj.size] at hx
    simp only [vinit]
    rw [st_out (n := size (vf k)) _ hx, st_out (n := size (vf k)) _ hx, st_out (n := size (vf k)) _ hx, st_out (n := size (vf k)) _ hx, st_out (n := size (vf k)) _ hx,
      st_out (n := size (vf k)) _ hx, st_out (n := size (vf k)) _ hx]
    · rw [of3, show sz of 3 = 4 from rfl]; omega
    · rw [show sz (vf k) 7 = 8 from rfl]; omega
    · rw [show sz (vf k) 5 = 8 from rfl]; omega
    · rw [show sz (vf k) 6 = 8 from rfl]; omega
    · rw [v1, show sz (vf k) 1 = 4 from rfl]; omega
    · rw [show sz (vf k) 8 = 8 from rfl]; omega
    · rw [v2, show sz (vf k) 2 = 4 from rfl]; omega
  · simp only [Holds, vinit, st, of3, v1, v2, show sz of 3 = 4 from rfl, show sz (vf k) 5 = 8 from rfl, show sz (vf k) 1 = 4 from rfl, show sz (vf k) 2 = 4 from rfl,
      show sz (vf k) 6 = 8 from rfl, show sz (vf k) 7 = 8 from rfl, show sz (vf k) 8 = 8 from rfl]
    generalize off (vf k) 5 0 = e5 at *
    generalize off (vf k) 6 0 = e6 at *
    generalize off (vf k) 7 0 = e7 at *
    generalize off (vf k) 8 0 = e8 at *
    refine ⟨?_, ?_, ?_, ?_, ?_, ?_, ?_⟩
    · iterate 6 rw [read_write_ne _ _ _ _ _ _ (by omega)]
      rw [read_write]
    · iterate 2 rw [read_write_ne _ _ _ _ _ _ (by omega)]
      rw [read_write]; omega
    · rw [read_write]
    · iterate 4 rw [read_write_ne _ _ _ _ _ _ (by omega)]
      rw [read_write]
    · iterate 3 rw [read_write_ne _ _ _ _ _ _ (by omega)]
      rw [read_write]
    · iterate 5 rw [read_write_ne _ _ _ _ _ _ (by omega)]
      rw [read_write]
    · iterate 1 rw [read_write_ne _ _ _ _ _ _ (by omega)]
      rw [read_write]

/-- The link of a virtual accelerator. -/
theorem link_eq {m : Mem} {s : Abs} {a t o c q md p : Nat} (hi : Inv k m s) (ha : s a = some (.virt t o c q md p)) : ld (vf k) 7 m a = p :=
  (hi.holds _ _ ha).2.2.2.2.2.1

theorem bump_set_ne (s : Abs) {a p : Nat} {o : Option Obj} {t r : Nat} (hp : s p = some (.phys t r)) (h : p ≠ a) :
    (s.set a o) p = some (.phys t r) := by rw [set_ne _ _ h, hp]

/-- `arax_accel_add_vaccel` of a virtual accelerator that has no physical one. -/
theorem inv_add (hk : k.Ok) {m m' : Mem} {s : Abs} {v p t o c q md : Nat} (hi : Inv k m s) (hv : s v = some (.virt t o c q md 0))
    (hp : ∃ t r, s p = some (.phys t r)) (h : addVaccel k m p v = some m') : Inv k m' ((s.set v (some (.virt t o c q md p))).bump p) := by
  obtain ⟨t', r', hp⟩ := hp
  have h0 : p ≠ 0 := by have := (hi.bound _ _ hp).1; omega
  have hne : p ≠ v := by rintro rfl; rw [hv] at hp; cases hp
  rw [addVaccel, link_eq hi hv, if_neg (fun e => h0 e.symm), if_pos rfl] at h
  rw [← Option.some.inj h]
  exact inv_rev hk (inv_phys hk hi hv (.inr ⟨t', r', hp⟩)) (bump_set_ne s hp hne)

theorem inv_step (hk : k.Ok) {m m' : Mem} {s s' : Abs} {op : Op} (hi : Inv k m s) (hl : Legal k s op) (hs : Step s op s') (hr : run k m op = some m') : Inv k m' s' := by
  cases hs with
  | newPhys => rw [← Option.some.inj hr]; exact inv_newPhys hk hi hl.1 hl.2
  | orphan =>
    simp only [run, vaccelInit_eq, if_pos] at hr
    rw [← Option.some.inj hr]; exact inv_newVirt hk hi hl.1 hl.2.1
  | @newVirt a t p hp =>
    simp only [run, vaccelInit_eq, if_neg hp] at hr
    have h1 := inv_newVirt hk (t := t) hi hl.1 hl.2.1
    obtain ⟨t', r', hpp⟩ := hl.2.2.resolve_left hp
    have hne : p ≠ a := by
      rintro rfl
      have h2 := hl.1.2.2 p _ hpp
      have h3 := alay hk
      simp only [Obj.size] at h2
      have h4 := vlay hk
      omega
    have h2 := inv_add hk h1 (set_eq ..) ⟨t', r', bump_set_ne s hpp hne⟩ hr
    have e : ∀ (x y : Option Obj), (s.set a x).set a y = s.set a y := by intro x y; funext z; simp only [Abs.set]; split <;> rfl
    rw [e] at h2
    exact h2
  | @cid a v t o c q md p ha =>
    simp only [run, setCid, setPriority, setOrdering, setMeta] at hr
    simp only [Legal] at hl
    rw [← Option.some.inj hr]
    exact inv_cid hk hi ha hl
  | @priority a v t o c q md p ha =>
    simp only [run, setCid, setPriority, setOrdering, setMeta] at hr
    simp only [Legal] at hl
    rw [← Option.some.inj hr]
    exact inv_priority hk hi ha hl
  | @ordering a v t o c q md p ha =>
    simp only [run, setCid, setPriority, setOrdering, setMeta] at hr
    simp only [Legal] at hl
    rw [← Option.some.inj hr]
    exact inv_ordering hk hi ha hl
  | @md a v t o c q md p ha =>
    simp only [run, setCid, setPriority, setOrdering, setMeta] at hr
    simp only [Legal] at hl
    rw [← Option.some.inj hr]
    exact inv_md hk hi ha hl
  | add hv => exact inv_add hk hi hv hl hr
  | again hv =>
    simp only [run, addVaccel, link_eq hi hv, if_pos] at hr
    rw [← Option.some.inj hr]; exact hi
  | @del v p t o c q md hv =>
    simp only [run, delVaccel, link_eq hi hv, if_pos] at hr
    rw [← Option.some.inj hr]
    obtain ⟨t', r', hp⟩ := hl
    have hne : p ≠ v := by rintro rfl; rw [hv] at hp; cases hp
    exact inv_rev hk (inv_phys hk hi hv (.inl rfl)) (bump_set_ne s hp hne)
  | @free a =>
    rw [← Option.some.inj hr]
    have key : ∀ b ob, s.set a none b = some ob → b ≠ a ∧ s b = some ob := by
      intro b ob h
      by_cases e : b = a
      · subst e; rw [set_eq] at h; cases h
      · rw [set_ne _ _ e] at h; exact ⟨e, h⟩
    refine ⟨fun b ob h => hi.holds _ _ (key _ _ h).2, fun b ob h => hi.bound _ _ (key _ _ h).2,
      fun b ob c oc h h' => hi.apart _ _ _ _ (key _ _ h).2 (key _ _ h').2, ?_⟩
    intro b t o c q md p h
    rcases hi.link _ _ _ _ _ _ _ (key _ _ h).2 with h1 | ⟨t', r', h1⟩
    · exact .inl h1
    · refine .inr ⟨t', r', ?_⟩
      by_cases e : p = a
      · subst e; exact absurd rfl (hl t' r' h1 b t o c q md p (key _ _ h).2)
      · rw [set_ne _ _ e, h1]
  | @other x b =>
    rw [← Option.some.inj hr]
    refine ⟨fun a o h => holds_congr (fun y h1 h2 => ?_) (hi.holds _ _ h), hi.bound, hi.apart, hi.link⟩
    exact if_neg (by rintro rfl; exact hl a o h h1 h2)

theorem inv_reach (hk : k.Ok) {m : Mem} {s : Abs} (h : Reach k m s) : Inv k m s := by
  induction h with
  | init => exact ⟨fun _ _ h => (nomatch h), fun _ _ h => (nomatch h), fun _ _ _ _ h => (nomatch h), fun _ _ _ _ _ _ _ h => (nomatch h)⟩
  | step _ hl hs hr ih => exact inv_step hk ih hl hs hr

end Arax.Attr
