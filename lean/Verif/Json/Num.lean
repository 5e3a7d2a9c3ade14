import Verif.Json.Lex
/-!
# C85: numbers
-/
namespace Arax.Json

theorem digVal_gen (ds : List Nat) (a : Nat) : ds.foldl (fun a d => a * 10 + (d - 48)) a = a * 10 ^ ds.length + decimal ds := by
  induction ds generalizing a with
  | nil => simp [decimal]
  | cons d ds ih =>
    rw [List.foldl_cons, ih, decimal, List.length_cons, Nat.pow_succ, Nat.add_mul, Nat.mul_assoc, Nat.mul_comm 10, Nat.add_assoc]

theorem digVal_decimal (ds : List Nat) : digVal ds = decimal ds := by
  unfold digVal; rw [digVal_gen]; simp

theorem isDig_iff (c : Nat) : isDig c = true ↔ 48 ≤ c ∧ c ≤ 57 := by
  unfold isDig; simp

theorem digs_all (ds : List Nat) : ds.all isDig = true ↔ Digs ds := by
  rw [List.all_eq_true]
  exact forall_congr' fun d => forall_congr' fun _ => isDig_iff d

theorem take_digs (ds t : List Nat) (hd : Digs ds) (ht : ∀ c, t.head? = some c → isDig c = false) :
    (ds ++ t).takeWhile isDig = ds ∧ (ds ++ t).dropWhile isDig = t := by
  induction ds with
  | nil =>
    cases t with
    | nil => exact ⟨rfl, rfl⟩
    | cons c t =>
      have := ht c rfl
      constructor
      · rw [List.nil_append, List.takeWhile_cons_of_neg (by simp [this])]
      · rw [List.nil_append, List.dropWhile_cons_of_neg (by simp [this])]
  | cons d ds ih =>
    have h1 : isDig d = true := (isDig_iff d).2 (hd d (List.mem_cons_self ..))
    have := ih (fun x hx => hd x (List.mem_cons_of_mem _ hx))
    constructor
    · rw [List.cons_append, List.takeWhile_cons_of_pos h1, this.1]
    · rw [List.cons_append, List.dropWhile_cons_of_pos h1, this.2]

/-- The sign character. (No code of its own.) -/
def sgnText (neg : Bool) : List Nat := if neg then [45] else []

theorem sign_dig (c : Nat) (t : List Nat) (h1 : c ≠ 45) (h2 : c ≠ 43) : sign (c :: t) = (false, c :: t) := by
  rw [sign.eq_def]
  split
  · next h => exact absurd (List.cons.inj h).1 h1
  · next h => exact absurd (List.cons.inj h).1 h2
  · rfl

theorem sign_text (neg : Bool) (t : List Nat) (h : neg = false → ∃ c t', t = c :: t' ∧ isDig c = true) : sign (sgnText neg ++ t) = (neg, t) := by
  cases neg with
  | true => rfl
  | false =>
    obtain ⟨c, t', rfl, hc⟩ := h rfl
    have := (isDig_iff c).1 hc
    exact sign_dig c t' (by omega) (by omega)

/-- The text of the fraction. (No code of its own.) -/
def fracText : Option (List Nat) → List Nat
  | none => []
  | some f => 46 :: f

/-- The text of the exponent. (No code of its own.) -/
def expText : Option (Nat × List Nat × List Nat) → List Nat
  | none => []
  | some (l, sg, ds) => l :: (sg ++ ds)

theorem text_eq (p : NumParts) : p.text = sgnText p.neg ++ (p.ip ++ (fracText p.fp ++ expText p.ex)) := by
  obtain ⟨neg, ip, fp, ex⟩ := p
  unfold NumParts.text sgnText
  cases fp <;> cases ex <;> simp [fracText, expText]

/-- The form of the numbers that are read. (No code of its own.) -/
structure Form (p : NumParts) : Prop where
  ip : Digs p.ip
  fp : ∀ f, p.fp = some f → Digs f
  some : p.ip = [] → p.neg = true ∧ p.fp.getD [] ≠ []
  ex : p.ExOk

theorem ex_head {p : NumParts} (h : Form p) (c : Nat) (hc : (expText p.ex).head? = some c) : c = 101 ∨ c = 69 := by
  cases he : p.ex with
  | none => rw [he] at hc; cases hc
  | some x =>
    obtain ⟨l, sg, ds⟩ := x
    rw [he] at hc
    rw [← Option.some.inj hc]
    exact (h.ex l sg ds he).1

theorem ex_head_dig {p : NumParts} (h : Form p) (c : Nat) (hc : (expText p.ex).head? = some c) : isDig c = false := by
  rcases ex_head h c hc with e | e <;> rw [e] <;> rfl

theorem tail_head_dig {p : NumParts} (h : Form p) (c : Nat) (hc : (fracText p.fp ++ expText p.ex).head? = some c) : isDig c = false := by
  cases hf : p.fp with
  | none => rw [hf] at hc; exact ex_head_dig h c hc
  | some f =>
    rw [hf] at hc
    rw [← Option.some.inj hc]; rfl

theorem strtodExp_text {p : NumParts} (h : Form p) :
    strtodExp (expText p.ex) = some (match p.ex with | none => 0 | some (_, sg, ds) => if sg = [45] then -(decimal ds : Int) else decimal ds) := by
  cases he : p.ex with
  | none => rfl
  | some x =>
    obtain ⟨l, sg, ds⟩ := x
    obtain ⟨hl, hsg, hne, hd⟩ := h.ex l sg ds he
    have hall := (digs_all ds).2 hd
    unfold strtodExp expText
    dsimp only
    rw [if_pos hl]
    rcases hsg with e | e | e
    · subst e
      obtain ⟨c, t, rfl⟩ : ∃ c t, ds = c :: t := by cases ds with | nil => exact absurd rfl hne | cons c t => exact ⟨c, t, rfl⟩
      have := hd c (List.mem_cons_self ..)
      rw [List.nil_append, sign_dig c t (by omega) (by omega)]
      dsimp only
      rw [if_pos ⟨hne, hall⟩, digVal_decimal]
      rfl
    · subst e
      rw [show sign ([43] ++ ds) = (false, ds) from rfl]
      dsimp only
      rw [if_pos ⟨hne, hall⟩, digVal_decimal]
      rfl
    · subst e
      rw [show sign ([45] ++ ds) = (true, ds) from rfl]
      dsimp only
      rw [if_pos ⟨hne, hall⟩, digVal_decimal]
      rfl

theorem head_ok {p : NumParts} (h : Form p) : p.neg = false → ∃ c t', p.ip ++ (fracText p.fp ++ expText p.ex) = c :: t' ∧ isDig c = true := by
  intro hn
  cases hi : p.ip with
  | nil => have := (h.some hi).1; rw [hn] at this; cases this
  | cons c t => exact ⟨c, _, rfl, (isDig_iff c).2 (h.ip c (by rw [hi]; exact List.mem_cons_self ..))⟩

theorem strtod_text {p : NumParts} (h : Form p) : strtod p.text = some (p.mant, p.exp) := by
  have hsig := sign_text p.neg (p.ip ++ (fracText p.fp ++ expText p.ex)) (head_ok h)
  have htk := take_digs p.ip (fracText p.fp ++ expText p.ex) h.ip (tail_head_dig h)
  have hexp := strtodExp_text h
  rw [text_eq]
  unfold strtod
  rw [hsig]
  dsimp only
  rw [htk.1, htk.2]
  unfold NumParts.mant NumParts.exp
  cases hf : p.fp with
  | none =>
    have hne : p.ip ≠ [] := by intro e; have := (h.some e).2; rw [hf] at this; exact this rfl
    have hm : ∀ u : List Nat, (∀ c, u.head? = some c → c = 101 ∨ c = 69) →
        strtodFrac u = (([] : List Nat), u) := by
      intro u hu
      unfold strtodFrac
      split
      · next v => have := hu 46 rfl; omega
      · rfl
    rw [show fracText none ++ expText p.ex = expText p.ex from rfl, hm _ (ex_head h)]
    dsimp only
    rw [if_neg (by rintro ⟨e, _⟩; exact hne e), hexp]
    simp only [digVal_decimal, signed, Option.getD_none, List.append_nil]
    rfl
  | some f =>
    have hfd := h.fp f hf
    have htk2 := take_digs f (expText p.ex) hfd (ex_head_dig h)
    rw [show fracText (some f) ++ expText p.ex = 46 :: (f ++ expText p.ex) from rfl,
      show strtodFrac (46 :: (f ++ expText p.ex)) = ((f ++ expText p.ex).takeWhile isDig, (f ++ expText p.ex).dropWhile isDig) from rfl]
    dsimp only
    rw [htk2.1, htk2.2, if_neg (by rintro ⟨e1, e2⟩; have := (h.some e1).2; rw [hf] at this; exact this e2), hexp]
    simp only [digVal_decimal, signed, Option.getD_some]
    rfl

/-- The number is written as an integer and fits 64 bits. (No code of its own.) -/
abbrev NumParts.IsInt (p : NumParts) : Prop := p.fp = none ∧ p.ex = none ∧ -(2 ^ 63) ≤ p.mant ∧ p.mant < 2 ^ 63

theorem strtoimax_yes {p : NumParts} (h : Form p) (hi : p.IsInt) : strtoimax p.text = some p.mant := by
  obtain ⟨h1, h2, h3, h4⟩ := hi
  have hne : p.ip ≠ [] := by intro e; have := (h.some e).2; rw [h1] at this; exact this rfl
  have hsig := sign_text p.neg (p.ip ++ (fracText p.fp ++ expText p.ex)) (head_ok h)
  rw [text_eq]
  unfold strtoimax
  rw [hsig, h1, h2]
  dsimp only
  rw [show p.ip ++ (fracText none ++ expText none) = p.ip from by simp [fracText, expText], if_pos ⟨hne, (digs_all _).2 h.ip⟩, digVal_decimal]
  have hm : p.mant = signed p.neg (decimal p.ip) := by
    unfold NumParts.mant signed
    rw [h1, Option.getD_none, List.append_nil]
  rw [← hm, if_pos ⟨h3, h4⟩]

theorem strtoimax_no {p : NumParts} (h : Form p) (hi : ¬ p.IsInt) : strtoimax p.text = none := by
  have hsig := sign_text p.neg (p.ip ++ (fracText p.fp ++ expText p.ex)) (head_ok h)
  rw [text_eq]
  unfold strtoimax
  rw [hsig]
  dsimp only
  by_cases hc : p.fp = none ∧ p.ex = none
  · rw [hc.1, hc.2, show p.ip ++ (fracText none ++ expText none) = p.ip from by simp [fracText, expText]]
    have hm : p.mant = signed p.neg (decimal p.ip) := by
      unfold NumParts.mant signed
      rw [hc.1, Option.getD_none, List.append_nil]
    split
    · rw [digVal_decimal, ← hm, if_neg (fun hr => hi ⟨hc.1, hc.2, hr⟩)]
    · rfl
  · rw [if_neg]
    rintro ⟨_, hall⟩
    rw [digs_all] at hall
    cases hf : p.fp with
    | some f =>
      have := hall 46 (by rw [hf]; simp [fracText])
      omega
    | none =>
      cases he : p.ex with
      | none => exact hc ⟨hf, he⟩
      | some x =>
        obtain ⟨l, sg, ds⟩ := x
        have := hall l (by rw [he]; simp [expText])
        have := (h.ex l sg ds he).1
        omega

theorem sign_parts (t : List Nat) : ∃ sg, (sg = [] ∨ sg = [43] ∨ sg = [45]) ∧ t = sg ++ (sign t).2 ∧ ((sign t).1 = true ↔ sg = [45]) := by
  rw [sign.eq_def]
  split
  · exact ⟨[45], .inr (.inr rfl), rfl, by simp⟩
  · exact ⟨[43], .inr (.inl rfl), rfl, by simp⟩
  · exact ⟨[], .inl rfl, rfl, by simp⟩

theorem strtodExp_sound {u : List Nat} {e : Int} (h : strtodExp u = some e) :
    ∃ ex, u = expText ex ∧ (∀ l sg ds, ex = some (l, sg, ds) → (l = 101 ∨ l = 69) ∧ (sg = [] ∨ sg = [43] ∨ sg = [45]) ∧ ds ≠ [] ∧ Digs ds) := by
  unfold strtodExp at h
  cases u with
  | nil => exact ⟨none, rfl, fun _ _ _ e => by cases e⟩
  | cons c t =>
    dsimp only at h
    by_cases hc : c = 101 ∨ c = 69
    · rw [if_pos hc] at h
      obtain ⟨sg, hsg, ht, _⟩ := sign_parts t
      by_cases hd : (sign t).2 ≠ [] ∧ (sign t).2.all isDig
      · refine ⟨some (c, sg, (sign t).2), by show c :: t = c :: (sg ++ (sign t).2); rw [← ht], ?_⟩
        intro l sg' ds e
        cases e
        exact ⟨hc, hsg, hd.1, (digs_all _).1 hd.2⟩
      · rw [if_neg hd] at h; cases h
    · rw [if_neg hc] at h; cases h

theorem takeWhile_digs (t : List Nat) : Digs (t.takeWhile isDig) := by
  intro d hd
  have h : ∀ l : List Nat, ∀ x ∈ l.takeWhile isDig, isDig x = true := by
    intro l
    induction l with
    | nil => intro x hx; cases hx
    | cons c l ih =>
      intro x hx
      by_cases hc : isDig c = true
      · rw [List.takeWhile_cons_of_pos hc] at hx
        rcases List.mem_cons.1 hx with rfl | hx
        · exact hc
        · exact ih x hx
      · rw [List.takeWhile_cons_of_neg hc] at hx; cases hx
  exact (isDig_iff d).1 (h t d hd)

/-- The text starts with a digit or `-` (picojson.h:1001). -/
def StartOk (s : List Nat) : Prop := ∃ c t, s = c :: t ∧ (isDig c = true ∨ c = 45)

theorem start_sign {s : List Nat} (h : StartOk s) : s = sgnText (sign s).1 ++ (sign s).2 ∧ ((sign s).1 = false → ∃ c t, (sign s).2 = c :: t ∧ isDig c = true) := by
  obtain ⟨c, t, rfl, hc⟩ := h
  rcases hc with hc | rfl
  · have := (isDig_iff c).1 hc
    rw [sign_dig c t (by omega) (by omega)]
    exact ⟨rfl, fun _ => ⟨c, t, rfl, hc⟩⟩
  · exact ⟨rfl, fun e => by cases e⟩

theorem strtoimax_sound {s : List Nat} {v : Int} (hs : StartOk s) (h : strtoimax s = some v) : ∃ p, s = p.text ∧ Form p ∧ p.IsInt ∧ v = p.mant := by
  obtain ⟨h1, h2⟩ := start_sign hs
  have h' := h
  unfold strtoimax at h
  dsimp only at h
  by_cases hd : (sign s).2 ≠ [] ∧ (sign s).2.all isDig
  · let p : NumParts := { neg := (sign s).1, ip := (sign s).2, fp := none, ex := none }
    have ht : s = p.text := by rw [text_eq]; simpa [p, fracText, expText] using h1
    have hf : Form p := ⟨(digs_all _).1 hd.2, fun f e => (by cases e), fun e => absurd e hd.1, fun _ _ _ e => (by cases e)⟩
    by_cases hi : p.IsInt
    · refine ⟨p, ht, hf, hi, ?_⟩
      have := strtoimax_yes hf hi
      rw [← ht, h'] at this
      exact Option.some.inj this
    · have := strtoimax_no hf hi
      rw [← ht, h'] at this
      cases this
  · rw [if_neg hd] at h; cases h

theorem strtod_sound {s : List Nat} {m e : Int} (hs : StartOk s) (h : strtod s = some (m, e)) : ∃ p, s = p.text ∧ Form p ∧ m = p.mant ∧ e = p.exp := by
  obtain ⟨h1, h2⟩ := start_sign hs
  have h' := h
  suffices hp : ∃ p : NumParts, s = p.text ∧ Form p by
    obtain ⟨p, ht, hf⟩ := hp
    have := strtod_text hf
    rw [← ht, h'] at this
    have := Option.some.inj this
    exact ⟨p, ht, hf, (Prod.mk.inj this).1, (Prod.mk.inj this).2⟩
  unfold strtod at h
  dsimp only at h
  have hsplit := List.takeWhile_append_dropWhile (p := isDig) (l := (sign s).2)
  have hip0 : (sign s).2.takeWhile isDig = [] → (sign s).1 = true := by
    intro e
    cases hb : (sign s).1 with
    | true => rfl
    | false =>
      obtain ⟨c, t, hc, hd⟩ := h2 hb
      rw [hc, List.takeWhile_cons_of_pos hd] at e
      cases e
  by_cases hdot : ∃ u, (sign s).2.dropWhile isDig = 46 :: u
  · obtain ⟨u, hu⟩ := hdot
    rw [hu, show strtodFrac (46 :: u) = (u.takeWhile isDig, u.dropWhile isDig) from rfl] at h
    dsimp only at h
    split at h
    · cases h
    · next hnb =>
      cases hE : strtodExp (u.dropWhile isDig) with
      | none => rw [hE] at h; cases h
      | some x =>
        obtain ⟨ex, hex, hok⟩ := strtodExp_sound hE
        refine ⟨{ neg := (sign s).1, ip := (sign s).2.takeWhile isDig, fp := some (u.takeWhile isDig), ex := ex }, ?_, ?_⟩
        · rw [text_eq]
          dsimp only
          rw [← hex]
          have : fracText (some (u.takeWhile isDig)) ++ u.dropWhile isDig = 46 :: u := by
            rw [fracText, List.cons_append, List.takeWhile_append_dropWhile]
          rw [this, ← hu, List.takeWhile_append_dropWhile]
          exact h1
        · refine ⟨takeWhile_digs _, fun f e => ?_, fun e => ⟨hip0 e, fun e2 => hnb ⟨e, e2⟩⟩, hok⟩
          cases e
          exact takeWhile_digs _
  · have hm : strtodFrac ((sign s).2.dropWhile isDig) = (([] : List Nat), (sign s).2.dropWhile isDig) := by
      unfold strtodFrac
      split
      · next u hu => exact absurd ⟨u, hu⟩ hdot
      · rfl
    rw [hm] at h
    dsimp only at h
    split at h
    · cases h
    · next hnb =>
      cases hE : strtodExp ((sign s).2.dropWhile isDig) with
      | none => rw [hE] at h; cases h
      | some x =>
        obtain ⟨ex, hex, hok⟩ := strtodExp_sound hE
        refine ⟨{ neg := (sign s).1, ip := (sign s).2.takeWhile isDig, fp := none, ex := ex }, ?_, ?_⟩
        · rw [text_eq]
          dsimp only
          rw [← hex, fracText, List.nil_append, List.takeWhile_append_dropWhile]
          exact h1
        · exact ⟨takeWhile_digs _, fun f e => (by cases e), fun e => absurd ⟨e, rfl⟩ hnb, hok⟩

theorem lax_form {t : List Nat} {v : JVal} : Lax t v ↔ ∃ p : NumParts, t = p.text ∧ Form p ∧ (p.Holds ∨ p.IsInt) ∧ p.Denotes v := by
  constructor
  · rintro ⟨p, h1, h2, h3, h4, h5, h6, h7⟩
    exact ⟨p, h1, ⟨h2, h3, h4, h5⟩, h6, h7⟩
  · rintro ⟨p, h1, h2, h6, h7⟩
    exact ⟨p, h1, h2.ip, h2.fp, h2.some, h2.ex, h6, h7⟩

theorem strict_lax {t : List Nat} {v : JVal} (h : Strict t v) : Lax t v := by
  obtain ⟨p, h1, h2, h3, h4, h5, h6, h7⟩ := h
  refine ⟨p, h1, h2, fun f hf => (h4 f hf).2, fun e => ?_, h5, .inl h6, h7⟩
  rcases h3 with h3 | h3
  · rw [h3] at e; cases e
  · exact absurd e h3.1

theorem digs_num {ds : List Nat} (h : Digs ds) : ds.all isNum = true := by
  rw [List.all_eq_true]
  intro d hd
  have := h d hd
  unfold isNum
  simp only [Bool.or_eq_true, Bool.and_eq_true, decide_eq_true_eq]
  omega

theorem text_num {p : NumParts} (h : Form p) : p.text.all isNum = true := by
  rw [text_eq, List.all_append, List.all_append, List.all_append]
  simp only [Bool.and_eq_true]
  refine ⟨?_, digs_num h.ip, ?_, ?_⟩
  · cases p.neg <;> rfl
  · cases hf : p.fp with
    | none => rfl
    | some f =>
      rw [fracText, List.all_cons, digs_num (h.fp f hf)]
      rfl
  · cases he : p.ex with
    | none => rfl
    | some x =>
      obtain ⟨l, sg, ds⟩ := x
      obtain ⟨hl, hsg, _, hd⟩ := h.ex l sg ds he
      rw [expText, List.all_cons, List.all_append, digs_num hd]
      have h1 : isNum l = true := by rcases hl with rfl | rfl <;> rfl
      have h2 : sg.all isNum = true := by rcases hsg with rfl | rfl | rfl <;> rfl
      rw [h1, h2]
      rfl

theorem text_start {p : NumParts} (h : Form p) : StartOk p.text := by
  rw [text_eq]
  cases hn : p.neg with
  | true => exact ⟨45, _, rfl, .inr rfl⟩
  | false =>
    obtain ⟨c, t, e, hc⟩ := head_ok h hn
    exact ⟨c, t, by rw [e]; rfl, .inl hc⟩

theorem take_num (s r : List Nat) (hs : s.all isNum = true) (hr : ∀ c, r.head? = some c → isNum c = false) :
    (s ++ r).takeWhile isNum = s ∧ (s ++ r).dropWhile isNum = r := by
  induction s with
  | nil =>
    cases r with
    | nil => exact ⟨rfl, rfl⟩
    | cons c r =>
      have := hr c rfl
      constructor
      · rw [List.nil_append, List.takeWhile_cons_of_neg (by simp [this])]
      · rw [List.nil_append, List.dropWhile_cons_of_neg (by simp [this])]
  | cons d s ih =>
    rw [List.all_cons, Bool.and_eq_true] at hs
    have := ih hs.2
    constructor
    · rw [List.cons_append, List.takeWhile_cons_of_pos hs.1, this.1]
    · rw [List.cons_append, List.dropWhile_cons_of_pos hs.1, this.2]

/-- Nothing that could continue a number. (No code of its own.) -/
def Stop (r : List Nat) : Prop := ∀ c, r.head? = some c → isNum c = false

theorem number_yes {t r : List Nat} {v : JVal} {i : In} (h : Lax t v) (hr : Stop r) (hi : At (ungetc i) (t ++ r)) :
    ∃ j, number i = .ok v j ∧ At j r := by
  obtain ⟨p, rfl, hf, hh, hd⟩ := lax_form.1 h
  obtain ⟨j, e, a⟩ := numLoop_at ((ungetc i).cur.length + 1) [] _ (ungetc i) hi (by have := at_len hi; omega)
  have ht := take_num p.text r (text_num hf) hr
  rw [ht.1, List.nil_append] at e
  rw [ht.2] at a
  refine ⟨j, ?_, a⟩
  obtain ⟨c, t', hs, _⟩ := text_start hf
  unfold number
  dsimp only
  rw [e]
  dsimp only
  rw [if_neg (by rw [hs]; exact fun e => by cases e)]
  by_cases hint : p.IsInt
  · rw [strtoimax_yes hf hint]
    unfold NumParts.Denotes at hd
    rw [if_pos hint] at hd
    rw [hd]
  · rw [strtoimax_no hf hint]
    dsimp only
    rw [strtod_text hf]
    dsimp only
    unfold NumParts.Denotes at hd
    rw [if_neg hint] at hd
    have : finite p.mant p.exp = true := hh.resolve_right hint
    rw [if_pos this, hd]

theorem dropWhile_stop (t : List Nat) : Stop (t.dropWhile isNum) := by
  induction t with
  | nil => intro c hc; cases hc
  | cons d t ih =>
    by_cases h : isNum d = true
    · rw [List.dropWhile_cons_of_pos h]; exact ih
    · rw [List.dropWhile_cons_of_neg h]
      intro c hc
      rw [← Option.some.inj hc]
      simpa using h

theorem number_sound {c : Nat} {t : List Nat} {v : JVal} {i j : In} (hc : isDig c = true ∨ c = 45) (hi : At (ungetc i) (c :: t))
    (e : number i = .ok v j) : ∃ p r, c :: t = p ++ r ∧ At j r ∧ Lax p v ∧ Stop r := by
  obtain ⟨k, en, a⟩ := numLoop_at ((ungetc i).cur.length + 1) [] _ (ungetc i) hi (by have := at_len hi; omega)
  unfold number at e
  dsimp only at e
  rw [en] at e
  dsimp only at e
  rw [List.nil_append] at e
  have hcn : isNum c = true := by
    rcases hc with h | h
    · have := (isDig_iff c).1 h
      unfold isNum
      simp only [Bool.or_eq_true, Bool.and_eq_true, decide_eq_true_eq]
      omega
    · rw [h]; rfl
  have hst : StartOk ((c :: t).takeWhile isNum) := by
    rw [List.takeWhile_cons_of_pos hcn]
    exact ⟨c, _, rfl, hc⟩
  have hne : (c :: t).takeWhile isNum ≠ [] := by
    rw [List.takeWhile_cons_of_pos hcn]; exact fun e => by cases e
  rw [if_neg hne] at e
  have hsp := (List.takeWhile_append_dropWhile (p := isNum) (l := c :: t)).symm
  cases h1 : strtoimax ((c :: t).takeWhile isNum) with
  | some x =>
    rw [h1] at e
    dsimp only at e
    cases e
    obtain ⟨p, ht, hf, hint, rfl⟩ := strtoimax_sound hst h1
    refine ⟨_, _, hsp, a, lax_form.2 ⟨p, ht, hf, .inr hint, ?_⟩, dropWhile_stop _⟩
    unfold NumParts.Denotes
    rw [if_pos hint]
  | none =>
    rw [h1] at e
    dsimp only at e
    cases h2 : strtod ((c :: t).takeWhile isNum) with
    | none => rw [h2] at e; cases e
    | some me =>
      obtain ⟨m, x⟩ := me
      rw [h2] at e
      dsimp only at e
      by_cases hfin : finite m x = true
      · rw [if_pos hfin] at e
        cases e
        obtain ⟨p, ht, hf, rfl, rfl⟩ := strtod_sound hst h2
        refine ⟨_, _, hsp, a, lax_form.2 ⟨p, ht, hf, .inl hfin, ?_⟩, dropWhile_stop _⟩
        unfold NumParts.Denotes
        rw [if_neg]
        intro hint
        rw [ht, strtoimax_yes hf hint] at h1
        cases h1
      · rw [if_neg hfin] at e; cases e

end Arax.Json
