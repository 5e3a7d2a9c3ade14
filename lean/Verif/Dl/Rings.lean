import Verif.Dl.Links
/-!
# Circular doubly linked lists
-/
namespace Arax.Dl

/-- `fd` leads from `x` through `xs` to `z`, and `bk` back. (No code of its own.) -/
def Path (fd bk : Nat → Nat) : Nat → List Nat → Nat → Prop
  | x, [], z => fd x = z ∧ bk z = x
  | x, y :: ys, z => fd x = y ∧ bk y = x ∧ Path fd bk y ys z

/-- The ring of `a` and then `xs`. (No code of its own.) -/
def Ring (fd bk : Nat → Nat) (a : Nat) (xs : List Nat) : Prop := (a :: xs).Nodup ∧ Path fd bk a xs a

theorem path_congr {fd bk fd' bk' : Nat → Nat} : ∀ {x : Nat} {xs : List Nat} {z : Nat}, (∀ y ∈ x :: xs, fd' y = fd y) → (∀ y ∈ xs ++ [z], bk' y = bk y) → Path fd bk x xs z → Path fd' bk' x xs z
  | x, [], z, hf, hb, h => ⟨by rw [hf x (by simp)]; exact h.1, by rw [hb z (by simp)]; exact h.2⟩
  | x, y :: ys, z, hf, hb, h =>
    ⟨by rw [hf x (by simp)]; exact h.1, by rw [hb y (by simp)]; exact h.2.1,
      path_congr (fun w hw => hf w (List.mem_cons_of_mem _ hw)) (fun w hw => hb w (by simp only [List.cons_append]; exact List.mem_cons_of_mem _ hw)) h.2.2⟩

theorem path_append {fd bk : Nat → Nat} {y : Nat} {ys : List Nat} {z : Nat} : ∀ {x : Nat} {xs : List Nat}, Path fd bk x (xs ++ y :: ys) z ↔ Path fd bk x xs y ∧ Path fd bk y ys z
  | x, [] => by simp [Path, and_assoc]
  | x, w :: ws => by simp only [List.cons_append, Path, path_append (xs := ws), and_assoc]

theorem ring_congr {fd bk fd' bk' : Nat → Nat} {a : Nat} {xs : List Nat} (h : Ring fd bk a xs) (hf : ∀ y ∈ a :: xs, fd' y = fd y) (hb : ∀ y ∈ a :: xs, bk' y = bk y) : Ring fd' bk' a xs := by
  refine ⟨h.1, path_congr hf (fun y hy => hb y ?_) h.2⟩
  simp only [List.mem_append, List.mem_cons, List.not_mem_nil, or_false] at hy ⊢
  exact hy.symm

theorem put_eq (m : Nat → Nat) (a v : Nat) : put m a v a = v := by simp [put]
theorem put_ne (m : Nat → Nat) {a x : Nat} (v : Nat) (h : x ≠ a) : put m a v x = m x := by simp [put, h]

theorem ring_single (fd bk : Nat → Nat) (a : Nat) : Ring (put fd a a) (put bk a a) a [] := ⟨by simp, by simp [Path, put]⟩

/-- Where the first link of a ring leads. -/
theorem ring_fd {fd bk : Nat → Nat} {a : Nat} {xs : List Nat} (h : Ring fd bk a xs) : fd a ∈ a :: xs := by
  cases xs with
  | nil => simp [h.2.1]
  | cons y ys => simp [h.2.1]

theorem ring_insert {fd bk : Nat → Nat} {a p : Nat} {xs : List Nat} (h : Ring fd bk a xs) (hp : p ∉ a :: xs) :
    Ring (put (put fd a p) p (fd a)) (put (put bk (fd a) p) p a) a (p :: xs) := by
  obtain ⟨hn, hh⟩ := h
  simp only [List.mem_cons, not_or] at hp
  have hne : a ≠ p := fun e => hp.1 e.symm
  refine ⟨by simp only [List.nodup_cons, List.mem_cons, not_or] at hn ⊢; exact ⟨⟨hne, hn.1⟩, hp.2, hn.2⟩, by rw [put_ne _ _ hne, put_eq], by rw [put_eq], ?_⟩
  cases xs with
  | nil =>
    have e : fd a = a := hh.1
    refine ⟨by rw [put_eq, e], ?_⟩
    rw [put_ne _ _ hne, e, put_eq]
  | cons y ys =>
    obtain ⟨h1, h2, h3⟩ := hh
    simp only [List.nodup_cons, List.mem_cons, not_or] at hn
    simp only [List.mem_cons, not_or] at hp
    refine ⟨by rw [put_eq, h1], by rw [put_ne _ _ (fun e => hp.2.1 e.symm), h1, put_eq], ?_⟩
    refine path_congr ?_ ?_ h3
    · intro w hw
      rw [put_ne _ _ (fun e => ?_), put_ne _ _ (fun e => ?_)]
      · subst e; exact (by simp only [List.mem_cons] at hw; rcases hw with e | hw; exact hn.1.1 e; exact hn.1.2 hw)
      · subst e; exact (by simp only [List.mem_cons] at hw; rcases hw with e | hw; exact hp.2.1 e; exact hp.2.2 hw)
    · intro w hw
      simp only [List.mem_append, List.mem_singleton] at hw
      rw [put_ne _ _ (fun e => ?_), put_ne _ _ (fun e => ?_)]
      · rw [h1] at e; subst e; rcases hw with hw | e; exact hn.2.1 hw; exact hn.1.1 e.symm
      · subst e; rcases hw with hw | e; exact hp.2.2 hw; exact hne e.symm

theorem ring_rotate {fd bk : Nat → Nat} {a r : Nat} {ys : List Nat} (h : Ring fd bk a (ys ++ [r])) : Ring fd bk r (a :: ys) := by
  obtain ⟨hn, hh⟩ := h
  rw [path_append] at hh
  refine ⟨?_, hh.2.1, hh.2.2, hh.1⟩
  have : (r :: a :: ys).Perm (a :: (ys ++ [r])) := by
    rw [← List.cons_append]
    exact (List.perm_append_singleton r (a :: ys)).symm
  exact this.nodup_iff.mpr hn

/-- The neighbours of a member of a ring. -/
theorem ring_at {fd bk : Nat → Nat} {a p : Nat} {xs ys : List Nat} (h : Ring fd bk a (xs ++ p :: ys)) :
    bk (fd p) = p ∧ fd (bk p) = p ∧ fd p ∈ ys ++ [a] ∧ bk p ∈ a :: xs ∧ (bk p = fd p ↔ xs = [] ∧ ys = []) := by
  obtain ⟨hn, hh⟩ := h
  rw [path_append] at hh
  obtain ⟨h1, h2⟩ := hh
  have h3 : bk (fd p) = p ∧ fd p ∈ ys ++ [a] ∧ (ys = [] → fd p = a) ∧ (ys ≠ [] → fd p ∈ ys) := by
    cases ys with
    | nil => exact ⟨by rw [h2.1]; exact h2.2, by simp [h2.1], fun _ => h2.1, fun e => absurd rfl e⟩
    | cons y ys => exact ⟨by rw [h2.1]; exact h2.2.1, by simp [h2.1], fun e => by simp at e, fun _ => by simp [h2.1]⟩
  have h4 : fd (bk p) = p ∧ bk p ∈ a :: xs ∧ (xs = [] → bk p = a) ∧ (xs ≠ [] → bk p ∈ xs) := by
    rcases List.eq_nil_or_concat xs with e | ⟨ws, u, e⟩
    · subst e; exact ⟨by rw [h1.2]; exact h1.1, by simp [h1.2], fun _ => h1.2, fun e => absurd rfl e⟩
    · rw [List.concat_eq_append] at e
      subst e
      rw [path_append] at h1
      exact ⟨by rw [h1.2.2]; exact h1.2.1, by simp [h1.2.2], fun e => by simp at e, fun _ => by simp [h1.2.2]⟩
  refine ⟨h3.1, h4.1, h3.2.1, h4.2.1, ?_, fun ⟨e1, e2⟩ => by rw [h4.2.2.1 e1, h3.2.2.1 e2]⟩
  intro e
  simp only [List.nodup_cons, List.nodup_append, List.mem_append, List.mem_cons, not_or] at hn
  obtain ⟨⟨n1, n2, n3⟩, n4, ⟨n5, n6⟩, n7⟩ := hn
  by_cases ex : xs = []
  · refine ⟨ex, ?_⟩
    by_cases ey : ys = []
    · exact ey
    · have := h3.2.2.2 ey
      rw [← e, h4.2.2.1 ex] at this
      exact absurd this n3
  · have hb := h4.2.2.2 ex
    by_cases ey : ys = []
    · rw [e, h3.2.2.1 ey] at hb; exact absurd hb n1
    · have hf := h3.2.2.2 ey
      rw [e] at hb
      exact absurd rfl (n7 _ hb _ (Or.inr hf))

theorem ring_remove {fd bk : Nat → Nat} {a p : Nat} {xs ys : List Nat} (h : Ring fd bk a (xs ++ p :: ys)) :
    Ring (put fd (bk p) (fd p)) (put bk (fd p) (bk p)) a (xs ++ ys) := by
  obtain ⟨-, -, hf, hb, -⟩ := ring_at h
  obtain ⟨hn, hh⟩ := h
  rw [path_append] at hh
  obtain ⟨h1, h2⟩ := hh
  have hn0 : (a :: (xs ++ ys)).Nodup := by
    have : (a :: (xs ++ p :: ys)).Perm (p :: a :: (xs ++ ys)) := by
      refine (List.Perm.cons a List.perm_middle).trans (List.Perm.swap ..)
    exact ((this.nodup_iff.mp hn) |> List.nodup_cons.mp).2
  refine ⟨hn0, ?_⟩
  simp only [List.nodup_cons, List.nodup_append, List.mem_append, List.mem_cons, not_or] at hn
  obtain ⟨⟨n1, n2, n3⟩, n4, ⟨n5, n6⟩, n7⟩ := hn
  -- The second part of the ring, from the successor of `p` on.
  have second : ∀ z, (z ∈ a :: xs) → Path fd bk p ys a → bk p = z → Path (put fd z (fd p)) (put bk (fd p) z) z ys a := by
    intro z hz hp _
    cases ys with
    | nil =>
      exact ⟨by rw [put_eq]; exact hp.1, by rw [hp.1, put_eq]⟩
    | cons y ys =>
      obtain ⟨q1, q2, q3⟩ := hp
      refine ⟨by rw [put_eq, q1], by rw [q1, put_eq], path_congr ?_ ?_ q3⟩
      · intro w hw
        refine put_ne _ _ (fun e => ?_)
        subst e
        simp only [List.mem_cons] at hz hw n3
        rcases hz with e | hz
        · subst e; exact n3 hw
        · exact n7 _ hz _ (Or.inr (by simp only [List.mem_cons]; exact hw)) rfl
      · intro w hw
        refine put_ne _ _ (fun e => ?_)
        rw [q1] at e
        subst e
        simp only [List.mem_append, List.mem_singleton] at hw
        rcases hw with hw | e
        · exact (List.nodup_cons.mp n6).1 hw
        · rw [← e] at n3; simp at n3
  rcases List.eq_nil_or_concat xs with e | ⟨ws, u, e⟩
  · subst e
    have hz : bk p = a := h1.2
    have := second a (by simp) h2 hz
    rw [hz]; simpa using this
  · rw [List.concat_eq_append] at e
    subst e
    rw [path_append] at h1
    have hz : bk p = u := h1.2.2
    have h3 := second u (by simp) h2 hz
    rw [List.append_assoc, List.singleton_append, path_append, hz]
    refine ⟨path_congr ?_ ?_ h1.1, h3⟩
    · intro w hw
      refine put_ne _ _ (fun e => ?_)
      subst e
      simp only [List.mem_cons] at hw
      rcases hw with e | hw
      · subst e; exact n1 (by simp)
      · have := (List.nodup_append.mp n4).2.2 _ hw w (by simp)
        exact this rfl
    · intro w hw
      refine put_ne _ _ (fun e => ?_)
      rw [← e] at hf
      simp only [List.mem_append, List.mem_singleton] at hf hw
      rcases hf with hf | hf
      · exact n7 w (by simp only [List.mem_append, List.mem_singleton]; exact hw) w (Or.inr hf) rfl
      · rw [hf] at hw; exact n1 (by simp only [List.mem_append, List.mem_singleton]; exact hw)

end Arax.Dl
