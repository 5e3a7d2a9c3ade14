import Verif.Plot.Props
/-!
# C89: what arax_plot writes
-/
namespace Arax.Plot
open Arax.Json (Doc Strict)

theorem drawn_reverse {w : List Sample} {s : Sample} (h : DrawnR w s) : Drawn w.reverse s := by
  rcases h with h | ⟨l, a, b, r, h, h1, h2, h3, h4⟩
  · exact .inl (by simpa using h)
  · exact .inr ⟨r.reverse, b, a, l.reverse, by rw [h]; simp, h2, h1, h4, h3⟩

/-- **C89** (partial) For every recording (any number of samples and metrics, any values) of which at least two samples are left when the idle end is cut off: the page's data is JSON, and denotes the times and values of a selection of the
recorded samples, in order; the lines drawn between them pass through every sample that is left, so nothing that happened before the idle end is missing; three neighbouring points are never equal.  Missing: recordings with fewer such
samples (`C89_violated_crash`), and the last change (`C89_violated_end`). -/
theorem C89_page_partial {k : Nat} {rec kept : List Sample} (hr : Recording k rec) (hi : IdleEnd rec kept) (h2 : 2 ≤ kept.length) :
    ∃ data w, plot rec = .page data ∧ Doc Strict data (matrix w k) ∧ w.Sublist kept ∧ (∀ s ∈ kept, Drawn w s) ∧
      ∀ l a b c r, w = l ++ a :: b :: c :: r → ¬ (a.values = b.values ∧ b.values = c.values) := by
  have hne : rec ≠ [] := by
    obtain ⟨idle, h, hi, _⟩ := hi
    rw [h]; simp [hi]
  have hkept : kept = (trim rec.reverse).reverse := idle_unique hi (trim_spec hr hne)
  have hmem : ∀ s ∈ kept, s ∈ rec := by
    obtain ⟨idle, h, _⟩ := hi
    intro s hs; rw [h]; exact List.mem_append.mpr (.inl hs)
  have hw : ∀ s ∈ kept, s.values.length = k := fun s hs => hr.width s (hmem s hs)
  have ht : kept.Pairwise (fun a b => a.start ≤ b.start) := by
    obtain ⟨idle, h, _⟩ := hi
    exact (List.pairwise_append.mp (h ▸ hr.time)).1
  have e : trim rec.reverse = kept.reverse := by rw [hkept, List.reverse_reverse]
  obtain ⟨p, c, r, hl⟩ : ∃ p c r, kept.reverse = p :: c :: r := by
    have hlen : kept.reverse.length = kept.length := List.length_reverse
    match h : kept.reverse with
    | [] => rw [h] at hlen; simp at hlen; omega
    | [x] => rw [h] at hlen; simp at hlen; omega
    | p :: c :: r => exact ⟨p, c, r, rfl⟩
  have hw' : ∀ s ∈ p :: c :: r, s.values.length = k := by intro s hs; rw [← hl] at hs; exact hw s (by simpa using hs)
  have ht' : (p :: c :: r).Pairwise (fun a b => b.start ≤ a.start) := by rw [← hl, List.pairwise_reverse]; exact ht
  have hsub : ((loop p c r).reverse).Sublist kept := by
    have h1 := (loop_sublist p c r).reverse
    rw [← hl, List.reverse_reverse] at h1
    exact h1
  refine ⟨write (loop p c r).reverse, (loop p c r).reverse, ?_, ?_, hsub, ?_, ?_⟩
  · rw [plot, if_neg hne, e, hl]; rfl
  · refine write_doc _ ?_ k ?_ ?_
    · obtain ⟨w, h⟩ := loop_head p c r
      rw [h]; simp
    · intro s hs; exact hw s (hsub.subset hs)
    · intro s hs; exact hr.bits s (hmem s (hsub.subset hs))
  · intro s hs
    exact drawn_reverse (loop_drawn p c r hw' ht' s (by rw [← hl]; simpa using hs))
  · intro l a b c' r' h hc
    have h' : loop p c r = r'.reverse ++ c' :: b :: a :: l.reverse := by
      rw [← List.reverse_reverse (loop p c r), h]; simp
    exact loop_thin p c r hw' _ _ _ _ _ h' ⟨hc.2.symm, hc.1.symm⟩

/-- **C89** (partial) The program crashes exactly if fewer than two samples precede the idle end; without any sample it says so. -/
theorem C89_crash_partial {k : Nat} {rec : List Sample} (hr : Recording k rec) :
    (plot rec = .noSamples ↔ rec = []) ∧ (∀ kept, IdleEnd rec kept → (plot rec = .crash ↔ kept.length < 2)) := by
  constructor
  · constructor
    · intro h
      rw [plot] at h
      split at h
      · assumption
      · split at h <;> cases h
    · intro h; rw [plot, if_pos h]
  · intro kept hi
    have hne : rec ≠ [] := by
      obtain ⟨idle, h, hi, _⟩ := hi
      rw [h]; simp [hi]
    rcases Nat.lt_or_ge kept.length 2 with h2 | h2
    · have hkept : kept = (trim rec.reverse).reverse := idle_unique hi (trim_spec hr hne)
      refine ⟨fun _ => h2, fun _ => ?_⟩
      have hlen : (trim rec.reverse).length < 2 := by rw [hkept] at h2; simpa using h2
      rw [plot, if_neg hne]
      match h : trim rec.reverse with
      | [] => rfl
      | [x] => rfl
      | p :: c :: r => rw [h] at hlen; simp at hlen; omega
    · obtain ⟨data, w, h, _⟩ := C89_page_partial hr hi h2
      rw [h]
      exact ⟨(fun h => nomatch h), fun h => by omega⟩

/-- Every recording with a sample has exactly one idle end. -/
theorem idle_exists {k : Nat} {rec : List Sample} (hr : Recording k rec) (hne : rec ≠ []) : ∃ kept, IdleEnd rec kept ∧ ∀ kept', IdleEnd rec kept' → kept' = kept :=
  ⟨_, trim_spec hr hne, fun _ h => idle_unique h (trim_spec hr hne)⟩

/-! ## Examples -/

/-- Two metrics: a task comes and goes, then nothing happens. -/
def rec0 : List Sample := [⟨0, [0, 1]⟩, ⟨3, [0, 1]⟩, ⟨5, [0, 1]⟩, ⟨9, [7, 1]⟩, ⟨12, [0, 1]⟩, ⟨15, [0, 1]⟩]

theorem rec0_ok : Recording 2 rec0 := ⟨by decide, by decide, by decide⟩

example : IdleEnd rec0 (rec0.take 4) := ⟨rec0.drop 4, by decide, by decide, by decide, (by intro s e hs he; cases hs; cases he; decide)⟩

/-- The middle one of three equal samples is left out. -/
example : ∃ d, plot rec0 = .page d ∧ d = ("[\n[0,5,9]\n,[0,0,7]\n,[1,1,1]\n]".toList.map Char.toNat) := ⟨_, rfl, by decide +kernel⟩

/-- **C89** violated: the program crashes if the counters never change while it records, or only at the second sample. -/
theorem C89_violated_crash : (∃ rec, Recording 1 rec ∧ 3 ≤ rec.length ∧ (∀ s ∈ rec, s.values = [4]) ∧ plot rec = .crash) ∧
    ∃ rec, Recording 1 rec ∧ 3 ≤ rec.length ∧ rec.head?.map (·.values) ≠ rec.getLast?.map (·.values) ∧ plot rec = .crash :=
  ⟨⟨[⟨0, [4]⟩, ⟨2, [4]⟩, ⟨3, [4]⟩], ⟨by decide, by decide, by decide⟩, by decide, by decide, rfl⟩,
    ⟨[⟨0, [4]⟩, ⟨2, [5]⟩, ⟨3, [5]⟩], ⟨by decide, by decide, by decide⟩, by decide, by decide, rfl⟩⟩

/-- **C89** violated: the idle end is cut off with the change that leads to it. The values at the end (here: no task) appear nowhere in the page. -/
theorem C89_violated_end : ∃ rec e, Recording 1 rec ∧ rec.getLast? = some e ∧ ∃ data w, plot rec = .page data ∧ Doc Strict data (matrix w 1) ∧ ∀ s ∈ w, s.values ≠ e.values := by
  have hr : Recording 1 [⟨0, [1]⟩, ⟨2, [2]⟩, ⟨3, [0]⟩, ⟨4, [0]⟩] := ⟨by decide, by decide, by decide⟩
  have hi : IdleEnd [⟨0, [1]⟩, ⟨2, [2]⟩, ⟨3, [0]⟩, ⟨4, [0]⟩] [⟨0, [1]⟩, ⟨2, [2]⟩] :=
    ⟨[⟨3, [0]⟩, ⟨4, [0]⟩], by decide, by decide, by decide, (by intro s e hs he; cases hs; cases he; decide)⟩
  obtain ⟨data, w, h1, h2, h3, _⟩ := C89_page_partial hr hi (by decide)
  refine ⟨_, ⟨4, [0]⟩, hr, rfl, data, w, h1, h2, ?_⟩
  intro s hs
  have hs := h3.subset hs
  revert s
  have : ∀ s ∈ ([⟨0, [1]⟩, ⟨2, [2]⟩] : List Sample), s.values ≠ [0] := by decide
  intro s _ hs
  exact this s hs

end Arax.Plot
