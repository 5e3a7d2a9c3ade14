import Verif.Plot.Model
/-!
# Specification of C89: a plot of a recording
-/
namespace Arax.Plot
open Arax.Json (JVal Doc Strict)

/-- The number `n` in JSON. -/
def num (n : Nat) : JVal := if n < 2 ^ 63 then .int n else .dec n 0

/-- The data of the plot as JSON: the times of the samples, then for each metric its values. -/
def matrix (w : List Sample) (metrics : Nat) : JVal :=
  .arr (.arr (w.map (fun s => num s.start)) :: (List.range metrics).map (fun c => .arr (w.map (fun s => num (s.values.getD c 0)))))

/-- A recording: samples in order of time, each with a value of each metric, numbers of 64 bits. -/
structure Recording (metrics : Nat) (rec : List Sample) : Prop where
  width : ∀ s ∈ rec, s.values.length = metrics
  time : rec.Pairwise (fun a b => a.start ≤ b.start)
  bits : ∀ s ∈ rec, s.start < 2 ^ 64 ∧ ∀ v ∈ s.values, v < 2 ^ 64

/-- The lines drawn between the points of `w` pass through `s`: it is one of the points, or between two neighbouring points with its values. -/
def Drawn (w : List Sample) (s : Sample) : Prop :=
  s ∈ w ∨ ∃ l a b r, w = l ++ a :: b :: r ∧ a.values = s.values ∧ b.values = s.values ∧ a.start ≤ s.start ∧ s.start ≤ b.start

/-- `rec` is `kept` followed by the idle end: samples with the final values, as many as there are. -/
def IdleEnd (rec kept : List Sample) : Prop :=
  ∃ idle, rec = kept ++ idle ∧ idle ≠ [] ∧ (∀ s ∈ idle, ∀ e, rec.getLast? = some e → s.values = e.values) ∧
    ∀ s e, kept.getLast? = some s → rec.getLast? = some e → s.values ≠ e.values

end Arax.Plot
