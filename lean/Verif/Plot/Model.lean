import Verif.Json.Spec
/-!
# Model of `arax_plot` (C89)

The recorder writes an HTML page with the values of counters over time.  Modelled: what happens to the recorded samples, and the text of the data in the page.  The rest of the page (title, labels) is fixed text around it.
-/
namespace Arax.Plot

/-- `struct Sample` (/repo/arax_plot/Sample.h:7-14): time stamp in microseconds and the values of the metrics. -/
structure Sample where
  start : Nat
  values : List Nat
  deriving DecidableEq

/-- `operator==` (/repo/arax_plot/Sample.cpp:12-24): compares the values only.  All samples have the same number of them (a shorter right one would be read past its end, here: unequal). -/
def same : List Nat → List Nat → Bool
  | [], _ => true
  | a :: as, b :: bs => a == b && same as bs
  | _ :: _, [] => false

/-- `samples.remove_if(trim)` (/repo/arax_plot/Metric.cpp:57-60, /repo/arax_plot/Sample.cpp:26-34): the predicate keeps the flag `trim` and the values `last` of the first sample of the list. -/
def removeIf (trim : Bool) (last : List Nat) : List Sample → List Sample
  | [] => []
  | s :: l =>
    let t := trim && same s.values last
    if t then removeIf t last l else s :: removeIf t last l

/-- /repo/arax_plot/main.cpp:87-93: trimming. -/
def trim : List Sample → List Sample
  | [] => []
  | s :: l => removeIf true s.values (s :: l)

/-- The loop at /repo/arax_plot/main.cpp:106-116: `p`, `c` are `*prev`, `*curr`, then the samples from `next`. -/
def loop (p c : Sample) : List Sample → List Sample
  | [] => [p, c]
  | n :: r => if same p.values c.values && same c.values n.values then loop p n r else p :: loop c n r

/-- /repo/arax_plot/main.cpp:95-117: `none` where an iterator is moved beyond the end of the list (101 if it is empty, 104 if it has one sample). -/
def dedup : List Sample → Option (List Sample)
  | [] => none
  | [_] => none
  | p :: c :: r => some (loop p c r)

/-- Decimal numeral (`operator<<` of integers). (C++ library.) -/
def dec (n : Nat) : List Nat := if h : n < 10 then [48 + n] else dec (n / 10) ++ [48 + n % 10]
  termination_by n
  decreasing_by omega

/-- Numbers with commas between them (/repo/arax_plot/Metric.cpp:80-85, 90-94: `sep` is empty for the first). -/
def commas : List Nat → List Nat
  | [] => []
  | [n] => dec n
  | n :: l => dec n ++ 44 :: commas l

/-- The columns of the metrics (/repo/arax_plot/Metric.cpp:88-96): from column `c`, `k` columns. -/
def columns (l : List Sample) : Nat → Nat → List Nat
  | _, 0 => []
  | c, k + 1 => [44, 91] ++ commas (l.map (fun s => s.values.getD c 0)) ++ [93, 10] ++ columns l (c + 1) k

/-- `operator<<` of the samples (/repo/arax_plot/Metric.cpp:75-100). -/
def write (l : List Sample) : List Nat :=
  [91, 10, 91] ++ commas (l.map (·.start)) ++ [93, 10] ++ columns l 0 ((l.head?.map (·.values.length)).getD 0) ++ [93]

/-- What the program does. (/repo/arax_plot/main.cpp:1-139.) -/
inductive Out where
  | noSamples
  | crash
  | page (data : List Nat)

/-- /repo/arax_plot/main.cpp:78-135 after a recording (Metric.cpp:46-48, samples in order of time): samples are put in front of a list, which is trimmed, thinned, reversed and written. -/
def plot (rec : List Sample) : Out :=
  if rec = [] then .noSamples
  else match dedup (trim rec.reverse) with
    | none => .crash
    | some l => .page (write l.reverse)

end Arax.Plot
