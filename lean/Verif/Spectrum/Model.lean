import Mathlib.Data.List.Sort
import Mathlib.Data.List.Dedup
/-
Model of the performance spectrum: /repo/pm4py/algo/discovery/performance_spectrum/algorithm.py (apply), variants/log.py, variants/dataframe.py
and /repo/pm4py/util/points_subset.py.  A log or dataframe is the list of its events; of an event the case, the activity
and the timestamp are modelled.  Case identifiers are natural numbers, times are integers (the code uses floating point seconds).
The disconnected log variant is C90. Not modelled: the disconnected dataframe variant, the option that the log is already sorted.
-/
namespace Verif
namespace Spectrum

structure Ev where
  case : Nat
  act : String
  ts : Int
  deriving DecidableEq, Repr

/-- the order of `sort_timestamp_log` (sorting.py:22-42) -/
def byTime (a b : Ev) : Prop := a.ts ≤ b.ts
instance : DecidableRel byTime := fun a b => inferInstanceAs (Decidable (a.ts ≤ b.ts))

/-- the order of dataframe.py:76; the event index as the last key makes the sort stable, as is insertion sort -/
def byCaseTime (a b : Ev) : Prop := a.case < b.case ∨ (a.case = b.case ∧ a.ts ≤ b.ts)
instance : DecidableRel byCaseTime := fun a b => inferInstanceAs (Decidable (a.case < b.case ∨ (a.case = b.case ∧ a.ts ≤ b.ts)))

/-- the order of log.py:83, dataframe.py:100: `sorted(points, key=lambda x: x[0])` -/
def byFirst (a b : List Int) : Prop := a.headD 0 ≤ b.headD 0
instance : DecidableRel byFirst := fun a b => inferInstanceAs (Decidable (a.headD 0 ≤ b.headD 0))

/-- `filter_log_events_attr` (basic_filter.py:58-61), `isin` (dataframe.py:73) -/
def relevant (as : List String) (rows : List Ev) : List Ev := rows.filter fun e => decide (e.act ∈ as)

/-- the cases in the order of their first events (conversion of the stream to a log, basic_filter.py:65) -/
def cases (rows : List Ev) : List Nat := ((rows.map Ev.case).reverse.dedup).reverse

/-- the order of the traces of a sorted log (sorting.py:97); there are no empty traces -/
def byStart (s t : List Ev) : Prop := ((s.head?).map Ev.ts).getD 0 ≤ ((t.head?).map Ev.ts).getD 0
instance : DecidableRel byStart := fun s t => inferInstanceAs (Decidable (((s.head?).map Ev.ts).getD 0 ≤ ((t.head?).map Ev.ts).getD 0))

/-- the filtered and sorted traces (log.py:68-70) -/
def traces (as : List String) (rows : List Ev) : List (List Ev) :=
  ((cases (relevant as rows)).map fun c => ((relevant as rows).filter fun e => decide (e.case = c)).insertionSort byTime).insertionSort byStart

/-- the points of a trace (log.py:74-81) -/
def tracePoints (as : List String) (t : List Ev) : List (List Int) :=
  (List.range (t.length + 1 - as.length)).filterMap fun i =>
    if ((t.drop i).take as.length).map Ev.act = as then some (((t.drop i).take as.length).map Ev.ts) else none

/-- the points before sampling (log.py:72-83) -/
def logPoints (as : List String) (rows : List Ev) : List (List Int) :=
  ((traces as rows).flatMap (tracePoints as)).insertionSort byFirst

/-- `pick_chosen_points` (points_subset.py:33) -/
def chosen (m n : Nat) : List Nat := (List.range m).map fun i => i * n / m + n / (2 * m)

/-- `pick_chosen_points_list` (points_subset.py:36-59); `none` is an IndexError -/
def pick (m : Nat) (l : List (List Int)) : Option (List (List Int)) := (chosen m l.length).mapM fun i => l[i]?

/-- the log variant (log.py:37-88) -/
def applyLog (as : List String) (size : Nat) (rows : List Ev) : Option (List (List Int)) :=
  if (logPoints as rows).length > size then pick size (logPoints as rows) else some (logPoints as rows)

/-- consecutive rows of the dataframe: the shifted dataframes side by side (dataframe.py:82-84), without the incomplete rows at the end: the missing
values there are different from every case (dataframe.py:86-87) -/
def windows (k : Nat) : List Ev → List (List Ev)
  | [] => []
  | e :: t => (if k ≤ (e :: t).length then [(e :: t).take k] else []) ++ windows k t

/-- all rows belong to the same case (dataframe.py:86-87): the case of every row is compared with the next one -/
def sameCase : List Ev → Bool
  | a :: b :: t => decide (a.case = b.case) && sameCase (b :: t)
  | _ => true

/-- `"".join` -/
def join (l : List String) : List Char := l.flatMap String.toList

/-- the matching rows (dataframe.py:70-93) -/
def dfMatches (as : List String) (rows : List Ev) : List (List Ev) :=
  ((windows as.length ((relevant as rows).insertionSort byCaseTime)).filter sameCase).filter
    fun w => decide (join (w.map Ev.act) = join as)

/-- the dataframe variant (dataframe.py:36-102); `sample` is the random choice of rows of dataframe.py:95 -/
def applyDf (sample : Nat → List (List Ev) → List (List Ev)) (as : List String) (size : Nat) (rows : List Ev) : List (List Int) :=
  ((if (dfMatches as rows).length > size then sample size (dfMatches as rows) else dfMatches as rows).map
    fun w => w.map Ev.ts).insertionSort byFirst

/-- the common entry point (algorithm.py:76-77): fewer than two activities are an error -/
def checked {α : Type} (as : List String) (r : Option α) : Option α := if as.length < 2 then none else r

end Spectrum
end Verif
