import Mathlib.Data.List.Sort
import Mathlib.Data.List.Dedup
import Mathlib.Algebra.Order.Field.Rat
/-
Model of the average time between case starts and case ends: /repo/pm4py/statistics/traces/generic/log/case_arrival.py:57-128 and
/repo/pm4py/statistics/traces/generic/pandas/case_arrival.py:54-73.  Times are integers, durations rational numbers.  `F t` is the (business) time from a
fixed origin to `t`: the duration between two times is the difference (with the identity: elapsed time; with business hours: C69).
Missing time stamps of events are `none`; the data frame has none.
-/
namespace Verif
namespace Arrival

/-- the differences of successive times (log/case_arrival.py:69-76) -/
def diffs (F : Int → Rat) : List Int → List Rat
  | a :: b :: l => (F b - F a) :: diffs F (b :: l)
  | _ => []

/-- the mean of the differences of the sorted times; 0 if there are none (log/case_arrival.py:67-81) -/
def average (F : Int → Rat) (times : List Int) : Rat :=
  let ds := diffs F (times.insertionSort (· ≤ ·))
  if ds = [] then 0 else ds.sum / (ds.length : Rat)

/-- the start times (log/case_arrival.py:66): traces whose first event has a time stamp -/
def startTimes (log : List (List (Option Int))) : List Int := log.filterMap fun t => (t.head?).bind id

/-- the end times (log/case_arrival.py:113): of the traces whose first event has a time stamp; `none`: a KeyError, the last event has none -/
def endTimes (log : List (List (Option Int))) : Option (List Int) :=
  (log.filter fun t => ((t.head?).bind id).isSome).mapM fun t => (t.getLast?).bind id

/-- get_case_arrival_avg (log/case_arrival.py:38-81) -/
def arrival (F : Int → Rat) (log : List (List (Option Int))) : Rat := average F (startTimes log)

/-- get_case_dispersion_avg (log/case_arrival.py:84-128) -/
def dispersion (F : Int → Rat) (log : List (List (Option Int))) : Option Rat := (endTimes log).map (average F)

/-- the data frame (pandas/case_arrival.py:57-73): first rows of the cases, sorted; the mean of no values is NaN, `none` -/
def arrivalDf (rows : List (String × Int)) : Option Rat :=
  let firsts := (rows.map Prod.fst).dedup.filterMap fun c => ((rows.filter fun r => decide (r.1 = c)).head?).map Prod.snd
  let ds := diffs (fun t => (t : Rat)) (firsts.insertionSort (· ≤ ·))
  if ds = [] then none else some (ds.sum / (ds.length : Rat))

end Arrival
end Verif
