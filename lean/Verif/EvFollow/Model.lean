import Verif.Common.Counter
import Mathlib.Data.List.Sort
import Mathlib.Order.Defs.LinearOrder
/-
Model of the eventually-follows graphs and of the concurrent activities
(/repo/pm4py/statistics/{eventually_follows,concurrent_activities}/{log,pandas}/get.py and
/repo/pm4py/algo/discovery/dfg/adapters/pandas/df_statistics.py, get_partial_order_dataframe, get_concurrent_events_dataframe).
Time stamps are integers.  Sorting is stable (Python's `sorted`, pandas' `sort_values` on several columns); the result of a stable sort does not
depend on the algorithm, insertion sort is used.  A data frame is given by the events of each case, in the order of the rows; the order of the cases
does not matter for the counts.
-/
namespace Verif.EvFollow
open Dict
variable {α : Type} [LinearOrder α]

/-- an event: activity, start and completion time (the same attribute by default) -/
structure Ev (α : Type) where
  act : α
  st : Int
  et : Int
  deriving DecidableEq

/-- the order by start time (`sort_timestamp_trace(trace, start_timestamp_key)`) -/
def byStart (x y : Ev α) : Prop := x.st ≤ y.st
/-- the order by start and completion time (df_statistics.py:226, 307) -/
def byBoth (x y : Ev α) : Prop := x.st < y.st ∨ (x.st = y.st ∧ x.et ≤ y.et)

instance : DecidableRel (byStart (α := α)) := fun x y => inferInstanceAs (Decidable (x.st ≤ y.st))
instance : DecidableRel (byBoth (α := α)) := fun x y => inferInstanceAs (Decidable (x.st < y.st ∨ (x.st = y.st ∧ x.et ≤ y.et)))

/-- the two loops of eventually_follows/log/get.py:52-68 over a sorted trace, with `keep_first_following = False` -/
def followLoop : List (Ev α) → List (α × α)
  | [] => []
  | e :: rest => (rest.filter fun f => decide (e.et ≤ f.st)).map (fun f => (e.act, f.act)) ++ followLoop rest

/-- `apply` (eventually_follows/log/get.py:33-70) -/
def efg (log : List (List (Ev α))) : Dict (α × α) Int := Counter.ofList (log.flatMap fun t => followLoop (t.insertionSort byStart))

/-- all pairs of an event and a later one (the join and `index < index_2`, df_statistics.py:235-236 and 319-320) -/
def laterPairs : List (Ev α) → List (Ev α × Ev α)
  | [] => []
  | e :: rest => rest.map (fun f => (e, f)) ++ laterPairs rest

/-- `apply` (eventually_follows/pandas/get.py:33-62) with get_partial_order_dataframe (df_statistics.py:173-252) -/
def efgDf (cases : List (List (Ev α))) : Dict (α × α) Int :=
  Counter.ofList (cases.flatMap fun t =>
    ((laterPairs (t.insertionSort byBoth)).filter fun p => decide (p.1.et ≤ p.2.st)).map fun p => (p.1.act, p.2.act))

/-- `max(ts1, ts2) <= min(tc1, tc2)`, or with `<` -/
def overlap (strict : Bool) (x y : Ev α) : Bool := if strict then decide (max x.st y.st < min x.et y.et) else decide (max x.st y.st ≤ min x.et y.et)

/-- `tuple(sorted((act1, act2)))` -/
def sortedPair (p : α × α) : α × α := if p.1 ≤ p.2 then p else (p.2, p.1)

/-- the two loops of concurrent_activities/log/get.py:65-87 over a sorted trace; the inner loop stops at the first event that does not overlap -/
def concLoop (strict : Bool) : List (Ev α) → List (α × α)
  | [] => []
  | e :: rest => ((rest.takeWhile (overlap false e)).filter fun f => !strict || overlap true e f).map (fun f => sortedPair (e.act, f.act)) ++
      concLoop strict rest

/-- `apply` (concurrent_activities/log/get.py:33-89) -/
def conc (strict : Bool) (log : List (List (Ev α))) : Dict (α × α) Int :=
  Counter.ofList (log.flatMap fun t => concLoop strict (t.insertionSort byStart))

/-- the lexicographic order of the keys of `groupby` -/
def keyLe (p q : α × α) : Prop := p.1 < q.1 ∨ (p.1 = q.1 ∧ p.2 ≤ q.2)

instance : DecidableRel (keyLe (α := α)) := fun p q => inferInstanceAs (Decidable (p.1 < q.1 ∨ (p.1 = q.1 ∧ p.2 ≤ q.2)))

/-- `ret_dict0` (concurrent_activities/pandas/get.py:70-74) with get_concurrent_events_dataframe (df_statistics.py:255-331) -/
def concDf0 (strict : Bool) (cases : List (List (Ev α))) : Dict (α × α) Int :=
  Counter.ofList (cases.flatMap fun t =>
    ((laterPairs (t.insertionSort byBoth)).filter fun p => overlap strict p.1 p.2).map fun p => (p.1.act, p.2.act))

/-- `apply` (concurrent_activities/pandas/get.py:33-83): the entries of `ret_dict0`, in the order of the keys, are assigned to the sorted pairs -/
def concDf (strict : Bool) (cases : List (List (Ev α))) : Dict (α × α) Int :=
  let d := concDf0 strict cases
  ((keys d).insertionSort keyLe).foldl (fun r k => Dict.set r (sortedPair k) (Dict.count d k)) []

end Verif.EvFollow
