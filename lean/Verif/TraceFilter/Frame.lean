import Verif.TraceFilter.Log
/-
C42: the same filters on dataframes (`pm4py/algo/filtering/pandas`).

A dataframe is the list of its rows; a row is an element of `ε`, read through the same accessors as the events of C41, plus
the case identifier `caseOf` (never missing).  `none` stands for a missing value (NaN / None): comparisons with it are
false, `groupby(..).first()/last()` and `dropna` skip it.
Columns other than those used, the index and `attrs` of the dataframe are not modelled.
-/
set_option linter.unusedSectionVars false
namespace Verif.TraceFilter

variable {ε α σ κ : Type} [DecidableEq α] [DecidableEq σ] [DecidableEq κ]

/-- The rows of one case, in the order of the dataframe: what `groupby(case_id)` collects, and the trace that the
conversion to an event log builds. -/
def caseRows (caseOf : ε → κ) (rows : List ε) (c : κ) : List ε := rows.filter fun r => decide (caseOf r = c)

/-- The case identifiers in the order of their first row: the keys of `traces`
(objects/conversion/log/variants/to_event_log.py:86-98). -/
def caseIds (caseOf : ε → κ) (rows : List ε) : List κ :=
  rows.foldl (fun acc r => if caseOf r ∈ acc then acc else acc ++ [caseOf r]) []

/-- The event log of a dataframe (to_event_log.py:86-107); trace attributes are not modelled here (see C43). -/
def toLog (caseOf : ε → κ) (rows : List ε) : List (List ε) := (caseIds caseOf rows).map (caseRows caseOf rows)

/-- `df0[i1.isin(i2)]` / `df0[~i1.isin(i2)]` (e.g. pandas/ltl/ltl_checker.py:109-114). -/
def isinCases (caseOf : ε → κ) (positive : Bool) (keep : List κ) (rows : List ε) : List ε :=
  if positive then rows.filter fun r => decide (caseOf r ∈ keep) else rows.filter fun r => !decide (caseOf r ∈ keep)

/-- The rows with a value, with their index: `insert_index` and `df[df[attribute_key] == v]`
(pandas/ltl/ltl_checker.py:80-84). -/
def dfWith (act : ε → Option α) (rows : List ε) (v : α) : List (ε × Nat) :=
  rows.zipIdx.filter fun x => decide (act x.1 = some v)

/-- One `merge` on the case identifier followed by `@@diffindex > 0` (pandas/ltl/ltl_checker.py:86-95): every joined row is
the list of the matched rows, the last one first. -/
def mergeStep (caseOf : ε → κ) (acc : List (List (ε × Nat))) (d : List (ε × Nat)) : List (List (ε × Nat)) :=
  (acc.flatMap fun l => match l.head? with
    | some x => (d.filter fun y => decide (caseOf y.1 = caseOf x.1)).map fun y => y :: l
    | none => []).filter fun l => match l with
      | y :: x :: _ => decide ((y.2 : Int) - x.2 > 0)
      | _ => false

/-- The bounds on the time difference (pandas/ltl/ltl_checker.py:97-103), for two values. -/
def timeBetween (time : ε → Int) (bounds : List (Int × Int)) (l : List (ε × Nat)) : Bool :=
  match l, bounds with
  | [y, x], b :: _ => decide (time y.1 - time x.1 ≥ b.1) && decide (time y.1 - time x.1 ≤ b.2)
  | _, _ => true

/-- `eventually_follows` (pandas/ltl/ltl_checker.py:44-117).  `none` is an exception: `df_a[1]` with fewer than two values
(IndexError), and `df_join[timestamp_key + "_2"]` with three or more values when time is considered: the third merge has no
overlapping timestamp column, so that the suffix is not added (KeyError). -/
def efDf (caseOf : ε → κ) (act : ε → Option α) (time : ε → Int) (positive enable : Bool) (bounds : List (Int × Int))
    (values : List α) (rows : List ε) : Option (List ε) :=
  match values with
  | v0 :: v1 :: rest =>
    let join := (v1 :: rest).foldl (fun acc v => mergeStep caseOf acc (dfWith act rows v))
      ((dfWith act rows v0).map fun x => [x])
    if enable && !rest.isEmpty then none
    else
      let join := if enable then join.filter (timeBetween time bounds) else join
      some (isinCases caseOf positive (join.filterMap fun l => l.head?.map fun x => caseOf x.1) rows)
  | _ => none

/-- `groupby(case).last()` of the rows with a value: the last one of the case (pandas/ltl/ltl_checker.py:157-161). -/
def lastWith (caseOf : ε → κ) (act : ε → Option α) (rows : List ε) (v : α) (c : κ) : Option (ε × Nat) :=
  ((dfWith act rows v).filter fun x => decide (caseOf x.1 = c)).getLast?

/-- `A_next_B_next_C` (pandas/ltl/ltl_checker.py:120-181). -/
def nextDf (caseOf : ε → κ) (act : ε → Option α) (positive : Bool) (A B C : α) (rows : List ε) : List ε :=
  let join := (dfWith act rows A).filterMap fun a =>
    match lastWith caseOf act rows B (caseOf a.1), lastWith caseOf act rows C (caseOf a.1) with
    | some b, some c => if (b.2 : Int) - a.2 = 1 ∧ (c.2 : Int) - b.2 = 1 then some (caseOf a.1) else none
    | _, _ => none
  isinCases caseOf positive join rows

/-- The last known resource of the rows of a case with a value: `groupby(case).last()` skips missing values
(pandas/ltl/ltl_checker.py:219-221). -/
def lastRes (caseOf : ε → κ) (act : ε → Option α) (res : ε → Option σ) (rows : List ε) (v : α) (c : κ) : Option σ :=
  (resOf act res (caseRows caseOf rows c) v).getLast?

/-- The joined pairs of resources (pandas/ltl/ltl_checker.py:223): case, resource of A, last resource of B. -/
def joinRes (caseOf : ε → κ) (act : ε → Option α) (res : ε → Option σ) (A B : α) (rows : List ε) : List (κ × σ × σ) :=
  rows.filterMap fun r =>
    if act r = some A then
      match res r, lastRes caseOf act res rows B (caseOf r) with
      | some x, some y => some (caseOf r, x, y)
      | _, _ => none
    else none

/-- `four_eyes_principle` (pandas/ltl/ltl_checker.py:184-239). -/
def fourEyesDf (caseOf : ε → κ) (act : ε → Option α) (res : ε → Option σ) (positive : Bool) (A B : α) (rows : List ε) :
    List ε :=
  let join := joinRes caseOf act res A B rows
  let i2 := (join.filter fun j => decide (j.2.1 = j.2.2)).map Prod.fst
  let i3 := (join.filter fun j => decide (j.2.1 ≠ j.2.2)).map Prod.fst
  if positive then rows.filter fun r => decide (caseOf r ∈ i3) && !decide (caseOf r ∈ i2)
  else rows.filter fun r => decide (caseOf r ∈ i2)

/-- `attr_value_different_persons` (pandas/ltl/ltl_checker.py:242-290). -/
def differentPersonsDf (caseOf : ε → κ) (act : ε → Option α) (res : ε → Option σ) (positive : Bool) (A : α)
    (rows : List ε) : List ε :=
  let join := joinRes caseOf act res A A rows
  isinCases caseOf positive ((join.filter fun j => decide (j.2.1 ≠ j.2.2)).map Prod.fst) rows

/-- Start activities (pandas/start_activities/start_activities_filter.py:100-111); activities are never missing here. -/
def startDf (caseOf : ε → κ) (act : ε → α) (positive : Bool) (values : List α) (rows : List ε) : List ε :=
  isinCases caseOf positive ((rows.map caseOf).filter fun c => match (caseRows caseOf rows c).head? with
    | some e => decide (act e ∈ values)
    | none => false) rows

/-- End activities (pandas/end_activities/end_activities_filter.py:97-107). -/
def endDf (caseOf : ε → κ) (act : ε → α) (positive : Bool) (values : List α) (rows : List ε) : List ε :=
  isinCases caseOf positive ((rows.map caseOf).filter fun c => match (caseRows caseOf rows c).getLast? with
    | some e => decide (act e ∈ values)
    | none => false) rows

/-- `filter_df_on_attribute_values` (pandas/attributes/attributes_filter.py:226-235). -/
def attrCasesDf (caseOf : ε → κ) (act : ε → Option α) (positive : Bool) (values : List α) (rows : List ε) : List ε :=
  isinCases caseOf positive ((rows.filter fun r => match act r with
    | some v => decide (v ∈ values)
    | none => false).map caseOf) rows

/-- `apply_numeric` (pandas/attributes/attributes_filter.py:116-130). -/
def attrNumericDf (caseOf : ε → κ) (val : ε → Option Int) (sel : ε → Bool) (positive : Bool) (lo hi : Int)
    (rows : List ε) : List ε :=
  isinCases caseOf positive (((rows.filter fun r => match val r with
    | some x => decide (lo ≤ x ∧ x ≤ hi)
    | none => false).filter sel).map caseOf) rows

/-- `groupby(..).cumcount()`: every row with the number of earlier rows with the same key. -/
def cumcount (caseOf : ε → κ) (rows : List ε) : List (ε × Nat) :=
  (rows.foldl (fun (acc : List (ε × Nat)) r => acc ++ [(r, (acc.filter fun x => decide (caseOf x.1 = caseOf r)).length)]) [])

/-- Rework filter (pandas/rework/rework_filter.py:70-82). -/
def reworkDf (caseOf : ε → κ) (act : ε → α) (positive : Bool) (v : α) (lo : Int) (rows : List ε) : List ε :=
  let df := rows.filter fun r => decide (act r = v)
  let cases := ((cumcount caseOf df).filter fun x => decide ((x.2 : Int) ≥ lo - 1)).map fun x => caseOf x.1
  isinCases caseOf positive cases rows

/-- Attribute value repetition (pandas/attr_value_repetition/filter.py:65-72): `groupby(..).size()` has a row for every case
with at least one such value. -/
def repetitionDf (caseOf : ε → κ) (act : ε → Option α) (v : α) (lo : Int) (hi : Option Int) (rows : List ε) : List ε :=
  let df := rows.filter fun r => decide (act r = some v)
  let groups := df.map fun r => (caseOf r, (caseRows caseOf df (caseOf r)).length)
  let groups := groups.filter fun g => decide ((g.2 : Int) ≥ lo)
  let groups := groups.filter fun g => upTo hi g.2
  rows.filter fun r => decide (caseOf r ∈ groups.map Prod.fst)

/-- Case size (pandas/cases/case_filter.py:83-89). -/
def caseSizeDf (caseOf : ε → κ) (lo : Nat) (hi : Option Nat) (rows : List ε) : List ε :=
  let df := rows.filter fun r => decide ((caseRows caseOf rows (caseOf r)).length ≥ lo)
  match hi with
  | some h => df.filter fun r => decide ((caseRows caseOf rows (caseOf r)).length ≤ h)
  | none => df

/-- The table of the first and the last timestamp of every case (pandas/cases/case_filter.py:117-121,
pandas/timestamp/timestamp_filter.py:63-67). -/
def firstLast (caseOf : ε → κ) (time : ε → Int) (rows : List ε) : List (κ × Int × Int) :=
  rows.filterMap fun r => match (caseRows caseOf rows (caseOf r)).head?, (caseRows caseOf rows (caseOf r)).getLast? with
    | some e, some f => some (caseOf r, time e, time f)
    | _, _ => none

/-- Case performance (pandas/cases/case_filter.py:117-134), without business hours. -/
def casePerformanceDf (caseOf : ε → κ) (time : ε → Int) (lo hi : Int) (rows : List ε) : List ε :=
  let stacked := (firstLast caseOf time rows).filter fun x => decide (x.2.2 - x.2.1 ≤ hi)
  let stacked := stacked.filter fun x => decide (x.2.2 - x.2.1 ≥ lo)
  isinCases caseOf true (stacked.map Prod.fst) rows

/-- `filter_traces_contained` (pandas/timestamp/timestamp_filter.py:63-75). -/
def containedDf (caseOf : ε → κ) (time : ε → Int) (dt1 dt2 : Int) (rows : List ε) : List ε :=
  let stacked := (firstLast caseOf time rows).filter fun x => decide (x.2.1 ≥ dt1)
  let stacked := stacked.filter fun x => decide (x.2.2 ≤ dt2)
  isinCases caseOf true (stacked.map Prod.fst) rows

/-- `filter_traces_intersecting` (pandas/timestamp/timestamp_filter.py:106-120). -/
def intersectingDf (caseOf : ε → κ) (time : ε → Int) (dt1 dt2 : Int) (rows : List ε) : List ε :=
  let stacked := firstLast caseOf time rows
  let stacked1 := (stacked.filter fun x => decide (x.2.1 > dt1)).filter fun x => decide (x.2.1 < dt2)
  let stacked2 := (stacked.filter fun x => decide (x.2.2 > dt1)).filter fun x => decide (x.2.2 < dt2)
  let stacked3 := (stacked.filter fun x => decide (x.2.1 < dt1)).filter fun x => decide (x.2.2 > dt2)
  isinCases caseOf true ((stacked1 ++ stacked2 ++ stacked3).map Prod.fst) rows

/-- `filter_traces_attribute_in_timeframe` (pandas/timestamp/timestamp_filter.py:195-198). -/
def timeframeDf (caseOf : ε → κ) (act : ε → Option α) (time : ε → Int) (v : α) (dt1 dt2 : Int) (rows : List ε) :
    List ε :=
  let f := ((rows.filter fun r => decide (act r = some v)).filter fun r => decide (time r ≥ dt1)).filter
    fun r => decide (time r ≤ dt2)
  rows.filter fun r => decide (caseOf r ∈ f.map caseOf)

/-- `sort_values([case_id, timestamp])` as a stable insertion sort (pandas/paths/paths_filter.py:73, 127); the order of the
case identifiers is `le`. -/
def insertRow (le : κ → κ → Bool) (caseOf : ε → κ) (time : ε → Int) (r : ε) : List ε → List ε
  | [] => [r]
  | s :: l =>
    if (caseOf r = caseOf s ∧ time r ≤ time s) ∨ (caseOf r ≠ caseOf s ∧ le (caseOf r) (caseOf s) = true) then r :: s :: l
    else s :: insertRow le caseOf time r l

/-- See `insertRow`. -/
def sortRows (le : κ → κ → Bool) (caseOf : ε → κ) (time : ε → Int) (rows : List ε) : List ε :=
  rows.foldr (insertRow le caseOf time) []

/-- `shift(-1)` and `concat(axis=1)`: every row but the last with its successor; the last row is joined to missing values,
which satisfy no comparison (pandas/paths/paths_filter.py:74-77). -/
def shifted : List ε → List (ε × ε)
  | [] => []
  | [_] => []
  | e :: f :: l => (e, f) :: shifted (f :: l)

/-- Directly-follows filter (pandas/paths/paths_filter.py:72-89); `join` is the concatenation of the two activities with
the separator; `target_attribute_key` is the attribute key. -/
def pathsDf {π : Type} [DecidableEq π] (le : κ → κ → Bool) (caseOf : ε → κ) (act : ε → α) (time : ε → Int)
    (join : α → α → π) (positive : Bool) (paths : List (α × α)) (rows : List ε) : List ε :=
  let ps := paths.map fun p => join p.1 p.2
  let df := sortRows le caseOf time rows
  let stacked := (shifted df).filter fun x => decide (caseOf x.1 = caseOf x.2)
  let stacked := stacked.filter fun x => decide (join (act x.1) (act x.2) ∈ ps)
  isinCases caseOf positive (stacked.map fun x => caseOf x.1) df

/-- Path performance filter (pandas/paths/paths_filter.py:124-145): there is no test that the two rows belong to the same
case. -/
def pathsPerformanceDf {π : Type} [DecidableEq π] (le : κ → κ → Bool) (caseOf : ε → κ) (act : ε → α) (time : ε → Int)
    (join : α → α → π) (positive : Bool) (path : α × α) (lo hi : Int) (rows : List ε) : List ε :=
  let df := sortRows le caseOf time rows
  let stacked := (shifted df).filter fun x => decide (join (act x.1) (act x.2) = join path.1 path.2)
  let stacked := stacked.filter fun x => decide (time x.2 - time x.1 ≥ lo)
  let stacked := stacked.filter fun x => decide (time x.2 - time x.1 ≤ hi)
  isinCases caseOf positive (stacked.map fun x => caseOf x.1) df

/-- `filter_df_keeping_spno_activities` (pandas/attributes/attributes_filter.py:292-308): the filtered dataframe `ret` is
computed, and `df` is returned; `keep` is the list of the most frequent activities. -/
def spnoActivitiesDf (act : ε → α) (keep : List α) (rows : List ε) : List ε :=
  let _ret := rows.filter fun r => decide (act r ∈ keep)
  rows

/-- `starts_with` filter (pandas/starts_with/starts_with_filter.py:66-85) on activity names as lists of characters:
`variant.startswith(prefixes)` on the joined strings. -/
def startsWithDf (caseOf : ε → κ) (act : ε → List Char) (positive : Bool) (pre : List (List (List Char)))
    (rows : List ε) : List ε :=
  let joined (l : List (List Char)) : List Char := List.intercalate [','] l
  isinCases caseOf positive ((rows.map caseOf).filter fun c =>
    pre.any fun p => (joined p).isPrefixOf (joined ((caseRows caseOf rows c).map act))) rows

/-- Prefix filter (pandas/prefixes/prefix_filter.py:72-89); `map(position_activity)` is missing for the cases without the
activity, and the comparison is then false. -/
def prefixesDf (caseOf : ε → κ) (act : ε → Option α) (first strict : Bool) (a : α) (rows : List ε) : List ε :=
  let df := cumcount caseOf rows
  let occs (c : κ) := df.filter fun x => decide (act x.1 = some a) && decide (caseOf x.1 = c)
  let pos (c : κ) : Option Nat := (if first then (occs c).head? else (occs c).getLast?).map Prod.snd
  (df.filter fun x => match pos (caseOf x.1) with
    | some p => if strict then decide (x.2 < p) else decide (x.2 ≤ p)
    | none => false).map Prod.fst

/-- Suffix filter (pandas/suffixes/suffix_filter.py:72-89). -/
def suffixesDf (caseOf : ε → κ) (act : ε → Option α) (first strict : Bool) (a : α) (rows : List ε) : List ε :=
  let df := cumcount caseOf rows
  let occs (c : κ) := df.filter fun x => decide (act x.1 = some a) && decide (caseOf x.1 = c)
  let pos (c : κ) : Option Nat := (if first then (occs c).head? else (occs c).getLast?).map Prod.snd
  (df.filter fun x => match pos (caseOf x.1) with
    | some p => if strict then decide (x.2 > p) else decide (x.2 ≥ p)
    | none => false).map Prod.fst

end Verif.TraceFilter
