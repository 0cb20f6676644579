/-
C41: the trace filters on event logs (`pm4py/algo/filtering/log`).

An event is an element of an abstract type `ε`, read through accessors that return `none` when the event has no such
attribute (`attribute_key in trace[i]`).  Timestamps are integers (e.g. microseconds), so that time differences and the
bounds given by the user are integers as well; the code uses floating point seconds.  A trace is the list of its events,
an event log the list of its traces; trace attributes (other than the case identifier used by `between`), log attributes,
extensions and classifiers, which every filter copies, are not modelled.
The conversion `log_converter.apply(log, TO_EVENT_LOG)` at the start of every filter is the identity on event logs.
-/
set_option linter.unusedSectionVars false
namespace Verif.TraceFilter

variable {ε α σ : Type} [DecidableEq α] [DecidableEq σ]

/-- The loop shared by the filters with a `positive` parameter: `if found: if positive: append` / `elif not positive: append`
(e.g. log/ltl/ltl_checker.py:104-112). -/
def keepLoop (good : List ε → Bool) (positive : Bool) (log : List (List ε)) : List (List ε) :=
  log.foldl (fun new t =>
    if good t then (if positive then new ++ [t] else new)
    else if !positive then new ++ [t] else new) []

/-- The positions of the events with a given attribute value (log/ltl/ltl_checker.py:81-82, 155-157). -/
def occ (act : ε → Option α) (t : List ε) (v : α) : List Nat :=
  (List.range t.length).filter fun i => decide ((t[i]?.bind act) = some v)

/-- `itertools.product` (used at log/ltl/ltl_checker.py:86). -/
def product : List (List Nat) → List (List Nat)
  | [] => [[]]
  | xs :: rest => xs.flatMap fun x => (product rest).map fun c => x :: c

/-- `for i in range(len(c)-1): if c[i] >= c[i+1]: ok = False` (log/ltl/ltl_checker.py:88-91). -/
def increasing : List Nat → Bool
  | [] => true
  | [_] => true
  | a :: b :: c => if a ≥ b then false else increasing (b :: c)

/-- The timestamp test of log/ltl/ltl_checker.py:92-99.  It reads `trace[i]` and `trace[i+1]` for `i < len(c)-1`, and not
`trace[c[i]]` and `trace[c[i+1]]`.  Simplified: where the code would raise (no bound for the position, no such event) the
test is false. -/
def timeOk (time : ε → Int) (t : List ε) (bounds : List (Int × Int)) (c : List Nat) : Bool :=
  (List.range (c.length - 1)).all fun i =>
    match t[i]?, t[i + 1]?, bounds[i]? with
    | some e, some f, some b => decide (¬ (time f - time e < b.1 ∨ time f - time e > b.2))
    | _, _, _ => false

/-- Whether the trace is good in `eventually_follows` (log/ltl/ltl_checker.py:80-103). -/
def efGood (act : ε → Option α) (time : ε → Int) (enable : Bool) (bounds : List (Int × Int)) (values : List α)
    (t : List ε) : Bool :=
  (product (values.map (occ act t))).any fun c =>
    increasing c && (if enable && !bounds.isEmpty then timeOk time t bounds c else true)

/-- `eventually_follows` (log/ltl/ltl_checker.py:57-112).  By default `enable` is false and `bounds` empty. -/
def eventuallyFollows (act : ε → Option α) (time : ε → Int) (positive enable : Bool) (bounds : List (Int × Int))
    (values : List α) (log : List (List ε)) : List (List ε) :=
  keepLoop (efGood act time enable bounds values) positive log

/-- The `found` loop of `A_next_B_next_C` (log/ltl/ltl_checker.py:155-165); `b - a == 1` on Python integers. -/
def nextGood (act : ε → Option α) (A B C : α) (t : List ε) : Bool :=
  (occ act t A).foldl (fun found (a : Nat) =>
    (occ act t B).foldl (fun found (b : Nat) =>
      (occ act t C).foldl (fun found (c : Nat) =>
        if (b : Int) - a = 1 ∧ (c : Int) - b = 1 then true else found) found) found) false

/-- `A_next_B_next_C` (log/ltl/ltl_checker.py:115-173). -/
def aNextBNextC (act : ε → Option α) (positive : Bool) (A B C : α) (log : List (List ε)) : List (List ε) :=
  keepLoop (nextGood act A B C) positive log

/-- The resources of the events with a value (log/ltl/ltl_checker.py:213-216); the Python set is kept as a list, only its
emptiness, membership and the number of distinct elements are used. -/
def resOf (act : ε → Option α) (res : ε → Option σ) (t : List ε) (v : α) : List σ :=
  t.filterMap fun e => if act e = some v then res e else none

/-- `four_eyes_principle` (log/ltl/ltl_checker.py:176-226). -/
def fourEyes (act : ε → Option α) (res : ε → Option σ) (positive : Bool) (A B : α) (log : List (List ε)) :
    List (List ε) :=
  log.foldl (fun new t =>
    let occA := resOf act res t A
    let occB := resOf act res t B
    if decide (0 < occA.length) && decide (0 < occB.length) then
      let inte := occA.filter fun r => decide (r ∈ occB)
      if !positive && decide (0 < inte.length) then new ++ [t]
      else if positive && decide (inte.length = 0) then new ++ [t]
      else new
    else new) []

/-- The elements of a Python set built from a list. -/
def toSet : List σ → List σ
  | [] => []
  | a :: l => if a ∈ l then toSet l else a :: toSet l

/-- `attr_value_different_persons` (log/ltl/ltl_checker.py:229-273). -/
def differentPersons (act : ε → Option α) (res : ε → Option σ) (positive : Bool) (A : α) (log : List (List ε)) :
    List (List ε) :=
  keepLoop (fun t => decide (1 < (toSet (resOf act res t A)).length)) positive log

/-- Start activities filter (log/start_activities/start_activities_filter.py:59-70): the first event's attribute is read
without a check, so `act` is total here. -/
def startActivities (act : ε → α) (positive : Bool) (values : List α) (log : List (List ε)) : List (List ε) :=
  if positive then log.filter fun t => match t.head? with
    | some e => decide (act e ∈ values)
    | none => false
  else log.filter fun t => match t.head? with
    | some e => decide (act e ∉ values)
    | none => false

/-- End activities filter (log/end_activities/end_activities_filter.py:60-66). -/
def endActivities (act : ε → α) (positive : Bool) (values : List α) (log : List (List ε)) : List (List ε) :=
  if positive then log.filter fun t => match t.getLast? with
    | some e => decide (act e ∈ values)
    | none => false
  else log.filter fun t => match t.getLast? with
    | some e => decide (act e ∉ values)
    | none => false

/-- The `found` loop of the case-level attribute filter (log/attributes/attributes_filter.py:248-253). -/
def attrFound (act : ε → Option α) (values : List α) (t : List ε) : Bool :=
  t.foldl (fun found e => match act e with
    | some v => if v ∈ values then true else found
    | none => found) false

/-- The case-level attribute filter `apply` (log/attributes/attributes_filter.py:245-263): a trace that is not kept is
replaced by an empty one, and empty traces are not appended. -/
def attrCases (act : ε → Option α) (positive : Bool) (values : List α) (log : List (List ε)) : List (List ε) :=
  log.foldl (fun new t =>
    let found := attrFound act values t
    let newTrace := if (found && positive) || (!found && !positive) then t else []
    if 0 < newTrace.length then new ++ [newTrace] else new) []

/-- `apply_numeric` (log/attributes/attributes_filter.py:100-119) with the identity of the trace in place of its case
identifier (simplified: case identifiers are distinct); `sel` is the conjunction of the two stream filters. -/
def attrNumeric (val : ε → Option Int) (sel : ε → Bool) (positive : Bool) (lo hi : Int) (log : List (List ε)) :
    List (List ε) :=
  log.filter fun t => t.any fun e => sel e && (match val e with
    | some x => if positive then decide (lo ≤ x ∧ x ≤ hi) else decide (x < lo ∨ x > hi)
    | none => false)

/-- The `found` loop of the paths filter (log/paths/paths_filter.py:68-73). -/
def pathFound (act : ε → α) (test : ε → ε → Bool) (paths : List (α × α)) : List ε → Bool
  | [] => false
  | [_] => false
  | e :: f :: t => if decide ((act e, act f) ∈ paths) && test e f then true else pathFound act test paths (f :: t)

/-- Directly-follows filter (log/paths/paths_filter.py:67-76). -/
def pathsFilter (act : ε → α) (positive : Bool) (paths : List (α × α)) (log : List (List ε)) : List (List ε) :=
  log.foldl (fun new t =>
    let found := pathFound act (fun _ _ => true) paths t
    if (found && positive) || (!found && !positive) then new ++ [t] else new) []

/-- Paths performance filter (log/paths/paths_filter.py:115-126). -/
def pathsPerformance (act : ε → α) (time : ε → Int) (positive : Bool) (path : α × α) (lo hi : Int)
    (log : List (List ε)) : List (List ε) :=
  log.foldl (fun new t =>
    let found := pathFound act (fun e f => decide (lo ≤ time f - time e) && decide (time f - time e ≤ hi)) [path] t
    if (found && positive) || (!found && !positive) then new ++ [t] else new) []

/-- `rep <= max_rep`; `none` stands for the default `sys.maxsize` (log/attr_value_repetition/filter.py:71). -/
def upTo (hi : Option Int) (rep : Int) : Bool :=
  match hi with
  | some h => decide (rep ≤ h)
  | none => true

/-- Attribute value repetition (log/attr_value_repetition/filter.py:66-74). -/
def repetition (act : ε → Option α) (v : α) (lo : Int) (hi : Option Int) (log : List (List ε)) : List (List ε) :=
  log.foldl (fun new t =>
    let rep : Nat := t.foldl (fun rep e => if act e = some v then rep + 1 else rep) 0
    if decide (lo ≤ (rep : Int)) && upTo hi rep then new ++ [t] else new) []

/-- Rework filter (log/rework/rework_filter.py:70-77); `activity in act_counter` is `0 < count`. -/
def rework (act : ε → α) (positive : Bool) (v : α) (lo : Int) (log : List (List ε)) : List (List ε) :=
  log.foldl (fun new t =>
    let n := (t.map act).count v
    if positive && (decide (v ∈ t.map act) && decide ((n : Int) ≥ lo)) then new ++ [t]
    else if !positive && (!decide (v ∈ t.map act) || decide ((n : Int) < lo)) then new ++ [t]
    else new) []

/-- `filter_on_case_size` (log/cases/case_filter.py:103-107). -/
def caseSize (lo : Nat) (hi : Option Nat) (log : List (List ε)) : List (List ε) :=
  match hi with
  | some h => log.filter fun t => decide (lo ≤ t.length ∧ t.length ≤ h)
  | none => log.filter fun t => decide (t.length ≥ lo)

/-- `filter_on_ncases` (log/cases/case_filter.py:79). -/
def nCases (n : Nat) (log : List (List ε)) : List (List ε) := log.take (min log.length n)

/-- `satisfy_perf` (log/cases/case_filter.py:130-133). -/
def satisfyPerf (time : ε → Int) (lo hi : Int) (t : List ε) : Bool :=
  match t.head?, t.getLast? with
  | some e, some f => decide (lo ≤ time f - time e ∧ time f - time e ≤ hi)
  | _, _ => false

/-- `filter_on_case_performance` (log/cases/case_filter.py:57). -/
def casePerformance (time : ε → Int) (lo hi : Int) (log : List (List ε)) : List (List ε) :=
  log.filter (satisfyPerf time lo hi)

/-- `is_contained` (log/timestamp/timestamp_filter.py:120-123). -/
def isContained (time : ε → Int) (dt1 dt2 : Int) (t : List ε) : Bool :=
  match t.head?, t.getLast? with
  | some e, some f => decide (time e ≥ dt1 ∧ time f ≤ dt2)
  | _, _ => false

/-- `is_intersecting` (log/timestamp/timestamp_filter.py:181-189). -/
def isIntersecting (time : ε → Int) (dt1 dt2 : Int) (t : List ε) : Bool :=
  match t.head?, t.getLast? with
  | some e, some f =>
    decide (dt1 ≤ time e ∧ time e ≤ dt2) || decide (dt1 ≤ time f ∧ time f ≤ dt2) ||
      decide (time e ≤ dt1 ∧ dt1 ≤ time f) || decide (time e ≤ dt2 ∧ dt2 ≤ time f)
  | _, _ => false

/-- `has_attribute_in_timeframe` (log/timestamp/timestamp_filter.py:264-268). -/
def hasInTimeframe (act : ε → Option α) (time : ε → Int) (v : α) (dt1 dt2 : Int) : List ε → Bool
  | [] => false
  | e :: t => if act e = some v ∧ dt1 ≤ time e ∧ time e ≤ dt2 then true else hasInTimeframe act time v dt1 dt2 t

/-- `filter_traces_contained` (log/timestamp/timestamp_filter.py:155-158). -/
def tracesContained (time : ε → Int) (dt1 dt2 : Int) (log : List (List ε)) : List (List ε) :=
  log.filter (isContained time dt1 dt2)

/-- `filter_traces_intersecting` (log/timestamp/timestamp_filter.py:222-225). -/
def tracesIntersecting (time : ε → Int) (dt1 dt2 : Int) (log : List (List ε)) : List (List ε) :=
  log.filter (isIntersecting time dt1 dt2)

/-- `filter_traces_attribute_in_timeframe` (log/timestamp/timestamp_filter.py:305-309). -/
def tracesInTimeframe (act : ε → Option α) (time : ε → Int) (v : α) (dt1 dt2 : Int) (log : List (List ε)) :
    List (List ε) := log.filter (hasInTimeframe act time v dt1 dt2)

/-- The position chosen by the prefix and suffix filters: `min` or `max` of the positions of the activity
(log/prefixes/prefix_filter.py:67-71, log/suffixes/suffix_filter.py:67-71); `none` when the activity does not occur. -/
def cutIdx (act : ε → Option α) (first : Bool) (a : α) (t : List ε) : Option Nat :=
  if first then (occ act t a).head? else (occ act t a).getLast?

/-- Prefix filter (log/prefixes/prefix_filter.py:64-79). -/
def prefixes (act : ε → Option α) (first strict : Bool) (a : α) (log : List (List ε)) : List (List ε) :=
  log.foldl (fun new t =>
    match cutIdx act first a t with
    | some i => new ++ [t.take (if !strict then i + 1 else i)]
    | none => new) []

/-- Suffix filter (log/suffixes/suffix_filter.py:64-79). -/
def suffixes (act : ε → Option α) (first strict : Bool) (a : α) (log : List (List ε)) : List (List ε) :=
  log.foldl (fun new t =>
    match cutIdx act first a t with
    | some i => new ++ [t.drop (if strict then i + 1 else i)]
    | none => new) []

/-- State of the loop of the between filter over one trace: the current subtrace (`none` when `act1_encountered` is
false), `rel_count` and the subtraces appended so far, each with its number. -/
structure BetweenState (ε : Type) where
  cur : Option (List ε)
  rel : Nat
  out : List (Nat × List ε)

/-- One iteration (log/between/between_filter.py:85-106).  `same` is the result of `act1 == act2`; `filt_trace` is `None`
exactly when `act1_encountered` is false. -/
def betweenStep (p q : ε → Bool) (same : Bool) (s : BetweenState ε) (e : ε) : BetweenState ε :=
  match s.cur with
  | none => if p e then { s with cur := some [e] } else s
  | some c =>
    if q e then
      { cur := if !same then none else some [e], rel := s.rel + 1, out := s.out ++ [(s.rel, c ++ [e])] }
    else { s with cur := some (c ++ [e]) }

/-- The between filter (log/between/between_filter.py:78-110): every subtrace is returned with the position of its trace
and its number, from which `__fix_trace_attributes` builds the new case identifier. -/
def between (p q : ε → Bool) (same : Bool) (log : List (List ε)) : List ((Nat × Nat) × List ε) :=
  (log.zipIdx).flatMap fun (t, idx) =>
    (t.foldl (betweenStep p q same) { cur := none, rel := 0, out := [] }).out.map fun (k, c) => ((idx, k), c)

end Verif.TraceFilter
