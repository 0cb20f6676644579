import Mathlib.Data.Rat.Defs
import Mathlib.Data.List.Dedup
import Mathlib.Algebra.Order.Ring.Unbundled.Rat
/-
C51: the rule filters
/repo/pm4py/algo/filtering/log/ltl/ltl_checker.py, /repo/pm4py/algo/filtering/pandas/ltl/ltl_checker.py,
/repo/pm4py/filtering.py (filter_eventually_follows_relation, filter_four_eyes_principle, filter_activity_done_different_resources).
Timestamps are exact rationals.  The conversion to an event log is the identity.  Case identifiers are never missing.
-/
namespace Verif.Ltl
variable {A R C : Type} [DecidableEq A] [DecidableEq R] [DecidableEq C]

/-- an event: activity and resource may be missing -/
structure Ev (A R : Type) where
  act : Option A
  res : Option R
  time : Rat
deriving DecidableEq

/-! ### event logs -/

/-- `[i for i in range(len(trace)) if attribute_key in trace[i] and trace[i][attribute_key] == v]`
(log/ltl/ltl_checker.py:96-97, 166-168) -/
def occ (tr : List (Ev A R)) (v : A) : List Nat :=
  (List.range tr.length).filter fun i => decide ((tr[i]?).bind Ev.act = some v)

/-- `itertools.product` -/
def product {β : Type} : List (List β) → List (List β)
  | [] => [[]]
  | l :: ls => l.flatMap fun b => (product ls).map fun c => b :: c

/-- the test of lines 102-106 -/
def increasing : List Nat → Bool
  | a :: b :: c => decide (a < b) && increasing (b :: c)
  | _ => true

/-- the time of the event at a position (in range whenever it is used) -/
def timeAt (tr : List (Ev A R)) (i : Nat) : Rat := ((tr[i]?).map Ev.time).getD 0

/-- lines 108-114; the positions used are `i` and `i + 1`, not `c[i]` and `c[i + 1]` -/
def timesOk (trace : List (Ev A R)) (bounds : List (Rat × Rat)) (c : List Nat) : Bool :=
  (List.range (c.length - 1)).all fun i =>
    let d := timeAt trace (i + 1) - timeAt trace i
    let b := bounds.getD i (0, 0)
    !(decide (d < b.1) || decide (d > b.2))

/-- `is_good` for one trace (lines 96-118); `bounds = none`: `enable_timestamp` is off or there are no boundaries -/
def followsTrace (vals : List A) (bounds : Option (List (Rat × Rat))) (trace : List (Ev A R)) : Bool :=
  (product (vals.map (occ trace))).any fun c =>
    increasing c && match bounds with
      | none => true
      | some bs => timesOk trace bs c

/-- `eventually_follows` (lines 58-126) -/
def eventuallyFollows (positive : Bool) (vals : List A) (bounds : Option (List (Rat × Rat))) (log : List (List (Ev A R))) :
    List (List (Ev A R)) := log.filter fun t => followsTrace vals bounds t == positive

/-- `found` of `A_next_B_next_C` (lines 166-176) -/
def nextTrace (a b c : A) (trace : List (Ev A R)) : Bool :=
  (occ trace a).any fun i => (occ trace b).any fun j => (occ trace c).any fun k =>
    decide ((j : Int) - i = 1) && decide ((k : Int) - j = 1)

/-- `A_next_B_next_C` (lines 129-184) -/
def nextNext (positive : Bool) (a b c : A) (log : List (List (Ev A R))) : List (List (Ev A R)) :=
  log.filter fun t => nextTrace a b c t == positive

/-- the resources of an activity (lines 224-227, 273-274), as a list instead of a set -/
def resOf (trace : List (Ev A R)) (v : A) : List R :=
  trace.filterMap fun e => if e.act = some v then e.res else none

/-- `four_eyes_principle` (lines 187-237) -/
def fourEyes (positive : Bool) (a b : A) (log : List (List (Ev A R))) : List (List (Ev A R)) :=
  log.filter fun t =>
    let x := resOf t a
    let y := resOf t b
    let inter := x.filter fun r => decide (r ∈ y)
    if !x.isEmpty && !y.isEmpty then
      if !positive && !inter.isEmpty then true else positive && inter.isEmpty
    else false

/-- `attr_value_different_persons` (lines 240-281); the size of the set of resources is above one -/
def differentPersons (positive : Bool) (a : A) (log : List (List (Ev A R))) : List (List (Ev A R)) :=
  log.filter fun t => decide (1 < (resOf t a).dedup.length) == positive

/-- `filter_eventually_follows_relation` on an event log (filtering.py:329-348); the identity of a trace is its position -/
def filterRelation (retain : Bool) (relations : List (List A)) (log : List (List (Ev A R))) : List (List (Ev A R)) :=
  let kept := fun path => (log.zipIdx.filter fun p => followsTrace path none p.1 == retain).map Prod.snd
  let cases := relations.foldl (fun cs path =>
    if retain then cs ++ kept path else cs.filter fun i => decide (i ∈ kept path))
    (if retain then [] else log.zipIdx.map Prod.snd)
  (log.zipIdx.filter fun p => decide (p.2 ∈ cases)).map Prod.fst

/-! ### dataframes -/

/-- a row; a missing timestamp is `none` -/
structure Row (C A R : Type) where
  cid : C
  act : Option A
  res : Option R
  time : Option Rat
deriving DecidableEq

/-- `pandas_utils.insert_index` (pandas_utils.py:70-95) followed by `df[df[attribute_key] == v]`
(pandas/ltl/ltl_checker.py:82-84, 150-153) -/
def dfA (rows : List (Row C A R)) (v : A) : List (Row C A R × Nat) :=
  rows.zipIdx.filter fun p => decide (p.1.act = some v)

/-- a row of `df_join`: the joined rows, the last one first -/
abbrev Joined (C A R : Type) := List (Row C A R × Nat)

/-- `df_join.merge(df_a[i], on=case).dropna()` and the test on the index (lines 86-89, 92-95); with timestamps a row without timestamp is
dropped -/
def joinStep (enable : Bool) (js : List (Joined C A R)) (ys : List (Row C A R × Nat)) : List (Joined C A R) :=
  js.flatMap fun j => match j with
    | [] => []
    | x :: j => (ys.filter fun y => decide (y.1.cid = x.1.cid) && (!enable || (y.1.time.isSome && x.1.time.isSome)) && decide (x.2 < y.2)).map
        fun y => y :: x :: j

/-- `df_join` for two or more values (lines 84-95) -/
def joined (enable : Bool) (rows : List (Row C A R)) : List A → List (Joined C A R)
  | [] => []
  | v :: vs => vs.foldl (fun js w => joinStep enable js (dfA rows w)) ((dfA rows v).map fun x => [x])

/-- `@@difftimestamp0` is within the first boundary (lines 98-103, `i = 1`) -/
def firstDiffOk (bounds : List (Rat × Rat)) : Joined C A R → Bool
  | [y, x] =>
    let d := (y.1.time.getD 0) - (x.1.time.getD 0)
    let b := bounds.getD 0 (0, 0)
    decide (d ≥ b.1) && decide (d ≤ b.2)
  | _ => false

/-- the selection of the rows of cases (lines 105-110) -/
def rowsOfCases (positive : Bool) (rows : List (Row C A R)) (cs : List C) : List (Row C A R) :=
  rows.filter fun r => decide (r.cid ∈ cs) == positive

/-- the case of a joined row -/
def caseOf (j : Joined C A R) : List C := (j.head?.map fun x => x.1.cid).toList

/-- `eventually_follows` on a dataframe (lines 44-113); `none` is an exception.  With less than two values `df_a[1]` (or `df_a[0]`) is an
`IndexError`.  With timestamps (`bounds` is not empty) and three or more values, the column `time:timestamp_2` does not exist: the
merge adds suffixes only to columns that are in both frames, and `df_join` has no column `time:timestamp` (line 92), so line 99 is a
`KeyError`. -/
def dfEventuallyFollows (positive : Bool) (vals : List A) (bounds : List (Rat × Rat)) (rows : List (Row C A R)) :
    Option (List (Row C A R)) :=
  let enable := !bounds.isEmpty
  match vals with
  | [] => none
  | [_] => none
  | [a, b] =>
    let js := joined enable rows [a, b]
    let js := if enable then js.filter (firstDiffOk bounds) else js
    some (rowsOfCases positive rows (js.flatMap caseOf))
  | vs => if enable then none else some (rowsOfCases positive rows ((joined false rows vs).flatMap caseOf))

/-- `df_B.groupby(case).last()`: the last index of a row of the case with this activity (lines 154-157) -/
def lastIdx (rows : List (Row C A R)) (v : A) (c : C) : Option Nat :=
  (((dfA rows v).filter fun p => decide (p.1.cid = c)).map Prod.snd).getLast?

/-- `A_next_B_next_C` on a dataframe (lines 116-174) -/
def dfNextNext (positive : Bool) (a b c : A) (rows : List (Row C A R)) : List (Row C A R) :=
  rowsOfCases positive rows (((dfA rows a).filter fun p =>
    match lastIdx rows b p.1.cid, lastIdx rows c p.1.cid with
    | some j, some k => decide ((j : Int) - p.2 = 1) && decide ((k : Int) - j = 1)
    | _, _ => false).map fun p => p.1.cid)

/-- `df_B.groupby(case).last()`: the last resource that is not missing (lines 213-215, 266-268) -/
def lastRes (rows : List (Row C A R)) (v : A) (c : C) : Option R :=
  ((rows.filter fun r => decide (r.act = some v) && decide (r.cid = c)).filterMap Row.res).getLast?

/-- the cases of `df_join` whose resource is (not) equal to the joined one (lines 217-219, 270-271); rows without resource are dropped -/
def joinRes (eq : Bool) (rows : List (Row C A R)) (a b : A) : List C :=
  (rows.filter fun r => decide (r.act = some a) && match r.res, lastRes rows b r.cid with
    | some x, some y => decide (x = y) == eq
    | _, _ => false).map Row.cid

/-- `four_eyes_principle` on a dataframe (lines 177-231) -/
def dfFourEyes (positive : Bool) (a b : A) (rows : List (Row C A R)) : List (Row C A R) :=
  let pos := joinRes true rows a b
  let neg := joinRes false rows a b
  if positive then rows.filter fun r => decide (r.cid ∈ neg) && !decide (r.cid ∈ pos)
  else rows.filter fun r => decide (r.cid ∈ pos)

/-- `attr_value_different_persons` on a dataframe (lines 234-282) -/
def dfDifferentPersons (positive : Bool) (a : A) (rows : List (Row C A R)) : List (Row C A R) :=
  rowsOfCases positive rows (joinRes false rows a a)

/-- `filter_eventually_follows_relation` on a dataframe (filtering.py:312-327) -/
def dfFilterRelation (retain : Bool) (relations : List (List A)) (rows : List (Row C A R)) : Option (List (Row C A R)) :=
  (relations.foldl (fun (cs : Option (List C)) path => cs.bind fun cs =>
    (dfEventuallyFollows retain path [] rows).map fun kept =>
      if retain then cs ++ kept.map Row.cid else cs.filter fun c => decide (c ∈ kept.map Row.cid))
    (some (if retain then [] else rows.map Row.cid))).map fun cs => rows.filter fun r => decide (r.cid ∈ cs)

end Verif.Ltl
