import Verif.Common.Counter
import Verif.Filter.Spec
/-
C24, C36: /repo/pm4py/statistics/variants/log/get.py, /repo/pm4py/algo/filtering/log/variants/variants_filter.py,
/repo/pm4py/algo/filtering/pandas/variants/variants_filter.py, /repo/pm4py/objects/log/util/pandas_numpy_variants.py,
/repo/pm4py/statistics/traces/generic/pandas/case_statistics.py.
Floats are exact rationals.  The conversion of the input to an event log (`log_converter.apply`) is the identity.
-/
namespace Verif.Filter
open Dict
variable {α τ : Type} [LinearOrder α]

/-! ### event logs -/

/-- `get_variants_from_log_trace_idx` (get.py 139-169); `var` is `variants_util.get_variant_from_trace` -/
def variantsIdx (var : τ → List α) (log : List τ) : Dict (List α) (List Nat) :=
  log.zipIdx.foldl (fun d (p : τ × Nat) =>
    let v := var p.1
    let d := if has d v then d else Dict.set d v []
    Dict.set d v ((get? d v).getD [] ++ [p.2])) []

/-- `convert_variants_trace_idx_to_trace_obj` (get.py 194-219); the keys of a dictionary are distinct, so the new
dictionary has the same keys in the same order -/
def toTraces (log : List τ) (d : Dict (List α) (List Nat)) : Dict (List α) (List τ) :=
  d.map fun e => (e.1, e.2.filterMap fun i => log[i]?)

/-- `get_variants` (get.py 67-92) -/
def getVariants (var : τ → List α) (log : List τ) : Dict (List α) (List τ) := toTraces log (variantsIdx var log)

/-- `get_variants_sorted_by_count` (get.py 172-191): descending by `(count, variant)` -/
def sortedByCount (d : Dict (List α) (List τ)) : List (List α × Nat) :=
  (d.map fun e => (e.1, e.2.length)).mergeSort fun x y => decide (y.2 < x.2) || (decide (x.2 = y.2) && decide (y.1 ≤ x.1))

/-- `get_language` (get.py 39-64); the sum is 0 only when there is no entry to divide -/
def getLanguage (var : τ → List α) (log : List τ) : Dict (List α) Rat :=
  let vars : Dict (List α) Nat := (getVariants var log).map fun e => (e.1, e.2.length)
  let total : Nat := (vars.map Prod.snd).sum
  vars.map fun e => (e.1, (e.2 : Rat) / (total : Rat))

/-- `apply` (variants_filter.py 35-64) -/
def applyFilter (var : τ → List α) (positive : Bool) (admitted : List (List α)) (log : List τ) : List τ :=
  (getVariants var log).flatMap fun e =>
    if (positive && decide (e.1 ∈ admitted)) || (!positive && decide (e.1 ∉ admitted)) then e.2 else []

/-- `l[:m]` for a Python integer `m` -/
def sliceTo {β : Type} (l : List β) (m : Int) : List β :=
  if 0 ≤ m then l.take m.toNat else l.take (l.length - (-m).toNat)

/-- `filter_variants_top_k` (67-95) -/
def topK (var : τ → List α) (k : Int) (log : List τ) : List τ :=
  let vc := sortedByCount (getVariants var log)
  applyFilter var true ((sliceTo vc (min k vc.length)).map Prod.fst) log

/-- `filter_variants_by_coverage_percentage` (98-128) -/
def minCoverage (var : τ → List α) (p : Rat) (log : List τ) : List τ :=
  applyFilter var true
    (((getVariants var log).filter fun e => decide ((e.2.length : Rat) ≥ p * log.length)).map Prod.fst) log

/-- `filter_variants_by_maximum_coverage_percentage` (131-161) -/
def maxCoverage (var : τ → List α) (p : Rat) (log : List τ) : List τ :=
  applyFilter var true
    (((getVariants var log).filter fun e => decide ((e.2.length : Rat) ≤ p * log.length)).map Prod.fst) log

/-- the loop of `filter_variants_variants_percentage` (219-229): `s` is `already_added_sum`, `b` is `shall_break_under` -/
def pctLoop (d : Dict (List α) (List τ)) (n : Nat) (p : Rat) : List (List α × Nat) → Nat → Int → List τ
  | [], _, _ => []
  | (v, c) :: l, s, b =>
    if (c : Int) < b then []
    else (get? d v).getD [] ++ pctLoop d n p l (s + c) (if ((s + c : Nat) : Rat) / (n : Rat) ≥ p then (c : Int) else b)

/-- `filter_variants_variants_percentage` (192-231) -/
def pctFilter (d : Dict (List α) (List τ)) (p : Rat) (log : List τ) : List τ :=
  pctLoop d log.length p (sortedByCount d) 0 (-1)

/-- `filter_log_variants_percentage` (164-189) -/
def logPctFilter (var : τ → List α) (p : Rat) (log : List τ) : List τ := pctFilter (getVariants var log) p log

/-- the loop of `find_auto_threshold` (260-267): the final `already_added_sum`; `prev` is `prev_var_count` -/
def autoLoop (f : Rat) : List Nat → Nat → Int → Nat
  | [], s, _ => s
  | c :: l, s, prev => if s = 0 ∨ (c : Rat) > f * prev then autoLoop f l (s + c) c else s

/-- `find_auto_threshold` (234-271); `none`: division by the length of an empty log -/
def autoThreshold (d : Dict (List α) (List τ)) (f : Rat) (log : List τ) : Option Rat :=
  if log.length = 0 then none
  else some ((autoLoop f ((sortedByCount d).map Prod.snd) 0 (-1) : Rat) / (log.length : Rat))

/-! ### dataframes -/
variable {ρ κ : Type} [LinearOrder κ]

/-- `get_variants_df` (case_statistics.py 206-235): `groupby(case, sort=False)[activity].agg(tuple)`, with the semantics
of pandas' `groupby`: one row per case, in the order of first occurrence, the activities in the order of the rows -/
def variantsDf (caseOf : ρ → κ) (actOf : ρ → α) (rows : List ρ) : Dict κ (List α) :=
  rows.foldl (fun d r => Dict.set d (caseOf r) ((get? d (caseOf r)).getD [] ++ [actOf r])) []

/-- `apply` for dataframes (pandas variants_filter.py 35-74) -/
def dfApply (caseOf : ρ → κ) (actOf : ρ → α) (positive : Bool) (admitted : List (List α)) (rows : List ρ) : List ρ :=
  let i2 := keys ((variantsDf caseOf actOf rows).filter fun e => decide (e.2 ∈ admitted))
  if positive then rows.filter fun r => decide (caseOf r ∈ i2) else rows.filter fun r => !decide (caseOf r ∈ i2)

/-- `np.unique(cases)`: the distinct cases in ascending order -/
def npUnique (cases : List κ) : List κ := (firstOcc cases).mergeSort fun x y => decide (x ≤ y)

/-- `pandas_numpy_variants.apply` (74-102), the branch without cudf: the variant recorded for each case.  The call of
`sort_values` (77) has no effect, because its result is not used; `insert_index` adds a column that is not read. -/
def numpyCaseVariant (caseOf : ρ → κ) (actOf : ρ → α) (rows : List ρ) : Dict κ (List α) :=
  let cases := rows.map caseOf
  (npUnique cases).map fun c => (c, ((rows.map actOf).drop (cases.idxOf c)).take (cases.count c))

/-- its other result, the number of occurrences of each variant -/
def numpyVariants (caseOf : ρ → κ) (actOf : ρ → α) (rows : List ρ) : Dict (List α) Int :=
  Counter.ofList ((numpyCaseVariant caseOf actOf rows).map Prod.snd)

/-- `filter_variants_top_k` for dataframes (77-106) -/
def dfTopK (caseOf : ρ → κ) (actOf : ρ → α) (k : Int) (rows : List ρ) : List ρ :=
  let vc := (numpyVariants caseOf actOf rows).mergeSort fun x y =>
    decide (y.2 < x.2) || (decide (x.2 = y.2) && decide (y.1 ≤ x.1))
  dfApply caseOf actOf true ((sliceTo vc (min k vc.length)).map Prod.fst) rows

/-- `filter_variants_by_coverage_percentage` for dataframes (109-138) -/
def dfMinCoverage (caseOf : ρ → κ) (actOf : ρ → α) (p : Rat) (rows : List ρ) : List ρ :=
  dfApply caseOf actOf true
    (((numpyVariants caseOf actOf rows).filter fun e =>
      decide ((e.2 : Rat) ≥ p * (firstOcc (rows.map caseOf)).length)).map Prod.fst) rows

/-- `filter_variants_by_maximum_coverage_percentage` for dataframes (141-170) -/
def dfMaxCoverage (caseOf : ρ → κ) (actOf : ρ → α) (p : Rat) (rows : List ρ) : List ρ :=
  dfApply caseOf actOf true
    (((numpyVariants caseOf actOf rows).filter fun e =>
      decide ((e.2 : Rat) ≤ p * (firstOcc (rows.map caseOf)).length)).map Prod.fst) rows

end Verif.Filter
