import Verif.Common.Counter
import Verif.Common.ListX
import Mathlib.Data.Rat.Defs
import Mathlib.Algebra.Order.Field.Rat
/-
Model of the social network analysis metrics (/repo/pm4py/algo/organizational_mining/sna/variants/log/handover.py, subcontracting.py,
working_together.py, the same files in variants/pandas, and sna/algorithm.py).

A log is a list of traces, a trace is the list of its resources.  Numbers are exact (`ℚ`; in the code floating-point numbers).  The code
replaces resources by their positions in the sorted list of all resources and back (`flat_list`), which is left out.
-/
namespace Verif
namespace Sna
open Dict
variable {α : Type} [DecidableEq α]

/-- `variants_occ` (handover.py:63): the number of traces of every variant.  In the order of the first occurrences for event logs; the data frame
variants have another order, so the theorems are about all orders. -/
def variants (log : List (List α)) : Dict (List α) Int := Counter.ofList log

/-- `sum_i_to_j[a][b]` -/
def val (d : Dict α (Dict α ℚ)) (a b : α) : Option ℚ := (get? d a).bind fun m => get? m b

/-- handover.py:81-92: `sum_i_to_j[a][b] += x`, after adding the missing entries -/
def add (d : Dict α (Dict α ℚ)) (r : (α × α) × ℚ) : Dict α (Dict α ℚ) :=
  Dict.set d r.1.1 (Dict.set ((get? d r.1.1).getD []) r.1.2 ((val d r.1.1 r.1.2).getD 0 + r.2))

/-- the inner loop of handover.py:83-92 for the resource `e` followed by `rest`: what is added to `sum_i_to_j` and to `dividend` -/
def fromPos (beta : ℚ) (occ : Int) (e : α) (rest : List α) : List ((α × α) × ℚ) :=
  if beta = 0 then (rest.take 1).map fun r => ((e, r), (occ : ℚ))
  else rest.zipIdx.map fun r => ((e, r.1), (occ : ℚ) * beta ^ r.2)

/-- handover.py:78-92 for one variant -/
def updates (beta : ℚ) (occ : Int) : List α → List ((α × α) × ℚ)
  | [] => []
  | e :: rest => fromPos beta occ e rest ++ updates beta occ rest

/-- handover.py:76-92 for all variants -/
def allUpdates (beta : ℚ) (vs : Dict (List α) Int) : List ((α × α) × ℚ) := vs.flatMap fun v => updates beta v.2 v.1

/-- handover.py:94-97 (and subcontracting.py:90-93): the entries, divided -/
def connections (d : Dict α (Dict α ℚ)) (dividend : ℚ) : Dict (α × α) ℚ :=
  d.flatMap fun e => e.2.map fun f => ((e.1, f.1), f.2 / dividend)

/-- `apply` of handover.py:38-99; `none`: ZeroDivisionError -/
def handover (beta : ℚ) (vs : Dict (List α) Int) : Option (Dict (α × α) ℚ) :=
  let us := allUpdates beta vs
  let dividend := (us.map Prod.snd).sum
  if us ≠ [] ∧ dividend = 0 then none else some (connections (us.foldl add []) dividend)

/-- subcontracting.py:77-87 for one variant: the positions `i` whose resource is also the one of `i + n`, with the resources between -/
def subsOf (n : Nat) (rv : List α) (occ : Int) : List (α × List α × Int) :=
  (List.range (rv.length - n)).filterMap fun i =>
    match rv[i]?, rv[i + n]? with
    | some a, some b => if a = b then some (a, (rv.drop (i + 1)).take (n - 1), occ) else none
    | _, _ => none

/-- the loop over `j` (subcontracting.py:83-87), starting with the new dictionary `sum_i_to_j[res_i] = {}` -/
def inner (bt : List α) (occ : Int) : Dict α ℚ := bt.foldl (fun m b => Dict.set m b ((get? m b).getD 0 + (occ : ℚ))) []

/-- subcontracting.py:80-87: the loop over `j` is inside the test that `res_i` has no entry yet -/
def subStep (d : Dict α (Dict α ℚ)) (s : α × List α × Int) : Dict α (Dict α ℚ) :=
  if has d s.1 then d else Dict.set d s.1 (inner s.2.1 s.2.2)

/-- `apply` of subcontracting.py:37-95 (`n` is not negative) -/
def subcontracting (n : Nat) (vs : Dict (List α) Int) : Dict (α × α) ℚ :=
  connections ((vs.flatMap fun v => subsOf n v.1 v.2).foldl subStep []) ((vs.map fun v => (v.2 : ℚ)).sum)

/-- the pairs of positions `i < j` of a list (working_together.py:72-76), both ways -/
def pairs (x : ℚ) : List α → List ((α × α) × ℚ)
  | [] => []
  | a :: l => (l.flatMap fun b => [((a, b), x), ((b, a), x)]) ++ pairs x l

/-- `connections[k] += x` (a Counter) -/
def addC (d : Dict (α × α) ℚ) (r : (α × α) × ℚ) : Dict (α × α) ℚ := Dict.set d r.1 ((get? d r.1).getD 0 + r.2)

/-- `apply` of working_together.py:37-81; `sorted` is the sorting of the set of the resources of a trace; `len` is `len(log)` -/
def togetherWith (sorted : List α → List α) (len : Nat) (vs : Dict (List α) Int) : Dict (α × α) ℚ :=
  (vs.flatMap fun v => pairs ((v.2 : ℚ) / (len : ℚ)) (sorted (dedup v.1))).foldl addC []

/-- variants/log/working_together.py: `len(log)` is the number of traces -/
def together (sorted : List α → List α) (log : List (List α)) (vs : Dict (List α) Int) : Dict (α × α) ℚ := togetherWith sorted log.length vs

/-- variants/pandas/working_together.py:79-80: `len(log)` is the number of rows of the data frame, that is of events -/
def togetherDf (sorted : List α → List α) (log : List (List α)) (vs : Dict (List α) Int) : Dict (α × α) ℚ :=
  togetherWith sorted (log.map List.length).sum vs

/-- sna/algorithm.py:88-93: the maximum of the absolute values (`np.max` of an empty list is a ValueError: `none`), normalization -/
def apply (normalize : Bool) (c : Dict (α × α) ℚ) : Option (Dict (α × α) ℚ) :=
  if c = [] then none
  else
    let m := (c.map fun e => |e.2|).foldl max 0
    some (if normalize ∧ m > 0 then c.map fun e => (e.1, e.2 / m) else c)

end Sna
end Verif
