import Mathlib.Analysis.Real.Sqrt
import Mathlib.Algebra.BigOperators.Group.List.Basic
/-
Model of two model-quality measures: generalization (/repo/pm4py/algo/evaluation/generalization/variants/token_based.py:33-48) and arc-degree simplicity
(/repo/pm4py/algo/evaluation/simplicity/variants/arc_degree.py:62-72).  Real numbers instead of floating point numbers.
-/
namespace Verif
namespace Quality

variable {τ ν : Type} [DecidableEq τ] [DecidableEq ν]

/-- the counter of the activated transitions over all replayed traces (token_based.py:34-37) -/
def occ (traces : List (List τ)) (t : τ) : Nat := traces.flatten.count t

/-- get_generalization (token_based.py:33-48): `trans` are the transitions of the net, `traces` the activated transitions of every replayed trace -/
noncomputable def generalization (trans : List τ) (traces : List (List τ)) : Real :=
  let keys := traces.flatten.dedup
  let sum := (keys.map fun t => 1 / Real.sqrt (occ traces t : Real)).sum + ((trans.filter fun t => decide (t ∉ keys)).map fun _ => (1 : Real)).sum
  if trans.length > 0 then 1 - sum / (trans.length : Real) else 1

/-- the degree of a node: the arcs that end in it and the arcs that start in it (arc_degree.py:64,66) -/
def degree (arcs : List (ν × ν)) (x : ν) : Nat := (arcs.filter fun a => decide (a.2 = x)).length + (arcs.filter fun a => decide (a.1 = x)).length

/-- arc-degree simplicity (arc_degree.py:62-70) -/
noncomputable def simplicity (places trans : List ν) (arcs : List (ν × ν)) (k : Real) : Real :=
  let degs := places.map (degree arcs) ++ trans.map (degree arcs)
  let mean : Real := if degs = [] then 0 else ((degs.sum : Nat) : Real) / (degs.length : Real)
  1 / (1 + max (mean - k) 0)

end Quality
end Verif
