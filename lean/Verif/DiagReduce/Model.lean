import Verif.NetBpmn.Spec
/-
Model of the reduction of exclusive gateways on diagrams whose flows are objects: /repo/pm4py/objects/bpmn/util/reduction.py:40-78 (C84 has the same
function on flows as pairs of nodes, and its termination).  The new flow is a new object.  The case of a gateway that is only connected with itself is
left out: it is removed and added again with a new flow (reduction.py:77), so that the loop does not end (C84_loop_refuted).
-/
namespace Verif
namespace DiagReduce
open NetBpmn

variable {ν φ : Type} [DecidableEq ν] [DecidableEq φ]

/-- the diagram after the removal of the gateway `x` with the incoming flow `a` and the outgoing flow `b`; `n` is the new flow (reduction.py:64-77) -/
def reduceAt (D : Diagram ν φ) (x : ν) (a b n : φ) : Diagram ν φ where
  nodes := D.nodes.filter fun y => decide (y ≠ x)
  flows := (D.flows.filter fun f => decide (f ≠ a ∧ f ≠ b)) ++ [n]
  src := fun f => if f = n then D.src a else D.src f
  tgt := fun f => if f = n then D.tgt b else D.tgt f
  kind := D.kind
  start := D.start
  stop := D.stop

/-- one round of the loop (reduction.py:41-78), for any order of the nodes -/
def Step (D D' : Diagram ν φ) : Prop :=
  ∃ x ∈ D.nodes, D.kind x = .exclusive ∧ ∃ a b n, ins D x = [a] ∧ outs D x = [b] ∧ a ≠ b ∧ n ∉ D.flows ∧ D' = reduceAt D x a b n

end DiagReduce
end Verif
