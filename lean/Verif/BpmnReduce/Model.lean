import Mathlib.Logic.Relation
import Mathlib.Data.List.Nodup
/-
Model of the reduction of exclusive gateways in BPMN diagrams: /repo/pm4py/objects/bpmn/util/reduction.py (reduce_xor_gateways, apply) with the graph
operations of /repo/pm4py/objects/bpmn/obj.py (remove_flow, remove_node, add_flow).  A diagram is the list of its nodes (without repetition) and the
list of its flows, as pairs of source and target; parallel flows are repeated pairs (the code has flow objects with identifiers).  Which nodes are
exclusive gateways is a parameter.  Not modelled: names, layout, message flows and associations (they count as flows and become sequence flows).
The nodes are a Python set, in no particular order: the model allows every order.
-/
namespace Verif
namespace BpmnReduce

structure Graph where
  nodes : List Nat
  flows : List (Nat × Nat)
  deriving DecidableEq, Repr

/-- `outgoing_edges[x]` (reduction.py:47-53) -/
def outs (g : Graph) (x : Nat) : List (Nat × Nat) := g.flows.filter fun f => decide (f.1 = x)

/-- `incoming_edges[x]` (reduction.py:47-57) -/
def ins (g : Graph) (x : Nat) : List (Nat × Nat) := g.flows.filter fun f => decide (f.2 = x)

/-- the condition for removing the node `x` (reduction.py:60-63) -/
def reducible (xor : Nat → Bool) (g : Graph) (x : Nat) : Bool :=
  decide (x ∈ g.nodes) && xor x && decide ((outs g x).length = 1) && decide ((ins g x).length = 1)

/-- `add_node` (obj.py:518-521), the nodes are a set -/
def addNode (l : List Nat) (x : Nat) : List Nat := if x ∈ l then l else l ++ [x]

/-- the removal of the node `x` and its flows, and the new flow from the source of the incoming flow to the target of the outgoing flow
(reduction.py:64-77); `add_flow` adds missing nodes (obj.py:538-550) -/
def reduceAt (g : Graph) (x : Nat) : Graph :=
  let p := ((ins g x).headD (0, 0)).1
  let q := ((outs g x).headD (0, 0)).2
  ⟨addNode (addNode (g.nodes.filter fun y => decide (y ≠ x)) p) q, (g.flows.filter fun f => decide (f.1 ≠ x ∧ f.2 ≠ x)) ++ [(p, q)]⟩

/-- one round of the loop that changes the diagram (reduction.py:41-78), for some order of the nodes -/
def Step (xor : Nat → Bool) (g g' : Graph) : Prop := ∃ x, reducible xor g x = true ∧ g' = reduceAt g x

/-- the loop ends (reduction.py:40-41) -/
def Final (xor : Nat → Bool) (g : Graph) : Prop := ∀ x, reducible xor g x = false

/-- a complete run of `reduce_xor_gateways` (reduction.py:20-80) -/
def Run (xor : Nat → Bool) (g g' : Graph) : Prop := Relation.ReflTransGen (Step xor) g g' ∧ Final xor g'

end BpmnReduce
end Verif
