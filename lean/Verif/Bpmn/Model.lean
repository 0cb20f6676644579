import Verif.Convert.Model
/-
Model of BPMN graphs (/repo/pm4py/objects/bpmn/obj.py) and of their conversion to Petri nets
(/repo/pm4py/objects/conversion/bpmn/variants/to_petri_net.py).
-/
namespace Verif
namespace Bpmn
open Conv

/-- classes of BPMN nodes the conversion distinguishes (obj.py:75-400): `Task`, `StartEvent`, `EndEvent`, `ExclusiveGateway`,
`ParallelGateway`, `InclusiveGateway` and their subclasses; `other` are all the other classes (intermediate events, sub-processes,
event-based gateways), which the conversion skips -/
inductive Kind
  | task | start | fin | xor | par | incl | other
  deriving DecidableEq, Repr

/-- `BPMN.BPMNNode`: identity, class and name.  Layout, process and gateway direction are not modelled (the conversion does not
read them). -/
structure Node where
  id : Nat
  kind : Kind
  name : String
  deriving DecidableEq, Repr

/-- `BPMN.SequenceFlow` (obj.py:407-470): identity, source and target node.  Message flows and associations are not modelled: the
conversion skips them (to_petri_net.py:118,132,212). -/
structure Flow where
  id : Nat
  src : Nat
  tgt : Nat
  deriving DecidableEq, Repr

/-- `BPMN` (obj.py:478-561): the sets of nodes and flows, listed in the order in which they were added. -/
structure Graph where
  nodes : List Node := []
  flows : List Flow := []
  deriving DecidableEq, Repr

namespace Graph

/-- `node.get_in_arcs()` -/
def inFlows (g : Graph) (n : Nat) : List Flow := g.flows.filter fun f => f.tgt == n
/-- `node.get_out_arcs()` -/
def outFlows (g : Graph) (n : Nat) : List Flow := g.flows.filter fun f => f.src == n
/-- the class of a node -/
def kindOf (g : Graph) (n : Nat) : Kind := ((g.nodes.find? fun x => x.id == n).map Node.kind).getD .other

end Graph

/-- to_petri_net.py:164-169 with `use_id = False`: the label of the transition of a node; a task with an empty name gets none -/
def Node.label (n : Node) : Option String := if n.kind = .task ∧ n.name ≠ "" then some n.name else none

/-- `isinstance(node, BPMN.ParallelGateway) or isinstance(node, BPMN.InclusiveGateway)` -/
def Kind.sync (k : Kind) : Bool := k == .par || k == .incl

/-! ### numbering of places and transitions

In the code places and transitions are objects with `uuid`s as names; in the model they are numbers. -/

/-- place of a flow (to_petri_net.py:121-123); 0 is `source`, 1 is `sink` -/
def flowPlace (f : Flow) : Nat := f.id + 2
/-- a number above the places of all flows -/
def Graph.bound (g : Graph) : Nat := g.flows.foldr (fun f b => max (flowPlace f + 1) b) 2
/-- `entry_place` (line 160) -/
def Graph.entP (g : Graph) (n : Nat) : Nat := g.bound + 2 * n
/-- `exiting_place` (line 162) -/
def Graph.exiP (g : Graph) (n : Nat) : Nat := g.bound + 2 * n + 1
/-- the transition of the node (line 170) -/
def nodeT (n : Nat) : Nat := 7 * n
/-- `exiting_object` as a transition (line 178) -/
def exitT (n : Nat) : Nat := 7 * n + 1
/-- `entering_object` as a transition (line 186) -/
def enterT (n : Nat) : Nat := 7 * n + 2
/-- `start_transition` (line 199) -/
def startT (n : Nat) : Nat := 7 * n + 3
/-- `end_transition` (line 205) -/
def endT (n : Nat) : Nat := 7 * n + 4
/-- `inv1` (line 218) -/
def sflT (f : Nat) : Nat := 7 * f + 5
/-- `inv2` (line 225) -/
def tflT (f : Nat) : Nat := 7 * f + 6

/-- `nodes_exiting[node]` (to_petri_net.py:176-196): a transition for parallel and inclusive gateways with more than one outgoing
flow, otherwise the exiting place -/
def Graph.exiting (g : Graph) (n : Nat) : Ent :=
  if (g.kindOf n).sync && decide ((g.outFlows n).length > 1) then .trans (exitT n) else .place (g.exiP n)

/-- `nodes_entering[node]` (to_petri_net.py:176-196) -/
def Graph.entering (g : Graph) (n : Nat) : Ent :=
  if (g.kindOf n).sync && decide ((g.inFlows n).length > 1) then .trans (enterT n) else .place (g.entP n)

/-- one iteration of the loop over the nodes (to_petri_net.py:151-209): what is added to the net -/
def Graph.nodeNet (g : Graph) (n : Node) : Gr String :=
  if n.kind = .other then {}
  else
    { places := [g.entP n.id, g.exiP n.id], trans := [(nodeT n.id, n.label)], pt := [(g.entP n.id, nodeT n.id)],
      tp := [(nodeT n.id, g.exiP n.id)] }
    ++ (if n.kind.sync && decide ((g.outFlows n.id).length > 1) then
          { trans := [(exitT n.id, none)], pt := [(g.exiP n.id, exitT n.id)] } else {})
    ++ (if n.kind.sync && decide ((g.inFlows n.id).length > 1) then
          { trans := [(enterT n.id, none)], tp := [(enterT n.id, g.entP n.id)] } else {})
    ++ (if n.kind = .start then
          { trans := [(startT n.id, none)], pt := [(0, startT n.id)], tp := [(startT n.id, g.entP n.id)] }
        else if n.kind = .fin then
          { trans := [(endT n.id, none)], pt := [(g.exiP n.id, endT n.id)], tp := [(endT n.id, 1)] }
        else {})

/-- one iteration of the last loop over the flows (to_petri_net.py:211-232): what is added to the net -/
def Graph.flowNet (g : Graph) (f : Flow) : Gr String :=
  if g.kindOf f.src ≠ .other ∧ g.kindOf f.tgt ≠ .other then
    (match g.exiting f.src with
      | .place p => { trans := [(sflT f.id, none)], pt := [(p, sflT f.id)], tp := [(sflT f.id, flowPlace f)] }
      | .trans t => { tp := [(t, flowPlace f)] })
    ++ (match g.entering f.tgt with
      | .place p => { trans := [(tflT f.id, none)], tp := [(tflT f.id, p)], pt := [(flowPlace f, tflT f.id)] }
      | .trans t => { pt := [(flowPlace f, t)] })
  else {}

/-- everything that the list of pieces adds -/
def flat {β : Type} (k : β → Gr String) : List β → Gr String
  | [] => {}
  | x :: xs => k x ++ flat k xs

/-- the net before the part on inclusive gateways (to_petri_net.py:100-232) -/
def Graph.build (g : Graph) : Gr String :=
  { places := 0 :: 1 :: g.flows.map flowPlace } ++ flat g.nodeNet g.nodes ++ flat g.flowNet g.flows

/-- `inclusive_gateway_exit` (to_petri_net.py:131-137): flows leaving an inclusive gateway with several outgoing flows -/
def Graph.inclExit (g : Graph) : List Flow :=
  g.flows.filter fun f => g.kindOf f.src == .incl && decide ((g.outFlows f.src).length > 1)

/-- `inclusive_gateway_entry` (to_petri_net.py:138-145): the other flows that enter an inclusive gateway with several incoming
flows.  (The two sets are disjoint because of the `elif`, so lines 143-145 change nothing.) -/
def Graph.inclEntry (g : Graph) : List Flow :=
  g.flows.filter fun f => !(g.kindOf f.src == .incl && decide ((g.outFlows f.src).length > 1)) &&
    (g.kindOf f.tgt == .incl && decide ((g.inFlows f.tgt).length > 1))

/-- the silent transitions that lead from the flows leaving an inclusive split to an inclusive join (to_petri_net.py:234-253).
`nearest p` is the first of the `output_places` of `p`: a place with the shortest path from `p`, `none` if there is none.  The
transitions are numbered from `k`. -/
def skips (nearest : Nat → Option Nat) : List Nat → Nat → Gr String
  | [], _ => {}
  | p :: ps, k =>
    match nearest p with
    | some q => { trans := [(k, none)], pt := [(p, k)], tp := [(k, q)] } ++ skips nearest ps (k + 1)
    | none => skips nearest ps k

/-- a number above all transitions -/
def transBound (n : Gr String) : Nat := n.trans.foldr (fun e b => max (e.1 + 1) b) 0

/-- to_petri_net.py:100-253 -/
def Graph.unreduced (nearest : Nat → Option Nat) (g : Graph) : Gr String :=
  if g.inclExit ≠ [] ∧ g.inclEntry ≠ [] then
    g.build ++ skips nearest (g.inclExit.map flowPlace) (transBound g.build)
  else g.build

/-- one iteration of the clean-up loop (to_petri_net.py:258-260); the markings are on the places 0 and 1 -/
def dropIsolated (n : Gr String) (p : Nat) : Gr String :=
  if (n.ppre p).length = 0 ∧ (n.ppost p).length = 0 ∧ p ≠ 0 ∧ p ≠ 1 then n.removePlace p else n

/-- `apply` (to_petri_net.py:61-265), `reduce` is the parameter `enable_reduction` (default: true); the markings are `{source: 1}` (place 0) and
`{sink: 1}` (place 1).  `ord` is the iteration order of the set of transitions, `ordP` that of the places. -/
def Graph.toPetri (nearest : Nat → Option Nat) (ord : Gr String → List (Nat × Option String)) (ordP : List Nat → List Nat)
    (reduce : Bool) (g : Graph) : Gr String :=
  let n := if reduce then (g.unreduced nearest).simpleReduction ord else g.unreduced nearest
  (ordP n.places).foldl dropIsolated n

end Bpmn
end Verif
