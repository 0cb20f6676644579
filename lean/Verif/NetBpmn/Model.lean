import Mathlib.Logic.Relation
import Mathlib.Data.List.Nodup
/-
Model of the conversion of an accepting Petri net to a BPMN diagram: /repo/pm4py/objects/conversion/wf_net/variants/to_bpmn.py:17-91 (the reduction of
useless gateways in line 93 is the subject of C84).  A net has places, transitions, labels, and for every transition the places before and after it (arcs
are not weighted); places and transitions are numbers; a marking has at most one token in every place.  Not modelled: names, identifiers, layout.
-/
namespace Verif
namespace NetBpmn

structure Net where
  places : List Nat
  trans : List Nat
  label : Nat → Option String
  pre : Nat → List Nat
  post : Nat → List Nat
  im : List Nat
  fm : List Nat

/-- the nodes of the diagram (to_bpmn.py:44-79, 84-87): a gateway for every place and every silent transition; two gateways and a task for every
other transition; start and end event -/
inductive Node
  | place (p : Nat)
  | silent (t : Nat)
  | enter (t : Nat)
  | task (t : Nat)
  | leave (t : Nat)
  | start
  | stop
  deriving DecidableEq, Repr

/-- the flows of the diagram: for the arcs (to_bpmn.py:81-82), around a task (to_bpmn.py:75-76), at the events (to_bpmn.py:88-91) -/
inductive Flow
  | arcIn (p t : Nat)
  | arcOut (t p : Nat)
  | toTask (t : Nat)
  | fromTask (t : Nat)
  | init (p : Nat)
  | fin (p : Nat)
  deriving DecidableEq, Repr

inductive Kind
  | exclusive
  | parallel
  | activity (label : String)
  | event
  deriving DecidableEq, Repr

/-- a BPMN diagram with nodes of type `ν` and flows of type `φ` -/
structure Diagram (ν φ : Type) where
  nodes : List ν
  flows : List φ
  src : φ → ν
  tgt : φ → ν
  kind : ν → Kind
  start : ν
  stop : ν

/-- `entering_dictio[t]` (to_bpmn.py:60, 78) -/
def entering (N : Net) (t : Nat) : Node := if N.label t = none then .silent t else .enter t
/-- `exiting_dictio[t]` (to_bpmn.py:61, 79) -/
def exiting (N : Net) (t : Nat) : Node := if N.label t = none then .silent t else .leave t

def visible (N : Net) : List Nat := N.trans.filter fun t => decide (N.label t ≠ none)
def silents (N : Net) : List Nat := N.trans.filter fun t => decide (N.label t = none)

/-- the type of a gateway (to_bpmn.py:45, 52-57, 63-71), the label of a task (to_bpmn.py:72) -/
def kindOf (N : Net) : Node → Kind
  | .place _ => .exclusive
  | .silent t => if (N.pre t).length > 1 then .parallel else if (N.post t).length > 1 then .parallel else .exclusive
  | .enter t => if (N.pre t).length > 1 then .parallel else .exclusive
  | .leave t => if (N.post t).length > 1 then .parallel else .exclusive
  | .task t => .activity ((N.label t).getD "")
  | .start => .event
  | .stop => .event

/-- the flow from its source to its target (to_bpmn.py:75-76, 82, 89, 91) -/
def srcOf (N : Net) : Flow → Node
  | .arcIn p _ => .place p
  | .arcOut t _ => exiting N t
  | .toTask t => .enter t
  | .fromTask t => .task t
  | .init _ => .start
  | .fin p => .place p
def tgtOf (N : Net) : Flow → Node
  | .arcIn _ t => entering N t
  | .arcOut _ p => .place p
  | .toTask t => .task t
  | .fromTask t => .leave t
  | .init p => .place p
  | .fin _ => .stop

/-- the diagram before the reduction (to_bpmn.py:17-91) -/
def toBpmn (N : Net) : Diagram Node Flow where
  nodes := N.places.map .place ++ (silents N).map .silent ++ (visible N).flatMap (fun t => [.enter t, .task t, .leave t]) ++ [.start, .stop]
  flows := N.trans.flatMap (fun t => (N.pre t).map fun p => .arcIn p t) ++ N.trans.flatMap (fun t => (N.post t).map fun p => .arcOut t p) ++
    (visible N).flatMap (fun t => [.toTask t, .fromTask t]) ++ N.im.map .init ++ N.fm.map .fin
  src := srcOf N
  tgt := tgtOf N
  kind := kindOf N
  start := .start
  stop := .stop

end NetBpmn
end Verif
