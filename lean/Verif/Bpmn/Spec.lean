import Verif.Bpmn.Model
import Verif.Petri.Sys
/-
Specification: the token game of BPMN graphs.
-/
namespace Verif
namespace Bpmn
open Sys

/-- A graph as it can be built with the API out of the supported elements: different nodes, different flows, every flow connects two
supported nodes of the graph. -/
structure Graph.OK (g : Graph) : Prop where
  nodes : (g.nodes.map Node.id).Nodup
  flows : (g.flows.map Flow.id).Nodup
  src : ∀ f ∈ g.flows, ∃ n ∈ g.nodes, n.id = f.src ∧ n.kind ≠ .other
  tgt : ∀ f ∈ g.flows, ∃ n ∈ g.nodes, n.id = f.tgt ∧ n.kind ≠ .other

/-- The sets of tokens that let a node start (a token lies on a sequence flow, on the source, place 0, or on the sink, place 1):
parallel (and inclusive) gateways take one token from every incoming flow, all other nodes one token from one of the incoming flows;
start events can also take the token of the source. -/
def Graph.takes (g : Graph) (n : Node) : List (List Nat) :=
  (if n.kind = .start then [[0]] else []) ++
  if n.kind.sync ∧ (g.inFlows n.id).length > 1 then [(g.inFlows n.id).map flowPlace] else (g.inFlows n.id).map fun f => [flowPlace f]

/-- The sets of tokens a node can produce when it ends: parallel (and inclusive) gateways put one token on every outgoing flow, all
other nodes on one of the outgoing flows; end events can also put it on the sink. -/
def Graph.gives (g : Graph) (n : Node) : List (List Nat) :=
  (if n.kind = .fin then [[1]] else []) ++
  if n.kind.sync ∧ (g.outFlows n.id).length > 1 then [(g.outFlows n.id).map flowPlace] else (g.outFlows n.id).map fun f => [flowPlace f]

/-- the moves of the token game: a node takes tokens, gives tokens and, if it is a named task, shows its name -/
def Graph.moves (g : Graph) : List (Tr String) :=
  (g.nodes.filter fun n => n.kind ≠ .other).flatMap fun n =>
    (g.takes n).flatMap fun I => (g.gives n).map fun O =>
      ⟨I, O, if n.kind = .task ∧ n.name ≠ "" then some n.name else none⟩

/-- `w` is a trace of the BPMN graph: it can be played with one token from the source until the only token is on the sink. -/
def Graph.Trace (g : Graph) (w : List String) : Prop := Run g.moves (toks [0]) w (toks [1])

end Bpmn
end Verif
