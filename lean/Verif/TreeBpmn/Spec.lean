import Verif.Bpmn.Model
import Verif.PTree.Lang
/-
Specification for C72.  The traces of a BPMN graph are `Bpmn.Graph.Trace` (Verif/Bpmn/Spec.lean); the language of a tree is `PT.lang`.
-/
namespace Verif
namespace TreeBpmn
open Bpmn

/-- trees that can be converted: labels are not empty, every operator has a child, sequences have two, there are no inclusive choices and no
interleavings -/
inductive Convertible : PT String → Prop
  | tau : Convertible (.leaf none)
  | act {a} : a ≠ "" → Convertible (.leaf (some a))
  | xor {cs} : cs ≠ [] → (∀ c ∈ cs, Convertible c) → Convertible (.node .xor cs)
  | par {cs} : cs ≠ [] → (∀ c ∈ cs, Convertible c) → Convertible (.node .par cs)
  | seq {cs} : 2 ≤ cs.length → (∀ c ∈ cs, Convertible c) → Convertible (.node .seq cs)
  | loop {c cs} : Convertible c → (∀ c ∈ cs, Convertible c) → Convertible (.node .loop (c :: cs))

/-- the names of the tasks of a graph -/
def taskNames (g : Graph) : List String := (g.nodes.filter fun n => n.kind == .task).map Node.name

/-- the nodes of a class -/
def ofKind (g : Graph) (k : Kind) : List Node := g.nodes.filter fun n => n.kind == k

end TreeBpmn
end Verif
