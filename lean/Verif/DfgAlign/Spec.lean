import Verif.DfgAlign.Model
import Verif.DfgNet.Spec
/-
C52: what an alignment of a trace with a sequence of activities is, independently of the search.
-/
namespace Verif.DfgAlign
variable {α : Type}

/-- a move: (log part, model part), `none` is `>>`; both parts are the same activity, or exactly one of them is `>>` -/
def Legal : Option α × Option α → Prop
  | (some a, some b) => a = b
  | (some _, none) => True
  | (none, some _) => True
  | (none, none) => False

/-- `mvs` is an alignment of the trace `tr` with the sequence `w`: legal moves, the log parts are `tr`, the model parts are `w` -/
def IsAlignment (tr w : List α) (mvs : List (Option α × Option α)) : Prop :=
  (∀ m ∈ mvs, Legal m) ∧ mvs.filterMap Prod.fst = tr ∧ mvs.filterMap Prod.snd = w

/-- the cost of a move -/
def moveCost (cs : Costs α) : Option α × Option α → Nat
  | (some a, some _) => cs.sync a
  | (some a, none) => cs.log a
  | (none, some b) => cs.model b
  | (none, none) => 0

/-- the cost of an alignment -/
def alignCost (cs : Costs α) (mvs : List (Option α × Option α)) : Nat := (mvs.map (moveCost cs)).sum

/-- synchronous moves cost nothing, all others `k`; the default costs of the code are `uniform 10000` -/
def Costs.uniform (k : Nat) : Costs α := ⟨fun _ => 0, fun _ => k, fun _ => k⟩

/-- the sequences of activities that the graph describes -/
def Graph.Trace (G : Graph α) (w : List α) : Prop := DfgNet.DfgTrace G.dfg G.sa G.ea w

end Verif.DfgAlign
