import Verif.DfgNet.Model
/-
C44: what a directly-follows graph describes.
-/
namespace Verif.DfgNet
variable {α : Type}

/-- A trace of a directly-follows graph: it starts with a start activity, ends with an end activity, and each step is an
arc. -/
def DfgTrace (dfg : List (α × α)) (starts ends : List α) (w : List α) : Prop :=
  (∃ a ∈ starts, w.head? = some a) ∧ (∃ b ∈ ends, w.getLast? = some b) ∧
    ∀ i a b, w[i]? = some a → w[i + 1]? = some b → (a, b) ∈ dfg

/-- The activity occurs in an arc. -/
def InArc (dfg : List (α × α)) (a : α) : Prop := ∃ e ∈ dfg, e.1 = a ∨ e.2 = a

end Verif.DfgNet

namespace Verif
/-- The net accepts `w`: it is the sequence of labels of a firing sequence from the initial to the final marking. -/
def Net.Accepts {P T A : Type} [DecidableEq P] [DecidableEq T] (net : Net P T) (lab : T → Option A) (im fm : Marking P)
    (w : List A) : Prop :=
  ∃ ts m, net.FiringSequence im ts m ∧ Marking.eq m fm = true ∧ ts.filterMap lab = w
end Verif
