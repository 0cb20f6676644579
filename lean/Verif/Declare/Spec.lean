/-
C25: the standard meaning of the Declare templates on a trace (a list of activities), independent of the code.
-/
namespace Verif.Declare
variable {α : Type}

/-- templates with one activity -/
inductive UT | existence | exactlyOne | init | absence
  deriving DecidableEq, Repr

/-- templates with two activities -/
inductive BT
  | respondedExistence | response | precedence | succession
  | altResponse | altPrecedence | altSuccession
  | chainResponse | chainPrecedence | chainSuccession
  | coexistence | nonCoexistence | nonSuccession | nonChainSuccession
  deriving DecidableEq, Repr

/-- a constraint: a template with its activity or its couple of activities -/
inductive Rule (α : Type)
  | un (t : UT) (a : α)
  | bi (t : BT) (a b : α)
  deriving DecidableEq

namespace Spec

/-- whenever `a` occurs, `b` occurs afterwards -/
def Response (a b : α) (tr : List α) : Prop := ∀ u v, tr = u ++ a :: v → b ∈ v

/-- whenever `b` occurs, `a` occurred before -/
def Precedence (a b : α) (tr : List α) : Prop := ∀ u v, tr = u ++ b :: v → a ∈ u

/-- whenever `a` occurs, `b` occurs afterwards, before the next `a` -/
def AltResponse (a b : α) (tr : List α) : Prop := ∀ u v, tr = u ++ a :: v → ∃ x y, v = x ++ b :: y ∧ a ∉ x

/-- whenever `b` occurs, `a` occurred before, after the previous `b` -/
def AltPrecedence (a b : α) (tr : List α) : Prop := ∀ u v, tr = u ++ b :: v → ∃ x y, u = x ++ a :: y ∧ b ∉ y

/-- whenever `a` occurs, `b` is the next event -/
def ChainResponse (a b : α) (tr : List α) : Prop := ∀ u v, tr = u ++ a :: v → ∃ y, v = b :: y

/-- whenever `b` occurs, `a` is the previous event -/
def ChainPrecedence (a b : α) (tr : List α) : Prop := ∀ u v, tr = u ++ b :: v → ∃ x, u = x ++ [a]

def Succession (a b : α) (tr : List α) : Prop := Response a b tr ∧ Precedence a b tr
def AltSuccession (a b : α) (tr : List α) : Prop := AltResponse a b tr ∧ AltPrecedence a b tr
def ChainSuccession (a b : α) (tr : List α) : Prop := ChainResponse a b tr ∧ ChainPrecedence a b tr

/-- the trace satisfies the constraint -/
def Holds (tr : List α) : Rule α → Prop
  | .un .existence a => a ∈ tr
  | .un .absence a => a ∉ tr
  | .un .exactlyOne a => ∃ u v, tr = u ++ a :: v ∧ a ∉ u ∧ a ∉ v
  | .un .init a => ∃ v, tr = a :: v
  | .bi .respondedExistence a b => a ∈ tr → b ∈ tr
  | .bi .coexistence a b => a ∈ tr ↔ b ∈ tr
  | .bi .nonCoexistence a b => ¬ (a ∈ tr ∧ b ∈ tr)
  | .bi .response a b => Response a b tr
  | .bi .precedence a b => Precedence a b tr
  | .bi .succession a b => Succession a b tr
  | .bi .altResponse a b => AltResponse a b tr
  | .bi .altPrecedence a b => AltPrecedence a b tr
  | .bi .altSuccession a b => AltSuccession a b tr
  | .bi .chainResponse a b => ChainResponse a b tr
  | .bi .chainPrecedence a b => ChainPrecedence a b tr
  | .bi .chainSuccession a b => ChainSuccession a b tr
  | .bi .nonSuccession a b => ¬ ∃ u v, tr = u ++ a :: v ∧ b ∈ v
  | .bi .nonChainSuccession a b => ¬ ∃ u v, tr = u ++ a :: b :: v

/-- What conformance checking accepts: the standard meaning, except that
* succession also requires that both activities occur;
* alternate (chain) response asks for alternate (chain) succession in the part of the trace starting with the first
  `a`;
* alternate (chain) precedence is met when neither activity occurs, or when some part of the trace starting with an
  `a` meets alternate (chain) succession and, before that part, `b` occurs at most as the first of the two activities;
* the two negated succession templates are not checked. -/
def Accepted (tr : List α) : Rule α → Prop
  | .bi .succession a b => a ∈ tr ∧ b ∈ tr ∧ Succession a b tr
  | .bi .altResponse a b => ∃ u v, tr = u ++ v ∧ a ∉ u ∧ AltSuccession a b v
  | .bi .chainResponse a b => ∃ u v, tr = u ++ v ∧ a ∉ u ∧ ChainSuccession a b v
  | .bi .altPrecedence a b => (a ∉ tr ∧ b ∉ tr) ∨
      ∃ u v, tr = u ++ a :: v ∧ (∀ x y, u = x ++ b :: y → a ∉ x ∧ b ∉ x) ∧ AltSuccession a b (a :: v)
  | .bi .chainPrecedence a b => (a ∉ tr ∧ b ∉ tr) ∨
      ∃ u v, tr = u ++ a :: v ∧ (∀ x y, u = x ++ b :: y → a ∉ x ∧ b ∉ x) ∧ ChainSuccession a b (a :: v)
  | .bi .nonSuccession _ _ => True
  | .bi .nonChainSuccession _ _ => True
  | r => Holds tr r

/-- Discovery counts a trace in the support of a constraint when the constraint is activated: -/
def Activated (tr : List α) : Rule α → Prop
  | .un .existence _ => True
  | .un .absence _ => True
  | .un .init _ => True
  | .un .exactlyOne a => a ∈ tr
  | .bi .precedence a b => a ∈ tr ∧ b ∈ tr
  | .bi .altPrecedence a b => a ∈ tr ∧ b ∈ tr
  | .bi .chainPrecedence a b => a ∈ tr ∧ b ∈ tr
  | .bi .coexistence a b => a ∈ tr ∨ b ∈ tr
  | .bi .nonCoexistence a b => a ∈ tr ∨ b ∈ tr
  | .bi _ a _ => a ∈ tr

/-- … and in its confidence when it is activated and the following holds: the standard meaning, with alternate (chain)
response and precedence measured by alternate (chain) succession, and the negated successions by the negation of
(chain) succession. -/
def Measured (tr : List α) : Rule α → Prop
  | .bi .altResponse a b => AltSuccession a b tr
  | .bi .altPrecedence a b => AltSuccession a b tr
  | .bi .chainResponse a b => ChainSuccession a b tr
  | .bi .chainPrecedence a b => ChainSuccession a b tr
  | .bi .nonSuccession a b => ¬ Succession a b tr
  | .bi .nonChainSuccession a b => ¬ ChainSuccession a b tr
  | r => Holds tr r

/-- the two activities of a constraint with two activities differ -/
def Distinct : Rule α → Prop
  | .un _ _ => True
  | .bi _ a b => a ≠ b

end Spec
end Verif.Declare
