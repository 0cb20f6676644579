import Verif.PTree.Spec
import Verif.PTree.LangLemmas
/-
Independent vocabulary: what the footprints of a language are.
-/
namespace Verif
namespace Foot
variable {α : Type}

/-- `b` occurs directly after `a` in the trace -/
def Follows (w : List α) (a b : α) : Prop := ∃ u v, w = u ++ a :: b :: v
/-- some trace of the language starts with `a` -/
def Start (L : Lang α) (a : α) : Prop := ∃ w, L (a :: w)
/-- some trace of the language ends with `a` -/
def End (L : Lang α) (a : α) : Prop := ∃ w, L (w ++ [a])
/-- some trace of the language contains `a` -/
def Act (L : Lang α) (a : α) : Prop := ∃ w, L w ∧ a ∈ w
/-- `b` occurs directly after `a` in some trace of the language -/
def DF (L : Lang α) (a b : α) : Prop := ∃ w, L w ∧ Follows w a b
/-- every trace of the language contains `a` -/
def Always (L : Lang α) (a : α) : Prop := ∀ w, L w → a ∈ w

/-- trees for which the footprints are meant: operators have children, loops have exactly two, no OR and no interleaving -/
inductive Plain : PT α → Prop
  | leaf (l : Option α) : Plain (.leaf l)
  | node (op : Op) (cs : List (PT α)) : cs ≠ [] → (op = .loop → cs.length = 2) → op ≠ .or → op ≠ .inter →
      (∀ c ∈ cs, Plain c) → Plain (.node op cs)

end Foot
end Verif
