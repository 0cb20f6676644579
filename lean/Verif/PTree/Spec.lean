import Verif.PTree.Lang
/-
Independent vocabulary for the process tree theorems.
-/
namespace Verif.PT
variable {α : Type}

/-- Well-formed trees: every operator node has at least one child. -/
inductive WF : PT α → Prop
  | leaf (l : Option α) : WF (.leaf l)
  | node (op : Op) (cs : List (PT α)) : cs ≠ [] → (∀ c ∈ cs, WF c) → WF (.node op cs)

/-- No node of the tree carries the operator `op`. -/
inductive OpFree (op : Op) : PT α → Prop
  | leaf (l : Option α) : OpFree op (.leaf l)
  | node (o : Op) (cs : List (PT α)) : o ≠ op → (∀ c ∈ cs, OpFree op c) → OpFree op (.node o cs)

/-- Every node has at most `n` children. -/
inductive MaxArity (n : Nat) : PT α → Prop
  | leaf (l : Option α) : MaxArity n (.leaf l)
  | node (o : Op) (cs : List (PT α)) : cs.length ≤ n → (∀ c ∈ cs, MaxArity n c) → MaxArity n (.node o cs)

/-- Reduced trees: no operator with fewer than two children, no silent step directly inside a sequence or a
parallel node, at most one silent alternative inside a choice, and no sequence/choice/parallel node directly
inside a node of the same kind. -/
inductive Reduced : PT α → Prop
  | leaf (l : Option α) : Reduced (.leaf l)
  | node (op : Op) (cs : List (PT α)) :
      2 ≤ cs.length →
      (op = .seq ∨ op = .par → (.leaf none) ∉ cs) →
      (op = .xor ∨ op = .or → ∀ pre mid post, cs ≠ pre ++ .leaf none :: mid ++ .leaf none :: post) →
      (op = .seq ∨ op = .xor ∨ op = .par → ∀ ds, .node op ds ∉ cs) →
      (∀ c ∈ cs, Reduced c) → Reduced (.node op cs)

/-- Two trees accept the same traces. -/
def LangEq (s t : PT α) : Prop := ∀ w, s.lang w ↔ t.lang w

end Verif.PT
