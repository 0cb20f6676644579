import Verif.PTree.Lang
import Verif.Powl.BinaryRelation
/-
Specification layer: POWL models and their languages.  Independent of the conversion and of the simplification.
-/
namespace Verif
namespace Lang
variable {α : Type}

/-- the events of child `k`, in order -/
def proj (k : Nat) (es : List (Nat × α)) : List α := (es.filter fun e => e.1 == k).map Prod.snd

/-- One trace of each of the languages, interleaved in such a way that, whenever `R i j`, all events of the `i`-th are before all
events of the `j`-th: `es` says for every event to which language it belongs. -/
def poL (R : Nat → Nat → Prop) (Ls : List (Lang α)) : Lang α := fun w =>
  ∃ es : List (Nat × α), es.map Prod.snd = w ∧ (∀ e ∈ es, e.1 < Ls.length) ∧
    (∀ (k : Nat) (L : Lang α), Ls[k]? = some L → L (proj k es)) ∧
    ∀ i j, R i j → es.Pairwise fun e f => ¬ (e.1 = j ∧ f.1 = i)

end Lang

/-- POWL models (/repo/pm4py/objects/powl/obj.py): `Transition` and `SilentTransition` (68-110; `FrequentTransition` is a transition
with its long label), `OperatorPOWL` with XOR or LOOP (299-311; a loop has exactly two children), `StrictPartialOrder`
(129-134) with the matrix of its `BinaryRelation`.  Simplification: values instead of objects; the children of a partial order
are different objects, so they are identified with their positions in the list `order.nodes`. -/
inductive Powl (α : Type)
  | leaf (label : Option α)
  | xor (children : List (Powl α))
  | loop (body redo : Powl α)
  | po (children : List (Powl α)) (order : BinRel.Edges)

namespace Powl
variable {α : Type}

/-- the order of a partial order model: `i` before `j` if the relation leads from `i` to `j` in one or more steps -/
def Before (n : Nat) (E : BinRel.Edges) : Nat → Nat → Prop := Relation.TransGen (BinRel.Rel n E)

mutual
/-- Traces of a POWL model. -/
def lang : Powl α → Lang α
  | .leaf none => Lang.eps
  | .leaf (some a) => fun w => w = [a]
  | .xor cs => Lang.xorL (langs cs)
  | .loop b r => Lang.loopL (lang b) [lang r]
  | .po cs E => Lang.poL (Before cs.length E) (langs cs)
def langs : List (Powl α) → List (Lang α)
  | [] => []
  | c :: cs => lang c :: langs cs
end

theorem langs_eq_map (cs : List (Powl α)) : langs cs = cs.map lang := by
  induction cs with
  | nil => simp [langs]
  | cons c cs ih => simp [langs, ih]

/-- models whose partial orders are partial orders: a choice has two children or more (enforced by the constructor, obj.py:301-303), a
partial order at least one, and its relation has no cycle -/
inductive Valid : Powl α → Prop
  | leaf (l : Option α) : Valid (.leaf l)
  | xor (cs : List (Powl α)) : 2 ≤ cs.length → (∀ c ∈ cs, Valid c) → Valid (.xor cs)
  | loop (b r : Powl α) : Valid b → Valid r → Valid (.loop b r)
  | po (cs : List (Powl α)) (E : BinRel.Edges) : cs ≠ [] → (∀ i, ¬ Before cs.length E i i) → (∀ c ∈ cs, Valid c) → Valid (.po cs E)

/-- for a relation that passes `validate_partial_orders` (obj.py:38-46) the order is the relation itself -/
theorem before_of_strict {n : Nat} {E : BinRel.Edges} (h : BinRel.isStrictPartialOrder n E = true) (i j : Nat) :
    Before n E i j ↔ BinRel.Rel n E i j := by
  have := (C23_is_strict_partial_order n E).1 h
  constructor
  · intro h1; exact BinRel.transGen_of_trans this.2 h1
  · exact fun h => .single h

end Powl
end Verif
