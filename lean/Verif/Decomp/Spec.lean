import Verif.Decomp.Model
import Mathlib.Logic.Relation
/-
Specification for C78: the token game, accepted words, decompositions.
-/
namespace Verif.Decomp
variable {ν : Type} [DecidableEq ν]

/-- names are unique, arcs connect a place and a transition of the net -/
structure Proper (N : PNet ν) : Prop where
  names : (N.places ++ N.trs.map Tr.name).Nodup
  arcs : ∀ a ∈ N.arcs, a.p ∈ N.places ∧ a.t ∈ N.trs.map Tr.name

/-- all arcs have weight 1 -/
def Unweighted (N : PNet ν) : Prop := ∀ a ∈ N.arcs, a.w = 1

/-- no two transitions have the same label -/
def UniqueLabels (N : PNet ν) : Prop := ∀ t ∈ N.trs, ∀ u ∈ N.trs, t.label = u.label → t.label ≠ none → t = u

/-- number of tokens taken from `p` by `t` -/
def taken (N : PNet ν) (p t : ν) : Nat := ((N.arcs.filter fun a => decide (a.pt = true ∧ a.p = p ∧ a.t = t)).map Arc.w).sum

/-- number of tokens put into `p` by `t` -/
def given (N : PNet ν) (p t : ν) : Nat := ((N.arcs.filter fun a => decide (a.pt = false ∧ a.p = p ∧ a.t = t)).map Arc.w).sum

/-- `t` can fire in `M`, and `M'` is the marking afterwards -/
def Fires (N : PNet ν) (t : ν) (M M' : ν → Nat) : Prop :=
  t ∈ N.trs.map Tr.name ∧ (∀ p, taken N p t ≤ M p) ∧ ∀ p, M' p + taken N p t = M p + given N p t

/-- the transitions `s` fire one after the other -/
def Run (N : PNet ν) (M : ν → Nat) : List ν → (ν → Nat) → Prop
  | [], M' => M = M'
  | t :: s, M' => ∃ M1, Fires N t M M1 ∧ Run N M1 s M'

/-- the labels of a sequence of transitions -/
def labels (N : PNet ν) (s : List ν) : List ν := s.filterMap (labelOf N)

/-- the word of labels `w` is accepted -/
def Accepts (N : ANet ν) (w : List ν) : Prop := ∃ s, Run N.net N.im s N.fm ∧ labels N.net s = w

/-- the tokens on the places of a component -/
def onto (C : PNet ν) (M : ν → Nat) : ν → Nat := fun p => if p ∈ C.places then M p else 0

/-- tokens are on places of the net only -/
def Within (N : PNet ν) (M : ν → Nat) : Prop := ∀ p, p ∉ N.places → M p = 0

/-- the part of `s` that belongs to the component -/
def part (C : PNet ν) (s : List ν) : List ν := s.filter fun t => decide (t ∈ C.trs.map Tr.name)

/-- the part of the word `w` that belongs to the component -/
def word (C : PNet ν) (w : List ν) : List ν := w.filter fun a => decide (some a ∈ C.trs.map Tr.label)

/-- an arc between two nodes, one of them a place and the other one a silent transition -/
def Adjacent (N : PNet ν) (x y : ν) : Prop := ∃ a ∈ N.arcs, a.t ∈ silent N ∧ ((x = a.p ∧ y = a.t) ∨ (x = a.t ∧ y = a.p))

end Verif.Decomp
