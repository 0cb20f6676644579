import Verif.Woflan.Model
set_option linter.unusedSectionVars false
/-
C63, specification: firing sequences, workflow nets and soundness (van der Aalst), for nets with arc weights.
-/
namespace Verif.Woflan
variable {P T : Type}

/-- The net is given by its places and transitions without repetition. -/
structure Listed (N : WNet P T) : Prop where
  places : ∀ p, p ∈ N.places
  nodup : N.places.Nodup
  trans : ∀ t, t ∈ N.trans

/-- A marking: the number of tokens on each place. -/
abbrev Mk (P : Type) := P → Nat

/-- The transition can fire: every arc finds as many tokens as it and the other arcs from the same place need. -/
def Enabled (N : WNet P T) (m : Mk P) (t : T) : Prop := ∀ p, pre N t p ≤ m p

/-- Firing a transition. -/
def Fires (N : WNet P T) (m : Mk P) (t : T) (m' : Mk P) : Prop :=
  Enabled N m t ∧ ∀ p, m' p = m p - pre N t p + post N t p

/-- `m'` can be reached from `m` by firing transitions. -/
def Reaches (N : WNet P T) : Mk P → Mk P → Prop := Relation.ReflTransGen fun m m' => ∃ t, Fires N m t m'

open Classical in
/-- One token on a place. -/
noncomputable def single (i : P) : Mk P := fun p => if p = i then 1 else 0

/-- An arc of the net between two nodes, places on the left and transitions on the right. -/
inductive Arc (N : WNet P T) : P ⊕ T → P ⊕ T → Prop
  | inp {t a} : a ∈ N.inArcs t → Arc N (.inl a.1) (.inr t)
  | out {t a} : a ∈ N.outArcs t → Arc N (.inr t) (.inl a.1)

/-- A workflow net: one place without incoming arcs, one without outgoing arcs, every node is between them. -/
structure IsWorkflowNet (N : WNet P T) (i o : P) : Prop where
  source : ∀ p, (∀ x, ¬ Arc N x (.inl p)) ↔ p = i
  sink : ∀ p, (∀ x, ¬ Arc N (.inl p) x) ↔ p = o
  between : ∀ x, Relation.ReflTransGen (Arc N) (.inl i) x ∧ Relation.ReflTransGen (Arc N) x (.inl o)

/-- A workflow net is sound: from every marking reached from the source the sink can be reached; a marking with a token on
    the sink has no other token; every (labelled) transition can fire in some reachable marking. -/
structure Sound (N : WNet P T) (i o : P) : Prop where
  option : ∀ m, Reaches N (single i) m → Reaches N m (single o)
  proper : ∀ m, Reaches N (single i) m → 0 < m o → m = single o
  tasks : ∀ t, N.label t ≠ none → ∃ m, Reaches N (single i) m ∧ Enabled N m t

/-- The name of a place or transition. -/
def nodeName (N : WNet P T) : P ⊕ T → String
  | .inl p => N.pname p
  | .inr t => N.tname t

/-- No two nodes of the net have the same name and no node has the name that WOFLAN gives to the transition it adds. -/
structure DistinctNames (N : WNet P T) : Prop where
  inj : ∀ x y, nodeName N x = nodeName N y → x = y
  other : ∀ x, nodeName N x ≠ "short_circuited_transition"

end Verif.Woflan
