import Verif.Murata.Model
set_option linter.unusedSectionVars false
/-
C64, specification: firing sequences and the language of a net with an initial and a final marking.
-/
namespace Verif.Murata
variable {P T : Type}

/-- The places and transitions are listed, each place once. -/
structure Listed (N : MNet P T) : Prop where
  places : ∀ p, p ∈ N.places
  nodup : N.places.Nodup
  trans : ∀ t, t ∈ N.trans

/-- A transition fires: there are enough tokens, they are taken away and new ones are put. -/
def Fires (N : MNet P T) (m : P → Nat) (t : T) (m' : P → Nat) : Prop :=
  (∀ p ∈ N.places, N.pre t p ≤ m p) ∧ ∀ p, m' p = m p - N.pre t p + N.post t p

/-- A sequence of transitions leads from one marking to another. -/
inductive Run (N : MNet P T) : (P → Nat) → List T → (P → Nat) → Prop
  | nil {m} : Run N m [] m
  | cons {m t m' s m''} : Fires N m t m' → Run N m' s m'' → Run N m (t :: s) m''

/-- The sequences that lead from the initial to the final marking. -/
def Lang (N : MNet P T) (im fm : P → Nat) (s : List T) : Prop := Run N im s fm

/-- Two markings agree on the places of a net. -/
def Agree (N : MNet P T) (m m' : P → Nat) : Prop := ∀ p ∈ N.places, m p = m' p

end Verif.Murata
