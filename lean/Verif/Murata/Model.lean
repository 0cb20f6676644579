set_option linter.unusedSectionVars false
/-
Model of `pm4py.reduce_petri_net_implicit_places` (pm4py/analysis.py:448-465), that is
pm4py/objects/petri_net/utils/murata.py.

The integer linear programs are rows of numbers; `solver.apply(...).success` (pm4py/util/lp/variants/scipy_solver.py:29-37) is
that a solution in non-negative integers exists (the objective, the sum of all variables, is bounded from below).  Between a
transition and a place there is at most one arc in each direction: its weight, 0 if there is none.
-/
namespace Verif.Murata

/-- A Petri net; `places` is `sorted(list(net.places), key=lambda x: x.name)`. -/
structure MNet (P T : Type) where
  places : List P
  trans : List T
  pre : T → P → Nat
  post : T → P → Nat

variable {P T : Type}

/-- A row of `Aub` or `Aeq` with its entry of `bub` or `beq`: the coefficients of the places, the last one, the right side. -/
structure Row (P : Type) where
  co : P → Int
  last : Int
  rhs : Int

/-- The left side of a row for the values `x` of the variables of the places and `k` of the last variable. -/
def Row.val (places : List P) (r : Row P) (x : P → Int) (k : Int) : Int := (places.map fun q => r.co q * x q).sum + r.last * k

open Classical in
/-- The row for the initial marking (murata.py:58-67). -/
noncomputable def imRow (im : P → Nat) (R : List P) (p : P) : Row P :=
  ⟨fun q => if q ∈ R then 0 else if q = p then (im q : Int) else -(im q : Int), -1, 0⟩

open Classical in
/-- The row for the arcs to a transition (murata.py:71-82). -/
noncomputable def inRow (N : MNet P T) (R : List P) (p : P) (t : T) : Row P :=
  ⟨fun q => if q ∈ R then 0 else if q = p then (N.pre t q : Int) else -(N.pre t q : Int), -1, 0⟩

open Classical in
/-- The row for the arcs from a transition (murata.py:86-96). -/
noncomputable def outRow (N : MNet P T) (R : List P) (p : P) (t : T) : Row P :=
  ⟨fun q => if q ∈ R then 0 else if q = p then -(N.post t q : Int) else (N.post t q : Int), 0, 0⟩

open Classical in
/-- The row for the sign of a variable (murata.py:101-109). -/
noncomputable def signRow (p p2 : P) : Row P := ⟨fun q => if q = p2 then -1 else 0, 0, if p2 = p then -1 else 0⟩

/-- The row for the sign of the last variable (murata.py:112-115). -/
def lastRow : Row P := ⟨fun _ => 0, -1, 0⟩

open Classical in
/-- The rows that are added to `Aub` for a place (murata.py:69-115). -/
noncomputable def ubRows (N : MNet P T) (R : List P) (p : P) : List (Row P) :=
  N.trans.map (inRow N R p) ++ N.trans.map (outRow N R p) ++
  (N.places.filter fun q => decide (q ∉ R)).map (signRow p) ++ [lastRow]

/-- `xx.success`: there are non-negative integers that satisfy all rows. -/
def Success (places : List P) (eqs ubs : List (Row P)) : Prop :=
  ∃ (x : P → Int) (k : Int), (∀ q, 0 ≤ x q) ∧ 0 ≤ k ∧ (∀ r ∈ eqs, r.val places x k = r.rhs) ∧ ∀ r ∈ ubs, r.val places x k ≤ r.rhs

/-- The lists `Aeq` with `beq`, `Aub` with `bub`, and `redundant`. -/
structure St (P : Type) where
  eqs : List (Row P)
  ubs : List (Row P)
  red : List P

open Classical in
/-- One iteration of the loop (murata.py:56-122).  The lists of rows are not emptied between places. -/
noncomputable def step (N : MNet P T) (im : P → Nat) (s : St P) (p : P) : St P :=
  let eqs := s.eqs ++ [imRow im s.red p]
  let ubs := s.ubs ++ ubRows N s.red p
  ⟨eqs, ubs, if Success N.places eqs ubs then s.red ++ [p] else s.red⟩

/-- The places found redundant (murata.py:50-122). -/
noncomputable def redundant (N : MNet P T) (im : P → Nat) : List P := (N.places.foldl (step N im) ⟨[], [], []⟩).red

/-- The places that are removed (murata.py:124-126): redundant ones that are not in the final marking. -/
def Removed (N : MNet P T) (im fm : P → Nat) (p : P) : Prop := p ∈ redundant N im ∧ fm p = 0

open Classical in
/-- `apply_reduction` (murata.py:25-131): the net without the removed places and their arcs, and the initial marking without
    them. -/
noncomputable def reduceNet (N : MNet P T) (im fm : P → Nat) : MNet P T where
  places := N.places.filter fun p => decide (¬ Removed N im fm p)
  trans := N.trans
  pre := fun t p => if Removed N im fm p then 0 else N.pre t p
  post := fun t p => if Removed N im fm p then 0 else N.post t p

open Classical in
/-- The initial marking that is returned (murata.py:127-129). -/
noncomputable def reduceIm (N : MNet P T) (im fm : P → Nat) : P → Nat := fun p => if Removed N im fm p then 0 else im p

end Verif.Murata
