import Verif.Ltl.Model
/-
C51: specification, independent of the code.
-/
namespace Verif.Ltl
variable {A R C : Type}

/-- the values occur in the trace in this order (not necessarily directly after each other) -/
def InOrder (vals : List A) (tr : List (Ev A R)) : Prop := (vals.map some).Sublist (tr.map Ev.act)

/-- consecutive times differ by an amount within the boundaries -/
def Within : List (Rat × Rat) → List Rat → Prop
  | b :: bs, s :: t :: ts => b.1 ≤ t - s ∧ t - s ≤ b.2 ∧ Within bs (t :: ts)
  | _, _ => True

/-- the values occur in the trace in this order, at events whose times differ by amounts within the boundaries -/
def InOrderWithin (vals : List A) (bounds : List (Rat × Rat)) (tr : List (Ev A R)) : Prop :=
  ∃ es : List (Ev A R), es.Sublist tr ∧ es.map Ev.act = vals.map some ∧ Within bounds (es.map Ev.time)

/-- `a`, `b`, `c` occur directly after each other -/
def Directly (a b c : A) (tr : List (Ev A R)) : Prop := [some a, some b, some c] <:+: tr.map Ev.act

/-- resource `r` executes activity `v` -/
def Does (tr : List (Ev A R)) (r : R) (v : A) : Prop := ∃ e ∈ tr, e.act = some v ∧ e.res = some r

/-- both activities are executed (by a known resource), and nobody executes both -/
def FourEyes (a b : A) (tr : List (Ev A R)) : Prop :=
  (∃ r, Does tr r a) ∧ (∃ r, Does tr r b) ∧ ¬ ∃ r, Does tr r a ∧ Does tr r b

/-- the activity is executed by two different resources -/
def Different (a : A) (tr : List (Ev A R)) : Prop := ∃ r s, r ≠ s ∧ Does tr r a ∧ Does tr s a

/-- the events of a case of a dataframe, in the order of the rows; a row without timestamp gets the time 0 -/
def trace [DecidableEq C] (rows : List (Row C A R)) (c : C) : List (Ev A R) :=
  (rows.filter fun r => decide (r.cid = c)).map fun r => ⟨r.act, r.res, r.time.getD 0⟩

end Verif.Ltl
