import Verif.EvFollow.Model
/-
Specification for C76.
-/
namespace Verif.EvFollow
variable {α : Type} [LinearOrder α]

/-- the number of pairs of events `x`, `y`, `x` before `y` in the list, with `P x y` -/
def pairCount (P : Ev α → Ev α → Prop) [∀ x y, Decidable (P x y)] : List (Ev α) → Nat
  | [] => 0
  | x :: l => (l.filter fun y => decide (P x y)).length + pairCount P l

/-- no event ends before it starts -/
def Proper (t : List (Ev α)) : Prop := ∀ e ∈ t, e.st ≤ e.et

/-- `x` has activity `a`, `y` has activity `b`, and `y` starts when `x` has ended -/
def Follows (a b : α) (x y : Ev α) : Prop := x.act = a ∧ y.act = b ∧ x.et ≤ y.st

/-- two events are active at the same time, for a positive time if `strict` -/
def Concurrent (strict : Bool) (x y : Ev α) : Prop := ∃ z : Int, x.st ≤ z ∧ z ≤ x.et ∧ y.st ≤ z ∧ z ≤ y.et ∧
  (strict = true → x.st ≤ z ∧ z + 1 ≤ x.et ∧ y.st ≤ z ∧ z + 1 ≤ y.et)

/-- the two events have the activities `a` and `b`, in some order -/
def HaveActs (a b : α) (x y : Ev α) : Prop := (x.act = a ∧ y.act = b) ∨ (x.act = b ∧ y.act = a)

instance (a b : α) (x y : Ev α) : Decidable (Follows a b x y) := by unfold Follows; infer_instance
instance (a b : α) (x y : Ev α) : Decidable (HaveActs a b x y) := by unfold HaveActs; infer_instance

/-- the number of concurrent pairs of events in which the event with activity `a` comes first (by start time, completion time and position) and the
other one has activity `b` -/
def startedBy (strict : Bool) [∀ x y : Ev α, Decidable (Concurrent strict x y)] (cases : List (List (Ev α))) (a b : α) : Nat :=
  (cases.map fun t => pairCount (fun x y => Concurrent strict x y ∧ x.act = a ∧ y.act = b ∧ (x.st < y.st ∨ (x.st = y.st ∧ x.et ≤ y.et))) t +
    pairCount (fun y x => Concurrent strict x y ∧ x.act = a ∧ y.act = b ∧ (x.st < y.st ∨ (x.st = y.st ∧ x.et < y.et))) t).sum

end Verif.EvFollow
