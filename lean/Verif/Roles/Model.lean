import Mathlib.Data.List.Dedup
import Mathlib.Data.Rat.Defs
import Mathlib.Algebra.Order.Field.Rat
/-
Model of role discovery: /repo/pm4py/algo/organizational_mining/roles/common/algorithm.py:32-325.  A role is the list of its activities and the multiset
of its originators (a list with repetitions instead of a counter).  The order of the roles and of the activities in a role (`sorted`) is left open, as
is the choice between equally similar pairs (in the code: by name).  Rational instead of floating point numbers.
-/
namespace Verif
namespace Roles

/-- activities and originators -/
abbrev Role := List String × List String

/-- normalize_role (algorithm.py:51-74) -/
def share (l : List String) (r : String) : Rat := (l.count r : Rat) / (l.length : Rat)

/-- find_role_similarity (algorithm.py:149-175), with the intersection and the union of the normalized multisets (algorithm.py:77-146) -/
def sim (a b : Role) : Rat :=
  ((a.2.dedup.filter fun r => decide (r ∈ b.2)).map fun r => min (share a.2 r) (share b.2 r)).sum /
    ((a.2.dedup.map fun r => if r ∈ b.2 then max (share a.2 r) (share b.2 r) else share a.2 r) ++
      ((b.2.dedup.filter fun r => decide (r ∉ a.2)).map fun r => share b.2 r)).sum

/-- the aggregated role (algorithm.py:210-216) -/
def merge (a b : Role) : Role := ((a.1 ++ b.1).dedup, a.2 ++ b.2)

/-- an iteration that finds a feasible pair (algorithm.py:178-225): the most similar pair is aggregated if it is above the threshold -/
def Step (θ : Rat) (R R' : List Role) : Prop :=
  ∃ (i j : Nat) (hj : j < R.length) (hi : i < j), θ < sim R[i] R[j] ∧
    (∀ (k l : Nat) (hl : l < R.length) (hk : k < l), sim R[k] R[l] ≤ sim R[i] R[j]) ∧
    R'.Perm (((R.eraseIdx i).eraseIdx (j - 1)) ++ [merge R[i] R[j]])

/-- every activity is a role of its own (algorithm.py:268-282); `events` are the pairs of resource and activity of the log -/
def initial (events : List (String × String)) : List Role :=
  (events.map Prod.snd).dedup.map fun a => ([a], (events.filter fun e => decide (e.2 = a)).map Prod.fst)

end Roles
end Verif
