import Verif.Sna.Model
import Mathlib.Algebra.BigOperators.Group.Finset.Basic
import Mathlib.Algebra.BigOperators.Group.List.Basic
/-
Specification for C73.
-/
namespace Verif
namespace Sna
open Finset
variable {α : Type} [DecidableEq α]

/-- the variants of a log with the number of their traces, in any order -/
def VariantsOf (vs : Dict (List α) Int) (log : List (List α)) : Prop := vs.Perm (variants log)

/-- the handovers from `a` to `b` in a trace: a pair of positions `i < j` counts `beta ^ (j - i - 1)`; for `beta = 0` (the default) a pair of
neighbours counts one and all other pairs count nothing -/
def handed (beta : ℚ) (a b : α) (tr : List α) : ℚ :=
  ∑ i ∈ range tr.length, ∑ j ∈ range tr.length, if i < j ∧ tr[i]? = some a ∧ tr[j]? = some b then beta ^ (j - i - 1) else 0

/-- all the handovers of a trace -/
def handedAll (beta : ℚ) (tr : List α) : ℚ :=
  ∑ i ∈ range tr.length, ∑ j ∈ range tr.length, if i < j then beta ^ (j - i - 1) else 0

/-- a handover from `a` to `b` occurs in the trace -/
def Hands (beta : ℚ) (a b : α) (tr : List α) : Prop :=
  ∃ i j, i < j ∧ (beta = 0 → j = i + 1) ∧ tr[i]? = some a ∧ tr[j]? = some b

/-- the resource `a` subcontracts at position `i`: it works there and again `n` events later -/
def SubAt (n : Nat) (a : α) (tr : List α) (i : Nat) : Prop := tr[i]? = some a ∧ tr[i + n]? = some a

/-- the resources between the positions `i` and `i + n` -/
def between (n : Nat) (tr : List α) (i : Nat) : List α := (tr.drop (i + 1)).take (n - 1)

end Sna
end Verif
