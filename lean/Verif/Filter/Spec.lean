import Mathlib.Data.List.Lex
import Mathlib.Data.Rat.Defs
import Mathlib.Algebra.Order.Ring.Rat
/-
C24, C36: what the variants of a log are, independently of how they are computed.
A log is a list of traces `τ`; `var t` is the tuple of activities of the trace `t`.
-/
namespace Verif.Filter
variable {α τ : Type} [LinearOrder α]

/-- the distinct elements of a list, in the order of their first occurrence -/
def firstOcc {β : Type} [DecidableEq β] : List β → List β
  | [] => []
  | a :: l => a :: (firstOcc l).filter fun b => decide (b ≠ a)

/-- the traces of a variant, in the order of the log -/
def tracesOf (var : τ → List α) (log : List τ) (v : List α) : List τ := log.filter fun t => decide (var t = v)

/-- how many traces of the log have the variant -/
def freq (var : τ → List α) (log : List τ) (v : List α) : Nat := (tracesOf var log v).length

/-- how many traces of the log have a variant that is strictly more frequent than `v` -/
def moreFrequent (var : τ → List α) (log : List τ) (v : List α) : Nat :=
  (log.filter fun t => decide (freq var log v < freq var log (var t))).length

/-- `v` is ranked above `w`: more frequent, or as frequent and later in the lexicographic order -/
def Above (var : τ → List α) (log : List τ) (v w : List α) : Prop :=
  freq var log w < freq var log v ∨ (freq var log w = freq var log v ∧ w < v)

/-- the longest prefix of the list (which follows `prev`) in which each element exceeds `f` times the one before -/
def slowPrefix (f : Rat) : Nat → List Nat → List Nat
  | _, [] => []
  | prev, c :: l => if (c : Rat) > f * (prev : Rat) then c :: slowPrefix f c l else []

/-! dataframes: a list of rows, each with a case and an activity -/
variable {ρ κ : Type}

/-- the activities of a case, in the order of the rows -/
def caseTrace [DecidableEq κ] (caseOf : ρ → κ) (actOf : ρ → α) (rows : List ρ) (c : κ) : List α :=
  (rows.filter fun r => decide (caseOf r = c)).map actOf

/-- how many cases of the frame have the variant -/
def caseFreq [DecidableEq κ] (caseOf : ρ → κ) (actOf : ρ → α) (rows : List ρ) (v : List α) : Nat :=
  ((firstOcc (rows.map caseOf)).filter fun c => decide (caseTrace caseOf actOf rows c = v)).length

/-- the rows of each case follow one another -/
def Contiguous (caseOf : ρ → κ) (rows : List ρ) : Prop :=
  ∀ x m y, (x :: m ++ [y]) <:+: rows → caseOf x = caseOf y → ∀ z ∈ m, caseOf z = caseOf x

end Verif.Filter
