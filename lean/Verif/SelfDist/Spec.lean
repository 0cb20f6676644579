import Verif.SelfDist.Model
/-
Specification for C75.
-/
namespace Verif.SelfDist
variable {α γ : Type} [DecidableEq α] [DecidableEq γ]

/-- in some trace of the log, `a` occurs twice with exactly the activities `mid` in between -/
def Between (log : List (List α)) (a : α) (mid : List α) : Prop := ∃ t ∈ log, ∃ pre suf, t = pre ++ a :: (mid ++ a :: suf)

/-- `d` is the smallest number of activities between two occurrences of `a` in a trace of the log -/
def IsMsd (log : List (List α)) (a : α) (d : Nat) : Prop :=
  (∃ mid, Between log a mid ∧ mid.length = d) ∧ ∀ mid, Between log a mid → d ≤ mid.length

/-- the trace of a case of a data frame -/
def caseTrace (rows : List (γ × α)) (c : γ) : List α := (rows.filter fun r => decide (r.1 = c)).map Prod.snd

/-- the traces of a data frame, one for each case -/
def traces (rows : List (γ × α)) : List (List α) := (Filter.firstOcc (rows.map Prod.fst)).map (caseTrace rows)

end Verif.SelfDist
