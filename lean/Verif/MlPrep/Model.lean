import Mathlib.Data.Rat.Floor
import Mathlib.Data.List.Perm.Basic
/-
Model of the preparation of logs for machine learning: split in training and test log (/repo/pm4py/objects/log/util/split_train_test.py:41-54 for event
logs, /repo/pm4py/ml.py:54-65 for data frames), prefixes (/repo/pm4py/objects/log/util/get_prefixes.py:26-54 and /repo/pm4py/ml.py:93-94), the next
activity and the remaining time as targets (/repo/pm4py/algo/transformation/log_to_target/variants/next_activity.py:63-83, remaining_time.py:57-74).
The fraction is a rational number instead of a float; times are integers.
-/
namespace Verif
namespace MlPrep

/-- split_train_test.py:41-54; `idxs` is the shuffled list of the indexes -/
def split {α : Type} (log : List α) (idxs : List Nat) (p : Rat) : List α × List α :=
  let stop := (Int.floor ((idxs.length : Rat) * p)).toNat + 1
  ((idxs.take stop).filterMap fun i => log[i]?, (idxs.drop stop).filterMap fun i => log[i]?)

/-- ml.py:54-65: `rnd c` is the random number drawn for the case `c`; the rows of a data frame are pairs of case and event -/
def splitDf {κ ε : Type} [DecidableEq κ] (rows : List (κ × ε)) (rnd : κ → Rat) (p : Rat) : List (κ × ε) × List (κ × ε) :=
  let cases := (rows.map Prod.fst).dedup
  let train := cases.filter fun c => decide (rnd c ≤ p)
  let test := cases.filter fun c => !decide (rnd c ≤ p)
  (rows.filter fun r => decide (r.1 ∈ train), rows.filter fun r => decide (r.1 ∈ test))

/-- get_prefixes.py:45-53 -/
def prefixes {ε : Type} (log : List (List ε)) (length : Nat) : List (List ε) :=
  log.map fun tr => if tr.length ≤ length then tr else (List.range length).filterMap fun i => tr[i]?

/-- the index of the event in its case, added to every row (pandas_utils.insert_ev_in_tr_index: a running count per case); `seen` are the rows before -/
def indexed {κ ε : Type} [DecidableEq κ] : List κ → List (κ × ε) → List ((κ × ε) × Nat)
  | _, [] => []
  | seen, r :: rows => (r, seen.count r.1) :: indexed (r.1 :: seen) rows

/-- ml.py:93-94 -/
def prefixesDf {κ ε : Type} [DecidableEq κ] (rows : List (κ × ε)) (length : Nat) : List (κ × ε) :=
  ((indexed [] rows).filter fun r => decide ((r.2 : Int) ≤ (length : Int) - 1)).map Prod.fst

/-- the row of an event (next_activity.py:74-78): `next` is the activity of the next event, if there is one -/
def oneHot (acts : List String) (next : Option String) : List Nat :=
  match next with
  | none => List.replicate acts.length 0
  | some a => if a ∈ acts then (List.replicate acts.length 0).set (acts.idxOf a) 1 else List.replicate acts.length 0

/-- padding (next_activity.py:79-81, remaining_time.py:70-72) -/
def pad {β : Type} (size : Option Nat) (x : β) (l : List β) : List β :=
  match size with
  | none => l
  | some n => l ++ List.replicate (n - l.length) x

/-- next_activity.py:70-81; without `padding` no padding -/
def nextActivity (log : List (List String)) (acts : List String) (padding : Option Nat) : List (List (List Nat)) :=
  log.map fun tr => pad padding (List.replicate acts.length 0)
    ((List.range tr.length).map fun i => oneHot acts (if i < tr.length - 1 then tr[i + 1]? else none))

/-- remaining_time.py:63-72, for traces given by their time stamps -/
def remainingTime (log : List (List Int)) (padding : Option Nat) : List (List Int) :=
  log.map fun tr => pad padding 0 ((List.range tr.length).map fun i => tr.getLastD 0 - tr.getD i 0)

end MlPrep
end Verif
