import Verif.Common.Dict
import Verif.Common.ListX
/-
Model of ETConformance precision, the part that is common to `pm4py.precision_token_based_replay` and
`pm4py.precision_alignments`: /repo/pm4py/algo/evaluation/precision/utils.py:106-157,
variants/align_etconformance.py:85-135, variants/etconformance_token.py:109-136.
-/
namespace Verif
open Dict
namespace Precision

/-- a Python string -/
abbrev Str := List Char

/-- `constants.DEFAULT_VARIANT_SEP` (util/constants.py) -/
def sep : Char := ','

/-- `sep.join(l)` (utils.py:124) -/
def join : List Str → Str
  | [] => []
  | [a] => a
  | a :: b :: l => a ++ sep :: join (b :: l)

/-- `s.split(sep)` (utils.py:151) -/
def split : Str → List Str
  | [] => [[]]
  | c :: s =>
    if c = sep then [] :: split s
    else match split s with
      | [] => [[c]]
      | a :: l => (c :: a) :: l

/-- `set.add` -/
def sadd {X : Type} [DecidableEq X] (s : List X) (x : X) : List X := if x ∈ s then s else s ++ [x]

/-- the dictionaries `prefixes` (prefix to set of next activities) and `prefix_count` -/
structure Acc where
  prefixes : Dict Str (List Str)
  count : Dict Str Nat

/-- body of the inner loop (utils.py:124-129) for the prefix `tr[0:i]` and the activity `tr[i]` -/
def addPrefix (acc : Acc) (tr : List Str) (i : Nat) : Acc :=
  let pre := join (tr.take i)
  { prefixes := Dict.set acc.prefixes pre (sadd ((get? acc.prefixes pre).getD []) (tr.getD i []))
    count := Dict.set acc.count pre ((get? acc.count pre).getD 0 + 1) }

/-- `get_log_prefixes` (utils.py:106-134); the log is given by the activities of its traces -/
def getLogPrefixes (log : List (List Str)) : Acc :=
  log.foldl (fun acc tr => (List.range' 1 (tr.length - 1)).foldl (fun acc i => addPrefix acc tr i) acc) ⟨[], []⟩

/-- `form_fake_log` (utils.py:137-157) -/
def formFakeLog (keys : List Str) : List (List Str) := keys.map split

/-- `get_start_activities` (the keys; statistics/start_activities/log/get.py:42-48: the first activity of every
non-empty trace) -/
def startActivities (log : List (List Str)) : List Str := log.filterMap List.head?

/-- the counters `sum_at`, `sum_ee` -/
structure Sums where
  at_ : Nat
  ee : Nat
  deriving DecidableEq, Repr

/-- `set.difference` -/
def diff (a b : List Str) : List Str := a.filter fun x => !b.contains x

/-- body of the loop over the prefixes (align_etconformance.py:93-116, etconformance_token.py:125-131): `e` is a key of
`prefixes` and its fake trace, `act` gives the activated labels -/
def addSums (act : List Str → Option (List Str)) (acc : Acc) (s : Sums) (e : Str × List Str) : Sums :=
  match act e.2 with
  | some labels =>
    let logTransitions := (get? acc.prefixes e.1).getD []
    { at_ := s.at_ + labels.length * (get? acc.count e.1).getD 0
      ee := s.ee + (diff labels logTransitions).length * (get? acc.count e.1).getD 0 }
  | none => s

/-- The computation of `sum_at` and `sum_ee` (align_etconformance.py:85-129, etconformance_token.py:109-131).
`act tr` is the set of activated labels found for the fake trace `tr`, or `none` if no marking was found for it / it
does not fit; `ini` is `trans_en_ini_marking`; `logLen` is `len(log)`. -/
def sums (log : List (List Str)) (act : List Str → Option (List Str)) (ini : List Str) (logLen : Nat) : Sums :=
  let acc := getLogPrefixes log
  let s := ((keys acc.prefixes).zip (formFakeLog (keys acc.prefixes))).foldl (addSums act acc) ⟨0, 0⟩
  { at_ := s.at_ + logLen * ini.length
    ee := s.ee + logLen * (diff ini (startActivities log)).length }

/-- the returned value (align_etconformance.py:74, 132-135), as an exact fraction (Python: a float) -/
def value (s : Sums) : Rat := if s.at_ > 0 then 1 - (s.ee : Rat) / (s.at_ : Rat) else 1

end Precision
end Verif
