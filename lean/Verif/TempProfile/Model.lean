import Verif.Common.Dict
import Mathlib.Data.Real.Sqrt
import Mathlib.Algebra.BigOperators.Group.List.Basic
/-
Model of the discovery of temporal profiles and of conformance checking with them
(/repo/pm4py/algo/discovery/temporal_profile/variants/log.py, /repo/pm4py/algo/conformance/temporal_profile/variants/log.py).
-/
namespace Verif
namespace TempProfile

/-- an event: activity, start and completion time (in the code floating-point seconds, here integer ticks; the default is that both are the
same attribute) -/
structure Ev where
  act : String
  st : Int
  et : Int
  deriving DecidableEq, Repr

/-- the inner loop for the event `e` (discovery log.py:91-103): the recorded difference for every later event that does not start before `e`
ends -/
def diffsFrom (e : Ev) (rest : List Ev) : List ((String × String) × Int) :=
  rest.filterMap fun f => if f.st ≥ e.et then some ((e.act, f.act), f.st - e.et) else none

/-- the two loops over a trace (discovery log.py:88-103): what is recorded, in order -/
def pairsOf : List Ev → List ((String × String) × Int)
  | [] => []
  | e :: rest => diffsFrom e rest ++ pairsOf rest

/-- one recording (discovery log.py:95-103) -/
def record (d : Dict (String × String) (List Int)) (r : (String × String) × Int) : Dict (String × String) (List Int) :=
  Dict.set d r.1 ((Dict.get? d r.1).getD [] ++ [r.2])

/-- `diff_time_recordings` (discovery log.py:85-103) -/
def recordings (log : List (List Ev)) : Dict (String × String) (List Int) := (log.flatMap pairsOf).foldl record []

/-- `statistics.mean`, with exact numbers -/
noncomputable def mean (xs : List Int) : ℝ := (xs.map fun (x : Int) => (x : ℝ)).sum / (xs.length : ℝ)

/-- `statistics.stdev`: the sample standard deviation, with exact numbers -/
noncomputable def stdev (xs : List Int) : ℝ := Real.sqrt ((xs.map fun (x : Int) => ((x : ℝ) - mean xs) ^ 2).sum / ((xs.length : ℝ) - 1))

/-- the entry of the profile for some recordings (discovery log.py:107-110) -/
noncomputable def entry (xs : List Int) : ℝ × ℝ := if xs.length > 1 then (mean xs, stdev xs) else (((xs.headD 0 : Int) : ℝ), 0)

/-- `apply` of the discovery (log.py:37-112).  Business hours are not modelled here (see C69). -/
noncomputable def discover (log : List (List Ev)) : Dict (String × String) (ℝ × ℝ) := (recordings log).map fun r => (r.1, entry r.2)

/-- a reported deviation: the two activities, the difference and the number of standard deviations (`none` is `sys.maxsize`, conformance
log.py:118) -/
structure Dev where
  acts : String × String
  diff : Int
  zeta : Option ℝ

open Classical in
/-- the body of the two loops (conformance log.py:107-119) for one pair of events -/
noncomputable def check (profile : Dict (String × String) (ℝ × ℝ)) (zeta : ℝ) (r : (String × String) × Int) : Option Dev :=
  match Dict.get? profile r.1 with
  | none => none
  | some (m, s) =>
    if (r.2 : ℝ) < m - zeta * s ∨ (r.2 : ℝ) > m + zeta * s then
      some ⟨r.1, r.2, if s > 0 then some (|(r.2 : ℝ) - m| / s) else none⟩
    else none

/-- `apply` of the conformance checking (log.py:38-123): the deviations of every trace -/
noncomputable def conformance (profile : Dict (String × String) (ℝ × ℝ)) (zeta : ℝ) (log : List (List Ev)) : List (List Dev) :=
  log.map fun tr => (pairsOf tr).filterMap (check profile zeta)

end TempProfile
end Verif
