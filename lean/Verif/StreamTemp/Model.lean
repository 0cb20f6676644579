import Verif.TempProfile.Model
/-
Model of streaming conformance checking with a temporal profile
(/repo/pm4py/streaming/algo/conformance/temporal/variants/classic.py).  The encoding of the dictionaries' values (json) is not modelled, times are
integer ticks and the profile has real numbers, as in `Verif.TempProfile`.
-/
namespace Verif
namespace StreamTemp
open TempProfile Dict
variable {κ : Type} [DecidableEq κ]

/-- a received event: the case, the two times and the activity; an event that lacks one of the four attributes is `none` (classic.py:98-99) -/
abbrev Event (κ : Type) := Option (κ × Ev)

/-- the two dictionaries (classic.py:79-86): the events and the deviations of a case -/
structure State (κ : Type) where
  cases : Dict κ (List Ev)
  devs : Dict κ (List Dev)

/-- both dictionaries are empty at first (classic.py:79-86) -/
def init : State κ := ⟨[], []⟩

open Classical in
/-- one iteration of the loop over the previous events (classic.py:125-138): the deviation of the previous event `p` and the new event `e`, if any -/
noncomputable def compare (profile : Dict (String × String) (ℝ × ℝ)) (zeta : ℝ) (p e : Ev) : Option Dev :=
  if e.st ≥ p.et then
    match Dict.get? profile (p.act, e.act) with
    | none => none
    | some (mean, std) =>
      if ((e.st - p.et : Int) : ℝ) < mean - zeta * std ∨ ((e.st - p.et : Int) : ℝ) > mean + zeta * std then
        some ⟨(p.act, e.act), e.st - p.et, if std > 0 then some (|((e.st - p.et : Int) : ℝ) - mean| / std) else none⟩
      else none
  else none

/-- one iteration of the loop over the previous events (classic.py:126-138): a deviation is appended to those of the case -/
noncomputable def report (profile : Dict (String × String) (ℝ × ℝ)) (zeta : ℝ) (c : κ) (e : Ev) (s : State κ) (p : Ev) : State κ :=
  match compare profile zeta p e with
  | none => s
  | some d => { s with devs := Dict.set s.devs c ((Dict.get? s.devs c).getD [] ++ [d]) }

/-- `check_conformance` (classic.py:114-138) -/
noncomputable def checkConformance (profile : Dict (String × String) (ℝ × ℝ)) (zeta : ℝ) (s : State κ) (c : κ) (e : Ev) : State κ :=
  ((Dict.get? s.cases c).getD []).foldl (report profile zeta c e) s

/-- `_process` (classic.py:89-112) -/
noncomputable def process (profile : Dict (String × String) (ℝ × ℝ)) (zeta : ℝ) (s : State κ) : Event κ → State κ
  | none => s
  | some (c, e) =>
    let s1 : State κ := if has s.cases c then s else ⟨Dict.set s.cases c [], Dict.set s.devs c []⟩
    let s2 := checkConformance profile zeta s1 c e
    { s2 with cases := Dict.set s2.cases c ((Dict.get? s2.cases c).getD [] ++ [e]) }

/-- the checker after a sequence of events -/
noncomputable def run (profile : Dict (String × String) (ℝ × ℝ)) (zeta : ℝ) (evs : List (Event κ)) : State κ :=
  evs.foldl (process profile zeta) init

/-- `_current_result` (classic.py:162-176): the deviations of the cases that have any -/
def currentResult (s : State κ) : Dict κ (List Dev) := s.devs.filter fun r => !r.2.isEmpty

end StreamTemp
end Verif
