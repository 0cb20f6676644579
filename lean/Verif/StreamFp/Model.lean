import Verif.Common.Dict
/-
Model of streaming conformance checking with footprints
(/repo/pm4py/streaming/algo/conformance/footprints/variants/classic.py).  `encode_str` (str) is taken as the identity on identifiers.  Messages
to the log are not modelled.
-/
namespace Verif
namespace StreamFp
open Dict
variable {κ α : Type} [DecidableEq κ] [DecidableEq α]

/-- the parts of the footprints the checker uses (classic.py:59-62); `fps` is the union of the sequence and the parallel relation -/
structure Fp (α : Type) where
  starts : List α
  ends : List α
  acts : List α
  fps : List (α × α)

/-- the two dictionaries (classic.py:66-86): last activity and number of deviations of a case -/
structure State (κ α : Type) where
  caseDict : Dict κ α
  devDict : Dict κ Int

/-- `build_dictionaries`: both empty (classic.py:66-86) -/
def init : State κ α := ⟨[], []⟩

/-- `self.dev_dict[case] = int(self.dev_dict[case]) + 1` (classic.py:128, 145, 160, 204) -/
def addDev (s : State κ α) (c : κ) : State κ α := { s with devDict := Dict.set s.devDict c (Dict.count s.devDict c + 1) }

/-- `verify_start_case` (classic.py:148-161) -/
def verifyStart (F : Fp α) (s : State κ α) (c : κ) (a : α) : State κ α := if a ∉ F.starts then addDev s c else s

/-- `verify_intra_case` (classic.py:131-146), with the last activity `prev` -/
def verifyIntra (F : Fp α) (s : State κ α) (c : κ) (prev a : α) : State κ α := if (prev, a) ∉ F.fps then addDev s c else s

/-- `verify_footprints` (classic.py:107-129) -/
def verify (F : Fp α) (s : State κ α) (c : κ) (a : α) : State κ α :=
  let s1 : State κ α := if has s.caseDict c then s else { s with devDict := Dict.set s.devDict c 0 }
  if a ∈ F.acts then
    let s2 := match get? s1.caseDict c with
      | none => verifyStart F s1 c a
      | some prev => verifyIntra F s1 c prev a
    { s2 with caseDict := Dict.set s2.caseDict c a }
  else addDev s1 c

/-- `get_status` (classic.py:163-184); `none` if the case is not in the dictionary -/
def getStatus (s : State κ α) (c : κ) : Option Bool :=
  if has s.caseDict c then some (decide (Dict.count s.devDict c = 0)) else none

/-- `terminate` (classic.py:186-214): the new state and the returned value -/
def terminate (F : Fp α) (s : State κ α) (c : κ) : State κ α × Option Bool :=
  match get? s.caseDict c with
  | none => (s, none)
  | some curr =>
    let s1 := if curr ∉ F.ends then addDev s c else s
    (⟨Dict.del s1.caseDict c, Dict.del s1.devDict c⟩, some (decide (Dict.count s1.devDict c = 0)))

/-- `terminate_all` (classic.py:216-222): the new state (the code ignores the results) -/
def terminateAll (F : Fp α) (s : State κ α) : State κ α := (keys s.caseDict).foldl (fun s c => (terminate F s c).1) s

/-- what is done with the checker: an event (with case and activity, each possibly missing) is received, a case is terminated, all cases are -/
inductive Act (κ α : Type) where
  | event (case : Option κ) (activity : Option α)
  | term (c : κ)
  | termAll

/-- `_process` (classic.py:91-105), `terminate`, `terminate_all` -/
def step (F : Fp α) (s : State κ α) : Act κ α → State κ α
  | .event (some c) (some a) => verify F s c a
  | .event _ _ => s
  | .term c => (terminate F s c).1
  | .termAll => terminateAll F s

/-- the checker after a history -/
def run (F : Fp α) (h : List (Act κ α)) : State κ α := h.foldl (step F) init

/-- `_current_result` (classic.py:295-315): the rows of the diagnostics dataframe -/
def currentResult (s : State κ α) : List (κ × Option Bool) := (keys s.caseDict).map fun c => (c, getStatus s c)

end StreamFp
end Verif
