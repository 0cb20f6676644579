/-
Model of the cycle time of an event log (/repo/pm4py/statistics/traces/cycle_time/util/compute.py, .../log/get.py, .../pandas/get.py).
-/
namespace Verif
namespace CycleTime

/-- an event: start and completion time.  The code uses floating-point seconds, the model integer ticks of any length. -/
abbrev Ev := Int × Int

/-- the sort key `(x[0], x[1])` (compute.py:48) -/
def keyLe (x y : Ev) : Bool := decide (x.1 < y.1) || (decide (x.1 = y.1) && decide (x.2 ≤ y.2))

/-- the variables of the loop -/
structure St where
  prod : Int
  st : Int
  et : Int
  deriving DecidableEq, Repr

/-- one iteration of the loop (compute.py:55-63) -/
def step (s : St) (e : Ev) : St :=
  if e.1 > s.et then ⟨s.prod + (s.et - s.st), e.1, max s.et e.2⟩ else ⟨s.prod, s.st, max s.et e.2⟩

/-- the loop (compute.py:48-63) and the value of `production_time` after it; `none` is the `IndexError` of line 50 -/
def production (events : List Ev) : Option Int :=
  match events.mergeSort keyLe with
  | [] => none
  | e :: es => some ((es.foldl step ⟨0, e.1, e.2⟩).prod)

/-- `cycle_time` (compute.py:20-65): `none` is an exception (no event, or no case: line 65) -/
def cycleTime (events : List Ev) (numInstances : Nat) : Option Rat :=
  if numInstances = 0 then none else (production events).map fun p => (p : Rat) / (numInstances : Rat)

/-- `apply` (log/get.py:71-73): the events of all the traces, the number of traces -/
def ofLog (log : List (List Ev)) : Option Rat := cycleTime log.flatten log.length

end CycleTime
end Verif
