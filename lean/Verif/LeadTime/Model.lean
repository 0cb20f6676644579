import Mathlib.Algebra.BigOperators.Intervals
import Mathlib.Data.Rat.Defs
import Mathlib.Order.Interval.Finset.Nat
/-
Model of the lead time and cycle time attributes of the events of an interval log: /repo/pm4py/objects/log/util/interval_lifecycle.py:192-262.
Time is a natural number of ticks since the epoch; `w t` is the number of business seconds in the tick `t`, so that the business duration between two
times (BusinessHours.get_seconds, C69) is the sum over the ticks between them.  The conversion to intervals (to_interval) is C82.
-/
namespace Verif
namespace LeadTime

/-- the business duration between two times (C69: BusinessHours(st, et).get_seconds()) -/
def work (w : Nat → Nat) (s e : Nat) : Nat := ∑ t ∈ Finset.Ico s e, w t

/-- the variables of the loop over the events of a trace (interval_lifecycle.py:213-217) and the value for the current event -/
structure State where
  lead : Nat
  cycle : Nat
  wasted : Nat
  maxEt : Nat
  thisWasted : Nat
  ratio : Rat

/-- interval_lifecycle.py:213-217 -/
def init : State := ⟨0, 0, 0, 0, 0, 1⟩

/-- the loop body, for the event with the start time `ev.1` and the end time `ev.2` (interval_lifecycle.py:219-254) -/
def step (w : Nat → Nat) (σ : State) (ev : Nat × Nat) : State :=
  let this := if 0 < σ.maxEt ∧ σ.maxEt < ev.1 then work w σ.maxEt ev.1 else 0
  let dur := if σ.maxEt < ev.1 then work w ev.1 ev.2 else if ev.1 < σ.maxEt ∧ σ.maxEt < ev.2 then work w σ.maxEt ev.2 else 0
  let lead := σ.lead + this + dur
  let cycle := σ.cycle + dur
  { lead := lead, cycle := cycle, wasted := σ.wasted + this, maxEt := if σ.maxEt < ev.2 then ev.2 else σ.maxEt, thisWasted := this,
    ratio := if 0 < lead then (cycle : Rat) / (lead : Rat) else 1 }

/-- the attributes given to the events of the trace, in order (interval_lifecycle.py:218-260) -/
def annotate (w : Nat → Nat) : State → List (Nat × Nat) → List State
  | _, [] => []
  | σ, ev :: l => step w σ ev :: annotate w (step w σ ev) l

/-- assign_lead_cycle_time for one trace -/
def leadCycle (w : Nat → Nat) (l : List (Nat × Nat)) : List State := annotate w init l

end LeadTime
end Verif
