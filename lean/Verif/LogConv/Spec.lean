import Verif.LogConv.Model
/-
C43: the conditions under which conversions lose nothing, stated on the data.
-/
namespace Verif.LogConv
variable {ν : Type}

/-- A dictionary has each key once. -/
def DistinctKeys (d : Dict ν) : Prop := (d.map Prod.fst).Nodup

/-- `"case:"` does not occur in the name. -/
def NoCase (k : Key) : Prop := ¬ casePref <:+: k

/-- The name does not start with `"case:"`. -/
def NotCaseKey (k : Key) : Prop := ¬ casePref <+: k

/-- A log that a conversion to a stream and back must preserve: no empty trace, attribute names free of the prefix, every
trace with an identifier, identifiers different. -/
structure WellFormed (log : List (Trace ν)) : Prop where
  nonempty : ∀ t ∈ log, t.events ≠ []
  attrKeys : ∀ t ∈ log, DistinctKeys t.attrs ∧ ∀ a ∈ t.attrs, NoCase a.1
  eventKeys : ∀ t ∈ log, ∀ e ∈ t.events, ∀ x ∈ e, NotCaseKey x.1
  hasId : ∀ t ∈ log, ∃ v, t.attrs.get? traceId = some v
  ids : (log.map fun t => t.attrs.get? traceId).Nodup

/-- Two dictionaries with the same values. -/
def SameValues (d e : Dict ν) : Prop := ∀ k, d.get? k = e.get? k

end Verif.LogConv
