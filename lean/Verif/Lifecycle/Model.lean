import Verif.Common.Dict
import Mathlib.Data.List.Sort
/-
Model of the conversions between lifecycle logs and interval logs: /repo/pm4py/objects/log/util/interval_lifecycle.py (to_interval,
to_lifecycle).  Of an event the activity, the lifecycle instance, the lifecycle transition, the timestamp and the start timestamp are modelled;
not modelled: other attributes (they are copied, those of a matched start event with a prefix), `@@duration` (timestamp minus start timestamp),
business hours, trace attributes.  Times are integers.
-/
namespace Verif
namespace Lifecycle
open Dict

/-- an event; `none` is a missing attribute -/
structure Ev where
  act : String
  inst : Option String
  trans : Option String
  ts : Int
  st : Option Int
  deriving DecidableEq, Repr

/-- a log: `log.attributes["PM4PY_TYPE"]` and the traces -/
structure Log where
  ptype : Option String
  traces : List (List Ev)
  deriving DecidableEq, Repr

/-- activity and instance (interval_lifecycle.py:85-87) -/
def key (e : Ev) : String × Option String := (e.act, e.inst)

/-- `str.lower`, for ASCII letters -/
def lower (s : String) : List Char := s.toList.map Char.toLower

/-- the transition, "complete" if it is missing, in lower case (interval_lifecycle.py:88) -/
def transition (e : Ev) : List Char := lower (e.trans.getD "complete")

def isStart (e : Ev) : Bool := transition e == "start".toList
def isComplete (e : Ev) : Bool := transition e == "complete".toList

/-- the new event for the complete event `e` (interval_lifecycle.py:95-110) -/
def interval (e : Ev) (start : Int) : Ev := { e with trans := none, st := some start }

/-- the loop over the events of a trace (interval_lifecycle.py:84-117): the open start events, and the new events -/
def pairStep (acc : Dict (String × Option String) (List Ev) × List Ev) (e : Ev) : Dict (String × Option String) (List Ev) × List Ev :=
  if isStart e then (Dict.set acc.1 (key e) ((Dict.get? acc.1 (key e)).getD [] ++ [e]), acc.2)
  else if isComplete e then
    match (Dict.get? acc.1 (key e)).getD [] with
    | [] => (acc.1, acc.2 ++ [interval e e.ts])
    | s :: rest => (Dict.set acc.1 (key e) rest, acc.2 ++ [interval e s.ts])
  else acc

/-- the new events of a trace, in the order of the complete events (interval_lifecycle.py:80-117) -/
def pairAll (t : List Ev) : List Ev := (t.foldl pairStep ([], [])).2

/-- the order of `sort_timestamp_trace` with the start timestamp (sorting.py:22-42) -/
def byStart (a b : Ev) : Prop := a.st.getD 0 ≤ b.st.getD 0

instance : DecidableRel byStart := fun a b => inferInstanceAs (Decidable (a.st.getD 0 ≤ b.st.getD 0))

/-- the new trace (interval_lifecycle.py:80-119); `sorted` is stable, as is insertion sort -/
def intervalTrace (t : List Ev) : List Ev := (pairAll t).insertionSort byStart

/-- does the first event of the first trace satisfy `p`? (interval_lifecycle.py:69-72, 152-155) -/
def firstEvent (L : Log) (p : Ev → Bool) : Bool := ((L.traces.headD []).head?).any p

/-- `to_interval` (interval_lifecycle.py:38-122) -/
def toInterval (L : Log) : Log :=
  if L.traces.length > 0 then
    if L.ptype = some "interval" then L
    else if firstEvent L fun e => e.st.isSome then L
    else ⟨some "interval", L.traces.map intervalTrace⟩
  else L

/-- an event with `@@origin_ev_idx` and `@@custom_lif_id` -/
structure Tagged where
  ev : Ev
  idx : Nat
  lif : Nat

/-- the order of interval_lifecycle.py:183-184 -/
def before (a b : Tagged) : Prop := a.ev.ts < b.ev.ts ∨ (a.ev.ts = b.ev.ts ∧ (a.idx < b.idx ∨ (a.idx = b.idx ∧ a.lif ≤ b.lif)))

instance : DecidableRel before := fun a b =>
  inferInstanceAs (Decidable (a.ev.ts < b.ev.ts ∨ (a.ev.ts = b.ev.ts ∧ (a.idx < b.idx ∨ (a.idx = b.idx ∧ a.lif ≤ b.lif)))))

/-- the two events of an interval event (interval_lifecycle.py:166-182), for its start timestamp `s` -/
def split (e : Ev) (s : Int) (i : Nat) : List Tagged :=
  [⟨{ e with trans := some "start", ts := s, st := none }, i, 0⟩, ⟨{ e with trans := some "complete", st := none }, i, 1⟩]

/-- all events of a trace (interval_lifecycle.py:165-182), counted from `i`; `none` is the KeyError for a missing start timestamp -/
def splitAll : Nat → List Ev → Option (List Tagged)
  | _, [] => some []
  | i, e :: t => e.st.bind fun s => (splitAll (i + 1) t).map fun r => split e s i ++ r

/-- the new trace (interval_lifecycle.py:162-187) -/
def lifecycleTrace (t : List Ev) : Option (List Ev) := (splitAll 0 t).map fun l => (l.insertionSort before).map Tagged.ev

/-- all or nothing -/
def mapAll {α β : Type} (f : α → Option β) : List α → Option (List β)
  | [] => some []
  | x :: xs => (f x).bind fun y => (mapAll f xs).map fun ys => y :: ys

/-- `to_lifecycle` (interval_lifecycle.py:125-189) -/
def toLifecycle (L : Log) : Option Log :=
  if L.traces.length > 0 then
    if L.ptype = some "lifecycle" then some L
    else if firstEvent L fun e => e.trans.isSome then some L
    else (mapAll lifecycleTrace L.traces).map fun ts => ⟨some "lifecycle", ts⟩
  else some L

end Lifecycle
end Verif
