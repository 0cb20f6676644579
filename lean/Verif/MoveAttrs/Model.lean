import Mathlib.Data.List.Dedup
/-
Model of moving constant event attributes to the trace level: /repo/pm4py/objects/log/util/move_attrs_to_trace.py:53-80.  An event is a dictionary: a list of
names and values without repeated names; `main` says whether the prefix of a name is that of a standard extension (move_attrs_to_trace.py:53-55,62).
Values are strings.  The sets of candidates are lists.
-/
namespace Verif
namespace MoveAttrs

abbrev Dict := List (String × String)

structure Trace where
  attrs : Dict
  events : List Dict

/-- the values collected for a name (move_attrs_to_trace.py:59-67) -/
def values (main : String → Bool) (t : Trace) (n : String) : List String :=
  if main n = true ∨ (t.attrs.lookup n).isSome then [] else t.events.filterMap fun e => e.lookup n

/-- the names collected for a trace: those with a value (move_attrs_to_trace.py:59-67) -/
def names (main : String → Bool) (t : Trace) : List String :=
  ((t.events.flatMap fun e => e.map Prod.fst).filter fun n => !main n && !(t.attrs.lookup n).isSome).dedup

/-- trace_candidates (move_attrs_to_trace.py:68) -/
def traceCands (main : String → Bool) (t : Trace) : List String :=
  (names main t).filter fun n => decide ((values main t n).length = t.events.length) && decide ((values main t n).dedup.length = 1)

/-- candidates (move_attrs_to_trace.py:57-72); `none` for a log without traces -/
def candidates (main : String → Bool) : List Trace → Option (List String)
  | [] => none
  | t :: log => some (log.foldl (fun c t => (traceCands main t).filter fun n => decide (n ∈ c)) (traceCands main t))

/-- one candidate moved in one trace (move_attrs_to_trace.py:74-78); `none`: there is no first event, or an event without the attribute -/
def moveOne (n : String) (t : Trace) : Option Trace :=
  match t.events with
  | [] => none
  | e :: _ =>
    match e.lookup n with
    | none => none
    | some v => if t.events.all (fun e => (e.lookup n).isSome) then
        some ⟨(n, v) :: t.attrs.filter (fun p => decide (p.1 ≠ n)), t.events.map fun e => e.filter fun p => decide (p.1 ≠ n)⟩ else none

/-- the loop over the candidates for a trace (move_attrs_to_trace.py:74-78; the code has the loop over the traces inside: the traces do not share events) -/
def moveAll (cs : List String) (t : Trace) : Option Trace := cs.foldlM (fun t n => moveOne n t) t

/-- the whole function (move_attrs_to_trace.py:53-80); `none` is an error -/
def move (main : String → Bool) (log : List Trace) : Option (List Trace) :=
  match candidates main log with
  | none => none
  | some cs => log.mapM (moveAll cs)

end MoveAttrs
end Verif
