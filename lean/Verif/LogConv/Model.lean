/-
C43: conversions between event logs, event streams and dataframes (`pm4py/objects/conversion/log/variants`).

A Python dictionary is the list of its items in insertion order, with distinct keys.  Attribute names are lists of
characters.  A dataframe is the list of its rows (`to_dict_records`), each with the same columns; missing cells, types of
columns, extensions, classifiers and log attributes are not modelled.  Copies of dictionaries are values here; the only
place where sharing matters, `deepcopy=False`, is modelled by returning the changed log as well.
-/
namespace Verif.LogConv

/-- Attribute names. -/
abbrev Key := List Char

/-- Dictionaries in insertion order. -/
abbrev Dict (ν : Type) := List (Key × ν)

variable {ν : Type}

/-- `d.get(k)`. -/
def Dict.get? (d : Dict ν) (k : Key) : Option ν := (d.find? fun x => decide (x.1 = k)).map Prod.snd

/-- `d[k] = v`: in place if the key exists, else at the end. -/
def Dict.set (d : Dict ν) (k : Key) (v : ν) : Dict ν :=
  if k ∈ d.map Prod.fst then d.map fun x => if x.1 = k then (k, v) else x else d ++ [(k, v)]

/-- A trace: its attributes and its events (`log_instance.Trace`). -/
structure Trace (ν : Type) where
  attrs : Dict ν
  events : List (Dict ν)
deriving DecidableEq

/-- `"case:"`, the default `case_attribute_prefix` (pm4py/util/constants.py:CASE_ATTRIBUTE_PREFIX). -/
def casePref : Key := ['c', 'a', 's', 'e', ':']

/-- `"concept:name"` (xes.DEFAULT_TRACEID_KEY). -/
def traceId : Key := ['c', 'o', 'n', 'c', 'e', 'p', 't', ':', 'n', 'a', 'm', 'e']

/-- `"case:concept:name"`, the default case identifier. -/
def glueKey : Key := casePref ++ traceId

/-- Python's `k.replace(pre, '')`: the non-overlapping occurrences, from left to right, are removed.  The first argument
bounds the recursion by the length of the string. -/
def removeAll (pre : Key) : Nat → Key → Key
  | 0, s => s
  | _ + 1, [] => []
  | n + 1, c :: s =>
    if pre.isPrefixOf (c :: s) then removeAll pre n ((c :: s).drop pre.length) else c :: removeAll pre n s

/-- The new event for an event of a trace, with the case attributes (to_event_stream.py:282-288). -/
def streamEvent (attrs : Dict ν) (e : Dict ν) : Dict ν :=
  attrs.foldl (fun ev a => ev.set (casePref ++ a.1) a.2) e

/-- `__transform_event_log_to_event_stream` with `include_case_attributes` (to_event_stream.py:280-289). -/
def toStream (log : List (Trace ν)) : List (Dict ν) :=
  log.flatMap fun t => t.events.map (streamEvent t.attrs)

/-- The same without case attributes (to_event_stream.py:287): only the position of the trace, `str(index)`. -/
def toStreamIndexed (str : Nat → ν) (log : List (Trace ν)) : List (Dict ν) :=
  log.zipIdx.flatMap fun (t, i) => t.events.map fun e => Dict.set e glueKey (str i)

/-- The stream together with the log after the call: without deep copy the new events *are* the events of the log
(to_event_stream.py:282). -/
def toStreamEffect (deep : Bool) (log : List (Trace ν)) : List (Dict ν) × List (Trace ν) :=
  (toStream log, if deep then log else log.map fun t => { t with events := t.events.map (streamEvent t.attrs) })

/-- `to_data_frame.apply` on an event log: `new_parameters["deepcopy"] = False` (to_data_frame.py:60-66). -/
def toFrame (log : List (Trace ν)) : List (Dict ν) × List (Trace ν) := toStreamEffect false log

/-- The attributes of a new trace (to_event_log.py:91-97). -/
def traceAttrs (e : Dict ν) (g : ν) : Dict ν :=
  let a := (e.filter fun x => casePref.isPrefixOf x.1).foldl
    (fun (a : Dict ν) x => a.set (removeAll casePref x.1.length x.1) x.2) []
  if traceId ∈ a.map Prod.fst then a else a.set traceId g

/-- The event without the case attributes (to_event_log.py:100-103). -/
def stripEvent (e : Dict ν) : Dict ν := e.filter fun x => !casePref.isPrefixOf x.1

/-- One iteration of the loop (to_event_log.py:87-105) on the dictionary of traces; `none` is the KeyError of
`event[case_glue]`. -/
def groupStep [DecidableEq ν] (glue : Key) (traces : List (ν × Trace ν)) (e : Dict ν) : Option (List (ν × Trace ν)) :=
  match e.get? glue with
  | none => none
  | some g =>
    let traces := if g ∈ traces.map Prod.fst then traces else traces ++ [(g, { attrs := traceAttrs e g, events := [] })]
    some (traces.map fun x => if x.1 = g then (x.1, { x.2 with events := x.2.events ++ [stripEvent e] }) else x)

/-- `__transform_event_stream_to_event_log` (to_event_log.py:83-107). -/
def toLog [DecidableEq ν] (glue : Key) (stream : List (Dict ν)) : Option (List (Trace ν)) :=
  (stream.foldlM (groupStep glue) []).map fun traces => traces.map Prod.snd

end Verif.LogConv
