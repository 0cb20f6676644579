import Verif.Petri.PlayoutTheorems
set_option linter.unusedSectionVars false
/-
C44: conversion of a directly-follows graph to an accepting Petri net
(/repo/pm4py/objects/conversion/dfg/variants/{to_petri_net_activity_defines_place,to_petri_net_invisibles_no_duplicates}.py).

A directly-follows graph is the list of its keys (a Python dictionary: no key twice); the frequencies are not used by the
code.  Start and end activities are given by lists (dictionary keys).  Objects are identified with what they are created
for: a place with its activity, a transition with the number `index` or with the activity or arc it is created for.  Names
and the properties of the net object are not modelled.
-/
namespace Verif.DfgNet
variable {α : Type} [DecidableEq α]

/-- `get_activities_from_dfg` (objects/dfg/utils/dfg_utils.py:211-235), without the sorting. -/
def activitiesOf (dfg : List (α × α)) : List α := dfg.foldl (fun s e =>
  let s := if e.1 ∈ s then s else s ++ [e.1]
  if e.2 ∈ s then s else s ++ [e.2]) []

/-- `infer_start_activities` (dfg_utils.py:59-82): the keys of `outgoing` that are not keys of `ingoing`. -/
def inferStart (dfg : List (α × α)) : List α :=
  (dfg.foldl (fun s e => if e.1 ∈ s then s else s ++ [e.1]) []).filter fun a => !decide (a ∈ dfg.map Prod.snd)

/-- `infer_end_activities` (dfg_utils.py:85-108). -/
def inferEnd (dfg : List (α × α)) : List α :=
  (dfg.foldl (fun s e => if e.2 ∈ s then s else s ++ [e.2]) []).filter fun a => !decide (a ∈ dfg.map Prod.fst)

/-! ### `to_petri_net_activity_defines_place` (the default) -/

/-- The places: source, sink and one for each activity (to_petri_net_activity_defines_place.py:59-72). -/
inductive Pl (α : Type)
  | source | sink | act (a : α)
deriving DecidableEq

/-- A transition with its number, its label and its two arcs. -/
structure Tr (π α : Type) where
  idx : Nat
  label : Option α
  src : π
  dst : π
deriving DecidableEq

/-- The loop over the start activities (74-80). -/
def addStarts (acts : List α) (st : Nat × List (Tr (Pl α) α)) (starts : List α) : Nat × List (Tr (Pl α) α) :=
  starts.foldl (fun st a =>
    if a ∈ acts then (st.1 + 1, st.2 ++ [⟨st.1 + 1, some a, .source, .act a⟩]) else st) st

/-- The loop over the end activities (82-88). -/
def addEnds (acts : List α) (st : Nat × List (Tr (Pl α) α)) (ends : List α) : Nat × List (Tr (Pl α) α) :=
  ends.foldl (fun st a =>
    if a ∈ acts then (st.1 + 1, st.2 ++ [⟨st.1 + 1, none, .act a, .sink⟩]) else st) st

/-- The loop over the arcs (90-99). -/
def addArcs (st : Nat × List (Tr (Pl α) α)) (dfg : List (α × α)) : Nat × List (Tr (Pl α) α) :=
  dfg.foldl (fun st e => (st.1 + 1, st.2 ++ [⟨st.1 + 1, some e.2, .act e.1, .act e.2⟩])) st

/-- A net in which each transition has one input arc and one output arc of weight 1. -/
def machine {π : Type} (places : List π) (ts : List (Tr π α)) : Net π (Tr π α) where
  places := places
  transitions := ts
  inArcs t := [(t.src, 1)]
  outArcs t := [(t.dst, 1)]

/-- `apply` (34-101): the net; the initial marking is one token in `source`, the final one in `sink`. -/
def toNet (dfg : List (α × α)) (starts ends : List α) : Net (Pl α) (Tr (Pl α) α) :=
  let acts := activitiesOf dfg
  machine (.source :: .sink :: acts.map .act) (addArcs (addEnds acts (addStarts acts (0, []) starts) ends) dfg).2

/-- The initial marking (59-61). -/
def im : Marking (Pl α) := [(.source, 1)]
/-- The final marking (62-64). -/
def fm : Marking (Pl α) := [(.sink, 1)]

/-! ### `to_petri_net_invisibles_no_duplicates` -/

/-- `left_places` and `right_places` (to_petri_net_invisibles_no_duplicates.py:83-100). -/
inductive Pl2 (α : Type)
  | left (a : α) | right (a : α)
deriving DecidableEq

/-- `enriched_dfg` (74-78); `sa` and `ea` are the artificial start and end activities. -/
def enrich (sa ea : α) (dfg : List (α × α)) (starts ends : List α) : List (α × α) :=
  ends.foldl (fun d a => if (a, ea) ∈ d then d else d ++ [(a, ea)])
    (starts.foldl (fun d a => if (sa, a) ∈ d then d else d ++ [(sa, a)]) dfg)

/-- The transitions of the activities (86-100) and of the arcs (101-105), numbered. -/
def trans2 (sa ea : α) (enriched : List (α × α)) : List (Tr (Pl2 α) α) :=
  let acts := activitiesOf enriched
  let visible := acts.zipIdx.map fun x =>
    ({ idx := x.2, label := if x.1 ∈ [sa, ea] then none else some x.1, src := .left x.1, dst := .right x.1 } : Tr (Pl2 α) α)
  let hidden := enriched.zipIdx.map fun x =>
    ({ idx := acts.length + x.2, label := none, src := .right x.1.1, dst := .left x.1.2 } : Tr (Pl2 α) α)
  visible ++ hidden

/-- `apply` (37-109): the net, the initial and the final marking; `none` is the `KeyError` of `left_places[..]` or
`right_places[..]` (106-107), if there is no start (end) activity. -/
def toNet2 (sa ea : α) (dfg : List (α × α)) (starts ends : List α) :
    Option (Net (Pl2 α) (Tr (Pl2 α) α) × Marking (Pl2 α) × Marking (Pl2 α)) :=
  let enriched := enrich sa ea dfg starts ends
  let acts := activitiesOf enriched
  if sa ∈ acts ∧ ea ∈ acts then
    some (machine (acts.map .left ++ acts.map .right) (trans2 sa ea enriched), [(.left sa, 1)], [(.right ea, 1)])
  else none

end Verif.DfgNet
