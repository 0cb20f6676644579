import Verif.Ocel.Spec
import Verif.Log.Dfg
/-
Model of the flattening of object-centric event logs (/repo/pm4py/objects/ocel/util/flattening.py) and of the edges of object-centric
directly-follows graphs (/repo/pm4py/statistics/ocel/edge_metrics.py).  The tables are those of Verif/Ocel/Spec.lean.
pandas is modelled by the meaning of its operations: an inner `merge` keeps the order of the left table and, for each of its rows, the order of
the matching rows of the right table.
-/
namespace Verif.OcFlat
open Dict Verif.Ocel
variable {ε ο α θ π : Type} [DecidableEq ε] [DecidableEq ο] [DecidableEq α] [DecidableEq θ]

/-- `flatten` (flattening.py:33-76): the rows of the flattened log; a row has the columns of the event and those of the object (the case).
The renaming of the columns is left out. -/
def flatten (ot : θ) (o : Ocel ε ο α θ π) : List (EvRow ε α π × ObRow ο θ π) :=
  -- 62-64
  let objects := o.objects.filter fun x => decide (x.type = ot)
  -- 66-68
  let relations := o.relations.filter fun r => decide (r.type = ot)
  -- 70
  let merged := objects.flatMap fun x => (relations.filter fun r => decide (r.ob = x.id)).map fun r => (x, r.ev)
  -- 72-73
  o.events.flatMap fun e => (merged.filter fun p => decide (p.2 = e.id)).map fun p => (e, p.1)

/-- the traces of a flattened log: the activities of the rows of each case, in the order of the table (conversion to an event log, C43) -/
def flatLog (ot : θ) (o : Ocel ε ο α θ π) : List (List α) :=
  let rows := flatten ot o
  (Filter.firstOcc (rows.map fun r => r.2.id)).map fun x => (rows.filter fun r => decide (r.2.id = x)).map fun r => r.1.act

/-- `activities[evid]` (edge_metrics.py:219-220); `none`: KeyError -/
def actOf (o : Ocel ε ο α θ π) (i : ε) : Option α := (o.events.find? fun e => decide (e.id = i)).map EvRow.act

/-- `objtypes[obj]` (edge_metrics.py:223-224); `none`: KeyError -/
def typeOf (o : Ocel ε ο α θ π) (i : ο) : Option θ := (o.objects.find? fun x => decide (x.id = i)).map ObRow.type

/-- the pairs `evid`, `obj` of the two loops (edge_metrics.py:230-232); `omap` are the objects of the events -/
def visits (o : Ocel ε ο α θ π) : List (ε × ο) :=
  o.events.flatMap fun e => (o.relations.filter fun r => decide (r.ev = e.id)).map fun r => (e.id, r.ob)

abbrev Edges (ε ο α θ : Type) := Dict θ (Dict (α × α) (List (ε × ε × ο)))

/-- `edges[objtype][acttup]`, if there is such an entry -/
def edge (d : Edges ε ο α θ) (t : θ) (ab : α × α) : Option (List (ε × ε × ο)) := (get? d t).bind fun m => get? m ab

/-- edge_metrics.py:235-241: `edges[objtype][acttup].append(...)`, after adding the missing entries -/
def addEdge (d : Edges ε ο α θ) (t : θ) (ab : α × α) (x : ε × ε × ο) : Edges ε ο α θ :=
  Dict.set d t (Dict.set ((get? d t).getD []) ab ((edge d t ab).getD [] ++ [x]))

/-- `history` and `edges` -/
structure St (ε ο α θ : Type) where
  history : Dict ο ε
  edges : Edges ε ο α θ

/-- the body of the loops (edge_metrics.py:233-242); `none`: KeyError -/
def visit (o : Ocel ε ο α θ π) (s : St ε ο α θ) (v : ε × ο) : Option (St ε ο α θ) :=
  match get? s.history v.2 with
  | none => some ⟨Dict.set s.history v.2 v.1, s.edges⟩
  | some prev =>
    match typeOf o v.2, actOf o prev, actOf o v.1 with
    | some t, some a, some b => some ⟨Dict.set s.history v.2 v.1, addEdge s.edges t (a, b) (prev, v.1, v.2)⟩
    | _, _, _ => none

/-- `find_associations_per_edge` (edge_metrics.py:190-244); the edges of `discover_ocdfg` are these (`total_objects`: as sets, `event_couples`:
the pairs of events, `unique_objects`: the objects) -/
def edges (o : Ocel ε ο α θ π) : Option (Edges ε ο α θ) := ((visits o).foldlM (visit o) ⟨[], []⟩).map St.edges

end Verif.OcFlat
