import Verif.Common.Counter
import Verif.Ocel.Spec
import Mathlib.Logic.Relation
/-
C22, C37: /repo/pm4py/objects/ocel/util/filtering_utils.py, /repo/pm4py/algo/filtering/ocel/*.py,
/repo/pm4py/filtering.py (filter_ocel_*), /repo/pm4py/algo/transformation/ocel/graphs/object_interaction_graph.py,
/repo/pm4py/statistics/ocel/objects_ot_count.py.
`df[df[c].isin(s)]` is `List.filter`.  pandas and networkx are modelled by the meaning of their operations.
-/
namespace Verif.Ocel
open Dict Filter
variable {ε ο α θ π : Type} [DecidableEq ε] [LinearOrder ο] [DecidableEq α] [DecidableEq θ]

/-- `propagate_event_filtering` (filtering_utils.py 30-66) -/
def propagateEvents (o : Ocel ε ο α θ π) : Ocel ε ο α θ π :=
  let evs := o.events.map EvRow.id
  let rel := o.relations.filter fun r => decide (r.ev ∈ evs)
  let obs := rel.map RelRow.ob
  { events := o.events
    relations := rel
    objects := o.objects.filter fun x => decide (x.id ∈ obs)
    e2e := o.e2e.filter fun r => decide (r.1 ∈ evs) && decide (r.2.1 ∈ evs)
    o2o := o.o2o.filter fun r => decide (r.1 ∈ obs) && decide (r.2.1 ∈ obs)
    changes := o.changes.filter fun r => decide (r.1 ∈ obs) }

/-- `propagate_object_filtering` (69-105) -/
def propagateObjects (o : Ocel ε ο α θ π) : Ocel ε ο α θ π :=
  let obs := o.objects.map ObRow.id
  let rel := o.relations.filter fun r => decide (r.ob ∈ obs)
  let evs := rel.map RelRow.ev
  { objects := o.objects
    relations := rel
    events := o.events.filter fun e => decide (e.id ∈ evs)
    e2e := o.e2e.filter fun r => decide (r.1 ∈ evs) && decide (r.2.1 ∈ evs)
    o2o := o.o2o.filter fun r => decide (r.1 ∈ obs) && decide (r.2.1 ∈ obs)
    changes := o.changes.filter fun r => decide (r.1 ∈ obs) }

/-- `propagate_relations_filtering` (108-146) -/
def propagateRelations (o : Ocel ε ο α θ π) : Ocel ε ο α θ π :=
  let evs := (o.relations.map RelRow.ev).filter fun i => decide (i ∈ o.events.map EvRow.id)
  let obs := (o.relations.map RelRow.ob).filter fun i => decide (i ∈ o.objects.map ObRow.id)
  let rel := o.relations.filter fun r => decide (r.ev ∈ evs)
  { events := o.events.filter fun e => decide (e.id ∈ evs)
    objects := o.objects.filter fun x => decide (x.id ∈ obs)
    relations := rel.filter fun r => decide (r.ob ∈ obs)
    e2e := o.e2e.filter fun r => decide (r.1 ∈ evs) && decide (r.2.1 ∈ evs)
    o2o := o.o2o.filter fun r => decide (r.1 ∈ obs) && decide (r.2.1 ∈ obs)
    changes := o.changes.filter fun r => decide (r.1 ∈ obs) }

/-- `event_attributes.apply` (33-65), also `filter_ocel_events` (filtering.py 1098-1121, the attribute is the identifier) -/
def filterEvents {ν : Type} [DecidableEq ν] (attr : EvRow ε α π → ν) (values : List ν) (positive : Bool) (o : Ocel ε ο α θ π) :
    Ocel ε ο α θ π :=
  propagateEvents { o with
    events := if positive then o.events.filter fun e => decide (attr e ∈ values)
      else o.events.filter fun e => !decide (attr e ∈ values) }

/-- `event_attributes.apply_timestamp` (68-100) -/
def filterTimestamp (lo hi : Int) (o : Ocel ε ο α θ π) : Ocel ε ο α θ π :=
  propagateEvents { o with
    events := (o.events.filter fun e => decide (e.time ≥ lo)).filter fun e => decide (e.time ≤ hi) }

/-- `object_attributes.apply` (30-62), also `filter_ocel_objects` and `filter_ocel_object_types` with level 1 -/
def filterObjectsBy {ν : Type} [DecidableEq ν] (attr : ObRow ο θ π → ν) (values : List ν) (positive : Bool) (o : Ocel ε ο α θ π) :
    Ocel ε ο α θ π :=
  propagateObjects { o with
    objects := if positive then o.objects.filter fun x => decide (attr x ∈ values)
      else o.objects.filter fun x => !decide (attr x ∈ values) }

/-- `relations.groupby(event_id)[object_id].agg(list).to_dict()`: the objects of each event.  pandas sorts the groups by the
event identifier; here they are in the order of first occurrence (the users of the dictionary do not depend on the order) -/
def evObjs (o : Ocel ε ο α θ π) : List (ε × List ο) :=
  (firstOcc (o.relations.map RelRow.ev)).map fun e => (e, (o.relations.filter fun r => decide (r.ev = e)).map RelRow.ob)

/-- the pairs visited by the loops `for ev in ev_rel_obj: for o1 in rel_obj: for o2 in rel_obj` -/
def pairs (o : Ocel ε ο α θ π) : List (ο × ο) :=
  (evObjs o).flatMap fun e => e.2.flatMap fun o1 => e.2.map fun o2 => (o1, o2)

/-- `if o1 != o2: graph[o1].add(o2)` (filtering.py 1076-1078); `none`: `KeyError` -/
def addPair (g : Dict ο (List ο)) (p : ο × ο) : Option (Dict ο (List ο)) :=
  if p.1 ≠ p.2 then
    match get? g p.1 with
    | none => none
    | some s => some (Dict.set g p.1 (if p.2 ∈ s then s else s ++ [p.2]))
  else some g

/-- `graph` (filtering.py 1070-1078) -/
def objGraph (o : Ocel ε ο α θ π) : Option (Dict ο (List ο)) :=
  (pairs o).foldlM addPair ((firstOcc (o.objects.map ObRow.id)).map fun x => (x, []))

/-- one round of `while level > 1` (1080-1085); `none`: `KeyError` for an identifier that is not an object.  The set
of identifiers is a list here, possibly with repetitions. -/
def expand (g : Dict ο (List ο)) (ids : List ο) : Option (List ο) :=
  ids.foldlM (fun acc el => (get? g el).map fun s => acc ++ s) ids

/-- `while level > 1` -/
def expandN (g : Dict ο (List ο)) : Nat → List ο → Option (List ο)
  | 0, ids => some ids
  | n + 1, ids => (expand g ids).bind (expandN g n)

/-- `filter_ocel_objects` (filtering.py 1054-1095) -/
def filterObjects (ids : List ο) (positive : Bool) (level : Nat) (o : Ocel ε ο α θ π) : Option (Ocel ε ο α θ π) :=
  if level > 1 then do
    let g ← objGraph o
    let ids' ← expandN g (level - 1) ids
    pure (filterObjectsBy ObRow.id ids' positive o)
  else some (filterObjectsBy ObRow.id ids positive o)

/-- `filter_ocel_object_types` (filtering.py 1022-1051) -/
def filterTypes (types : List θ) (positive : Bool) (level : Nat) (o : Ocel ε ο α θ π) : Option (Ocel ε ο α θ π) :=
  if level = 1 then some (filterObjectsBy ObRow.type types positive o)
  else filterObjects ((o.objects.filter fun x => decide (x.type ∈ types)).map ObRow.id) positive level o

/-- `object_interaction_graph.apply` (21-52): the edges -/
def interactionGraph (o : Ocel ε ο α θ π) : List (ο × ο) := (pairs o).filter fun p => decide (p.1 < p.2)

/-- `nx.connected_components` of the graph with the given edges (its vertices are the ends of edges, since they are
added by `add_edge`): the contract that the theorems assume -/
structure IsComponents (edges : List (ο × ο)) (comps : List (List ο)) : Prop where
  /-- a component holds, with a vertex, exactly what is connected to it -/
  closed : ∀ c ∈ comps, ∀ x ∈ c, ∀ y, y ∈ c ↔ Relation.ReflTransGen (fun a b => (a, b) ∈ edges ∨ (b, a) ∈ edges) x y
  /-- every vertex is in a component, and only vertices are -/
  vertices : ∀ x, (∃ c ∈ comps, x ∈ c) ↔ ∃ e ∈ edges, e.1 = x ∨ e.2 = x
  nodup : ∀ c ∈ comps, c.Nodup
  nonempty : ∀ c ∈ comps, c ≠ []

/-- `filter_ocel_cc_object` (filtering.py 1124-1163) -/
def ccObject (comps : List (List ο)) (x : ο) (o : Ocel ε ο α θ π) : Ocel ε ο α θ π :=
  match comps.find? fun c => decide (x ∈ c) with
  | some c => filterObjectsBy ObRow.id c true o
  | none => filterObjectsBy ObRow.id [x] true o

/-- `filter_ocel_cc_length` (1166-1198) -/
def ccLength (comps : List (List ο)) (lo hi : Nat) (o : Ocel ε ο α θ π) : Ocel ε ο α θ π :=
  filterObjectsBy ObRow.id (comps.filter fun c => decide (lo ≤ c.length) && decide (c.length ≤ hi)).flatten true o

/-- the components that meet a set of objects (1234-1236, 1268-1270) -/
def ccMeeting (comps : List (List ο)) (objs : List ο) (o : Ocel ε ο α θ π) : Ocel ε ο α θ π :=
  filterObjectsBy ObRow.id (comps.filter fun c => c.any fun x => decide (x ∈ objs)).flatten true o

/-- `filter_ocel_cc_otype` (1201-1239) -/
def ccOtype (comps : List (List ο)) (t : θ) (positive : Bool) (o : Ocel ε ο α θ π) : Ocel ε ο α θ π :=
  ccMeeting comps ((o.objects.filter fun x => if positive then decide (x.type = t) else !decide (x.type = t)).map ObRow.id) o

/-- `filter_ocel_cc_activity` (1242-1273) -/
def ccActivity (comps : List (List ο)) (a : α) (o : Ocel ε ο α θ π) : Ocel ε ο α θ π :=
  let evs := (o.events.filter fun e => decide (e.act = a)).map EvRow.id
  ccMeeting comps ((o.relations.filter fun r => decide (r.ev ∈ evs)).map RelRow.ob) o

/-- `get_objects_ot_count` (objects_ot_count.py 31-60): the types of the related objects, counted per event -/
def otCount (o : Ocel ε ο α θ π) : List (ε × Dict θ Int) :=
  (firstOcc (o.relations.map RelRow.ev)).map fun e =>
    (e, Counter.ofList ((o.relations.filter fun r => decide (r.ev = e)).map RelRow.type))

/-- `objects_ot_count.apply` (34-91) -/
def perTypeCount (mins : Dict θ Int) (o : Ocel ε ο α θ π) : Ocel ε ο α θ π :=
  let evs := ((otCount o).filter fun e =>
    mins.all fun m => if !has e.2 m.1 then false else if count e.2 m.1 < m.2 then false else true).map Prod.fst
  propagateEvents { o with events := o.events.filter fun e => decide (e.id ∈ evs) }

/-- the event of the first / last row of each object of the type: `groupby(object_id).first()[event_id]` -/
def firstEvents (rel : List (RelRow ε ο α θ π)) : List ε :=
  (firstOcc (rel.map RelRow.ob)).filterMap fun x => ((rel.filter fun r => decide (r.ob = x)).head?).map RelRow.ev
def lastEvents (rel : List (RelRow ε ο α θ π)) : List ε :=
  (firstOcc (rel.map RelRow.ob)).filterMap fun x => ((rel.filter fun r => decide (r.ob = x)).getLast?).map RelRow.ev

/-- `filter_start_events_per_object_type` (ot_endpoints.py 32-66) -/
def startEvents (t : θ) (o : Ocel ε ο α θ π) : Ocel ε ο α θ π :=
  let evs := firstEvents (o.relations.filter fun r => decide (r.type = t))
  propagateEvents { o with events := o.events.filter fun e => decide (e.id ∈ evs) }

/-- `filter_end_events_per_object_type` (69-103) -/
def endEvents (t : θ) (o : Ocel ε ο α θ π) : Ocel ε ο α θ π :=
  let evs := lastEvents (o.relations.filter fun r => decide (r.type = t))
  propagateEvents { o with events := o.events.filter fun e => decide (e.id ∈ evs) }

/-- the default separator (activity_type_matching.py 68) -/
def sep : List Char := ['@', '#', '@', '#']

/-- `activity_type_matching.apply` (33-82); activities and types are strings -/
def typeMatching (corr : List (List Char × List (List Char))) (o : Ocel ε ο (List Char) (List Char) π) :
    Ocel ε ο (List Char) (List Char) π :=
  let inv := corr.flatMap fun c => c.2.map fun a => a ++ sep ++ c.1
  propagateRelations { o with relations := o.relations.filter fun r => decide ((r.act ++ sep ++ r.type) ∈ inv) }

end Verif.Ocel
