/-
Model of pm4py/algo/filtering/dfg/dfg_filtering.py (filtering of directly-follows graphs).
-/
import Verif.Common.Dict
import Verif.Dfg.Graph
namespace Verif
namespace Dfg

variable {A : Type} [DecidableEq A]

/-- The four dictionaries handed to / returned by the filters: the DFG (edge ↦ frequency), start activities,
end activities and activities, each with its count (dfg_filtering.py:66-96). -/
structure D (A : Type) where
  dfg : Dict (A × A) Int
  sa : Dict A Int
  ea : Dict A Int
  cnt : Dict A Int
deriving DecidableEq

/-- nodes of the reachability graph (dfg_filtering.py:49-51: two static UUIDs, assumed to be no activity name) -/
inductive Node (A : Type) where
  | start
  | fin
  | act (a : A)
deriving DecidableEq

abbrev GEdge (A : Type) := Node A × Node A

/-- `generate_nx_graph_from_dfg` (dfg_filtering.py:26-63): the edges of the graph. Simplification: the set of nodes is
not represented, since `descendants`/`ancestors` only depend on the edges. -/
def graphOf (d : D A) : List (GEdge A) :=
  (d.dfg.map fun e => (Node.act e.1.1, Node.act e.1.2)) ++ (d.sa.map fun e => (Node.start, Node.act e.1))
    ++ (d.ea.map fun e => (Node.act e.1, Node.fin))

/-- `graph.remove_node(act)` (dfg_filtering.py:115-117) -/
def removeNode (g : List (GEdge A)) (a : A) : List (GEdge A) :=
  g.filter fun e => decide (e.1 ≠ .act a) && decide (e.2 ≠ .act a)

/-- `graph.remove_edge(u, v)` (dfg_filtering.py:161-163) -/
def removeEdge (g : List (GEdge A)) (e : GEdge A) : List (GEdge A) := g.filter fun f => decide (f ≠ e)

/-- the test "all the activities to keep are reachable from the start and can reach the end"
(dfg_filtering.py:119-122, 166-170) -/
def keepOk (g : List (GEdge A)) (keep : List A) : Bool :=
  keep.all fun a => decide (Node.act a ∈ descendants g .start) && decide (Node.act a ∈ ancestors g .fin)

/-- deletion of the activity `a` from the dictionaries (dfg_filtering.py:124-133, 147-152, 192-197) -/
def removeAct (d : D A) (a : A) : D A :=
  { dfg := d.dfg.filter fun e => decide (e.1.1 ≠ a) && decide (e.1.2 ≠ a)
    sa := d.sa.del a
    ea := d.ea.del a
    cnt := d.cnt.del a }

/-- one iteration of the loop over the activities that can be discarded (dfg_filtering.py:114-134) -/
def actStep (keep : List A) (s : D A × List (GEdge A)) (a : A) : D A × List (GEdge A) :=
  let g' := removeNode s.2 a
  if keepOk g' keep then
    let d' := removeAct s.1 a
    if d'.dfg.isEmpty then s else (d', g')
  else s

/-- the removal of the activities not on a path from the start to the end
(dfg_filtering.py:136-152 and 181-197). The iteration over a Python set is modelled in insertion order
of the dictionary. -/
def dropUnreachable (s : D A × List (GEdge A)) : D A :=
  (s.1.cnt.keys.filter fun a =>
    !(decide (Node.act a ∈ descendants s.2 .start) && decide (Node.act a ∈ ancestors s.2 .fin))).foldl removeAct s.1

/-- insertion into a list sorted by descending `(count, name)`; `gt` is the comparison of the names -/
def insertDesc {K V : Type} (vgt : V → V → Bool) (gt : K → K → Bool) (x : K × V) : List (K × V) → List (K × V)
  | [] => [x]
  | y :: l =>
    if vgt y.2 x.2 || (!vgt x.2 y.2 && gt y.1 x.1) then y :: insertDesc vgt gt x l else x :: y :: l

/-- `sorted(l, key=lambda x: (x[1], x[0]), reverse=True)` (dfg_filtering.py:102-103, 252, 336) -/
def sortDesc {K V : Type} (vgt : V → V → Bool) (gt : K → K → Bool) (l : List (K × V)) : List (K × V) :=
  l.foldr (insertDesc vgt gt) []

/-- `math.ceil((n - 1) * percentage) + 1` (dfg_filtering.py:106, 255), for `percentage ≥ 0`.
Simplification: the product is computed in the rationals instead of in floating point; the theorems about the number of
kept activities / edges are stated for every number `k`. -/
def keepCount (n : Nat) (p : Rat) : Nat := (Rat.ceil (((n : Rat) - 1) * p)).toNat + 1

/-- the body of `filter_dfg_on_activities_percentage` for a given number `k` of activities to keep
(dfg_filtering.py:102-152) -/
def activitiesCore (gt : A → A → Bool) (d : D A) (k : Nat) : D A :=
  let sorted := sortDesc (fun a b : Int => decide (a > b)) gt d.cnt
  let keep := (sorted.take k).map Prod.fst
  let discard := ((sorted.drop k).map Prod.fst).reverse
  dropUnreachable (discard.foldl (actStep keep) (d, graphOf d))

/-- `filter_dfg_on_activities_percentage` (dfg_filtering.py:66-154) -/
def filterActivities (gt : A → A → Bool) (d : D A) (p : Rat) : D A :=
  if d.cnt.length > 1 ∧ d.dfg.length > 1 then activitiesCore gt d (keepCount d.cnt.length p) else d

/-- deletion of an edge of the graph from the dictionaries (dfg_filtering.py:173-179) -/
def deleteEdge (d : D A) : GEdge A → D A
  | (.act a, .act b) => { d with dfg := d.dfg.del (a, b) }
  | (.start, .act b) => { d with sa := d.sa.del b }
  | (.act a, .fin) => { d with ea := d.ea.del a }
  | _ => d

/-- one iteration of the loop over the edges that can be discarded (dfg_filtering.py:159-179) -/
def edgeStep (keep : List A) (s : D A × List (GEdge A)) (e : GEdge A) : D A × List (GEdge A) :=
  if s.1.dfg.length > 1 then
    let g' := removeEdge s.2 e
    if keepOk g' keep then (deleteEdge s.1 e, g') else s
  else s

/-- `__filter_specified_paths` (dfg_filtering.py:157-202) -/
def filterSpecifiedPaths (d : D A) (g : List (GEdge A)) (discardable : List (GEdge A)) (keep : List A) : D A :=
  let d' := dropUnreachable (discardable.foldl (edgeStep keep) (d, g))
  { d' with dfg := d'.dfg.filter fun e => d'.cnt.has e.1.1 && d'.cnt.has e.1.2 }

/-- all the activities mentioned by the dictionaries (dfg_filtering.py:263-264, 346-347) -/
def allActivities (d : D A) : List A :=
  d.dfg.map (fun e => e.1.1) ++ d.dfg.map (fun e => e.1.2) ++ d.sa.keys ++ d.ea.keys ++ d.cnt.keys

/-- the activity of a node, if it is one -/
def Node.activity : Node A → List A
  | .act a => [a]
  | _ => []

/-- the activities at the ends of the edges (dfg_filtering.py:266-267, 349-350) -/
def endpoints (es : List (GEdge A)) : List A :=
  es.flatMap (fun e => e.1.activity) ++ es.flatMap (fun e => e.2.activity)

/-- all the edges of the graph with their frequency (dfg_filtering.py:249-251) -/
def allEdges (d : D A) : List (GEdge A × Int) :=
  (d.dfg.map fun e => ((Node.act e.1.1, Node.act e.1.2), e.2)) ++ (d.sa.map fun e => ((Node.start, Node.act e.1), e.2))
    ++ (d.ea.map fun e => ((Node.act e.1, Node.fin), e.2))

/-- the body of `filter_dfg_on_paths_percentage` for a given number `k` of edges to keep
(dfg_filtering.py:246-274) -/
def pathsCore (gt : GEdge A → GEdge A → Bool) (d : D A) (k : Nat) (keepAll : Bool) : D A :=
  let sorted := sortDesc (fun a b : Int => decide (a > b)) gt (allEdges d)
  let nonDiscardable := (sorted.take k).map Prod.fst
  let discardable := ((sorted.drop k).map Prod.fst).reverse
  let keep := if keepAll then allActivities d else endpoints nonDiscardable
  filterSpecifiedPaths d (graphOf d) discardable keep

/-- `filter_dfg_on_paths_percentage` (dfg_filtering.py:205-276) -/
def filterPaths (gt : GEdge A → GEdge A → Bool) (d : D A) (p : Rat) (keepAll : Bool) : D A :=
  if d.cnt.length > 1 ∧ d.dfg.length > 1 then pathsCore gt d (keepCount (allEdges d).length p) keepAll else d

/-- the dependency of an edge (dfg_filtering.py:325-331); exact rationals instead of floating point -/
def dependency (dfg : Dict (A × A) Int) (e : A × A) (v : Int) : Rat :=
  match dfg.get? (e.2, e.1) with
  | some w => ((v - w : Int) : Rat) / ((v + w + 1 : Int) : Rat)
  | none => (v : Rat) / ((v + 1 : Int) : Rat)

/-- all the edges with their dependency (dfg_filtering.py:324-335) -/
def dependencyEdges (d : D A) : List (GEdge A × Rat) :=
  (d.dfg.map fun e => ((Node.act e.1.1, Node.act e.1.2), dependency d.dfg e.1 e.2))
    ++ (d.sa.map fun e => ((Node.start, Node.act e.1), (1 : Rat)))
    ++ (d.ea.map fun e => ((Node.act e.1, Node.fin), (1 : Rat)))

/-- `filter_dfg_keep_connected` (dfg_filtering.py:279-359) -/
def filterKeepConnected (gt : GEdge A → GEdge A → Bool) (d : D A) (threshold : Rat) (keepAll : Bool) : D A :=
  if d.cnt.length > 1 ∧ d.dfg.length > 1 then
    let sorted := sortDesc (fun a b : Rat => decide (a > b)) gt (dependencyEdges d)
    let nonDiscardable := (sorted.filter fun x => decide (x.2 ≥ threshold)).map Prod.fst
    let discardable := ((sorted.filter fun x => decide (x.2 < threshold)).map Prod.fst).reverse
    let keep := if keepAll then allActivities d else endpoints nonDiscardable
    filterSpecifiedPaths d (graphOf d) discardable keep
  else d

end Dfg
end Verif
