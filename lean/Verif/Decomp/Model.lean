import Verif.Common.ListX
import Verif.Common.Dict
/-
Model of the maximal decomposition of Petri nets and the merging of its components (/repo/pm4py/objects/petri_net/utils/decomposition.py).
Names and labels are of one type, because the graph has both as nodes.  Places are identified by their names, transitions as well (the code keeps the last
object for a name).  The iteration orders of the Python sets are list orders.  A marking is a function (0 for a missing place).  The attributes lvis_labels
and t_tuple, which only serve as keys of caches, are left out; so is the exception for a place and a transition with the same name.
-/
namespace Verif.Decomp
variable {ν : Type} [DecidableEq ν]

structure Tr (ν : Type) where
  name : ν
  label : Option ν
  deriving DecidableEq

/-- an arc from a place to a transition (`pt`) or from a transition to a place -/
structure Arc (ν : Type) where
  pt : Bool
  p : ν
  t : ν
  w : Nat
  deriving DecidableEq

structure PNet (ν : Type) where
  places : List ν
  trs : List (Tr ν)
  arcs : List (Arc ν)
  deriving DecidableEq

/-- an accepting Petri net -/
structure ANet (ν : Type) where
  net : PNet ν
  im : ν → Nat
  fm : ν → Nat

/-- `trans_labels` (decomposition.py:58) -/
def labelOf (N : PNet ν) (n : ν) : Option ν := (N.trs.find? fun t => decide (t.name = n)).bind Tr.label

/-- `inv_trans` (decomposition.py:50) -/
def silent (N : PNet ν) : List ν := (N.trs.filter fun t => decide (t.label = none)).map Tr.name

/-- the keys of `trans_dup_label` (decomposition.py:51-57) -/
def dupLabels (N : PNet ν) : List ν :=
  dedup (N.trs.filterMap fun t => match t.label with
    | some l => if (N.trs.filter fun u => decide (u.label = some l)).length > 1 then some l else none
    | none => none)

/-- the transitions in `all_inserted_val`: the silent ones and the last one for each duplicated label (decomposition.py:40) -/
def inserted (N : PNet ν) : List ν :=
  silent N ++ (dupLabels N).filterMap fun l => ((N.trs.filter fun u => decide (u.label = some l)).getLast?).map Tr.name

/-- the edges of the graph (decomposition.py:32-45); for a duplicated label there is only an edge from the label to itself -/
def graphEdges (N : PNet ν) : List (ν × ν) :=
  (dupLabels N).map (fun l => (l, l)) ++
  (N.arcs.filter fun a => decide (a.t ∈ inserted N)).map fun a => if a.pt then (a.p, a.t) else (a.t, a.p)

/-- the nodes of the graph (decomposition.py:26-31, and the ends of the edges) -/
def graphNodes (N : PNet ν) : List ν :=
  dedup (N.places ++ silent N ++ dupLabels N ++ (graphEdges N).flatMap fun e => [e.1, e.2])

/-- one edge: the blocks of its ends become one -/
def join (bs : List (List ν)) (e : ν × ν) : List (List ν) :=
  (bs.filter fun b => decide (e.1 ∈ b ∨ e.2 ∈ b)).flatten :: bs.filter fun b => !decide (e.1 ∈ b ∨ e.2 ∈ b)

/-- `nx_utils.connected_components` -/
def components (V : List ν) (E : List (ν × ν)) : List (List ν) := E.foldl join (V.map fun v => [v])

/-- `get_graph_components` (decomposition.py:24-47) -/
def graphComponents (N : PNet ν) : List (List ν) := components (graphNodes N) (graphEdges N)

/-- the transitions at a place: first the sources of its input arcs, then the targets of its output arcs -/
def around (N : PNet ν) (p : ν) : List ν :=
  (N.arcs.filter fun a => decide (a.p = p ∧ a.pt = false)).map Arc.t ++ (N.arcs.filter fun a => decide (a.p = p ∧ a.pt = true)).map Arc.t

/-- the names of the transitions of the component -/
def compTrs (N : PNet ν) (cmp : List ν) : List ν :=
  dedup ((cmp.filter fun x => decide (x ∉ N.places ∧ x ∈ N.trs.map Tr.name)) ++ (cmp.filter fun x => decide (x ∈ N.places)).flatMap (around N))

/-- the arcs that are added for a place; `add_arc_from_to` without a weight (decomposition.py:77-90) -/
def placeArcs (N : PNet ν) (p : ν) : List (Arc ν) :=
  (N.arcs.filter fun a => decide (a.p = p ∧ a.pt = false)).map (fun a => { a with w := 1 }) ++
  (N.arcs.filter fun a => decide (a.p = p ∧ a.pt = true)).map (fun a => { a with w := 1 })

/-- the net of a component (decomposition.py:61-94) -/
def compNet (N : ANet ν) (cmp : List ν) : ANet ν :=
  let ps := cmp.filter fun x => decide (x ∈ N.net.places)
  { net :=
      { places := ps
        trs := (compTrs N.net cmp).map fun n => ⟨n, labelOf N.net n⟩
        arcs := ps.flatMap (placeArcs N.net) }
    im := fun p => if p ∈ ps then N.im p else 0
    fm := fun p => if p ∈ ps then N.fm p else 0 }

/-- `decompose` (decomposition.py:49-105), `pm4py.maximal_decomposition` -/
def decompose (N : ANet ν) : List (ANet ν) :=
  ((graphComponents N.net).map (compNet N)).filter fun c => decide (c.net.places.length > 0 ∨ c.net.trs.length > 0)

/-- `merge_comp` (decomposition.py:108-157); a place of the second net overwrites one of the first with the same name -/
def mergeComp (c d : ANet ν) : ANet ν :=
  { net :=
      { places := c.net.places ++ d.net.places
        trs := c.net.trs ++ d.net.trs.filter fun t => decide (t.name ∉ c.net.trs.map Tr.name)
        arcs := (c.net.arcs ++ d.net.arcs).map fun a => { a with w := 1 } }
    im := fun p => if p ∈ d.net.places then d.im p else if p ∈ c.net.places then c.im p else 0
    fm := fun p => if p ∈ d.net.places then d.fm p else if p ∈ c.net.places then c.fm p else 0 }

/-- `merge_sublist_nets` (decomposition.py:160-166); `none`: list index out of range -/
def mergeAll : List (ANet ν) → Option (ANet ν)
  | [] => none
  | [c] => some c
  | c :: d :: l => mergeAll (l ++ [mergeComp c d])
termination_by l => l.length
decreasing_by simp

end Verif.Decomp
