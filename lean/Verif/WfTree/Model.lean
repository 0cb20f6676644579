import Verif.PTree.Model
import Verif.Petri.PlayoutTheorems
/-
C53: conversion of a workflow net to a process tree (`pm4py.convert_to_process_tree` for a Petri net).
/repo/pm4py/objects/conversion/wf_net/variants/to_process_tree.py, /repo/pm4py/algo/analysis/workflow_net/variants/petri_net.py,
/repo/pm4py/objects/petri_net/utils/petri_utils.py:52-65, 68-96, 125-153.

Places and transitions are numbers (the objects of the code). The label of a transition made by a reduction is the text of a process
tree; here it is the tree itself (that the text of a tree is parsed to the tree is C13). Arcs made by the reductions have weight 1 and the
requirements do not look at weights, so weights do not occur.
-/
namespace Verif.WfTree
variable {α : Type}

/-- a transition with its input and output places; `comp`: its name has the prefix of the transitions made by the reductions, so its label
is the text of a tree (to_process_tree.py:39-48) -/
structure WT (α : Type) where
  id : Nat
  pre : List Nat
  post : List Nat
  tree : PT α
  comp : Bool

/-- the net; `next`: identifier of the next new object -/
structure WN (α : Type) where
  places : List Nat
  trs : List (WT α)
  next : Nat

/-- `pre_set(p)` of a place (petri_utils.py:52-57): the transitions that produce into it -/
def WN.prods (N : WN α) (p : Nat) : List (WT α) := N.trs.filter fun t => decide (p ∈ t.post)
/-- `post_set(p)` of a place (petri_utils.py:60-65) -/
def WN.conss (N : WN α) (p : Nat) : List (WT α) := N.trs.filter fun t => decide (p ∈ t.pre)

/-- `t in l` for a set of transitions -/
def isIn (t : WT α) (l : List (WT α)) : Bool := l.any fun x => x.id == t.id

/-- `loop_requirement` (to_process_tree.py:51-78) -/
def loopReq (N : WN α) (t1 t2 : WT α) : Bool :=
  (t1.id != t2.id) &&
  t2.pre.all (fun p => (N.prods p).length == 1 && isIn t1 (N.prods p)) &&
  t2.post.all (fun p => (N.conss p).length == 1 && isIn t1 (N.conss p)) &&
  t1.pre.all (fun p => (N.conss p).length == 1 && isIn t1 (N.conss p) && isIn t2 (N.prods p)) &&
  t1.post.all (fun p => (N.prods p).length == 1 && isIn t1 (N.prods p) && isIn t2 (N.conss p))

/-- `concurrent_requirement` (to_process_tree.py:103-135) -/
def concReq (N : WN α) (t1 t2 : WT α) : Bool :=
  (t1.id != t2.id) &&
  !(t1.pre.isEmpty || t1.post.isEmpty || t2.pre.isEmpty || t2.post.isEmpty) &&
  t1.pre.all (fun p => decide ((N.conss p).length ≤ 1) && isIn t1 (N.conss p)) &&
  t1.post.all (fun p => decide ((N.prods p).length ≤ 1) && isIn t1 (N.prods p)) &&
  t2.pre.all (fun p => decide ((N.conss p).length ≤ 1) && isIn t2 (N.conss p)) &&
  t2.post.all (fun p => decide ((N.prods p).length ≤ 1) && isIn t2 (N.prods p)) &&
  (t1.pre ++ t2.pre).all (fun p => ((t1.pre ++ t2.pre).flatMap N.prods).all fun t => isIn t (N.prods p)) &&
  (t1.post ++ t2.post).all (fun p => ((t1.post ++ t2.post).flatMap N.conss).all fun t => isIn t (N.conss p))

/-- equality of sets of places -/
def sameSet (l m : List Nat) : Bool := l.all (fun p => decide (p ∈ m)) && m.all (fun p => decide (p ∈ l))

/-- `choice_requirement` (to_process_tree.py:164-167) -/
def choiceReq (t1 t2 : WT α) : Bool :=
  (t1.id != t2.id) && sameSet t1.pre t2.pre && sameSet t1.post t2.post && !t1.pre.isEmpty && !t1.post.isEmpty

/-- `sequence_requirement` (to_process_tree.py:191-210) -/
def seqReq (N : WN α) (t1 t2 : WT α) : Bool :=
  (t1.id != t2.id) && !t2.pre.isEmpty &&
  t1.post.all (fun p => (N.prods p).length == 1 && (N.conss p).length == 1 && isIn t1 (N.prods p) && isIn t2 (N.conss p)) &&
  t2.pre.all (fun p => (N.prods p).length == 1 && (N.conss p).length == 1 && isIn t1 (N.prods p) && isIn t2 (N.conss p))

/-- the new transition replaces `t1` (its identifier is used again), `t2` is removed
(`net.transitions.add`, `remove_transition`; petri_utils.py:68-96) -/
def WN.replace (N : WN α) (t1 t2 t : WT α) : WN α :=
  { N with trs := (N.trs.filter fun x => x.id != t2.id).map fun x => if x.id == t1.id then t else x }

/-- `remove_place` (petri_utils.py:125-153) for each place of the list -/
def WN.removePlaces (N : WN α) (ps : List Nat) : WN α :=
  { N with
    places := N.places.filter fun p => decide (p ∉ ps)
    trs := N.trs.map fun t => { t with pre := t.pre.filter fun p => decide (p ∉ ps), post := t.post.filter fun p => decide (p ∉ ps) } }

/-- `generate_new_binary_transition` (to_process_tree.py:44-48) with the arcs -/
def newTr (op : Op) (t1 t2 : WT α) (pre post : List Nat) : WT α := ⟨t1.id, pre, post, .node op [t1.tree, t2.tree], true⟩

/-- `binary_choice_detection` (to_process_tree.py:170-188); `pairs`: the enumeration of `itertools.product(net.transitions, net.transitions)` -/
def choiceStep (pairs : List (WT α × WT α)) (N : WN α) : Option (WN α) :=
  (pairs.find? fun x => choiceReq x.1 x.2).map fun x => N.replace x.1 x.2 (newTr .xor x.1 x.2 x.1.pre x.2.post)

/-- `binary_sequence_detection` (to_process_tree.py:213-233) -/
def seqStep (pairs : List (WT α × WT α)) (N : WN α) : Option (WN α) :=
  (pairs.find? fun x => seqReq N x.1 x.2).map fun x =>
    (N.replace x.1 x.2 (newTr .seq x.1 x.2 x.1.pre x.2.post)).removePlaces x.1.post

/-- `binary_concurrency_detection` (to_process_tree.py:138-161) -/
def concStep (pairs : List (WT α × WT α)) (N : WN α) : Option (WN α) :=
  (pairs.find? fun x => concReq N x.1 x.2).map fun x =>
    N.replace x.1 x.2 (newTr .par x.1 x.2 (x.1.pre ++ x.2.pre) (x.1.post ++ x.2.post))

/-- `binary_loop_detection` (to_process_tree.py:81-100) -/
def loopStep (pairs : List (WT α × WT α)) (N : WN α) : Option (WN α) :=
  (pairs.find? fun x => loopReq N x.1 x.2).map fun x => N.replace x.1 x.2 (newTr .loop x.1 x.2 x.1.pre x.1.post)

/-- `__group_blocks_internal` (to_process_tree.py:236-249) -/
def groupBlocks (ord : WN α → List (WT α × WT α)) (N : WN α) : Option (WN α) :=
  match choiceStep (ord N) N with
  | some N' => some N'
  | none => match seqStep (ord N) N with
    | some N' => some N'
    | none => match concStep (ord N) N with
      | some N' => some N'
      | none => loopStep (ord N) N

/-- places without incoming arcs, places without outgoing arcs (to_process_tree.py:309-310) -/
def WN.sources (N : WN α) : List Nat := N.places.filter fun p => (N.prods p).isEmpty
def WN.sinks (N : WN α) : List Nat := N.places.filter fun p => (N.conss p).isEmpty

/-- replace the place `p` in a list -/
def swap (p q : Nat) (l : List Nat) : List Nat := l.map fun x => if x = p then q else x

/-- body of the loop of `__insert_dummy_invisibles` (to_process_tree.py:261-278): the place becomes two places and a silent transition -/
def insertDummy (N : WN α) (p : Nat) : WN α :=
  { places := N.places.filter (fun q => decide (q ≠ p)) ++ [N.next, N.next + 1]
    trs := (N.trs.map fun t => { t with pre := swap p (N.next + 1) t.pre, post := swap p N.next t.post }) ++
      [⟨N.next + 2, [N.next], [N.next + 1], .leaf none, false⟩]
    next := N.next + 3 }

/-- `__insert_dummy_invisibles` (to_process_tree.py:252-278) -/
def insertDummies (ini im fm : List Nat) (N : WN α) : WN α :=
  N.places.foldl (fun N' p => if p ∈ ini ∧ p ∉ im ∧ p ∉ fm then insertDummy N' p else N') N

/-- the loop of `group_blocks_in_net` (to_process_tree.py:308-326); the fuel is the number of iterations that are allowed, `none`: not enough -/
def groupLoop (ord : WN α → List (WT α × WT α)) (ini : List Nat) : Nat → WN α → Option (WN α)
  | 0, N => if N.trs.length ≤ 1 then some N else none
  | fuel + 1, N =>
    if N.trs.length ≤ 1 then some N
    else if N.sources.length ≠ 1 ∧ N.sinks.length ≠ 1 then some N
    else match groupBlocks ord N with
      | some N' => groupLoop ord ini fuel N'
      | none =>
        match groupBlocks ord (insertDummies ini N.sources N.sinks N) with
        | some N' => groupLoop ord ini fuel N'
        | none => some (insertDummies ini N.sources N.sinks N)

/-- the net as the conversion sees it (`deepcopy`; to_process_tree.py:305): arcs without weights, labels as trees -/
def ofNet (net : Net Nat Nat) (lab : Nat → Option α) : WN α where
  places := net.places
  trs := net.transitions.map fun t => ⟨t, (net.inArcs t).map Prod.fst, (net.outArcs t).map Prod.fst, .leaf (lab t), false⟩
  next := 1 + (net.places ++ net.transitions).foldl Nat.max 0

/-- a node of the graph of a net: a place, a transition or the short-circuiting transition -/
inductive Node
  | pl (p : Nat) | tr (t : Nat) | sc
deriving DecidableEq

/-- the arcs of the short-circuited net (petri_net.py:27-58) -/
def scArcs (N : WN α) (i o : Nat) : List (Node × Node) :=
  [(.pl o, .sc), (.sc, .pl i)] ++ N.trs.flatMap (fun t => t.pre.map (fun p => (.pl p, .tr t.id)) ++ t.post.map (fun p => (.tr t.id, .pl p)))

def scNodes (N : WN α) : List Node := .sc :: N.places.map .pl ++ N.trs.map fun t => .tr t.id

/-- `workflow_net.algorithm.apply` (petri_net.py:61-100). The graph has the names of the places and transitions as nodes. `strong`:
`is_strongly_connected` of networkx, applied to the nodes and the edges. -/
def isWfNet (strong : List Nat → List (Nat × Nat) → Bool) (name : Node → Nat) (N : WN α) : Bool :=
  match N.sources, N.sinks with
  | [i], [o] => strong ((scNodes N).map name) ((scArcs N i o).map fun e => (name e.1, name e.2))
  | _, _ => false

/-- the options of the conversion and what it calls -/
structure Env (α : Type) where
  strong : List Nat → List (Nat × Nat) → Bool
  name : Node → Nat
  /-- enumeration of the pairs of transitions of a set -/
  ord : WN α → List (WT α × WT α)
  /-- `parse` of a label that is not the text of a tree made by the reductions -/
  raw : Option α → Option (PT α)
  /-- the parameter `fold` -/
  doFold : Bool
  sz : α → Nat
  hash : α → Nat

/-- `group_blocks_in_net` (to_process_tree.py:281-326); `none`: `ValueError` -/
def groupNet (e : Env α) (N : WN α) : Option (WN α) :=
  if isWfNet e.strong e.name N then groupLoop e.ord N.places (N.trs.length + N.places.length) N else none

/-- `apply` (to_process_tree.py:329-367); `none`: an exception -/
def convert [DecidableEq α] (e : Env α) (net : Net Nat Nat) (lab : Nat → Option α) : Option (PT α) :=
  match groupNet e (ofNet net lab) with
  | none => none
  | some g =>
    match g.trs with
    | [t] =>
      match if t.comp then some t.tree else e.raw (match t.tree with | .leaf l => l | _ => none) with
      | none => none
      | some pt =>
        match if e.doFold then PT.fold e.sz (PT.strLen e.sz pt + 1) pt else some pt with
        | none => none
        | some r => some (PT.treeSort e.hash r)
    | _ => none

end Verif.WfTree
