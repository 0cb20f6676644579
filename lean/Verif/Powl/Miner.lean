import Verif.Inductive.Model
import Verif.Powl.Simplify
/-
C50: discovery of POWL models (`pm4py.discover_powl`).
/repo/pm4py/algo/discovery/powl/{algorithm.py, inductive/{base_case, cuts, fall_through, variants/{im_tree,im_maximal,im_brute_force}.py,
variants/maximal, variants/brute_force}}, /repo/pm4py/statistics/eventually_follows/uvcl/get.py.
The cuts and fall-throughs inherited from the inductive miner are those of `Verif.IM`.
Not modelled: the variants DYNAMIC_CLUSTERING(_FREQUENCY), the filtering (parameter `filtering_threshold` absent or 0.0).
-/
namespace Verif.PIM
open Verif Dict Counter Dfg IM
variable {α : Type} [DecidableEq α]

/-- `POWLDiscoveryVariant` (variants/powl_discovery_varaints.py:20-24) -/
inductive Variant
  | tree
  | maximal
  | brute
  deriving DecidableEq

/-! ### partial order cuts -/

/-- a pair of positions `i < j` of the trace has the activities `a`, `b` (eventually_follows/uvcl/get.py:39-51) -/
def efTrace (a b : α) : List α → Bool
  | [] => false
  | x :: t => (decide (x = a) && decide (b ∈ t)) || efTrace a b t

/-- `(a, b) in to_efg(obj)` (eventually_follows/uvcl/get.py:32-53); the frequencies are not used by the cuts -/
def efg (L : UVCL α) (a b : α) : Bool := (keys L).any fun t => efTrace a b t

/-- `alphabet` (maximal_partial_order_cut.py:152, bf_partial_order_cut.py:180) -/
def alphabetOf (env : Env α) (L : UVCL α) : List α := env.sorted (verts env (discoverUvcl L))

/-- `generate_initial_order` (maximal_partial_order_cut.py:31-40) -/
def initialOrder (ef : α → α → Bool) (a b : α) : Bool := ef a b && !ef b a

/-- `pre[a] == pre[c] and post[a] == post[c]` (maximal_partial_order_cut.py:111-117, 124) -/
def samePos (nodes : List α) (o : α → α → Bool) (a c : α) : Bool :=
  nodes.all fun x => (o x a == o x c) && (o a x == o c x)

/-- the loop over the clusters (maximal_partial_order_cut.py:121-129) -/
def insertCluster (same : α → α → Bool) (node : α) : List (List α) → List (List α)
  | [] => [[node]]
  | [] :: cs => [] :: insertCluster same node cs
  | (r :: c) :: cs => if same node r then (r :: (c ++ [node])) :: cs else (r :: c) :: insertCluster same node cs

/-- `clusters` (maximal_partial_order_cut.py:119-129) -/
def clusters (nodes : List α) (o : α → α → Bool) : List (List α) :=
  nodes.foldl (fun cs node => insertCluster (samePos nodes o) node cs) []

/-- the edges of `new_relation` (maximal_partial_order_cut.py:131-137): edges between the first elements -/
def clusterEdge (gs : List (List α)) (o : α → α → Bool) : BinRel.Edges := fun p q =>
  match (gs.getD p []).head?, (gs.getD q []).head? with
  | some a, some b => o a b
  | _, _ => false

/-- `all_ef_g1_g2` (maximal_partial_order_cut.py:83-91, bf_partial_order_cut.py:100-114) -/
def allEf (ef : α → α → Bool) (g h : List α) : Bool := g.all fun a => h.all fun b => ef a b

/-- `none_ef_g1_g2` (bf_partial_order_cut.py:102-114) -/
def noneEf (ef : α → α → Bool) (g h : List α) : Bool := g.all fun a => h.all fun b => !ef a b

/-- the pair `p < q` passes lines 83-95 (bf: 143-155) -/
def pairOk (ef : α → α → Bool) (gs : List (List α)) (E : BinRel.Edges) (p q : Nat) : Bool :=
  let all := allEf ef (gs.getD p []) (gs.getD q []) && allEf ef (gs.getD q []) (gs.getD p [])
  let e := E p q || E q p
  !(all && e) && (e || all)

/-- lines 97-105 (bf: 157-165): a group is in `start_blocks` at the end iff no edge from another group leads to it (lines 76-81
remove it exactly in that case), and in `end_blocks` iff no edge leads from it to another group -/
def blockOk (gs : List (List α)) (E : BinRel.Edges) (starts ends : List α) (p : Nat) : Bool :=
  let c1 := (List.range gs.length).all fun q => decide (q = p) || !E q p
  let c2 := (gs.getD p []).any fun a => decide (a ∈ starts)
  let c3 := (List.range gs.length).all fun q => decide (q = p) || !E p q
  let c4 := (gs.getD p []).any fun a => decide (a ∈ ends)
  !((c1 && !c2) || (c3 && !c4))

/-- `is_valid_order` (maximal_partial_order_cut.py:58-107, bf_partial_order_cut.py:124-167); the latter lacks the test
`len(po.nodes) < 2`, but `partition` yields at least two groups -/
def isValidOrder (ef : α → α → Bool) (gs : List (List α)) (E : BinRel.Edges) (starts ends : List α) : Bool :=
  decide (2 ≤ gs.length) && BinRel.isStrictPartialOrder gs.length E &&
    ((List.range gs.length).all fun p => (List.range gs.length).all fun q => !decide (p < q) || pairOk ef gs E p q) &&
    (List.range gs.length).all fun p => blockOk gs E starts ends p

/-- `MaximalPartialOrderCut.holds` (maximal_partial_order_cut.py:149-161) -/
def holdsMaximal (env : Env α) (L : UVCL α) : Option (List (List α) × BinRel.Edges) :=
  let g := discoverUvcl L
  let o := initialOrder (efg L)
  let gs := clusters (alphabetOf env L) o
  let E := clusterEdge gs o
  if isValidOrder (efg L) gs E (keys g.starts) (keys g.ends) then some (gs, E) else none

/-- `set_partitions_helper` (bf_partial_order_cut.py:66-78) -/
def setPartitions : List α → Nat → List (List (List α))
  | [], k => if k = 1 then [[[]]] else if k = 0 then [[]] else []
  | e :: M, k =>
    if k = 1 then [[e :: M]]
    else if M.length + 1 = k then [(e :: M).map fun s => [s]]
    else (setPartitions M (k - 1)).map (fun p => [e] :: p) ++
      (setPartitions M k).flatMap fun p => (List.range p.length).map fun i => p.modify i fun g => e :: g

/-- `partition` (bf_partial_order_cut.py:87-93): sizes `n, n - 1, …, 2`; the argument is the next size -/
def partitions (l : List α) : Nat → List (List (List α))
  | 0 => []
  | i + 1 => (if i + 1 > 1 then setPartitions l (i + 1) else []) ++ partitions l i

/-- `generate_order` (bf_partial_order_cut.py:96-121): for `p < q` the edge is from the first to the second if lines 116-117 apply and
from the second to the first if lines 118-119 apply -/
def bruteEdge (ef : α → α → Bool) (gs : List (List α)) : BinRel.Edges := fun p q =>
  let f := fun i j => allEf ef (gs.getD i []) (gs.getD j []) && noneEf ef (gs.getD j []) (gs.getD i [])
  if p < q then f p q
  else if q < p then !f q p && f p q
  else false

/-- `BruteForcePartialOrderCut.holds` (bf_partial_order_cut.py:177-185) -/
def holdsBrute (env : Env α) (L : UVCL α) : Option (List (List α) × BinRel.Edges) :=
  let g := discoverUvcl L
  let V := alphabetOf env L
  ((partitions V V.length).find? fun gs => isValidOrder (efg L) gs (bruteEdge (efg L) gs) (keys g.starts) (keys g.ends)).map
    fun gs => (gs, bruteEdge (efg L) gs)

/-- `for i, j in combinations(range(n), 2): if is_edge_id(i, j): add_edge(i, j) elif is_edge_id(j, i): add_edge(j, i)`
(maximal_partial_order_cut.py:171-175, bf_partial_order_cut.py:195-199, im_tree.py:101-105); the nodes are different objects -/
def copyOrder (E : BinRel.Edges) : BinRel.Edges := fun p q =>
  if p < q then E p q else if q < p then !E q p && E p q else false

/-- `project_on_groups_with_unique_activities` (maximal_partial_order_cut.py:179-194) -/
def projectGroups (L : UVCL α) (gs : List (List α)) : List (UVCL α) :=
  gs.map fun grp => L.foldl (fun c e => inc c (e.1.filter fun x => decide (x ∈ grp)) e.2) []

/-! ### one step of the recursion -/

/-- what a cut or a fall-through returns: an operator (or a partial order) and the sublogs; or an exception -/
inductive PStep (α : Type)
  | xor (logs : List (UVCL α))
  | loop (body redo : UVCL α)
  | po (E : BinRel.Edges) (logs : List (UVCL α))
  | error

/-- The POWL node for what a cut or a fall-through of the inductive miner returns: cuts/xor.py:34-40; cuts/sequence.py:35-41 with
`Sequence` (obj.py:290-296); cuts/concurrency.py:33-39, fall_through/activity_once_per_trace.py:29-44,
activity_concurrent.py:30-43; cuts/loop.py:34-40, strict_tau_loop.py:31-36, flower.py:32-42 with the constructor of `OperatorPOWL`
(obj.py:300-311), which raises for choices with less than two and for loops with other than two children. -/
def ofStep : Step α → PStep α
  | .node (some .xor) logs => if logs.length < 2 then .error else .xor logs
  | .node (some .seq) logs => .po (fun i j => decide (i < j)) logs
  | .node (some .par) logs => .po (fun _ _ => false) logs
  | .node (some .loop) [b, r] => .loop b r
  | _ => .error

/-- `cut.apply` for the partial order cut of the variant -/
def poCut (v : Variant) (env : Env α) (L : UVCL α) : Option (PStep α) :=
  match v with
  | .tree => none
  | .maximal => (holdsMaximal env L).map fun r => .po (copyOrder r.2) (projectGroups L r.1)
  | .brute => (holdsBrute env L).map fun r => .po (copyOrder r.2) (projectPar L r.1)

/-- `find_cut` (cuts/factory.py:31-44, variants/maximal/factory.py:34-52, variants/brute_force/factory.py:32-46): the strict sequence cut
is always used -/
def findCutP (v : Variant) (env : Env α) (L : UVCL α) : Option (PStep α) :=
  if v = .maximal ∧ (alphabetOf env L).length < 2 then none
  else
    match findCut { env with strict := true } L with
    | some st => some (ofStep st)
    | none => poCut v env L

/-- `POWLEmptyTracesUVCL.apply` (fall_through/empty_traces.py:31-41) -/
def emptyP (L : UVCL α) : Option (PStep α) :=
  if [] ∈ keys L then some (.xor [[], Dict.del L []]) else none

/-- `FallThroughFactory.fall_through` (fall_through/factory.py:37-50): all six fall-throughs, whatever the parameters; the candidates of
`ActivityConcurrentUVCL` are tested with the cuts of the inductive miner.
Simplification: the flower model of POWL iterates over a set instead of a sorted list; the order comes from `env.sorted`, which is any
permutation. -/
def fallP (env : Env α) (L : UVCL α) : PStep α :=
  match emptyP L with
  | some st => st
  | none => ofStep (fallThrough { env with fallthroughs := true } L)

/-- `BaseCaseFactory.apply_base_cases` (base_case/factory.py:39-44, empty_log.py:29-37, single_activity.py:27-37); a log with only the
empty trace does not get here (im_tree.py:51-53) -/
def baseP (L : UVCL α) : Option (Powl α) :=
  match keys L with
  | [] => some (.leaf none)
  | [[a]] => some (.leaf (some a))
  | _ => none

/-- what `apply` does with a log that is no base case (im_tree.py:59-86) -/
def cutOrFallP (v : Variant) (env : Env α) (L : UVCL α) : PStep α :=
  match findCutP v env L with
  | some st => st
  | none => fallP env L

/-! ### the recursion -/

def PStep.logs : PStep α → List (UVCL α)
  | .xor logs => logs
  | .loop b r => [b, r]
  | .po _ logs => logs
  | .error => []

/-- the new node (im_tree.py:99-109) -/
def PStep.make : PStep α → List (Powl α) → Option (Powl α)
  | .xor _, cs => if cs.length < 2 then none else some (.xor cs)
  | .loop _ _, [b, r] => some (.loop b r)
  | .po E _, cs => some (.po cs (copyOrder E))
  | _, _ => none

/-- all values, `none` if one is missing -/
def allSome {β : Type} : List (Option β) → Option (List β)
  | [] => some []
  | none :: _ => none
  | some b :: bs => (allSome bs).map (b :: ·)

/-- `_recurse` (im_tree.py:97-109); the outer option is the fuel, the inner `none` is an exception -/
def recurseP (f : UVCL α → Option (Option (Powl α))) (st : PStep α) : Option (Option (Powl α)) :=
  match st with
  | .error => some none
  | st => (mapAll f st.logs).map fun cs => (allSome cs).bind st.make

/-- `IMBasePOWL.apply` (im_tree.py:43-86); `none`: more than `fuel` nested calls, `some none`: an exception -/
def pim (v : Variant) (env : Env α) : Nat → UVCL α → Option (Option (Powl α))
  | 0, _ => none
  | n + 1, L =>
    match emptyP L with
    | some st => recurseP (pim v env n) st
    | none =>
      match baseP L with
      | some t => some (some t)
      | none => recurseP (pim v env n) (cutOrFallP v env L)

/-- `apply` (algorithm.py:53-70) on a log given by the activity sequences of its cases: variants, discovery, `simplify` -/
def discoverPowl (v : Variant) (env : Env α) (fuel : Nat) (log : List (List α)) : Option (Option (Powl α)) :=
  match pim v env fuel (ofList log) with
  | none => none
  | some none => some none
  | some (some t) => (Powl.simplify fuel t).map some

end Verif.PIM
