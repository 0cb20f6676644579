import Verif.Log.Dfg
import Verif.PTree.Model
/-
C07-C09: the inductive miner (variant IM, noise threshold 0).
/repo/pm4py/algo/discovery/inductive/{algorithm.py, variants/{abc,im}.py, base_case, cuts, fall_through, dtypes},
/repo/pm4py/objects/dfg/util.py, /repo/pm4py/util/compression/util.py.
Python sets are lists; wherever the iteration order of a set (or of `sorted`) can be observed, it comes from the
arbitrary functions of `Env`.
-/
namespace Verif.IM
open Verif Dict Counter Dfg
variable {α : Type} [DecidableEq α]

/-- `UVCL` (compression/dtypes.py): a `Counter` of variants. -/
abbrev UVCL (α : Type) := Dict (List α) Int

/-- Everything the result may depend on besides the log: the iteration order of a set (hash order), the order of
`sorted`, the candidate that answers first in `ActivityConcurrentUVCL._get_candidate` (with multiprocessing this
depends on the schedule of the pool), and the two parameters of the factories. -/
structure Env (α : Type) where
  iter : List α → List α
  sorted : List α → List α
  pick : List α → Option α
  strict : Bool
  fallthroughs : Bool

/-- What is assumed of `Env`: sets are iterated completely and without repetition, `sorted` permutes, and a
candidate is returned iff there is one. -/
structure Env.Lawful (env : Env α) : Prop where
  iter_mem : ∀ l a, a ∈ env.iter l ↔ a ∈ l
  iter_nodup : ∀ l, (env.iter l).Nodup
  sorted_perm : ∀ l, (env.sorted l).Perm l
  pick_mem : ∀ l a, env.pick l = some a → a ∈ l
  pick_none : ∀ l, env.pick l = none → l = []

/-- `set.union` -/
def union (g h : List α) : List α := g ++ h.filter fun a => decide (a ∉ g)

/-! ### graphs (networkx) -/

/-- one breadth-first round: the nodes in `S` or with an edge from `S` -/
def expand (nodes : List α) (E : α → α → Bool) (S : List α) : List α :=
  nodes.filter fun v => decide (v ∈ S) || S.any fun u => E u v

/-- `n` rounds -/
def rounds (nodes : List α) (E : α → α → Bool) : Nat → List α → List α
  | 0, S => S
  | n + 1, S => rounds nodes E n (expand nodes E S)

/-- all nodes reachable from `a` (breadth-first search ends after at most as many rounds as there are nodes) -/
def reach (nodes : List α) (E : α → α → Bool) (a : α) : List α := rounds nodes E nodes.length [a]

/-- `nx.descendants` / `nx.ancestors` (with reversed edges): reachable nodes except the node itself -/
def descendants (nodes : List α) (E : α → α → Bool) (a : α) : List α :=
  (reach nodes E a).filter fun b => decide (b ≠ a)

/-- the loop of `nx.connected_components`: `for v in G: if v not in seen: c = bfs(v); seen.update(c); yield c`.
`E` is made symmetric (`to_undirected`). -/
def components (nodes : List α) (E : α → α → Bool) : List (List α) :=
  (nodes.foldl (fun (s : List α × List (List α)) v =>
    if v ∈ s.1 then s
    else
      let c := reach nodes (fun a b => E a b || E b a) v
      (s.1 ++ c, s.2 ++ [c])) ([], [])).2

/-- `(a, b) in dfg.graph` -/
def edge (g : DFG α) (a b : α) : Bool := decide ((a, b) ∈ keys g.graph)

/-- iteration over `get_vertices(dfg)` (dfg/util.py:25-37) -/
def verts (env : Env α) (g : DFG α) : List α := env.iter (vertices g)

/-! ### exclusive choice (cuts/xor.py) -/

/-- `ExclusiveChoiceCut.holds` (xor.py:37-63) -/
def holdsXor (env : Env α) (g : DFG α) : Option (List (List α)) :=
  let comps := components (verts env g) (edge g)
  if comps.length > 1 then some comps else none

/-- `sorted([(i, count_i)], key=lambda x: (x[1], x[0]), reverse=True)[0][0]` (xor.py:76, loop.py:193-194): the index with
the largest count, the largest index among those with equal counts -/
def best (counts : List Nat) : Nat :=
  ((counts.zipIdx.mergeSort fun x y => decide (y.1 < x.1 ∨ (y.1 = x.1 ∧ y.2 ≤ x.2))).head?.getD (0, 0)).2

/-- body of the loop of `ExclusiveChoiceCutUVCL.project` (xor.py:70-81) for one trace -/
def xorTrace (gs : List (List α)) (logs : List (UVCL α)) (e : List α × Int) : List (UVCL α) :=
  let k := best (gs.map fun g => (e.1.filter fun x => decide (x ∈ g)).length)
  logs.modify k fun l => inc l (e.1.filter fun x => decide (x ∈ gs.getD k [])) e.2

/-- `ExclusiveChoiceCutUVCL.project` (xor.py:67-82) -/
def projectXor (L : UVCL α) (gs : List (List α)) : List (UVCL α) :=
  L.foldl (xorTrace gs) (gs.map fun _ => [])

/-! ### sequence (cuts/sequence.py) -/

/-- `b in trans_succ[a]` (dfg/util.py:102-129) -/
def succ (env : Env α) (g : DFG α) (a b : α) : Bool := decide (b ∈ descendants (verts env g) (edge g) a)

/-- `check_merge_condition` (sequence.py:39-45); `s` is "is a transitive successor of" -/
def checkMerge (s : α → α → Bool) (g1 g2 : List α) : Bool :=
  g1.any fun a1 => g2.any fun a2 => (s a1 a2 && s a2 a1) || (!s a1 a2 && !s a2 a1)

/-- the inner loop over `j` of `merge_groups` (sequence.py:51-57) for a fixed `groups[i]` -/
def mergeRow (s : α → α → Bool) (g : List α) : List (List α) → List α × List (List α)
  | [] => (g, [])
  | h :: hs =>
    if checkMerge s g h then mergeRow s (union g h) hs
    else ((mergeRow s g hs).1, h :: (mergeRow s g hs).2)

/-- the outer loop over `i` of `merge_groups` (sequence.py:48-59), with fuel -/
def mergeGroups (s : α → α → Bool) : Nat → List (List α) → List (List α)
  | 0, gs => gs
  | _ + 1, [] => []
  | n + 1, g :: gs => (mergeRow s g gs).1 :: mergeGroups s n (mergeRow s g gs).2

/-- `while old_size != len(groups)` (sequence.py:81-84), with fuel -/
def mergeLoop (s : α → α → Bool) : Nat → List (List α) → List (List α)
  | 0, gs => gs
  | n + 1, gs =>
    let gs' := mergeGroups s gs.length gs
    if gs'.length = gs.length then gs' else mergeLoop s n gs'

/-- the sort key (sequence.py:86-87) -/
def seqKey (env : Env α) (g : DFG α) (grp : List α) : Int :=
  match (env.iter grp).head? with
  | none => 0
  | some a =>
    ((descendants (verts env g) (fun x y => edge g y x) a).length : Int) +
      (((verts env g).length : Int) - (descendants (verts env g) (edge g) a).length)

/-- `SequenceCut.holds` (sequence.py:61-89) -/
def holdsSeq (env : Env α) (g : DFG α) : Option (List (List α)) :=
  let gs0 := (verts env g).map fun a => [a]
  if gs0.length = 0 then none
  else
    let gs := mergeLoop (succ env g) gs0.length gs0
    let gs := gs.mergeSort fun x y => decide (seqKey env g x ≤ seqKey env g y)
    if gs.length > 1 then some gs else none

/-- `sys.maxsize` on a 64-bit platform -/
def maxsize : Int := 2 ^ 63 - 1

/-- `_construct_alphabet_cluster_map` (sequence.py:151-157): the index of the group of an activity (the groups are
disjoint) -/
def cmap (c : List (List α)) (a : α) : Nat := c.findIdx fun g => decide (a ∈ g)

/-- `mf` (sequence.py:129, 132-133) -/
def mfOf (g : DFG α) (c : List (List α)) : List Int :=
  (keys g.graph).foldl (fun mf e => mf.modify (cmap c e.2) fun v => min v (cmap c e.1 : Int))
    (c.map fun grp => if grp.any fun a => decide (a ∈ keys g.starts) then -maxsize else maxsize)

/-- `mt` (sequence.py:130, 132, 134) -/
def mtOf (g : DFG α) (c : List (List α)) : List Int :=
  (keys g.graph).foldl (fun mt e => mt.modify (cmap c e.1) fun v => max v (cmap c e.2 : Int))
    (c.map fun grp => if grp.any fun a => decide (a ∈ keys g.ends) then maxsize else -maxsize)

/-- `_skippable` (sequence.py:94-115) -/
def skippable (g : DFG α) (c : List (List α)) (p : Nat) : Bool :=
  ((List.range p).any fun i => (List.range' (p + 1) (c.length - (p + 1))).any fun j =>
    (c.getD i []).any fun a => (c.getD j []).any fun b => edge g a b) ||
  ((List.range' (p + 1) (c.length - (p + 1))).any fun j => (c.getD j []).any fun a => decide (a ∈ keys g.starts)) ||
  ((List.range p).any fun i => (c.getD i []).any fun a => decide (a ∈ keys g.ends))

/-- `c[p] = c[p].union(c[q]); c[q] = set()` (sequence.py:140-141, 145-146) -/
def absorb (c : List (List α)) (p q : Nat) : List (List α) :=
  (c.set p (union (c.getD p []) (c.getD q []))).set q []

/-- `while q >= 0 and mt[q] <= p` (sequence.py:138-142); the argument is `q + 1` -/
def mergeDown (mt : List Int) (p : Nat) : Nat → List (List α) → List (List α)
  | 0, c => c
  | q + 1, c => if mt.getD q 0 ≤ (p : Int) then mergeDown mt p q (absorb c p q) else c

/-- `while q < len(mf) and mf[q] >= p` (sequence.py:143-147), with fuel -/
def mergeUp (mf : List Int) (p : Nat) : Nat → Nat → List (List α) → List (List α)
  | 0, _, c => c
  | n + 1, q, c =>
    if q < mf.length ∧ mf.getD q 0 ≥ (p : Int) then mergeUp mf p n (q + 1) (absorb c p q) else c

/-- body of the loop over `p` (sequence.py:136-147) -/
def strictStep (g : DFG α) (mf mt : List Int) (c : List (List α)) (p : Nat) : List (List α) :=
  if skippable g c p then mergeUp mf p mf.length (p + 1) (mergeDown mt p p c) else c

/-- `StrictSequenceCut.holds` (sequence.py:117-149) -/
def holdsStrict (env : Env α) (g : DFG α) : Option (List (List α)) :=
  match holdsSeq env g with
  | none => none
  | some c =>
    some (((List.range c.length).foldl (strictStep g (mfOf g c) (mtOf g c)) c).filter fun grp => decide (grp.length > 0))

/-- the loop of `_find_split_point` (sequence.py:190-202) over the rest of the trace -/
def splitLoop (grp ignore : List α) : List α → (i : Nat) → (cost least : Int) → (pos : Nat) → Nat
  | [], _, _, _, pos => pos
  | x :: rest, i, cost, least, pos =>
    let cost := if x ∈ grp then cost - 1 else if x ∉ ignore then cost + 1 else cost
    if cost < least then splitLoop grp ignore rest (i + 1) cost cost (i + 1)
    else splitLoop grp ignore rest (i + 1) cost least pos

/-- `_find_split_point` (sequence.py:184-202) -/
def findSplit (t grp : List α) (start : Nat) (ignore : List α) : Nat :=
  splitLoop grp ignore (t.drop start) start 0 0 start

/-- the loop over the groups for one trace (sequence.py:166-181): the pieces of the trace -/
def seqPieces (t : List α) : List (List α) → (split : Nat) → (ignore : List α) → List (List α)
  | [], _, _ => []
  | grp :: gs, split, ignore =>
    let new := findSplit t grp split ignore
    (((t.drop split).take (new - split)).filter fun x => decide (x ∈ grp)) :: seqPieces t gs new (union ignore grp)

/-- `logs[i].update({trace_i: n})` for every group (sequence.py:178) -/
def addAll (n : Int) : List (UVCL α) → List (List α) → List (UVCL α)
  | l :: ls, w :: ws => inc l w n :: addAll n ls ws
  | ls, _ => ls

/-- `SequenceCutUVCL.project` (sequence.py:162-182) -/
def projectSeq (L : UVCL α) (gs : List (List α)) : List (UVCL α) :=
  L.foldl (fun logs e => addAll e.2 logs (seqPieces e.1 gs 0 [])) (gs.map fun _ => [])

/-! ### concurrency (cuts/concurrency.py) -/

/-- some pair of activities of the two groups is not connected in both directions (concurrency.py:54-56) -/
def notConc (g : DFG α) (g1 g2 : List α) : Bool :=
  g1.any fun a1 => g2.any fun a2 => !edge g a1 a2 || !edge g a2 a1

/-- the first group of the list that has to be merged with `grp` is merged with it (concurrency.py:51-66) -/
def concRow (g : DFG α) (grp : List α) : List (List α) → Option (List α × List (List α))
  | [] => none
  | h :: hs => if notConc g grp h then some (union grp h, hs) else (concRow g grp hs).map fun r => (r.1, h :: r.2)

/-- one round of `while cont` (concurrency.py:47-68): merges the first pair `(i, j)`, `none` if there is none -/
def concStep (g : DFG α) : List (List α) → Option (List (List α))
  | [] => none
  | grp :: gs =>
    match concRow g grp gs with
    | some r => some (r.1 :: r.2)
    | none => (concStep g gs).map fun gs' => grp :: gs'

/-- `while cont` (concurrency.py:46-68), with fuel -/
def concLoop (g : DFG α) : Nat → List (List α) → List (List α)
  | 0, gs => gs
  | n + 1, gs =>
    match concStep g gs with
    | none => gs
    | some gs' => concLoop g n gs'

/-- the group has a start and an end activity (concurrency.py:73-74) -/
def hasStartEnd (g : DFG α) (grp : List α) : Bool :=
  (grp.any fun a => decide (a ∈ keys g.starts)) && (grp.any fun a => decide (a ∈ keys g.ends))

/-- `while i < len(groups) and len(groups) > 1` (concurrency.py:72-83), with fuel -/
def concFix (g : DFG α) : Nat → Nat → List (List α) → List (List α)
  | 0, _, gs => gs
  | n + 1, i, gs =>
    if i < gs.length ∧ gs.length > 1 then
      if hasStartEnd g (gs.getD i []) then concFix g n (i + 1) gs
      else concFix g n i ((gs.eraseIdx i).modify (i - 1) fun h => union h (gs.getD i []))
    else gs

/-- `ConcurrencyCut.holds` (concurrency.py:35-85).  `groups[i]` for `i == 0` and `groups[i - 1]` otherwise (lines 80-83)
is `i - 1` with truncated subtraction. -/
def holdsPar (env : Env α) (g : DFG α) : Option (List (List α)) :=
  let gs := (env.sorted (verts env g)).map fun a => [a]
  if gs.length = 0 then none
  else
    let gs := concLoop g gs.length gs
    let gs := gs.mergeSort fun x y => decide (x.length ≤ y.length)
    let gs := concFix g gs.length 0 gs
    if gs.length > 1 then some gs else none

/-- `ConcurrencyCutUVCL.project` (concurrency.py:91-98); the counts are assigned, not added -/
def projectPar (L : UVCL α) (gs : List (List α)) : List (UVCL α) :=
  gs.map fun grp => L.foldl (fun c e => Dict.set c (e.1.filter fun x => decide (x ∈ grp)) e.2) []

/-! ### loop (cuts/loop.py) -/

/-- `_compute_connected_components` (loop.py:145-154): components of the graph without start and end activities -/
def loopComps (env : Env α) (g : DFG α) : List (List α) :=
  let nodes := (verts env g).filter fun a => decide (a ∉ keys g.starts) && decide (a ∉ keys g.ends)
  components nodes (edge g)

/-- the last group containing `a` (loop.py:121-124), `none` is Python's `None` -/
def groupOf (gs : List (List α)) (a : α) : Option (List α) :=
  gs.foldl (fun r grp => if a ∈ grp then some grp else r) none

/-- `group != other` for sets of activities -/
def setNe (g h : List α) : Bool := !(g.all (fun a => decide (a ∈ h)) && h.all (fun a => decide (a ∈ g)))

/-- loop.py:121-127 and 137-142: merge the groups of `a` and `b` and put the result first.
Python would fail on a missing group (`None.union`); this is `gs` here and never happens (`Partn.cover`). -/
def mergeFirst (gs : List (List α)) (a b : α) : List (List α) :=
  match groupOf gs a, groupOf gs b with
  | some ga, some gb => union ga gb :: gs.filter fun grp => setNe grp ga && setNe grp gb
  | _, _ => gs

/-- `_exclude_sets_non_reachable_from_start` (loop.py:114-128) -/
def exclStart (env : Env α) (g : DFG α) (gs : List (List α)) : List (List α) :=
  (env.iter ((keys g.starts).filter fun a => decide (a ∉ keys g.ends))).foldl (fun gs a =>
    (keys g.graph).foldl (fun gs e => if e.1 = a then mergeFirst gs a e.2 else gs) gs) gs

/-- `_exclude_sets_no_reachable_from_end` (loop.py:130-143) -/
def exclEnd (env : Env α) (g : DFG α) (gs : List (List α)) : List (List α) :=
  (env.iter ((keys g.ends).filter fun a => decide (a ∉ keys g.starts))).foldl (fun gs b =>
    (keys g.graph).foldl (fun gs e => if e.2 = b then mergeFirst gs e.1 b else gs) gs) gs

/-- the merge condition of `_check_start_completeness` (loop.py:77-85) -/
def startIncomplete (g : DFG α) (grp : List α) : Bool :=
  grp.any fun a => (keys g.graph).any fun e => decide (e.1 = a) && decide (e.2 ∈ keys g.starts) &&
    (keys g.starts).any fun s => !edge g a s

/-- the merge condition of `_check_end_completeness` (loop.py:98-106) -/
def endIncomplete (g : DFG α) (grp : List α) : Bool :=
  grp.any fun a => (keys g.graph).any fun e => decide (e.2 = a) && decide (e.1 ∈ keys g.ends) &&
    (keys g.ends).any fun x => !edge g x a

/-- the loops of `_check_start_completeness` / `_check_end_completeness` (loop.py:75-91, 96-112): groups behind the first
that meet the condition are merged into the first -/
def mergeIntoFirst (bad : List α → Bool) : List (List α) → List (List α)
  | [] => []
  | d :: rs => rs.foldl (fun d r => if bad r then union d r else d) d :: rs.filter fun r => !bad r

/-- `LoopCut.holds` (loop.py:38-70) -/
def holdsLoop (env : Env α) (g : DFG α) : Option (List (List α)) :=
  if (keys g.graph).length = 0 then none
  else
    let gs := union (keys g.starts) (keys g.ends) :: loopComps env g
    let gs := exclStart env g gs
    let gs := exclEnd env g gs
    let gs := mergeIntoFirst (startIncomplete g) gs
    let gs := mergeIntoFirst (endIncomplete g) gs
    let gs := gs.filter fun grp => decide (grp.length > 0)
    if gs.length > 1 then some gs else none

/-- State of the loop over the events of one trace (loop.py:166-183): do log, redo logs, current do trace, current redo
trace. -/
structure LoopSt (α : Type) where
  doLog : UVCL α
  redoLogs : List (UVCL α)
  doTr : List α
  redoTr : List α

/-- `_append_trace_to_redo_log` (loop.py:188-196) -/
def appendRedo (redo : List (List α)) (tr : List α) (n : Int) (logs : List (UVCL α)) : List (UVCL α) :=
  logs.modify (best (redo.map fun grp => ((dedup tr).filter fun x => decide (x ∈ grp)).length)) fun l => inc l tr n

/-- body of the loop over the events (loop.py:169-180) -/
def loopEvent (dg : List α) (redo : List (List α)) (n : Int) (s : LoopSt α) (e : α) : LoopSt α :=
  if e ∈ dg then
    let s := { s with doTr := s.doTr ++ [e] }
    if s.redoTr.length > 0 then { s with redoLogs := appendRedo redo s.redoTr n s.redoLogs, redoTr := [] } else s
  else if e ∈ redo.flatten then
    let s := { s with redoTr := s.redoTr ++ [e] }
    if s.doTr.length > 0 then { s with doLog := inc s.doLog s.doTr n, doTr := [] } else s
  else s

/-- body of the loop over the traces (loop.py:166-183); line 182 is a call with a missing argument, i.e. a `TypeError`
(`none`), when the trace ends with a redo activity -/
def loopTrace (dg : List α) (redo : List (List α)) (s : Option (UVCL α × List (UVCL α))) (e : List α × Int) :
    Option (UVCL α × List (UVCL α)) :=
  match s with
  | none => none
  | some (dl, rls) =>
    let r := e.1.foldl (loopEvent dg redo e.2) ⟨dl, rls, [], []⟩
    if r.redoTr.length > 0 then none else some (inc r.doLog r.doTr e.2, r.redoLogs)

/-- `LoopCutUVCL.project` (loop.py:159-186); `none`: `TypeError` -/
def projectLoop (L : UVCL α) (gs : List (List α)) : Option (List (UVCL α)) :=
  match gs with
  | [] => none
  | dg :: redo => (L.foldl (loopTrace dg redo) (some ([], redo.map fun _ => []))).map fun r => r.1 :: r.2

/-! ### cut factory -/

/-- what a cut or a fall-through returns: the operator of the new node (`none`: a silent leaf) and the sublogs; or an
exception -/
inductive Step (α : Type)
  | node (op : Option Op) (logs : List (UVCL α))
  | error

/-- `CutFactory.find_cut` (cuts/factory.py:40-68): the four cuts in order -/
def findCut (env : Env α) (L : UVCL α) : Option (Step α) :=
  let g := discoverUvcl L
  match holdsXor env g with
  | some gs => some (.node (some .xor) (projectXor L gs))
  | none =>
    match (if env.strict then holdsStrict env g else holdsSeq env g) with
    | some gs => some (.node (some .seq) (projectSeq L gs))
    | none =>
      match holdsPar env g with
      | some gs => some (.node (some .par) (projectPar L gs))
      | none =>
        match holdsLoop env g with
        | some gs =>
          match projectLoop L gs with
          | some ls => some (.node (some .loop) ls)
          | none => some .error
        | none => none

/-! ### base cases (base_case/) -/

/-- `EmptyLogBaseCaseUVCL`, `SingleActivityBaseCaseUVCL` (empty_log.py:33-37, single_activity.py:23-38) -/
def baseCase (L : UVCL α) : Option (PT α) :=
  match keys L with
  | [] => some (.leaf none)
  | [[]] => some (.leaf none)
  | [[a]] => some (.leaf (some a))
  | _ => none

/-! ### fall-throughs (fall_through/) -/

/-- `EmptyTracesUVCL.apply` (empty_traces.py:30-46) -/
def emptyTraces (L : UVCL α) : Option (Step α) :=
  if [] ∈ keys L then
    let L' := Dict.del L []
    if L'.length > 0 then some (.node (some .xor) [[], L']) else some (.node none [])
  else none

/-- splitting into two logs (activity_concurrent.py:102-108) -/
def splitOff (L : UVCL α) (c : α) : Step α :=
  .node (some .par) [L.foldl (fun d e => inc d (e.1.filter fun x => decide (x = c)) e.2) [],
    L.foldl (fun d e => inc d (e.1.filter fun x => decide (x ≠ c)) e.2) []]

/-- `ActivityOncePerTraceUVCL._get_candidate` (activity_once_per_trace.py:27-37) -/
def onceCandidate (env : Env α) (L : UVCL α) : Option α :=
  ((keys L).foldl (fun cs t => cs.filter fun c => decide ((t.filter fun x => decide (x = c)).length = 1))
    (env.sorted (alphabet (keys L)))).head?

/-- `l_alt` (activity_concurrent.py:40-42) -/
def without (L : UVCL α) (c : α) : UVCL α :=
  L.foldl (fun d e => Dict.set d (e.1.filter fun x => decide (x ≠ c)) e.2) []

/-- `ActivityConcurrentUVCL._get_candidate` (activity_concurrent.py:48-80): without multiprocessing the first candidate
with a cut, with multiprocessing the one that is first in the queue -/
def concCandidate (env : Env α) (L : UVCL α) : Option α :=
  env.pick ((env.sorted (alphabet (keys L))).filter fun c => (findCut env (without L c)).isSome)

/-- the loop over the positions of one trace of `_get_projected_log` (strict_tau_loop.py:35-40, tau_loop.py:32-37):
`cur` is `t[x:i]`, `prev` is `t[i - 1]`; gives the slices in order -/
def segLoop (cut : α → α → Bool) : List α → α → List α → List (List α)
  | cur, _, [] => [cur]
  | cur, prev, b :: rest => if cut prev b then cur :: segLoop cut [b] b rest else segLoop cut (cur ++ [b]) b rest

def segments (cut : α → α → Bool) : List α → List (List α)
  | [] => [[]]
  | a :: rest => segLoop cut [a] a rest

/-- `_get_projected_log` (strict_tau_loop.py:29-41, tau_loop.py:27-38) -/
def tauProject (cut : α → α → Bool) (L : UVCL α) : UVCL α :=
  L.foldl (fun d e => (segments cut e.1).foldl (fun d w => inc d w e.2) d) []

/-- `sum(log.values())` -/
def sumValues (L : UVCL α) : Int := (L.map Prod.snd).sum

/-- `StrictTauLoopUVCL.apply` (strict_tau_loop.py:48-53) -/
def tauLoop (cut : α → α → Bool) (L : UVCL α) : Option (Step α) :=
  let proj := tauProject cut L
  if sumValues proj > sumValues L then some (.node (some .loop) [proj, []]) else none

/-- strict_tau_loop.py:37 -/
def strictCut (L : UVCL α) (prev b : α) : Bool := decide (b ∈ startActs (keys L)) && decide (prev ∈ endActs (keys L))

/-- tau_loop.py:34 -/
def tauCut (L : UVCL α) (_prev b : α) : Bool := decide (b ∈ startActs (keys L))

/-- `FlowerModelUVCL.apply` (flower.py:36-46) -/
def flower (env : Env α) (L : UVCL α) : Step α :=
  .node (some .loop) [(env.sorted (alphabet (keys L))).foldl (fun d a => Dict.set d [a] 1) [], []]

/-- `FallThroughFactory.fall_through` (fall_through/factory.py:44-71) for IM -/
def fallThrough (env : Env α) (L : UVCL α) : Step α :=
  match emptyTraces L with
  | some r => r
  | none =>
    if env.fallthroughs then
      match onceCandidate env L with
      | some c => splitOff L c
      | none =>
        match concCandidate env L with
        | some c => splitOff L c
        | none =>
          match tauLoop (strictCut L) L with
          | some r => r
          | none =>
            match tauLoop (tauCut L) L with
            | some r => r
            | none => flower env L
    else flower env L

/-! ### the recursion -/

/-- apply `f` to all elements; `none` if it fails on one -/
def mapAll {β γ : Type} (f : β → Option γ) : List β → Option (List γ)
  | [] => some []
  | b :: bs =>
    match f b, mapAll f bs with
    | some c, some cs => some (c :: cs)
    | _, _ => none

/-- a node with an operator, or a silent leaf for `ProcessTree()` -/
def mkTree (op : Option Op) (cs : List (PT α)) : PT α :=
  match op with
  | some o => .node o cs
  | none => .leaf none

/-- `_recurse` (variants/abc.py:84-89) -/
def recurse (f : UVCL α → Option (PT α)) : Step α → Option (PT α)
  | .error => none
  | .node op logs => (mapAll f logs).map (mkTree op)

/-- what `apply` does with a log that is no base case: a cut, otherwise a fall-through (variants/abc.py:73-82) -/
def cutOrFall (env : Env α) (L : UVCL α) : Step α :=
  match findCut env L with
  | some r => r
  | none => fallThrough env L

/-- `IMUVCL.apply` (variants/im.py:34-39, variants/abc.py:73-82); `none`: an exception, or more than `fuel` nested
calls -/
def im (env : Env α) : Nat → UVCL α → Option (PT α)
  | 0, _ => none
  | n + 1, L =>
    match emptyTraces L with
    | some r => recurse (im env n) r
    | none =>
      match baseCase L with
      | some t => some t
      | none => recurse (im env n) (cutOrFall env L)

/-- `apply` (algorithm.py:56-89) for variant IM on a log given by the activity sequences of its cases: variants, inductive
miner, `fold`, `tree_sort`.  `h` is the label hash of `tree_sort`, `sz` the length of a label. -/
def discover (env : Env α) (h sz : α → Nat) (fuel : Nat) (log : List (List α)) : Option (PT α) :=
  match im env fuel (ofList log) with
  | none => none
  | some t => (PT.fold sz fuel t).map (PT.treeSort h)

end Verif.IM
