import Verif.Align.Theorems
/-
Model of /repo/pm4py/algo/conformance/alignments/petri_net/variants/dijkstra_less_memory.py (default variant of
`pm4py.algo.conformance.alignments.petri_net` without LP solver).  Places are the numbers of `places_dict` (235).
-/
namespace Verif
open Dict
namespace LM
open Align
variable {T A : Type}

/-- insertion of `x` before the first element whose key is larger -/
def insertBy {X : Type} (key : X → Int) (x : X) : List X → List X
  | [] => [x]
  | y :: l => if key x < key y then x :: y :: l else y :: insertBy key x l

/-- stable `list.sort(key=...)` (Python's own sort is trusted to be a stable sort) -/
def sortBy {X : Type} (key : X → Int) (l : List X) : List X := l.foldl (fun acc x => insertBy key x acc) []

/-- `trans_pre_dict[t]` (dijkstra_less_memory.py:245-246): dictionary comprehension over the input arcs -/
def preDict (net : Net Nat T) (t : T) : Dict Nat Int := (net.inArcs t).foldl (fun d a => Dict.set d a.1 a.2) []
/-- `trans_post_dict[t]` (247-248) -/
def postDict (net : Net Nat T) (t : T) : Dict Nat Int := (net.outArcs t).foldl (fun d a => Dict.set d a.1 a.2) []

/-- `__dict_leq` (354-375) -/
def dictLeq (d1 d2 : Dict Nat Int) : Bool :=
  d1.all fun e => Dict.has d2 e.1 && !decide ((Dict.get? d2 e.1).getD 0 < e.2)

/-- `__fire_trans` (378-411) -/
def fireTrans (m preset postset : Dict Nat Int) : Dict Nat Int :=
  postset.foldl
    (fun ret e => if Dict.has ret e.1 then Dict.set ret e.1 (Dict.count ret e.1 + e.2) else Dict.set ret e.1 e.2)
    (m.foldl
      (fun ret e =>
        match Dict.get? preset e.1 with
        | some w => if 0 < e.2 - w then Dict.set ret e.1 (e.2 - w) else ret
        | none => Dict.set ret e.1 e.2) [])

/-- `__encode_marking` (414-439): sorted places, each repeated (`marking_dict` only shares equal tuples) -/
def encode (m : Dict Nat Int) : List Nat :=
  (sortBy (fun k : Nat => (k : Int)) (Dict.keys m)).flatMap fun k => List.replicate (Dict.count m k).toNat k

/-- `__decode_marking` (442-463) -/
def decode (mt : List Nat) : Dict Nat Int :=
  mt.foldl (fun d el => if Dict.has d el then Dict.set d el (Dict.count d el + 1) else Dict.set d el 1) []

/-- search states (dijkstra_less_memory.py:579-595).  `pos` is the opposite of `POSITION_INDEX`. -/
inductive S (T : Type)
  | root (m : List Nat)
  | node (cost : Int) (pos ty len cnt : Nat) (parent : S T) (m : List Nat) (t : Option T)

namespace S
/-- `POSITION_TOTAL_COST` -/
def cost : S T → Int | root _ => 0 | node c _ _ _ _ _ _ _ => c
/-- the opposite of `POSITION_INDEX` -/
def pos : S T → Nat | root _ => 0 | node _ p _ _ _ _ _ _ => p
/-- `POSITION_TYPE_MOVE`: 0 sync, 1 log, 2 model -/
def ty : S T → Nat | root _ => 0 | node _ _ y _ _ _ _ _ => y
/-- `POSITION_ALIGN_LENGTH` -/
def len : S T → Nat | root _ => 0 | node _ _ _ l _ _ _ _ => l
/-- `POSITION_STATES_COUNT` -/
def cnt : S T → Nat | root _ => 0 | node _ _ _ _ c _ _ _ => c
/-- `POSITION_MARKING` -/
def m : S T → List Nat | root m => m | node _ _ _ _ _ _ m _ => m

/-- comparison of the tuples in the heap; `POSITION_STATES_COUNT` is different for all states, so later components are
never compared -/
def lt (a b : S T) : Bool :=
  if a.cost ≠ b.cost then decide (a.cost < b.cost)
  else if a.pos ≠ b.pos then decide (b.pos < a.pos)
  else if a.ty ≠ b.ty then decide (a.ty < b.ty)
  else if a.len ≠ b.len then decide (a.len < b.len)
  else decide (a.cnt < b.cnt)

/-- moves collected by `__reconstruct_alignment` (709-722; the code reports labels) -/
def alignment : S T → List (Move Nat T)
  | root _ => []
  | node _ pos ty _ _ p _ t =>
    alignment p ++ (match ty, t with
      | 0, some t => [Move.sync (pos - 1) t]
      | 1, _ => [Move.left (pos - 1)]
      | _, some t => [Move.right t]
      | _, none => [])
end S

/-- `__check_closed` (466-484) -/
def checkClosed (closed : Dict (List Nat) Nat) (m : List Nat) (pos : Nat) : Bool :=
  match Dict.get? closed m with
  | some p => decide (pos ≤ p)
  | none => false

/-- what does not change during the search -/
structure Cfg (T A : Type) where
  net : LNet Nat T A
  tr : List A
  modelCost : T → Int
  traceCost : Nat → Int
  syncCost : Int

variable [DecidableEq A]

/-- `is_sync` (631-632); labels and activities are compared through an injective numbering in the code -/
def isSync (cfg : Cfg T A) (curr : S T) (t : T) : Bool :=
  match cfg.tr[curr.pos]? with
  | some a => decide (cfg.net.label t = some a)
  | none => false

/-- marking after firing `t` in the marking of `curr` -/
def succM (cfg : Cfg T A) (curr : S T) (t : T) : List Nat :=
  encode (fireTrans (decode curr.m) (preDict cfg.net.toNet t) (postDict cfg.net.toNet t))

/-- local variables of one iteration: open set, `this_closed`, `dummy_count` -/
structure Loc (T : Type) where
  openSet : List (S T)
  thisClosed : List (List Nat)
  cnt : Nat

/-- first `while j < len(en_t)` loop for a synchronous transition (633-650) -/
def syncStep (cfg : Cfg T A) (closed : Dict (List Nat) Nat) (curr : S T) (l : Loc T) (t : T) : Loc T :=
  let cnt := l.cnt + 1
  let nm := succM cfg curr t
  let ns := S.node (curr.cost + cfg.syncCost) (curr.pos + 1) 0 (curr.len + 1) cnt curr nm (some t)
  { openSet := if checkClosed closed nm (curr.pos + 1) then l.openSet else l.openSet ++ [ns]
    thisClosed := nm :: l.thisClosed
    cnt := cnt }

/-- second loop: model moves (654-668) -/
def modelStep (cfg : Cfg T A) (closed : Dict (List Nat) Nat) (curr : S T) (l : Loc T) (t : T) : Loc T :=
  let cnt := l.cnt + 1
  let nm := succM cfg curr t
  let ns := S.node (curr.cost + cfg.modelCost t) curr.pos 2 (curr.len + 1) cnt curr nm (some t)
  if nm ∉ l.thisClosed ∧ curr.m ≠ nm then
    { openSet := if checkClosed closed nm curr.pos then l.openSet else l.openSet ++ [ns]
      thisClosed := nm :: l.thisClosed
      cnt := cnt }
  else { l with cnt := cnt }

/-- log move (674-682) -/
def logStep (cfg : Cfg T A) (closed : Dict (List Nat) Nat) (curr : S T) (l : Loc T) : Loc T :=
  if curr.pos < cfg.tr.length ∧ curr.ty ≠ 2 then
    let cnt := l.cnt + 1
    let ns := S.node (curr.cost + cfg.traceCost curr.pos) (curr.pos + 1) 1 (curr.len + 1) cnt curr curr.m none
    { l with openSet := if checkClosed closed curr.m (curr.pos + 1) then l.openSet else l.openSet ++ [ns], cnt := cnt }
  else l

/-- expansion of a state (623-682) -/
def expand (cfg : Cfg T A) (closed : Dict (List Nat) Nat) (curr : S T) (rest : List (S T)) (cnt : Nat) : Loc T :=
  let enT := cfg.net.transitions.filter fun t => dictLeq (preDict cfg.net.toNet t) (decode curr.m)
  let l1 := (enT.filter (isSync cfg curr)).foldl (syncStep cfg closed curr) ⟨rest, [], cnt⟩
  let l2 := (sortBy cfg.modelCost (enT.filter fun t => !isSync cfg curr t)).foldl (modelStep cfg closed curr) l1
  logStep cfg closed curr l2

/-- state of `__dijkstra` -/
inductive R (T : Type)
  | running (openSet : List (S T)) (closed : Dict (List Nat) Nat) (cnt : Nat)
  | found (x : S T)
  | exhausted

/-- contract of `heapq`: a popped item is minimal, the others stay -/
structure PopOk (pop : Nat → List (S T) → Option (S T × List (S T))) : Prop where
  nil : ∀ n, pop n [] = none
  cons : ∀ n l, l ≠ [] → ∃ x rest, pop n l = some (x, rest) ∧ l.Perm (x :: rest) ∧ ∀ y ∈ rest, S.lt y x = false

/-- one iteration of the main loop (600-682; the time limit is not modelled) -/
def step (cfg : Cfg T A) (fm : List Nat) (pop : Nat → List (S T) → Option (S T × List (S T))) (n : Nat) : R T → R T
  | .running openSet closed cnt =>
    match pop n openSet with
    | none => .exhausted
    | some (curr, rest) =>
      if checkClosed closed curr.m curr.pos then .running rest closed cnt
      else
        let closed := Dict.set closed curr.m curr.pos
        if curr.m = fm ∧ curr.pos = cfg.tr.length then .found curr
        else
          let l := expand cfg closed curr rest cnt
          .running l.openSet closed l.cnt
  | r => r

/-- `__dijkstra` after `n` iterations -/
def search (cfg : Cfg T A) (im fm : Marking Nat) (pop : Nat → List (S T) → Option (S T × List (S T))) : Nat → R T
  | 0 => .running [.root (encode im)] [] 0
  | n + 1 => step cfg (encode fm) pop n (search cfg im fm pop n)

/-- default model costs (191-221): 10000 for visible transitions; a silent transition costs 1 if some transition enabled
by its own preset carries an activity of the trace, otherwise 0 -/
def defaultModelCost [DecidableEq T] (net : LNet Nat T A) (tr : List A) (t : T) : Int :=
  match net.label t with
  | some _ => 10000
  | none =>
    if (net.toNet.enabledTransitions (preDict net.toNet t)).any fun u =>
        match net.label u with | some a => decide (a ∈ tr) | none => false
    then 1 else 0

/-- configuration built by `apply` with default parameters (320-351) -/
def defaultCfg [DecidableEq T] (net : LNet Nat T A) (tr : List A) : Cfg T A :=
  ⟨net, tr, defaultModelCost net tr, fun _ => 10000, 0⟩

end LM
end Verif
