import Mathlib.Data.Rat.Defs
import Mathlib.Algebra.Order.Ring.Unbundled.Rat
/-
C52: alignments of traces with directly-follows graphs, /repo/pm4py/algo/conformance/alignments/dfg/variants/classic.py.
The priority queue is modelled by its contract (`HeapOk`); the generated names of the start and the end node are constructors (they
differ from all activities).
-/
namespace Verif.DfgAlign
variable {α : Type} [DecidableEq α]

/-- a node of the graph: activities and the two artificial nodes (classic.py:362-363) -/
inductive Node (α : Type)
  | start
  | act (a : α)
  | fin
deriving DecidableEq

/-- the keys of the three dictionaries -/
structure Graph (α : Type) where
  dfg : List (α × α)
  sa : List α
  ea : List α

/-- `activities_model` (classic.py:336-337) -/
def Graph.inModel (G : Graph α) (a : α) : Bool :=
  decide (a ∈ G.dfg.map Prod.fst) || decide (a ∈ G.dfg.map Prod.snd) || decide (a ∈ G.sa) || decide (a ∈ G.ea)

/-- `outgoing_nodes` (classic.py:365-372), as a list instead of a set -/
def Graph.out (G : Graph α) : Node α → List (Node α)
  | .start => G.sa.map .act
  | .act a => (G.dfg.filter fun e => decide (e.1 = a)).map (fun e => .act e.2) ++ (if a ∈ G.ea then [.fin] else [])
  | .fin => []

/-- the three cost functions (classic.py:342-349) -/
structure Costs (α : Type) where
  sync : α → Nat
  model : α → Nat
  log : α → Nat

/-- `STD_MODEL_LOG_MOVE_COST` (align_utils.py:29) -/
def W : Nat := 10000

/-- the default costs (classic.py:342-349, align_utils.py:29-31) -/
def Costs.std : Costs α := ⟨fun _ => 0, fun _ => W, fun _ => W⟩

/-- `internal_log_move_cost_function` (classic.py:352-360) -/
def ilog (G : Graph α) (cs : Costs α) (a : α) : Nat := if G.inModel a then cs.log a else 0

/-- a state without its predecessor (classic.py:51-60); `g = f` since `h = 0`; the position is stored negated in the code -/
structure Frame (α : Type) where
  g : Nat
  real : Nat
  pos : Nat
  visited : Nat
  node : Node α
  lm : Bool
  mm : Bool
deriving DecidableEq

/-- a state with the chain of its predecessors -/
structure Entry (α : Type) where
  cur : Frame α
  prev : List (Frame α)
deriving DecidableEq

/-- the first state (classic.py:381-388) -/
def startEntry : Entry α := ⟨⟨0, 0, 0, 0, .start, false, false⟩, []⟩

/-- `not act_not_in_model` (classic.py:413-417): there is no next event, or the graph has its activity -/
def known (G : Graph α) : Option α → Bool
  | some a => G.inModel a
  | none => true

/-- `can_sync` (classic.py:418): the activity of the next event can follow -/
def canSync (la : List (Node α)) : Option α → Bool
  | some a => decide (Node.act a ∈ la)
  | none => false

/-- the new states of one expansion (classic.py:401-464) before the comparison with `closed` -/
def succs (G : Graph α) (cs : Costs α) (tr : List α) (nv : Nat) (e : Entry α) : List (Entry α) :=
  let c := e.cur
  let chain := c :: e.prev
  let la := G.out c.node
  (if c.node ≠ .fin ∧ known G tr[c.pos]? = true then
    (match tr[c.pos]? with
      | some a => if canSync la tr[c.pos]? then [⟨⟨c.g + cs.sync a, c.real + cs.sync a, c.pos + 1, nv, .act a, false, false⟩, chain⟩] else []
      | none => []) ++
    la.flatMap fun x => match x with
      | .fin => [⟨⟨c.g, c.real, c.pos, nv, .fin, false, false⟩, chain⟩]
      | .act b => if canSync la tr[c.pos]? then [] else [⟨⟨c.g + cs.model b, c.real + cs.model b, c.pos, nv, .act b, false, true⟩, chain⟩]
      | .start => []
  else []) ++
  match tr[c.pos]? with
    | some a => if c.mm then [] else [⟨⟨c.g + ilog G cs a, c.real + cs.log a, c.pos + 1, nv, c.node, true, false⟩, chain⟩]
    | none => []

/-- `heapq.heappop`: takes a state with the least `g` -/
structure HeapOk (pick : List (Entry α) → Option (Entry α × List (Entry α))) : Prop where
  empty : pick [] = none
  pop : ∀ l, l ≠ [] → ∃ e rest, pick l = some (e, rest) ∧ l.Perm (e :: rest) ∧ ∀ x ∈ l, e.cur.g ≤ x.cur.g

/-- the loop (classic.py:391-464): `none` is out of fuel, `some none` is the end of the function without a result -/
def search (pick : List (Entry α) → Option (Entry α × List (Entry α))) (G : Graph α) (cs : Costs α) (tr : List α) :
    Nat → List (Entry α) → (Node α → Int) → Nat → Option (Option (Entry α))
  | 0, _, _, _ => none
  | n + 1, q, closed, nv =>
    match pick q with
    | none => some none
    | some (e, rest) =>
      if (e.cur.pos : Int) ≤ closed e.cur.node then search pick G cs tr n rest closed (nv + 1)
      else
        let closed' : Node α → Int := fun x => if x = e.cur.node then (e.cur.pos : Int) else closed x
        if e.cur.node = .fin ∧ ¬ e.cur.pos < tr.length then some (some e)
        else search pick G cs tr n
          (rest ++ (succs G cs tr (nv + 1) e).filter fun s => decide (closed' s.cur.node < (s.cur.pos : Int))) closed' (nv + 1)

/-- `__apply_list_activities` up to the returned state (classic.py:302-464) -/
def align (pick : List (Entry α) → Option (Entry α × List (Entry α))) (G : Graph α) (cs : Costs α) (fuel : Nat) (tr : List α) :
    Option (Option (Entry α)) := search pick G cs tr fuel [startEntry] (fun _ => -1) 0

/-- `cost` of the result (classic.py:485) -/
def Entry.cost (e : Entry α) : Nat := e.cur.real

/-- the moves of the result (classic.py:488-502); `none` is `>>` -/
def Entry.moves (tr : List α) (e : Entry α) : List (Option α × Option (Node α)) :=
  (e.prev.filterMap fun s =>
    if 1 ≤ s.pos then some (if s.mm then none else tr[s.pos - 1]?, if s.lm then none else some s.node) else none).reverse

/-- `fitness` (classic.py:138, 151-156): `empty` is the cost for the empty trace -/
def fitness (cs : Costs α) (empty cost : Nat) (tr : List α) : Rat := 1 - (cost : Rat) / ((empty + (tr.map cs.log).sum : Nat) : Rat)

/-- the heap of the code up to the number of visited states: least `(g, -pos, visited)`, the first among equals -/
def before (x y : Entry α) : Bool :=
  decide (x.cur.g < y.cur.g) || (decide (x.cur.g = y.cur.g) && (decide (x.cur.pos > y.cur.pos) ||
    (decide (x.cur.pos = y.cur.pos) && decide (x.cur.visited ≤ y.cur.visited))))

def pickLex : List (Entry α) → Option (Entry α × List (Entry α))
  | [] => none
  | x :: l => match pickLex l with
    | none => some (x, l)
    | some (y, r) => if before x y then some (x, l) else some (y, x :: r)

end Verif.DfgAlign
