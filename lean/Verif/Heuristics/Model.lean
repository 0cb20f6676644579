import Verif.Dfg.Targets
import Verif.Log.Dfg
import Mathlib.Data.Rat.Defs
import Mathlib.Data.List.Sort
import Mathlib.Order.Defs.LinearOrder
import Mathlib.Algebra.Order.Ring.Rat
/-
Model of the Heuristics Miner up to the heuristics net (/repo/pm4py/algo/discovery/heuristics/variants/classic.py, apply_heu, apply_heu_dfg, calculate;
/repo/pm4py/objects/heuristics_net/node.py).  Exact rational numbers instead of floating point.  The matrices `dfg_matrix[a][b]`,
`dependency_matrix[a][b]`, `freq_triples_matrix[a][b]` are look-ups in the dictionaries; the order in which the nested loops visit the entries only
decides about the order of the nodes and arcs, the order of the directly-follows graph is used.  Colours, performance values and the window-2 graph
(which is not used) are left out.
-/
namespace Verif.Heuristics
open Dict
variable {α : Type} [LinearOrder α]

/-- the thresholds -/
structure Params where
  dep : Rat
  andM : Rat
  minAct : Int
  minDfg : Int
  loop2 : Rat

/-- the input of `calculate`: directly-follows graph, triples `a b c` that directly follow each other, occurrences of the activities -/
structure Input (α : Type) where
  dfg : Dict (α × α) Int
  triples : Dict (α × α × α) Int
  occ : Dict α Int

/-- the dependency value of an entry of the graph (classic.py:438-448); `none` if there is no entry -/
def depValue (i : Input α) (a b : α) : Option Rat :=
  (get? i.dfg (a, b)).map fun c1 =>
    if a ≠ b then
      match get? i.dfg (b, a) with
      | some c2 => ((c1 - c2 : Int) : Rat) / ((c1 + c2 + 1 : Int) : Rat)
      | none => (c1 : Rat) / ((c1 + 1 : Int) : Rat)
    else (c1 : Rat) / ((c1 + 1 : Int) : Rat)

/-- `n in activities_occurrences and activities_occurrences[n] >= min_act_count` -/
def enough (p : Params) (i : Input α) (a : α) : Bool := match get? i.occ a with | some n => decide (n ≥ p.minAct) | none => false

/-- `a in dependency_matrix and b in dependency_matrix[a] and dependency_matrix[a][b] >= dependency_thresh` -/
def depends (p : Params) (i : Input α) (a b : α) : Bool := match depValue i a b with | some v => decide (v ≥ p.dep) | none => false

/-- `n1 in dfg_matrix and n2 in dfg_matrix[n1] and dfg_matrix[n1][n2] >= min_dfg_occurrences` -/
def often (p : Params) (i : Input α) (a b : α) : Bool := match get? i.dfg (a, b) with | some n => decide (n ≥ p.minDfg) | none => false

/-- the heuristics net: nodes, output and input connections with dependency and frequency value -/
structure Net (α : Type) where
  nodes : List α
  outs : List ((α × α) × (Rat × Int))
  ins : List ((α × α) × (Rat × Int))

/-- `if n not in heu_net.nodes: heu_net.nodes[n] = Node(...)` -/
def addNode (l : List α) (a : α) : List α := if a ∈ l then l else l ++ [a]

/-- the body of the loop classic.py:449-479 -/
def strongStep (p : Params) (i : Input α) (h : Net α) (e : (α × α) × Int) : Net α :=
  let a := e.1.1
  let b := e.1.2
  if enough p i a && enough p i b && often p i a b && depends p i a b then
    { nodes := addNode (addNode h.nodes a) b
      outs := h.outs ++ [((a, b), ((depValue i a b).getD 0, e.2))]
      ins := h.ins ++ [((a, b), ((depValue i a b).getD 0, e.2))] }
  else h

/-- the net after the loop classic.py:449-479 -/
def strong (p : Params) (i : Input α) : Net α := i.dfg.foldl (strongStep p i) ⟨[], [], []⟩

/-- `c = dfg_matrix[a][b] if ... else 0` -/
def freq (i : Input α) (a b : α) : Int := (get? i.dfg (a, b)).getD 0

/-- all pairs of an element and a later one -/
def laterPairs : List α → List (α × α)
  | [] => []
  | x :: l => l.map (fun y => (x, y)) ++ laterPairs l

/-- `calculate_and_measure_out` (node.py:115-145) of the node `n`, on the connections of the net `h` -/
def andOut (p : Params) (i : Input α) (h : Net α) (n : α) : List ((α × α) × Rat) :=
  let out := (((h.outs.filter fun e => decide (e.1.1 = n)).map fun e => e.1.2).dedup).insertionSort (· ≤ ·)
  ((laterPairs out).map fun q =>
    (q, ((freq i q.1 q.2 + freq i q.2 q.1 : Int) : Rat) / ((freq i n q.1 + freq i n q.2 + 1 : Int) : Rat))).filter fun e => decide (e.2 ≥ p.andM)

/-- `calculate_and_measure_in` (node.py:147-177) of the node `n` -/
def andIn (p : Params) (i : Input α) (h : Net α) (n : α) : List ((α × α) × Rat) :=
  let inn := (((h.ins.filter fun e => decide (e.1.2 = n)).map fun e => e.1.1).dedup).insertionSort (· ≤ ·)
  ((laterPairs inn).map fun q =>
    (q, ((freq i q.1 q.2 + freq i q.2 q.1 : Int) : Rat) / ((freq i q.1 n + freq i q.2 n + 1 : Int) : Rat))).filter fun e => decide (e.2 ≥ p.andM)

/-- `freq_triples_matrix[a][b]`, if there is such an entry (classic.py:413-424: only `a b a` with different activities) -/
def triple (i : Input α) (a b : α) : Option Int := if a = b then none else get? i.triples (a, b, a)

/-- `calculate_loops_length_two` (node.py:179-201) of the node `n`: the keys of `loop_length_two` -/
def loopTwo (p : Params) (i : Input α) (n : α) : List α :=
  (i.triples.filterMap fun e => if e.1.1 = e.1.2.2 ∧ ¬ e.1.1 = e.1.2.1 ∧ e.1.1 = n then some e.1.2.1 else none).filter fun m =>
    let v1 := (triple i n m).getD 0
    let v2 := (triple i m n).getD 0
    decide (((v1 + v2 : Int) : Rat) / ((v1 + v2 + 1 : Int) : Rat) ≥ p.loop2)

/-- the conditions classic.py:490-497 -/
def loopCond (p : Params) (i : Input α) (a b : α) : Bool :=
  often p i a b && enough p i a && enough p i b && !(depends p i a b || depends p i b a)

/-- one connection of a loop (classic.py:511-518 and 520-527); the frequency value of the input connection is that of the other direction -/
def addLoop (i : Input α) (s : Net α × List (α × α)) (q : α × α) : Net α × List (α × α) :=
  if q ∈ s.2 then s else
    ({ nodes := s.1.nodes
       outs := s.1.outs ++ [(q, (0, freq i q.1 q.2))]
       ins := s.1.ins ++ [(q, (0, freq i q.2 q.1))] }, s.2 ++ [q])

/-- the body of the loops classic.py:488-527 -/
def loopStep (p : Params) (i : Input α) (s : Net α × List (α × α)) (q : α × α) : Net α × List (α × α) :=
  if loopCond p i q.1 q.2 then
    addLoop i (addLoop i ({ s.1 with nodes := addNode s.1.nodes q.2 }, s.2) (q.1, q.2)) (q.2, q.1)
  else s

/-- `calculate` (classic.py:363-536) without the cleaning; the loops over `nodes` visit those of the strong connections -/
def calculate (p : Params) (i : Input α) (activities : List α) : Net α :=
  let h := strong p i
  let h' := ((h.nodes.flatMap fun a => (loopTwo p i a).map fun b => (a, b)).foldl (loopStep p i) (h, [])).1
  if h'.nodes.length = 0 then { h' with nodes := activities } else h'

/-- `(t[i - 2], t[i - 1], t[i])` (algo/discovery/dfg/variants/freq_triples.py:53-56) -/
def triplesOf (t : List α) : List (α × α × α) := List.zipWith (fun a q => (a, q)) t (List.zip t.tail t.tail.tail)

/-- `apply_heu` (classic.py:169-222), the input of `calculate`; `noise` is dfg_pre_cleaning_noise_thresh (classic.py:402-404) and the graph is
that of the native variant -/
def inputOf (noise : Rat) (log : List (List α)) : Input α :=
  let g := Dfg.native 1 false log
  { dfg := if noise > 0 then Dfg.cleanNoise g noise [] else g
    triples := Counter.ofList (log.flatMap triplesOf)
    occ := Counter.ofList log.flatten }

/-- `discover_heuristics_net` of an event log -/
def discover (p : Params) (noise : Rat) (log : List (List α)) : Net α := calculate p (inputOf noise log) (keys (inputOf noise log).occ)

/-- the defaults (objects/heuristics_net/defaults.py:24-29) -/
def dflt : Params := ⟨1 / 2, 65 / 100, 1, 1, 1 / 2⟩

end Verif.Heuristics
