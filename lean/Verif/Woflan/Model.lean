import Mathlib.Order.WithBot
import Mathlib.Algebra.Order.Monoid.WithTop
import Mathlib.Algebra.Order.Monoid.Unbundled.WithTop
import Mathlib.Data.Int.Order.Basic
import Mathlib.Logic.Relation
import Mathlib.Data.List.Chain
import Mathlib.Order.Basic
set_option linter.unusedSectionVars false
/-
Model of `pm4py.check_soundness` (pm4py/analysis.py:150-187) and of WOFLAN
(pm4py/algo/analysis/woflan/algorithm.py, graphs/, place_invariants/s_component.py).

Executions are relations: a Python set is iterated and popped in any order.  The numerical parts are oracles (the supports of
the computed uniform place invariants, whether there are not well-handled pairs, whether the invariants cover the places); the
theorems hold for every answer of them.  Messages and the sequences that are computed for diagnosis only are not modelled.
-/
namespace Verif.Woflan
open Classical

/-- A Petri net.  `P` and `T` are the places and transitions of the net; `places` is the list sorted by name and `trans` the
    transitions in some order; arcs have weights. -/
structure WNet (P T : Type) where
  places : List P
  trans : List T
  label : T → Option String
  pname : P → String
  tname : T → String
  inArcs : T → List (P × Nat)
  outArcs : T → List (P × Nat)

variable {P T : Type}

/-- A numpy array of floats with one entry for each place; `⊤` is `np.inf`. -/
abbrev Vec (P : Type) := P → WithTop Int

/-- The weight of the arcs from place to transition: the negated entry of `compute_firing_requirement` (graphs/utility.py:62-70). -/
noncomputable def pre (N : WNet P T) (t : T) (p : P) : Nat := (((N.inArcs t).filter fun a => decide (a.1 = p)).map (·.2)).sum

/-- The weight of the arcs from transition to place. -/
noncomputable def post (N : WNet P T) (t : T) (p : P) : Nat := (((N.outArcs t).filter fun a => decide (a.1 = p)).map (·.2)).sum

/-- `compute_incidence_matrix`, `split_incidence_matrix` (graphs/utility.py:21-60): the entry for a place and a transition. -/
noncomputable def inc (N : WNet P T) (t : T) (p : P) : Int := (post N t p : Int) - (pre N t p : Int)

/-- `all(np.greater_equal(marking, requirement * -1))` (graphs/utility.py:75) -/
def Meets (N : WNet P T) (v : Vec P) (t : T) : Prop := ∀ p, (((pre N t p : Int) : WithTop Int)) ≤ v p

/-- `marking + firing_dict[transition]` (graphs/utility.py:79) -/
noncomputable def plus (N : WNet P T) (v : Vec P) (t : T) : Vec P := fun p => v p + ((inc N t p : Int) : WithTop Int)

/-- `enabled_markings` (graphs/utility.py:72-81) -/
noncomputable def enabledMarkings (N : WNet P T) (v : Vec P) : List (Vec P × T) :=
  (N.trans.filter fun t => decide (Meets N v t)).map fun t => (plus N v t, t)

/-- `np.array2string`: all entries, or the first and last three if there are more than 1000 (numpy's default for
    summarising).  Numbers of tokens of 10^8 and more, which are printed rounded, are not modelled. -/
def key (N : WNet P T) (v : Vec P) : List (WithTop Int) :=
  if N.places.length ≤ 1000 then N.places.map v
  else (N.places.take 3).map v ++ (N.places.drop (N.places.length - 3)).map v

/-- `convert_marking` (graphs/utility.py:83-101): one token on every place whose name is the name of a marked place; the
    numbers of tokens are ignored. -/
noncomputable def convertMarking (N : WNet P T) (m : List (P × Int)) : Vec P :=
  fun p => if N.pname p ∈ m.map (fun e => N.pname e.1) then 1 else 0

/-! ### Workflow net -/

/-- `len(place.in_arcs) == 0` -/
def NoIn (N : WNet P T) (p : P) : Prop := ∀ t ∈ N.trans, ∀ a ∈ N.outArcs t, a.1 ≠ p

/-- `len(place.out_arcs) == 0` -/
def NoOut (N : WNet P T) (p : P) : Prop := ∀ t ∈ N.trans, ∀ a ∈ N.inArcs t, a.1 ≠ p

/-- The source and sink if there is exactly one of each (algorithm.py:258-294). -/
noncomputable def sourceSink (N : WNet P T) : Option (P × P) :=
  match N.places.filter (fun p => decide (NoIn N p)), N.places.filter (fun p => decide (NoOut N p)) with
  | [i], [o] => some (i, o)
  | _, _ => none

/-- The short-circuited net (algorithm.py:270-277); the new transition is `none`. -/
def shortCircuit (N : WNet P T) (i o : P) : WNet P (Option T) where
  places := N.places
  trans := none :: N.trans.map some
  label := fun t => match t with
    | none => some "short_circuited_transition"
    | some t => N.label t
  pname := N.pname
  tname := fun t => match t with
    | none => "short_circuited_transition"
    | some t => N.tname t
  inArcs := fun t => match t with
    | none => [(o, 1)]
    | some t => N.inArcs t
  outArcs := fun t => match t with
    | none => [(i, 1)]
    | some t => N.outArcs t

/-- The edges of the graph of names (algorithm.py:344-360). -/
def NameEdge (N : WNet P T) (x y : String) : Prop :=
  ∃ t ∈ N.trans, (∃ a ∈ N.inArcs t, x = N.pname a.1 ∧ y = N.tname t) ∨ (∃ a ∈ N.outArcs t, x = N.tname t ∧ y = N.pname a.1)

/-- `nx_utils.is_strongly_connected(graph)` on the graph of names. -/
def NamesConnected (N : WNet P T) : Prop :=
  ∀ x ∈ N.places.map N.pname ++ N.trans.map N.tname, ∀ y ∈ N.places.map N.pname ++ N.trans.map N.tname,
    Relation.ReflTransGen (NameEdge N) x y

/-! ### S-components -/

/-- The places of a support from which an arc leads to the transition. -/
noncomputable def placesBefore (N : WNet P T) (S : P → Bool) (t : T) : List P :=
  N.places.filter fun p => S p && decide (p ∈ (N.inArcs t).map (·.1))

/-- The places of a support to which an arc leads from the transition. -/
noncomputable def placesAfter (N : WNet P T) (S : P → Bool) (t : T) : List P :=
  N.places.filter fun p => S p && decide (p ∈ (N.outArcs t).map (·.1))

/-- The test of a support in `compute_s_components` (s_component.py:50-77): every transition next to one of its places has
    exactly one place of the support before and one after it. -/
def IsSComponent (N : WNet P T) (S : P → Bool) : Prop :=
  ∀ t ∈ N.trans, (placesBefore N S t ≠ [] ∨ placesAfter N S t ≠ []) →
    (placesBefore N S t).length = 1 ∧ (placesAfter N S t).length = 1

/-- `compute_uncovered_places_in_component(compute_s_components(net, invariants), net)` (s_component.py:29-92), given the
    supports of the positive entries of the invariants. -/
noncomputable def uncovered (N : WNet P T) (supports : List (P → Bool)) : List P :=
  N.places.filter fun p => !decide (∃ S ∈ supports, IsSComponent N S ∧ S p = true)

/-- What is computed numerically: the supports of the uniform invariants, whether there are not well-handled pairs, whether
    all places are covered by uniform and by weighted invariants. -/
structure Oracle (P : Type) where
  supports : List (P → Bool)
  notWellHandled : Bool
  uniform : Bool
  weighted : Bool

/-! ### Minimal coverability graph -/

/-- The state of `minimal_coverability_tree` (minimal_coverability_graph.py:71-84): markings of the nodes of the graph, its
    edges, the lists of nodes and the next number. -/
structure Mct (P T : Type) where
  mark : Nat → Option (Vec P)
  edges : List (Nat × T × Nat)
  unproc : List Nat
  proc : List Nat
  next : Nat

/-- An edge of the graph between two nodes. -/
def Mct.Edge (s : Mct P T) (x y : Nat) : Prop := ∃ t, (x, t, y) ∈ s.edges

/-- The nodes of `nx_utils.bfs_tree(G, n)`. -/
def Mct.Desc (s : Mct P T) (n x : Nat) : Prop := Relation.ReflTransGen s.Edge n x

/-- The nodes of `nx_utils.ancestors(G, n)`. -/
def Mct.Anc (s : Mct P T) (n x : Nat) : Prop := x ≠ n ∧ Relation.ReflTransGen s.Edge x n

/-- The graph without some nodes and the edges at them. -/
noncomputable def Mct.remove (s : Mct P T) (D : Nat → Prop) : Mct P T :=
  { s with mark := fun x => if D x then none else s.mark x,
           edges := s.edges.filter fun e => decide (¬ D e.1 ∧ ¬ D e.2.2) }

/-- The lists without some nodes. -/
noncomputable def Mct.forget (s : Mct P T) (D : Nat → Prop) : Mct P T :=
  { s with unproc := s.unproc.filter fun x => decide (¬ D x), proc := s.proc.filter fun x => decide (¬ D x) }

/-- A node with a new marking, to be processed again (minimal_coverability_graph.py:112, 120-121). -/
def Mct.renew (s : Mct P T) (n : Nat) (v : Vec P) : Mct P T :=
  { s with mark := fun x => if x = n then some v else s.mark x, unproc := s.unproc ++ [n] }

/-- The new marking of a node that is greater than another (minimal_coverability_graph.py:95-104): infinite where an
    ancestor with a smaller marking has fewer tokens. -/
noncomputable def Mct.accelerate (s : Mct P T) (n : Nat) (v : Vec P) : Vec P :=
  fun p => if ∃ a w, s.Anc n a ∧ s.mark a = some w ∧ w ≤ v ∧ w p < v p then ⊤ else v p

/-- The loop over `processed_nodes_copy` (minimal_coverability_graph.py:122-133): for each of the nodes whose marking is
    smaller the nodes below it are taken from the lists, but, since the variable of the loop is used again, only the last of
    them is removed from the graph. -/
inductive Clean (m2 : Vec P) : List Nat → Mct P T → Mct P T → Prop
  | nil {s} : Clean m2 [] s s
  | skip {x xs s s'} : (∀ w, s.mark x = some w → ¬ w ≤ m2) → Clean m2 xs s s' → Clean m2 (x :: xs) s s'
  | hit {x xs s s' w last} : s.mark x = some w → w ≤ m2 → s.Desc x last →
      Clean m2 xs ((s.forget (s.Desc x)).remove (s.Desc last)) s' → Clean m2 (x :: xs) s s'

/-- The nodes and edges for the markings that follow (minimal_coverability_graph.py:139-144). -/
def addSucc (n : Nat) (s : Mct P T) (el : Vec P × T) : Mct P T :=
  { s with mark := fun x => if x = s.next then some el.1 else s.mark x,
           edges := s.edges ++ [(n, el.2, s.next)],
           unproc := s.unproc ++ [s.next], next := s.next + 1 }

/-- One iteration of the loop (minimal_coverability_graph.py:86-145) for the node `n` that was popped and its marking `v`.
    (A node of `processed_nodes` that is no longer in the graph raises KeyError in Python and is passed over here.) -/
inductive MctStep (N : WNet P T) : Mct P T → Mct P T → Prop
  | same {s us n v} : s.unproc = us ++ [n] → s.mark n = some v → (∃ x ∈ s.proc, s.mark x = some v) →
      MctStep N s { s with unproc := us, proc := n :: s.proc }
  | smaller {s us n v} : s.unproc = us ++ [n] → s.mark n = some v → ¬ (∃ x ∈ s.proc, s.mark x = some v) →
      (∃ x ∈ s.proc, ∃ w, s.mark x = some w ∧ v ≤ w) → (∃ y, s.Edge y n) →
      MctStep N s ({ s with unproc := us }.remove (· = n))
  | greaterAncestor {s us n v n1 s'} {path todo : List Nat} : s.unproc = us ++ [n] → s.mark n = some v →
      ¬ (∃ x ∈ s.proc, s.mark x = some v) → ¬ (∃ x ∈ s.proc, ∃ w, s.mark x = some w ∧ v ≤ w) →
      (∃ x ∈ s.proc, ∃ w, s.mark x = some w ∧ w ≤ v) →
      (∃ a w, s.Anc n a ∧ s.mark a = some w ∧ w ≤ s.accelerate n v) →
      path.head? = some 0 → path.getLast? = some n → path.IsChain s.Edge →
      path.find? (fun x => decide (∃ w, s.mark x = some w ∧ w ≤ s.accelerate n v)) = some n1 →
      List.Perm todo (s.proc.filter fun x => decide (¬ s.Desc n1 x)) →
      Clean (s.accelerate n v) todo
        ((({ s with unproc := us }.forget (s.Desc n1)).remove fun x => s.Desc n1 x ∧ x ≠ n1).renew n1
          (s.accelerate n v)) s' →
      MctStep N s s'
  | greater {s us n v todo s'} : s.unproc = us ++ [n] → s.mark n = some v →
      ¬ (∃ x ∈ s.proc, s.mark x = some v) → ¬ (∃ x ∈ s.proc, ∃ w, s.mark x = some w ∧ v ≤ w) →
      (∃ x ∈ s.proc, ∃ w, s.mark x = some w ∧ w ≤ v) →
      ¬ (∃ a w, s.Anc n a ∧ s.mark a = some w ∧ w ≤ s.accelerate n v) →
      List.Perm todo s.proc →
      Clean (s.accelerate n v) todo { s with unproc := us } s' → MctStep N s { s' with unproc := s'.unproc ++ [n] }
  | expand {s us n v} : s.unproc = us ++ [n] → s.mark n = some v → ¬ (∃ x ∈ s.proc, s.mark x = some v) →
      ¬ (∃ x ∈ s.proc, ∃ w, s.mark x = some w ∧ v ≤ w) → ¬ (∃ x ∈ s.proc, ∃ w, s.mark x = some w ∧ w ≤ v) →
      MctStep N s { (enabledMarkings N v).foldl (addSucc n) { s with unproc := us } with proc := n :: s.proc }

/-- The state before the loop. -/
def mctInit (v0 : Vec P) : Mct P T := ⟨fun x => if x = 0 then some v0 else none, [], [0], [], 1⟩

/-- `minimal_coverability_tree` ends in the state `s`. -/
def MctEnds (N : WNet P T) (v0 : Vec P) (s : Mct P T) : Prop :=
  Relation.ReflTransGen (MctStep N) (mctInit v0) s ∧ s.unproc = []

/-- The node into which a node is merged: the first one whose marking is printed in the same way
    (minimal_coverability_graph.py:159-176). -/
def Rep (N : WNet P T) (s : Mct P T) (x y : Nat) : Prop :=
  ∃ v w, s.mark x = some v ∧ s.mark y = some w ∧ key N v = key N w ∧
    ∀ z < y, ∀ u, s.mark z = some u → key N v ≠ key N u

/-- The edges of the minimal coverability graph (minimal_coverability_graph.py:178-193): those of the merged graph whose
    target has a marking that follows that of the source. -/
def McgEdge (N : WNet P T) (s : Mct P T) (x : Nat) (t : T) (y : Nat) : Prop :=
  (∃ a b, (a, t, b) ∈ s.edges ∧ Rep N s a x ∧ Rep N s b y) ∧
  ∃ v w, s.mark x = some v ∧ s.mark y = some w ∧ ∃ el ∈ enabledMarkings N v, el.1 = w

/-- `check_for_dead_tasks` (graphs/utility.py:103-120) -/
noncomputable def deadTasks (N : WNet P T) (s : Mct P T) : List T :=
  N.trans.filter fun t => decide (N.label t ≠ none ∧ ¬ ∃ x y, McgEdge N s x t y)

/-- `check_for_improper_conditions` (graphs/utility.py:122-132): a node of the graph with an infinite marking. -/
def Improper (N : WNet P T) (s : Mct P T) : Prop := ∃ x v p, Rep N s x x ∧ s.mark x = some v ∧ v p = ⊤

/-! ### Reachability graph -/

/-- The state of the reachability graph (reachability_graph.py:33-43): the markings of the nodes `0, 1, …`, the edges and
    the working set.  `look_up_indices` is the search for a node whose marking is printed in the same way. -/
structure Rg (P T : Type) where
  nodes : List (Vec P)
  edges : List (Nat × T × Nat)
  working : List Nat

/-- One marking that follows (reachability_graph.py:47-55). -/
def rgVisit (N : WNet P T) (m : Nat) (s : Rg P T) (el : Vec P × T) : Rg P T :=
  match s.nodes.findIdx? (fun w => decide (key N w = key N el.1)) with
  | some k => { s with edges := s.edges ++ [(m, el.2, k)] }
  | none => ⟨s.nodes ++ [el.1], s.edges ++ [(m, el.2, s.nodes.length)], s.nodes.length :: s.working⟩

/-- One iteration of the loop (reachability_graph.py:44-55); any element of the working set may be popped. -/
inductive RgStep (N : WNet P T) : Rg P T → Rg P T → Prop
  | mk {s m v} : m ∈ s.working → s.nodes[m]? = some v →
      RgStep N s ((enabledMarkings N v).foldl (rgVisit N m) { s with working := s.working.erase m })

/-- The state before the loop. -/
def rgInit (v0 : Vec P) : Rg P T := ⟨[v0], [], [0]⟩

/-- The construction of the reachability graph ends in the state `g`. -/
def RgEnds (N : WNet P T) (v0 : Vec P) (g : Rg P T) : Prop :=
  Relation.ReflTransGen (RgStep N) (rgInit v0) g ∧ g.working = []

/-- `nx_utils.is_strongly_connected` on the reachability graph. -/
def RgConnected (g : Rg P T) : Prop :=
  ∀ x < g.nodes.length, ∀ y < g.nodes.length, Relation.ReflTransGen (fun a b => ∃ t, (a, t, b) ∈ g.edges) x y

/-! ### The steps of WOFLAN -/

/-- `step_11` (algorithm.py:523-534); where the answer is `False`, step 13 only collects messages. -/
def Step11 (N : WNet P T) (v0 : Vec P) (r : Bool) : Prop := ∃ g, RgEnds N v0 g ∧ (r = true ↔ RgConnected g)

/-- `step_10` (algorithm.py:499-520) with the minimal coverability graph `s`; steps 12 and 13 return `False`. -/
def Step10 (N : WNet P T) (v0 : Vec P) (left : Bool) (s : Mct P T) (r : Bool) : Prop :=
  if deadTasks N s = [] then if left then Step11 N v0 r else r = false else r = false

/-- `step_5` to `step_9` (algorithm.py:425-496).  In step 7 the method `get_left` is compared with `True`, so step 8 is never
    taken; it goes on to step 10 as well. -/
def Step5 (O : Oracle P) (N : WNet P T) (v0 : Vec P) (left : Bool) (r : Bool) : Prop :=
  if O.uniform || O.weighted then ∃ s, MctEnds N v0 s ∧ Step10 N v0 left s r
  else ∃ s, MctEnds N v0 s ∧ if Improper N s then r = false else Step10 N v0 left s r

/-- `step_3` and `step_4` (algorithm.py:382-422) on the short-circuited net. -/
def Step3 (asap : Bool) (O : Oracle P) (N : WNet P T) (v0 : Vec P) (r : Bool) : Prop :=
  if uncovered N O.supports = [] then ∃ s, MctEnds N v0 s ∧ Step10 N v0 true s r
  else if asap then r = false
  else Step5 O N v0 O.notWellHandled r

/-- `apply` (algorithm.py:557-577), `step_1` and `step_2` (297-379): some execution returns `r`. -/
def Answers (asap : Bool) (O : Oracle P) (N : WNet P T) (im fm : List (P × Int)) (r : Bool) : Prop :=
  if im.length = 1 ∧ fm.length = 1 then
    match sourceSink N with
    | none => r = false
    | some (i, o) =>
      if NamesConnected (shortCircuit N i o) then Step3 asap O (shortCircuit N i o) (convertMarking (shortCircuit N i o) im) r
      else r = false
  else r = false

/-- `pm4py.check_soundness` (analysis.py:185-187), which asks WOFLAN to stop as soon as the net is known not to be sound. -/
def CheckSoundness (O : Oracle P) (N : WNet P T) (im fm : List (P × Int)) (r : Bool) : Prop := Answers true O N im fm r

end Verif.Woflan
