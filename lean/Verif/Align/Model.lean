import Verif.Petri.Reach
/-
Model of the synchronous product and of the alignment search:
/repo/pm4py/objects/petri_net/utils/synchronous_product.py, utils/petri_utils.py (trace net, decorations),
utils/align_utils.py, /repo/pm4py/algo/conformance/alignments/petri_net/variants/dijkstra_no_heuristics.py.
-/
namespace Verif
open Dict

/-- A labelled net: `PetriNet.Transition.label` (obj.py:190-230) is an activity or `None`. -/
structure LNet (P T A : Type) extends Net P T where
  label : T → Option A

namespace Align
variable {P P1 P2 T T1 T2 A : Type}

/-! ### Trace net -/

/-- net built by `construct_trace_net` / `construct_trace_net_cost_aware` (petri_utils.py:198-228, 231-266):
place `i` is `p_i`, transition `i` carries the activity of event `i`. -/
def traceNet (tr : List A) : LNet Nat Nat A where
  places := List.range (tr.length + 1)
  transitions := List.range tr.length
  inArcs i := [(i, 1)]
  outArcs i := [(i + 1, 1)]
  label i := tr[i]?

/-- initial marking of the trace net (petri_utils.py:228) -/
def traceIm : Marking Nat := [(0, 1)]
/-- final marking of the trace net (petri_utils.py:228) -/
def traceFm (tr : List A) : Marking Nat := [(tr.length, 1)]

/-! ### Synchronous product -/

/-- Transitions of the synchronous product: a copy `(t1, >>)` of every transition of the first net, a copy
`(>>, t2)` of every transition of the second net, and one transition per synchronised pair
(synchronous_product.py:44-46, 151-159; transitions are compared by identity, so these are all different). -/
inductive Move (T1 T2 : Type)
  | left (t1 : T1)
  | right (t2 : T2)
  | sync (t1 : T1) (t2 : T2)
  deriving DecidableEq, Repr

/-- one component of the label of a product transition: the skip symbol `>>`, or a label (activity or `None`).
Simplification: an activity that is itself called `>>` is kept apart from the skip symbol. -/
inductive Cell (A : Type)
  | skip
  | lab (l : Option A)
  deriving DecidableEq, Repr

/-- `add_arc_from_to(p_map[a.source], t, net)` for all arcs in `as` (synchronous_product.py:51-58, 168-172):
the default weight 1 is used, whatever `a.weight` is. -/
def copyArcs {Q Q' : Type} (f : Q → Q') (as : List (Q × Int)) : List (Q' × Int) := as.map fun a => (f a.1, 1)

/-- `construct` (synchronous_product.py:22-76, with `__copy_into` 146-174). -/
def product [DecidableEq A] (n1 : LNet P1 T1 A) (n2 : LNet P2 T2 A) : LNet (P1 ⊕ P2) (Move T1 T2) (Cell A × Cell A) where
  places := n1.places.map Sum.inl ++ n2.places.map Sum.inr
  transitions := n1.transitions.map Move.left ++ n2.transitions.map Move.right ++
    n1.transitions.flatMap fun t1 =>
      (n2.transitions.filter fun t2 => decide (n1.label t1 = n2.label t2)).map fun t2 => Move.sync t1 t2
  inArcs
    | .left t1 => copyArcs Sum.inl (n1.inArcs t1)
    | .right t2 => copyArcs Sum.inr (n2.inArcs t2)
    | .sync t1 t2 => copyArcs Sum.inl (n1.inArcs t1) ++ copyArcs Sum.inr (n2.inArcs t2)
  outArcs
    | .left t1 => copyArcs Sum.inl (n1.outArcs t1)
    | .right t2 => copyArcs Sum.inr (n2.outArcs t2)
    | .sync t1 t2 => copyArcs Sum.inl (n1.outArcs t1) ++ copyArcs Sum.inr (n2.outArcs t2)
  label
    | .left t1 => some (.lab (n1.label t1), .skip)
    | .right t2 => some (.skip, .lab (n2.label t2))
    | .sync t1 t2 => some (.lab (n1.label t1), .lab (n2.label t2))

/-- `sync_im` / `sync_fm` (synchronous_product.py:60-69) -/
def productMarking [DecidableEq P1] [DecidableEq P2] (m1 : Marking P1) (m2 : Marking P2) : Marking (P1 ⊕ P2) :=
  m2.foldl (fun m e => Dict.set m (.inr e.1) e.2) (m1.foldl (fun m e => Dict.set m (.inl e.1) e.2) [])

/-- `costs` of `construct_cost_aware` (synchronous_product.py:105-108, 115) -/
def productCost (c1 : T1 → Int) (c2 : T2 → Int) (cs : T1 → T2 → Int) : Move T1 T2 → Int
  | .left t1 => c1 t1
  | .right t2 => c2 t2
  | .sync t1 t2 => cs t1 t2

/-- `construct_standard_cost_function` on a label of the product (align_utils.py:112-132) -/
def standardCost [DecidableEq A] (l : Cell A × Cell A) : Int :=
  if (l.1 = .skip ∨ l.2 = .skip) ∧ (l.1 ≠ .lab none ∧ l.2 ≠ .lab none) then 10000
  else if l.1 = .skip ∧ l.2 = .lab none then 1
  else 0

/-! ### Decorations used by the search -/

section
variable [DecidableEq P] [DecidableEq T]

/-- `trans.sub_marking` (petri_utils.py:371-374) -/
def subMarking (net : Net P T) (t : T) : Marking P :=
  (net.inArcs t).foldl (fun m a => Dict.set m a.1 a.2) []

/-- `trans.add_marking` (petri_utils.py:372-380) -/
def addMarking (net : Net P T) (t : T) : Marking P :=
  (net.outArcs t).foldl
    (fun m a => if Dict.has m a.1 then Dict.set m a.1 (a.2 + Dict.count m a.1) else Dict.set m a.1 a.2)
    ((net.inArcs t).foldl (fun m a => Dict.set m a.1 (-a.2)) [])

/-- `place.ass_trans` (petri_utils.py:350-355) -/
def assTrans (net : Net P T) (p : P) : List T :=
  net.transitions.filter fun t => decide (p ∈ Dict.keys (subMarking net t))

/-- `utils.add_markings` (align_utils.py:191-199) -/
def addMarkings (curr add : Marking P) : Marking P :=
  add.foldl
    (fun m e => let m1 := Dict.set m e.1 (Dict.count m e.1 + e.2)
                if Dict.count m1 e.1 = 0 then Dict.del m1 e.1 else m1)
    (curr.foldl (fun m e => Dict.set m e.1 e.2) [])

/-- `set.add` -/
def setAdd {X : Type} [DecidableEq X] (s : List X) (x : X) : List X := if x ∈ s then s else s ++ [x]

/-- `enabled_trans` (dijkstra_no_heuristics.py:331, 352-356): transitions without input arcs, and those
attached to a marked place whose `sub_marking` is contained in the marking -/
def enabledTrans (net : Net P T) (m : Marking P) : List T :=
  (Dict.keys m).foldl
    (fun s p => (assTrans net p).foldl (fun s t => if Marking.le (subMarking net t) m then setAdd s t else s) s)
    (net.transitions.filter fun t => (net.inArcs t).isEmpty)

/-- `__is_log_move` (align_utils.py:236-237) -/
def isLogMove [DecidableEq A] (l : Cell A × Cell A) : Bool := decide (l.1 ≠ .skip ∧ l.2 = .skip)
/-- `__is_model_move` (align_utils.py:232-233) -/
def isModelMove [DecidableEq A] (l : Cell A × Cell A) : Bool := decide (l.1 = .skip ∧ l.2 ≠ .skip)

end

/-- what the search needs to know about the net: `enabled_trans` (filtered as in
dijkstra_no_heuristics.py:358-359), successor markings (363) and equality of markings -/
def searchSem [DecidableEq P] [DecidableEq T] [DecidableEq A] (net : LNet P T (Cell A × Cell A)) :
    Reach.Sem (Marking P) T where
  enabled m := (enabledTrans net.toNet m).filter fun t =>
    match net.label t with
    | some l => !(isLogMove l && isModelMove l)
    | none => true
  exec t m := addMarkings m (addMarking net.toNet t)
  eqv := Marking.eq

/-! ### The search loop -/

/-- `DijkstraSearchTuple(g, m, p, t, l)` (align_utils.py:338-344); the initial tuple has no parent. -/
inductive Tup (S T : Type)
  | root (m : S)
  | child (g : Int) (m : S) (p : Tup S T) (t : T) (l : Nat)

namespace Tup
variable {S : Type}
/-- field `g` (the initial tuple is created with 0, dijkstra_no_heuristics.py:321) -/
def g : Tup S T → Int
  | root _ => 0
  | child g _ _ _ _ => g
/-- field `m` -/
def m : Tup S T → S
  | root m => m
  | child _ m _ _ _ => m
/-- field `l` -/
def l : Tup S T → Nat
  | root _ => 0
  | child _ _ _ _ l => l
/-- `__lt__` (align_utils.py:346-352) -/
def lt (a b : Tup S T) : Bool :=
  if a.g < b.g then true else if b.g < a.g then false else decide (b.l < a.l)
/-- transitions collected by `__reconstruct_alignment` (align_utils.py:208-223; the code reports their labels) -/
def alignment : Tup S T → List T
  | root _ => []
  | child _ _ p t _ => alignment p ++ [t]
end Tup

/-- Unspecified orders of an execution: what `heapq.heappop` takes out in iteration `n`, and the iteration order
of the set `enabled_trans` in iteration `n`. -/
structure Sched (S T : Type) where
  pop : Nat → List (Tup S T) → Option (Tup S T × List (Tup S T))
  ord : Nat → List T → List T

/-- contract of `heapq` (a popped item is minimal for `__lt__`, the others stay) and of set iteration -/
structure Sched.Ok {S T : Type} (sch : Sched S T) : Prop where
  pop_nil : ∀ n, sch.pop n [] = none
  pop_cons : ∀ n l, l ≠ [] → ∃ x rest, sch.pop n l = some (x, rest) ∧ l.Perm (x :: rest) ∧ ∀ y ∈ rest, Tup.lt y x = false
  ord_perm : ∀ n l, (sch.ord n l).Perm l

/-- state of `__search` -/
inductive St (S T : Type)
  | running (openSet : List (Tup S T)) (closed : List S)
  | found (x : Tup S T)
  | exhausted

/-- one iteration of the `while` loop (dijkstra_no_heuristics.py:333-371; the time limit is not modelled) -/
def searchStep {S : Type} (sem : Reach.Sem S T) (cost : T → Int) (fin : S) (sch : Sched S T) (n : Nat) : St S T → St S T
  | .running openSet closed =>
    match sch.pop n openSet with
    | none => .exhausted
    | some (curr, rest) =>
      if closed.any fun c => sem.eqv c curr.m then .running rest closed
      else if sem.eqv curr.m fin then .found curr
      else
        let closed := closed ++ [curr.m]
        .running
          ((sch.ord n (sem.enabled curr.m)).foldl
            (fun o t =>
              let nm := sem.exec t curr.m
              if closed.any fun c => sem.eqv c nm then o
              else o ++ [Tup.child (curr.g + cost t) nm curr t (curr.l + 1)])
            rest)
          closed
  | s => s

/-- `__search` after `n` iterations -/
def search {S : Type} (sem : Reach.Sem S T) (cost : T → Int) (ini fin : S) (sch : Sched S T) : Nat → St S T
  | 0 => .running [.root ini] []
  | n + 1 => searchStep sem cost fin sch n (search sem cost ini fin sch n)

end Align
end Verif
