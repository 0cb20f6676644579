import Verif.Bpmn.Model
import Verif.PTree.Lang
/-
Model of the conversion of process trees to BPMN graphs (/repo/pm4py/objects/conversion/process_tree/variants/to_bpmn.py).

Objects are modelled by numbers.  The code only compares them, so any numbers do; the model uses numbers that make the proofs easier:
* node number `k` (in the order of creation) has the identity `3k` if it is an auxiliary task of a sequence, `3k+1` if it is the task of a
  silent leaf and `3k+2` otherwise;
* a flow to an auxiliary task `3k` has the identity `B + k`; the other flows have the identities `0, 1, ...` (`B` is above all of them).
-/
namespace Verif
namespace TreeBpmn
open Bpmn

/-- the next node number, the next flow identity and `counts.num_tau_trans` -/
structure Cnt where
  k : Nat
  j : Nat
  c : Nat
  deriving DecidableEq, Repr

/-- what a call of `recursively_add_tree` adds: nodes, flows, `counts.tau_trans`; the new counters; `final_connector` (0: `None`).
(`initial_connector` is never used.) -/
structure Out where
  nodes : List Node := []
  flows : List Flow := []
  taus : List Nat := []
  cnt : Cnt
  last : Nat := 0
  deriving DecidableEq, Repr

/-- to_bpmn.py:141-172: two gateways of class `kd` around what has been added for the children (`r`) -/
def gate (kd : Kind) (src tgt fi fo : Nat) (c : Cnt) (r : Out) : Out :=
  { r with nodes := [⟨3 * c.k + 2, kd, ""⟩, ⟨3 * (c.k + 1) + 2, kd, ""⟩] ++ r.nodes,
           flows := r.flows ++ [⟨fi, src, 3 * c.k + 2⟩, ⟨fo, 3 * (c.k + 1) + 2, tgt⟩], last := 3 * (c.k + 1) + 2 }

mutual
/-- `recursively_add_tree(parent_tree, tree, bpmn, initial_event, final_event, counts, rec_depth)` (to_bpmn.py:119-203): `src` is
`initial_event`, `tgt` is `final_event`; `fi` and `fo` are the identities for the flow from `src` and the flow to `tgt`. -/
def rec (B : Nat) : PT String → Nat → Nat → Nat → Nat → Cnt → Out
  -- to_bpmn.py:127-133
  | .leaf none, src, tgt, fi, fo, c =>
    let id := 3 * c.k + 1
    { nodes := [⟨id, .task, "tau_" ++ toString (c.c + 1)⟩], flows := [⟨fi, src, id⟩, ⟨fo, id, tgt⟩], taus := [id],
      cnt := ⟨c.k + 1, c.j, c.c + 1⟩, last := id }
  -- to_bpmn.py:134-139
  | .leaf (some a), src, tgt, fi, fo, c =>
    let id := 3 * c.k + 2
    { nodes := [⟨id, .task, a⟩], flows := [⟨fi, src, id⟩, ⟨fo, id, tgt⟩], cnt := ⟨c.k + 1, c.j, c.c⟩, last := id }
  -- to_bpmn.py:141-150
  | .node .xor cs, src, tgt, fi, fo, c =>
    gate .xor src tgt fi fo c (recKids B cs (3 * c.k + 2) (3 * (c.k + 1) + 2) ⟨c.k + 2, c.j, c.c⟩)
  -- to_bpmn.py:152-161
  | .node .par cs, src, tgt, fi, fo, c =>
    gate .par src tgt fi fo c (recKids B cs (3 * c.k + 2) (3 * (c.k + 1) + 2) ⟨c.k + 2, c.j, c.c⟩)
  -- to_bpmn.py:163-172
  | .node .or cs, src, tgt, fi, fo, c =>
    gate .incl src tgt fi fo c (recKids B cs (3 * c.k + 2) (3 * (c.k + 1) + 2) ⟨c.k + 2, c.j, c.c⟩)
  -- to_bpmn.py:174-190
  | .node .seq cs, src, tgt, fi, fo, c =>
    let h := 3 * c.k
    let r := recSeq B cs src h (B + c.k) fi tgt fo ⟨c.k + 1, c.j, c.c + 1⟩
    { r with nodes := ⟨h, .task, "tau_" ++ toString (c.c + 1)⟩ :: r.nodes, taus := h :: r.taus }
  -- to_bpmn.py:192-201
  | .node .loop (t :: ts), src, tgt, fi, fo, c =>
    let split := 3 * c.k + 2
    let join := 3 * (c.k + 1) + 2
    let r := rec B t join split c.j (c.j + 1) ⟨c.k + 2, c.j + 2, c.c⟩
    let s := recKids B ts split join r.cnt
    { nodes := [⟨split, .xor, ""⟩, ⟨join, .xor, ""⟩] ++ r.nodes ++ s.nodes,
      flows := r.flows ++ s.flows ++ [⟨fi, src, join⟩, ⟨fo, split, tgt⟩], taus := r.taus ++ s.taus, cnt := s.cnt, last := split }
  -- no child: IndexError (the model returns nothing)
  | .node .loop [], _, _, _, _, c => { cnt := c }
  -- INTERLEAVING: no branch
  | .node .inter _, _, _, _, _, c => { cnt := c }
/-- the loops over the children between two gateways (to_bpmn.py:143-146, 154-157, 165-168, 196-197) -/
def recKids (B : Nat) : List (PT String) → Nat → Nat → Cnt → Out
  | [], _, _, c => { cnt := c }
  | t :: ts, split, join, c =>
    let r := rec B t split join (c.j + 1) c.j ⟨c.k, c.j + 2, c.c⟩
    let s := recKids B ts split join r.cnt
    { nodes := r.nodes ++ s.nodes, flows := r.flows ++ s.flows, taus := r.taus ++ s.taus, cnt := s.cnt, last := 0 }
/-- the loop over the children of a sequence (to_bpmn.py:177-190): `src` is `initial_intermediate_task`, `mid` is
`final_intermediate_task`; `tgt` is `final_event` -/
def recSeq (B : Nat) : List (PT String) → Nat → Nat → Nat → Nat → Nat → Nat → Cnt → Out
  | [], _, _, _, _, _, _, c => { cnt := c }
  | t :: ts, src, mid, fm, fi, tgt, fo, c =>
    -- `c.j` is set aside for the flow to the next child
    let r := rec B t src mid fi fm ⟨c.k, if ts.isEmpty then c.j else c.j + 1, c.c⟩
    if ts.length = 1 then
      let s := recSeq B ts r.last tgt fo c.j tgt fo r.cnt
      { nodes := r.nodes ++ s.nodes, flows := r.flows ++ s.flows, taus := r.taus ++ s.taus, cnt := s.cnt, last := s.last }
    else
      let h := 3 * r.cnt.k
      let s := recSeq B ts r.last h (B + r.cnt.k) c.j tgt fo ⟨r.cnt.k + 1, r.cnt.j, r.cnt.c + 1⟩
      { nodes := r.nodes ++ (⟨h, .task, "tau_" ++ toString (r.cnt.c + 1)⟩ :: s.nodes), flows := r.flows ++ s.flows,
        taus := r.taus ++ (h :: s.taus), cnt := s.cnt, last := if ts.isEmpty then r.last else s.last }
end

/-- one iteration of `delete_tau_transitions` (to_bpmn.py:208-226) for the task `x`; `none`: an exception.  The new flow gets the identity of
the removed incoming flow. -/
def delTau (g : Graph) (x : Nat) : Option Graph :=
  let ins := g.inFlows x
  let outs := g.outFlows x
  if ins.length > 1 ∨ outs.length > 1 then none
  else match ins, outs with
  | f :: _, e :: _ =>
    if f = e then none   -- `remove_flow` of a flow that was removed
    else some ⟨g.nodes.filter fun n => decide (n.id ≠ x),
      (g.flows.filter fun y => decide (y ≠ e ∧ y ≠ f)) ++ [⟨f.id, f.src, e.tgt⟩]⟩
  | _, _ => some ⟨g.nodes.filter fun n => decide (n.id ≠ x), g.flows.filter fun y => decide (y ∉ ins ∧ y ∉ outs)⟩

/-- `delete_tau_transitions` (to_bpmn.py:206-228) -/
def delTaus : List Nat → Graph → Option Graph
  | [], g => some g
  | x :: xs, g => (delTau g x).bind (delTaus xs)

mutual
/-- number of nodes of a tree -/
def size : PT String → Nat
  | .leaf _ => 1
  | .node _ cs => sizes cs + 1
/-- number of nodes of the trees -/
def sizes : List (PT String) → Nat
  | [] => 0
  | t :: ts => size t + sizes ts
end

/-- the graph before `delete_tau_transitions` and `counts.tau_trans` (to_bpmn.py:247-253) -/
def build (t : PT String) : Graph × List Nat :=
  let r := rec (2 * size t + 2) t 2 5 0 1 ⟨2, 2, 0⟩
  (⟨[⟨2, .start, "start"⟩, ⟨5, .fin, "end"⟩] ++ r.nodes, r.flows⟩, r.taus)

/-- `apply` (to_bpmn.py:231-263); `none`: an exception -/
def apply (t : PT String) : Option Graph := delTaus (build t).2 (build t).1

end TreeBpmn
end Verif
