import Verif.Footprints.BottomUpTheorems
/-
Model of the reduction of a process tree with respect to a trace:
/repo/pm4py/algo/reduction/process_tree/variants/tree_tr_based.py:45-113.

The objects: a node of the copied tree is given by its path in the tree.  The code only writes to slots of the lists of
children, and always writes a new silent leaf, so that the state of all objects is the set of the overwritten slots; a slot is
given by the path of the child that was originally there.
-/
namespace Verif
namespace TreeRed
open PT BU Foot
variable {α : Type} [DecidableEq α]

/-- a slot of the list of children of a node: the path of the child that it originally contains -/
abbrev Path := List Nat

mutual
/-- the current content of the node object at path `p`, which was originally the subtree given; `R` are the overwritten slots -/
def cur (R : List Path) (p : Path) : PT α → PT α
  | .leaf l => .leaf l
  | .node op cs => .node op (curL R p 0 cs)
/-- the current content of the slots of the node object at path `p`, from slot number `i` -/
def curL (R : List Path) (p : Path) (i : Nat) : List (PT α) → List (PT α)
  | [] => []
  | c :: cs => (if p ++ [i] ∈ R then .leaf none else cur R (p ++ [i]) c) :: curL R p (i + 1) cs
end

/-- the path of a node object of the bottom-up list, from its subtree and those of its ancestors.  Among equal siblings the list
has the first one (`all_nodes` is filled in breadth-first order). -/
def pathOf : PT α → List (PT α) → Path
  | _, [] => []
  | s, p :: ps => pathOf p ps ++ [p.children.findIdx fun c => pyEq c s]

/-- one iteration of the loop of `reduce` (tree_tr_based.py:99-111).  `fps` has the footprints of the nodes of the list (the
dictionary of identities of line 73 has the same entries), `acts` the activities of the trace.  `none`: an exception
(`KeyError`, `None.children`, or `ValueError` of `list.index`) -/
def step (fps : List (PT α × FP α)) (acts : List α) (R : List Path) (x : Nd α) : Option (List Path) := do
  let f ← look fps x.sub
  if f.skip && (inter f.acts acts).isEmpty then
    let p ← x.parent
    let node := cur R (pathOf x.sub x.anc) x.sub
    let i ← (curL R (pathOf p.sub p.anc) 0 p.sub.children).findIdx? fun c => pyEq c node
    return (pathOf p.sub p.anc ++ [i]) :: R
  else return R

/-- the loop of `reduce` (tree_tr_based.py:98-111) -/
def loop (fps : List (PT α × FP α)) (acts : List α) : List Path → List (Nd α) → Option (List Path)
  | R, [] => some R
  | R, x :: xs => do loop fps acts (← step fps acts R x) xs

/-- `apply` (tree_tr_based.py:45-74) and `reduce` (tree_tr_based.py:77-111), up to the call of `fold`.  The trace is given by its
activities; `ord` is the iteration order of sets of nodes -/
def reduce (ord : List (Nd α) → List (Nd α)) (tree : PT α) (trace_ : List α) : Option (PT α) := do
  let bu := bottomup ord tree
  let fps ← fill fpLeaf fpOp [] bu
  let R ← loop fps trace_ [] bu.dropLast
  let r ← bu.getLast?
  return cur R (pathOf r.sub r.anc) r.sub

/-- `apply` (tree_tr_based.py:45-74) with the last line of `reduce` (tree_tr_based.py:113).  `sz` are the lengths of the printed
labels; `fold` is given a number of calls within which its recursion ends (C10). -/
def apply (ord : List (Nd α) → List (Nd α)) (sz : α → Nat) (tree : PT α) (trace_ : List α) : Option (PT α) := do
  let t ← reduce ord tree trace_
  fold sz (strLen sz t + 1) t

end TreeRed
end Verif
