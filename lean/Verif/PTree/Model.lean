import Verif.PTree.Lang
/-
Model of /repo/pm4py/objects/process_tree/utils/generic.py (tree rewriting functions).
Trees are values: object identity, parent pointers and in-place mutation are replaced by returning the
new tree.  Where list mutation during iteration or identity is observable, it is modelled explicitly.
-/
namespace Verif.PT
variable {α : Type}

/-- `tree.label` (obj.py:131). -/
def label : PT α → Option α
  | .leaf l => l
  | .node _ _ => none

/-- `tree.children` (obj.py:122). -/
def children : PT α → List (PT α)
  | .leaf _ => []
  | .node _ cs => cs

/-- `tree.operator` (obj.py:128). -/
def operator : PT α → Option Op
  | .leaf _ => none
  | .node op _ => some op

/-- `is_tau_leaf` (generic.py:167-172). -/
def isTau : PT α → Bool
  | .leaf none => true
  | _ => false

mutual
/-- `ProcessTree.__eq__` (obj.py:134-151). -/
def pyEq [DecidableEq α] : PT α → PT α → Bool
  | .leaf (some a), o => decide (label o = some a)
  | .leaf none, o => (label o).isNone && (children o).isEmpty
  | .node op cs, o =>
    if cs.isEmpty then (label o).isNone && (children o).isEmpty
    else decide (operator o = some op) && pyEqL cs (children o)
/-- the child-by-child comparison of obj.py:143-149 (lengths must agree) -/
def pyEqL [DecidableEq α] : List (PT α) → List (PT α) → Bool
  | [], [] => true
  | c :: cs, d :: ds => pyEq c d && pyEqL cs ds
  | _, _ => false
end

/-- Python `list.remove(c)`: delete the first element equal to `c` (no error branch: it is only called
with an element of the list). -/
def pyRemove [DecidableEq α] (c : PT α) (l : List (PT α)) : List (PT α) :=
  l.eraseP (fun item => pyEq item c)

/-- `for c in cc: if is_tau_leaf(c): tree.children.remove(c)` where `cc` *is* `tree.children`
(generic.py:140-144 and 149-153): the Python list iterator is an index that advances also when the list
shrinks.  `fuel` bounds the number of iterations by the initial length. -/
def removeTausIterating [DecidableEq α] : Nat → Nat → List (PT α) → List (PT α)
  | 0, _, l => l
  | fuel + 1, i, l =>
    match l[i]? with
    | none => l
    | some c =>
      if isTau c then removeTausIterating fuel (i + 1) (pyRemove c l)
      else removeTausIterating fuel (i + 1) l

/-- one pass of `for c in cc: if is_tau_leaf(c): ...remove(c); break` (generic.py:132-137) -/
def removeOneTau [DecidableEq α] (l : List (PT α)) : List (PT α) :=
  match l.find? isTau with
  | none => l
  | some c => pyRemove c l

/-- `while silents > 1: ...` (generic.py:130-137 and 156-163); the argument is `silents`. -/
def removeTausButOne [DecidableEq α] : Nat → List (PT α) → List (PT α)
  | 0, l => l
  | 1, l => l
  | n + 2, l => removeTausButOne (n + 1) (removeOneTau l)

/-- The rewriting of the children list of one node (generic.py:120-163). -/
def tauChildren [DecidableEq α] (op : Op) (cs : List (PT α)) : List (PT α) :=
  let silents := cs.countP isTau
  if silents > 0 then
    if cs.length = silents then
      if op = .seq ∨ op = .par ∨ op = .xor ∨ op = .or then removeTausButOne silents cs
      else if op = .loop ∧ cs.length = 2 then removeTausIterating cs.length 0 cs
      else cs
    else if op = .seq ∨ op = .par then removeTausIterating cs.length 0 cs
    else if op = .xor ∨ op = .or then removeTausButOne silents cs
    else cs
  else cs

mutual
/-- `reduce_tau_leafs` (generic.py:108-164). -/
def reduceTau [DecidableEq α] : PT α → PT α
  | .leaf l => .leaf l
  | .node op cs => .node op (tauChildren op (reduceTauL cs))
/-- the recursive calls of generic.py:118-119 -/
def reduceTauL [DecidableEq α] : List (PT α) → List (PT α)
  | [] => []
  | c :: cs => reduceTau c :: reduceTauL cs
end

/-- Number of nodes (not in the code; used as termination measure). -/
def size : PT α → Nat
  | .leaf _ => 1
  | .node _ cs => 1 + (cs.attach.map fun c => size c.1).sum
termination_by t => t
decreasing_by
  have := List.sizeOf_lt_of_mem c.2
  simp_wf; omega

theorem size_node (op : Op) (cs : List (PT α)) : size (.node op cs) = 1 + (cs.map size).sum := by
  rw [size]; congr 2
  simp [List.attach_map_val (f := size)]

theorem size_lt_of_mem {c : PT α} {cs : List (PT α)} (h : c ∈ cs) : size c ≤ (cs.map size).sum := by
  induction cs with
  | nil => cases h
  | cons d ds ih =>
    simp
    cases h with
    | head => omega
    | tail _ h => have := ih h; omega

theorem sum_size_sublist {l l' : List (PT α)} (h : l.Sublist l') :
    (l.map size).sum ≤ (l'.map size).sum := by
  induction h with
  | slnil => simp
  | cons a _ ih => simp; omega
  | cons_cons a _ ih => simp; omega

theorem pyRemove_sublist [DecidableEq α] (c : PT α) (l : List (PT α)) : (pyRemove c l).Sublist l :=
  List.eraseP_sublist

theorem removeTausIterating_sublist [DecidableEq α] (n i : Nat) (l : List (PT α)) :
    (removeTausIterating n i l).Sublist l := by
  induction n generalizing i l with
  | zero => simp [removeTausIterating]
  | succ n ih =>
    simp only [removeTausIterating]
    split
    · simp
    · split
      · exact (ih _ _).trans (pyRemove_sublist _ _)
      · exact ih _ _

theorem removeOneTau_sublist [DecidableEq α] (l : List (PT α)) : (removeOneTau l).Sublist l := by
  unfold removeOneTau
  split
  · simp
  · exact pyRemove_sublist _ _

theorem removeTausButOne_sublist [DecidableEq α] (n : Nat) (l : List (PT α)) :
    (removeTausButOne n l).Sublist l := by
  fun_induction removeTausButOne n l with
  | case1 => simp
  | case2 => simp
  | case3 n l ih => exact ih.trans (removeOneTau_sublist _)

theorem tauChildren_sublist [DecidableEq α] (op : Op) (cs : List (PT α)) :
    (tauChildren op cs).Sublist cs := by
  unfold tauChildren
  simp only
  repeat' split
  all_goals first
    | exact removeTausButOne_sublist _ _
    | exact removeTausIterating_sublist _ _ _
    | exact List.Sublist.refl _

theorem reduceTauL_eq [DecidableEq α] (cs : List (PT α)) : reduceTauL cs = cs.map reduceTau := by
  induction cs with
  | nil => simp [reduceTauL]
  | cons c cs ih => simp [reduceTauL, ih]

theorem reduceTau_node [DecidableEq α] (op : Op) (cs : List (PT α)) :
    reduceTau (.node op cs) = .node op (tauChildren op (cs.map reduceTau)) := by
  simp [reduceTau, reduceTauL_eq]

theorem reduceTau_leaf [DecidableEq α] (l : Option α) : reduceTau (.leaf l) = .leaf l := by
  simp [reduceTau]

theorem size_reduceTau [DecidableEq α] (t : PT α) : size (reduceTau t) ≤ size t := by
  induction t using PT.induct with
  | leaf l => simp [reduceTau_leaf]
  | node op cs ih =>
    rw [reduceTau_node, size_node, size_node]
    have h1 := sum_size_sublist (tauChildren_sublist op (cs.map reduceTau))
    have h2 : ((cs.map reduceTau).map size).sum ≤ (cs.map size).sum := by
      clear h1
      induction cs with
      | nil => simp
      | cons c cs ihc =>
        have h3 := ih c (by simp)
        have h4 := ihc (fun d hd => ih d (by simp [hd]))
        simp at *; omega
    omega

/-- `i = tree.children.index(c); tree.children[i:i] = c.children; tree.children.remove(c)`
(generic.py:98-102) at value level.  Simplification: the subsequent `c.children.clear()` acts on the
removed object only (object identity is not modelled; the removed element is structurally equal to `c`). -/
def spliceOne [DecidableEq α] (l : List (PT α)) (c : PT α) : List (PT α) :=
  let i := l.findIdx (fun item => pyEq item c)
  pyRemove c (l.take i ++ children c ++ l.drop i)

/-- `for c in chlds: if c.operator == tree.operator: ...` (generic.py:95-104); `chlds` is a copy. -/
def spliceSame [DecidableEq α] (op : Op) (l : List (PT α)) : List (PT α) :=
  l.foldl (fun acc c => if operator c = some op then spliceOne acc c else acc) l

/-- generic.py:68-105 for a node whose children were already folded.  The Boolean tells whether the
returned object is the node itself (`return tree`) or another object (`return child`). -/
def foldNode [DecidableEq α] (op : Op) (cs : List (PT α)) : Option (PT α × Bool) :=
  match cs with
  | [] => none
  | [c] => some (c, false)
  | cs =>
    -- generic.py:83-92
    let cs1 := if op = .seq ∨ op = .par then cs.filter (fun c => !isTau c) else cs
    if (op = .seq ∨ op = .par) ∧ cs1 = [] then some (.leaf none, true)   -- operator set to None
    -- generic.py:94-104
    else if op = .seq ∨ op = .xor ∨ op = .par then some (.node op (spliceSame op cs1), true)
    else some (.node op cs1, true)

/-- `_fold` (generic.py:65-105); `none` is Python's `None`. -/
def fold1 [DecidableEq α] (t : PT α) : Option (PT α × Bool) :=
  match h : reduceTau t with
  | .leaf l => some (.leaf l, true)
  | .node op [] => some (.node op [], true)
  | .node op (c :: cs) =>
    foldNode op (((c :: cs).attach.map fun d => fold1 d.1).filterMap (·.map Prod.fst))
termination_by size t
decreasing_by
  have h1 := size_reduceTau t
  have h2 := size_lt_of_mem d.2
  rw [h, size_node] at h1
  omega

/-- The loop `while root.parent is None and len(tree.children) == 1` (generic.py:41-46), for a tree
without parent. -/
def stripRoot (t : PT α) : PT α :=
  match t with
  | .node _ [c] => stripRoot c
  | t => t
termination_by size t
decreasing_by rw [size_node]; simp

/-- `len(str(operator))` (obj.py:22-36, 38-47). -/
def opLen : Op → Nat
  | .seq => 2
  | .inter => 2
  | _ => 1

/-- length of the representation of a child inside `to_string` (obj.py:164-174); `sz` is the length of a
label. Quoted labels take two more characters. -/
def reprLen (sz : α → Nat) : PT α → Nat
  | .leaf none => 3
  | .leaf (some a) => sz a + 2
  | .node op cs =>
    opLen op + 2
      + ((cs.attach.map fun c => reprLen sz c.1).sum + 2 * (cs.length - 1)) + 2
termination_by t => t
decreasing_by
  have := List.sizeOf_lt_of_mem c.2
  simp_wf; omega

/-- `len(str(tree))` (obj.py:153-182): like `reprLen`, but a root label is printed without quotes. -/
def strLen (sz : α → Nat) : PT α → Nat
  | .leaf (some a) => sz a
  | t => reprLen sz t

/-- `fold` (generic.py:28-62) on a tree without parent.  `none`: the recursion did not end within `fuel`
calls, or Python would raise / return a corrupted object (`_fold` returning `None`, or line 62 returning
the object `tree` that line 56 has emptied). -/
def fold [DecidableEq α] (sz : α → Nat) : Nat → PT α → Option (PT α)
  | 0, _ => none
  | fuel + 1, t0 =>
    match fold1 t0 with
    | none => none
    | some (t1, _) =>
      let t2 := stripRoot t1
      let t3 := reduceTau t2
      -- lines 52-54
      let t4? := if strLen sz t3 ≠ strLen sz t2 then fold sz fuel t3 else some t3
      match t4? with
      | none => none
      | some t4 =>
        -- `tree_str` is the string of the current `tree` in both branches as far as its length is concerned
        match fold1 t4 with
        | none => none
        | some (t5, same) =>
          if strLen sz t5 ≠ strLen sz t4 then fold sz fuel t5
          else if same then some t5 else none

/-- `tree.labels_hash_sum` as computed by `tree_sort` (generic.py:321-328); `h` stands for the integer
value of the md5 digest of a label. -/
def hashSum (h : α → Nat) : PT α → Nat
  | .leaf none => 0
  | .leaf (some a) => h a
  | .node _ cs => (cs.attach.map fun c => hashSum h c.1).sum
termination_by t => t
decreasing_by
  have := List.sizeOf_lt_of_mem c.2
  simp_wf; omega

mutual
/-- `tree_sort` (generic.py:310-330); `sorted(..., key=...)` is stable, as is `List.mergeSort`. -/
def treeSort (h : α → Nat) : PT α → PT α
  | .leaf l => .leaf l
  | .node op cs =>
    if op = .par ∨ op = .xor then
      .node op ((treeSortL h cs).mergeSort (fun x y => decide (hashSum h x ≤ hashSum h y)))
    else .node op (treeSortL h cs)
/-- generic.py:322-323 -/
def treeSortL (h : α → Nat) : List (PT α) → List (PT α)
  | [] => []
  | c :: cs => treeSort h c :: treeSortL h cs
end

mutual
/-- `structurally_language_equal` (generic.py:333-365); the `None` that Python returns for operators not
listed is `false` here (both are falsy; the function "returns True" iff this is `true`). -/
def sle [DecidableEq α] : PT α → PT α → Bool
  | .leaf (some a), t2 => decide (label t2 = some a)
  | .leaf none, t2 => (label t2).isNone && (children t2).isEmpty
  | .node op cs, t2 =>
    if cs.isEmpty then (label t2).isNone && (children t2).isEmpty
    else if operator t2 = some op then
      if cs.length ≠ (children t2).length then false
      else if op = .seq ∨ op = .loop then slePairs cs (children t2)
      else if op = .par ∨ op = .xor ∨ op = .or then (sleMatch cs (children t2)).isEmpty
      else false
    else false
/-- generic.py:351-354 -/
def slePairs [DecidableEq α] : List (PT α) → List (PT α) → Bool
  | c :: cs, d :: ds => sle c d && slePairs cs ds
  | _, _ => true
/-- generic.py:356-362; `matches` is modelled as the list of the not yet matched children of `tree2`
instead of the list of their indices. -/
def sleMatch [DecidableEq α] : List (PT α) → List (PT α) → List (PT α)
  | [], rest => rest
  | c :: cs, rest => sleMatch cs (rest.eraseP (fun d => sle c d))
end

/-- operator of the new right child in `process_tree_to_binary_process_tree` (generic.py:384-386) -/
def rightOp : Op → Op
  | .loop => .xor
  | op => op

mutual
/-- `process_tree_to_binary_process_tree` (generic.py:380-398). -/
def binarise : PT α → PT α
  | .leaf l => .leaf l
  | .node op cs => binariseNode op cs
/-- the same function applied to the node `op(cs)`; with more than two children the right child
`rightOp op (cs[1:])` is created and visited recursively -/
def binariseNode : Op → List (PT α) → PT α
  | op, [] => .node op []
  | op, [a] => .node op [binarise a]
  | op, [a, b] => .node op [binarise a, binarise b]
  | op, a :: b :: c :: rest => .node op [binarise a, binariseNode (rightOp op) (b :: c :: rest)]
end

end Verif.PT
