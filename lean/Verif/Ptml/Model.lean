import Verif.PTree.Model
/-
Model of the export of process trees to PTML documents and of the import of PTML documents:
/repo/pm4py/objects/process_tree/exporter/variants/ptml.py:32-138,
/repo/pm4py/objects/process_tree/importer/variants/ptml.py:92-172.

A document is modelled after parsing, as the list of its elements.  Not modelled: writing and reading of XML text.
-/
namespace Verif
namespace Ptml
open PT
variable {α : Type}

/-! ### Export -/

/-- a node object of a tree is given by its path -/
abbrev Path := List Nat

/-- the children of a node object -/
def kids (x : Path × PT α) : List (Path × PT α) := x.2.children.zipIdx.map fun ci => (x.1 ++ [ci.2], ci.1)

mutual
/-- number of nodes (only for termination) -/
def size : PT α → Nat
  | .leaf _ => 1
  | .node _ cs => sizeL cs + 1
def sizeL : List (PT α) → Nat
  | [] => 0
  | c :: cs => size c + sizeL cs
end

def sizeQ (q : List (Path × PT α)) : Nat := (q.map fun x => size x.2).sum

theorem sizeL_eq (cs : List (PT α)) : sizeL cs = (cs.map size).sum := by
  induction cs with
  | nil => rfl
  | cons c cs ih => simp [sizeL, ih]

theorem sizeQ_kids (x : Path × PT α) : sizeQ (kids x) + 1 ≤ size x.2 := by
  obtain ⟨p, t⟩ := x
  unfold sizeQ kids
  rw [List.map_map, show ((fun x : Path × PT α => size x.2) ∘ fun ci : PT α × Nat => (p ++ [ci.2], ci.1)) = (size ∘ Prod.fst) from rfl]
  rw [← List.map_map, List.zipIdx_map_fst]
  cases t with
  | leaf l => simp [PT.children, size]
  | node op cs => simp [PT.children, size, sizeL_eq]

/-- the loop of `get_list_nodes_from_tree` (exporter/ptml.py:54-58) with the queue given -/
def bfs : List (Path × PT α) → List (Path × PT α)
  | [] => []
  | x :: q => x :: bfs (q ++ kids x)
termination_by q => sizeQ q
decreasing_by
  have := sizeQ_kids x
  simp only [sizeQ, List.map_append, List.sum_append, List.map_cons, List.sum_cons] at *
  omega

mutual
/-- loops with fewer than three children get a silent leaf as a further child (exporter/ptml.py:89-94).  The code edits the copied
tree in place, visiting the nodes of the list made before the changes. -/
def addThird : PT α → PT α
  | .leaf l => .leaf l
  | .node op cs => .node op (if op = .loop ∧ cs.length < 3 then addThirdL cs ++ [.leaf none] else addThirdL cs)
def addThirdL : List (PT α) → List (PT α)
  | [] => []
  | c :: cs => addThird c :: addThirdL cs
end

/-- tags of the elements of nodes -/
inductive Tag
  | sequence | xor | and | or | xorLoop | manualTask | automaticTask
  deriving DecidableEq

/-- the elements of a document: for a node, with the attributes `name` (for a manual task) and `id`, or for an edge, with the
attributes `sourceId` and `targetId` -/
inductive Elem (α I : Type)
  | node (tag : Tag) (name : Option α) (id : I)
  | edge (source target : I)

structure Doc (α I : Type) where
  root : I
  elems : List (Elem α I)

/-- the element of a node (exporter/ptml.py:107-128); `none`: an exception (`child` stays `None`) -/
def elemOf {I : Type} (u : Path → I) (x : Path × PT α) : Option (Elem α I) :=
  match x.2 with
  | .leaf none => some (.node .automaticTask none (u x.1))
  | .leaf (some a) => some (.node .manualTask (some a) (u x.1))
  | .node .seq _ => some (.node .sequence none (u x.1))
  | .node .xor _ => some (.node .xor none (u x.1))
  | .node .par _ => some (.node .and none (u x.1))
  | .node .or _ => some (.node .or none (u x.1))
  | .node .loop _ => some (.node .xorLoop none (u x.1))
  | .node .inter _ => none

/-- `export_ptree_tree` (exporter/ptml.py:63-138).  `u` gives the identifiers of the nodes (`uuid4`).  The parent of a node is given
by its path. -/
def export_ {I : Type} [DecidableEq α] (u : Path → I) (tree : PT α) : Option (Doc α I) := do
  let t := addThird tree
  let nodes := bfs [([], t)]
  let es ← nodes.mapM (elemOf u)
  return ⟨u [], es ++ (nodes.filter fun x => !pyEq x.2 t).map fun x => .edge (u x.1.dropLast) (u x.1)⟩

/-! ### Import -/

/-- objects: those of the dictionary `nodes`, and the sequence made in the second loop for one of them -/
inductive Ref (I : Type)
  | id (i : I)
  | new (i : I)
  deriving DecidableEq

/-- a `ProcessTree` object -/
structure Obj (α I : Type) where
  op : Option Op
  label : Option α
  children : List (Ref I)
  parent : Option (Ref I)

abbrev Heap (α I : Type) := Ref I → Option (Obj α I)

variable {I : Type} [DecidableEq I]

def Heap.set (h : Heap α I) (r : Ref I) (o : Obj α I) : Heap α I := fun x => if x = r then some o else h x

/-- the object made for an element (importer/ptml.py:123-146) -/
def mkObj (tag : Tag) (name : Option α) : Obj α I :=
  match tag with
  | .and => ⟨some .par, none, [], none⟩
  | .sequence => ⟨some .seq, none, [], none⟩
  | .xor => ⟨some .xor, none, [], none⟩
  | .xorLoop => ⟨some .loop, none, [], none⟩
  | .or => ⟨some .or, none, [], none⟩
  | .manualTask => ⟨none, name, [], none⟩
  | .automaticTask => ⟨none, none, [], none⟩

/-- one element (importer/ptml.py:115-150); the dictionary is given by its keys and the heap; `none`: a `KeyError` -/
def readElem (s : List I × Heap α I) : Elem α I → Option (List I × Heap α I)
  | .node tag name i => some (if i ∈ s.1 then s.1 else s.1 ++ [i], s.2.set (.id i) (mkObj tag name))
  | .edge a b => do
    let oa ← s.2 (.id a)
    let h := s.2.set (.id a) { oa with children := oa.children ++ [.id b] }
    let ob ← h (.id b)
    return (s.1, h.set (.id b) { ob with parent := some (.id a) })

def readElems : List I × Heap α I → List (Elem α I) → Option (List I × Heap α I)
  | s, [] => some s
  | s, e :: es => do readElems (← readElem s e) es

/-- the tree that an object stands for; `n` bounds the depth of the recursion -/
def read (h : Heap α I) : Nat → Ref I → Option (PT α)
  | 0, _ => none
  | n + 1, r => do
    let o ← h r
    match o.op with
    | none => return .leaf o.label
    | some op => return .node op (← o.children.mapM (read h n))

/-- `parent_node.children.index(node)` (importer/ptml.py:166), which compares by structure; `none`: an exception -/
def index [DecidableEq α] (h : Heap α I) (n : Nat) (l : List (Ref I)) (r : Ref I) : Option Nat := do
  let t ← read h n r
  let ts ← l.mapM (read h n)
  ts.findIdx? fun s => pyEq s t

/-- one iteration of the second loop (importer/ptml.py:156-168); `none`: an exception -/
def fixLoop [DecidableEq α] (n : Nat) (h : Heap α I) (i : I) : Option (Heap α I) := do
  let o ← h (.id i)
  if o.op = some .loop ∧ o.children.length = 3 then
    let r2 ← o.children[2]?
    let o2 ← h r2
    let h ← if ¬ (o2.op = none ∧ o2.label = none) then do
        let h := h.set (.new i) ⟨some .seq, none, [.id i, r2], o.parent⟩
        let h := h.set (.id i) { o with parent := some (.new i) }
        let h := h.set r2 { o2 with parent := some (.new i) }
        match o.parent with
        | none => some h
        | some q =>
          let oq ← h q
          let k ← index h n oq.children (.id i)
          some (h.set q { oq with children := oq.children.eraseIdx k ++ [.new i] })
      else some h
    let o ← h (.id i)
    return h.set (.id i) { o with children := o.children.eraseIdx 2 }
  else return h

def fixLoops [DecidableEq α] (n : Nat) : Heap α I → List I → Option (Heap α I)
  | h, [] => some h
  | h, i :: is => do fixLoops n (← fixLoop n h i) is

/-- `import_tree_from_xml_object` (importer/ptml.py:92-172) on a document with one tree; `hash` are the numbers of the labels used by
`tree_sort`, `n` bounds the depth of recursions -/
def import_ [DecidableEq α] (hash : α → Nat) (n : Nat) (d : Doc α I) : Option (PT α) := do
  let (ids, h) ← readElems ([], fun _ => none) d.elems
  let h ← fixLoops n h ids
  let t ← if d.root ∈ ids then read h n (.id d.root) else none
  return treeSort hash t

end Ptml
end Verif
