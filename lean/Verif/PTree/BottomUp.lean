import Verif.PTree.ProofsTau
/-
Model of `get_bottomup_nodes` (/repo/pm4py/objects/process_tree/utils/bottomup.py:194-236) and of the dictionaries filled along
that list (`get_all_footprints`, `get_min_trace_length`, `get_max_trace_length`).
A node object is given by its subtree and the subtrees of its ancestors (parent first): the code only looks at `node.children`,
`node.parent` and compares nodes with `==`.
-/
namespace Verif
namespace BU
open PT
variable {α : Type}

/-- a node object -/
structure Nd (α : Type) where
  sub : PT α
  anc : List (PT α)

/-- `node.parent` -/
def Nd.parent (x : Nd α) : Option (Nd α) :=
  match x.anc with
  | [] => none
  | p :: ps => some ⟨p, ps⟩

/-- `node.children` -/
def Nd.kids (x : Nd α) : List (Nd α) := x.sub.children.map fun c => ⟨c, x.sub :: x.anc⟩

/-- the nodes in the order in which `to_visit` is emptied (bottomup.py:212-218); with fuel -/
def bfs : Nat → List (Nd α) → List (Nd α)
  | 0, _ => []
  | _ + 1, [] => []
  | n + 1, x :: q => x :: bfs n (q ++ x.kids)

variable [DecidableEq α]

/-- `t in l` for a list (or set) of nodes: equality of process trees -/
def isIn (t : PT α) (l : List (Nd α)) : Bool := l.any fun x => pyEq x.sub t

/-- `all_nodes.add(n)`: a node that equals a present one is not added -/
def addNode (s : List (Nd α)) (x : Nd α) : List (Nd α) := if isIn x.sub s then s else s ++ [x]

/-- `all_nodes` (bottomup.py:212-218) -/
def allNodes (t : PT α) : List (Nd α) := (bfs (size t) [⟨t, []⟩]).foldl addNode []

/-- the second loop (bottomup.py:222-234), with fuel -/
def up : Nat → Nat → List (Nd α) → List (Nd α)
  | 0, _, bu => bu
  | f + 1, i, bu =>
    match bu[i]? with
    | none => bu
    | some x =>
      match x.parent with
      | none => up f (i + 1) bu
      | some p =>
        if !isIn p.sub bu && p.sub.children.all (fun c => isIn c bu) then up f (i + 1) (bu ++ [p])
        else up f (i + 1) bu

/-- `get_bottomup_nodes` (bottomup.py:194-236); `ord` is the iteration order of the set -/
def bottomup (ord : List (Nd α) → List (Nd α)) (t : PT α) : List (Nd α) :=
  up (size t + 1) 0 ((ord (allNodes t)).filter fun x => x.sub.children.isEmpty)

variable {β : Type}

/-- a dictionary lookup `d[c]`; keys are compared with `==` -/
def look (d : List (PT α × β)) (c : PT α) : Option β := (d.find? fun e => pyEq e.1 c).map Prod.snd

/-- all lookups of a list of keys succeed, or `KeyError` -/
def lookAll (d : List (PT α × β)) : List (PT α) → Option (List β)
  | [] => some []
  | c :: cs => do return (← look d c) :: (← lookAll d cs)

/-- the value computed for a node from the values of its children (footprints/tree/variants/bottomup.py:348-373 and
utils/bottomup.py:141-191); `none`: an exception -/
def value (leaf : Option α → β) (op : Op → List β → Option β) (d : List (PT α × β)) : PT α → Option β
  | .leaf l => some (leaf l)
  | .node o cs => if cs.isEmpty then some (leaf none) else lookAll d cs >>= op o

/-- the loop `for i in range(len(bottomup)): dictio[bottomup[i]] = ...` (footprints/tree/variants/bottomup.py:397-399,
utils/bottomup.py:43-45, 70-72, 98-100) -/
def fill (leaf : Option α → β) (op : Op → List β → Option β) : List (PT α × β) → List (Nd α) → Option (List (PT α × β))
  | d, [] => some d
  | d, x :: xs => do
    let v ← value leaf op d x.sub
    fill leaf op (d ++ [(x.sub, v)]) xs

/-- `apply` of footprints/tree/variants/bottomup.py:405-429, `get_min_trace_length` (utils/bottomup.py:50-74): fill the
dictionary and look up the root -/
def run (leaf : Option α → β) (op : Op → List β → Option β) (ord : List (Nd α) → List (Nd α)) (t : PT α) : Option β := do
  let d ← fill leaf op [] (bottomup ord t)
  look d t

end BU
end Verif
