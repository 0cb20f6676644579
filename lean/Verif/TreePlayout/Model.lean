import Verif.PTree.Lang
/-
C46: the default playout of process trees (/repo/pm4py/algo/simulation/playout/process_tree/variants/topbottom.py).

The random choices (`random.choice`, `random.shuffle`, `random.random`) are arbitrary: `outs t` is the set of all values
`get_ex_seq(tree)` may return (lists of leaves; a leaf is its label).  An operator for which the code returns `None` or raises
has no outcome.  Not modelled: `random.shuffle(tree.children)` also reorders the children of the given tree.
-/
namespace Verif.TreePlayout
variable {α β : Type}

/-- `list_choices` before the shuffle (topbottom.py:161-166): the index of each child, as often as its trace is long. -/
def choices (i : Nat) : List (List β) → List Nat
  | [] => []
  | t :: ts => List.replicate t.length i ++ choices (i + 1) ts

/-- `for c in list_choices: act = children_traces[c].pop(0); ret.append(act)` (168-170); `none` is an `IndexError`. -/
def popAll : List Nat → List (List β) → Option (List β)
  | [], _ => some []
  | c :: cs, ts =>
    match ts[c]? with
    | some (x :: r) => (popAll cs (ts.set c r)).map (x :: ·)
    | _ => none

/-- One value for each child (139-140, 145-146, 163-165). -/
inductive Each : List (List β → Prop) → List (List β) → Prop
  | nil : Each [] []
  | cons {O Os s ss} : O s → Each Os ss → Each (O :: Os) (s :: ss)

/-- The loop of the loop operator (149-158); `ret` is the value before the round. -/
inductive LoopRun (D R : List β → Prop) : List β → List β → Prop
  | stop {ret d} : D d → LoopRun D R ret (ret ++ d)
  | again {ret d r s} : D d → R r → LoopRun D R (ret ++ d ++ r) s → LoopRun D R ret s

/-- The branches of `get_ex_seq` (134-171). -/
def opOuts : Op → List (List β → Prop) → List β → Prop
  | .xor, Os => fun s => ∃ O ∈ Os, O s
  | .seq, Os => fun s => ∃ ss, Each Os ss ∧ s = ss.flatten
  | .inter, Os => fun s => ∃ Os', Os'.Perm Os ∧ ∃ ss, Each Os' ss ∧ s = ss.flatten
  | .loop, D :: R :: _ => fun s => LoopRun D R [] s
  | .loop, _ => fun _ => False
  | .par, Os => fun s => ∃ ss, Each Os ss ∧ ∃ cs : List Nat, cs.Perm (choices 0 ss) ∧ popAll cs ss = some s
  | .or, _ => fun _ => False

mutual
/-- `get_ex_seq` (118-171): the possible values. -/
def outs : PT α → List (Option α) → Prop
  | .leaf l => fun s => s = [l]
  | .node op cs => opOuts op (outsL cs)
/-- for the children -/
def outsL : List (PT α) → List (List (Option α) → Prop)
  | [] => []
  | c :: cs => outs c :: outsL cs
end

/-- The trace of the log made from a sequence of leaves (61-67). -/
def visible (s : List (Option α)) : List α := s.filterMap id

end Verif.TreePlayout
