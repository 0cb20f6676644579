import Verif.Powl.NetTheorems
import Verif.PTree.Model
/-
Model of the conversion of process trees to POWL models:
/repo/pm4py/objects/conversion/process_tree/variants/to_powl.py:22-71.
-/
namespace Verif
namespace TreePowl
variable {α : Type}

/-- `powl.order.add_edge(nodes[i], nodes[i+1])` for `i in range(len(nodes)-1)` (to_powl.py:45-47).  The dictionary from nodes to
positions is injective, since all transitions made have different identifiers (powl/obj.py:71-83). -/
def chain (n : Nat) : BinRel.Edges :=
  (List.range (n - 1)).foldl (fun E i => BinRel.Edges.put E i (i + 1) true) fun _ _ => false

/-- the constructor `OperatorPOWL` with XOR (powl/obj.py:301-303); `none`: an exception -/
def mkXor (cs : List (Powl α)) : Option (Powl α) := if cs.length < 2 then none else some (.xor cs)

/-- the constructor `OperatorPOWL` with LOOP (powl/obj.py:304-306); `none`: an exception -/
def mkLoop (cs : List (Powl α)) : Option (Powl α) :=
  match cs with
  | [b, r] => some (.loop b r)
  | _ => none

/-- the model made for an inner node from those of its children (to_powl.py:36-47).  Any operator that is not OR, XOR, LOOP or
SEQUENCE gives a partial order without edges. -/
def mkNode : Op → List (Powl α) → Option (Powl α)
  | .or, _ => none
  | .xor, cs => mkXor cs
  | .loop, cs => mkLoop cs
  | .seq, cs => some (.po cs (chain cs.length))
  | .par, cs => some (.po cs fun _ _ => false)
  | .inter, cs => some (.po cs fun _ _ => false)

mutual
/-- `apply_recursive` (to_powl.py:22-49); `none`: an exception -/
def apply : PT α → Option (Powl α)
  | .leaf l => some (.leaf l)
  | .node op cs => do mkNode op (← applyL cs)
/-- the models of the children (to_powl.py:26-29) -/
def applyL : List (PT α) → Option (List (Powl α))
  | [] => some []
  | c :: cs => do return (← apply c) :: (← applyL cs)
end

end TreePowl
end Verif
