import Verif.PTree.Lang
/-
Model of the conversion of process trees to regular expressions:
/repo/pm4py/objects/process_tree/utils/regex.py:27-85 and /repo/pm4py/util/regex.py:20-41.
Strings are lists of code points.
-/
namespace Verif
namespace Regex
variable {α : Type} [DecidableEq α]

abbrev Str := List Nat

/-- `list_to_avoid` (util/regex.py:28-29): `[ ] ( ) * + ^ ? \r \n space \t $ " ! # & % | . , ; - ' \ / { } $` -/
def avoid : List Nat := [91, 93, 40, 41, 42, 43, 94, 63, 13, 10, 32, 9, 36, 34, 33, 35, 38, 37, 124, 46, 44, 59, 45, 39, 92, 47, 123, 125, 36]

theorem avoid_le : ∀ c ∈ avoid, c < 126 := by decide

/-- the loop of `get_new_char` (util/regex.py:31-32) -/
def skip (c : Nat) : Nat := if h : c ∈ avoid then skip (c + 1) else c
termination_by 126 - c
decreasing_by have := avoid_le c h; omega

/-- `SharedObj` (util/regex.py:36-41): the dictionary from labels to characters, and the last code point used.
Simplification: `chr` fails beyond 0x10ffff; code points are unbounded here. -/
structure St (α : Type) where
  dict : List (α × Nat)
  count : Nat

/-- the dictionary lookup -/
def St.get (st : St α) (a : α) : Option Nat := (st.dict.find? fun e => e.1 == a).map (·.2)

/-- `get_new_char` (util/regex.py:20-33) -/
def newChar (a : α) (st : St α) : St α :=
  let c := skip (st.count + 1)
  ⟨st.dict ++ [(a, c)], c⟩

/-- the character of a label (process_tree/utils/regex.py:73-76) -/
def charOf (a : α) (st : St α) : Nat × St α :=
  match st.get a with
  | some c => (c, st)
  | none => (skip (st.count + 1), newChar a st)

/-- `"|".join(l)` -/
def joinBar : List Str → Str
  | [] => []
  | [s] => s
  | s :: l => s ++ 124 :: joinBar l

/-- the tree is a leaf without a label (process_tree/utils/regex.py:49) -/
def isTau : PT α → Bool
  | .leaf none => true
  | _ => false

/-- the string of an inner node (process_tree/utils/regex.py:54-71); `none`: an exception.  An interleaving node leaves the empty
string of line 46. -/
def stru (op : Op) (tau : Bool) (reps : List Str) : Option Str :=
  match op with
  | .seq => some (40 :: reps.flatten ++ [41])
  | .xor =>
    let s := 40 :: joinBar reps ++ [41]
    some (if tau then 40 :: s ++ [63, 41] else s)
  | .loop =>
    match reps with
    | [] => none
    | [r] => some (40 :: r ++ [41, 43])
    | r :: rs => some (40 :: (r :: rs).flatten ++ 41 :: 42 :: r)
  | .par => none
  | .or => none
  | .inter => some []

mutual
/-- `pt_to_regex` with `rec_depth > 0` (process_tree/utils/regex.py:27-85): the string or `None`, and the shared object; `none`: an
exception -/
def rep : PT α → St α → Option (Option Str × St α)
  | .leaf none, st => some (none, st)
  | .leaf (some a), st => some (some [(charOf a st).1], (charOf a st).2)
  | .node op cs, st => do
    let (reps, st') ← repL cs st
    let s ← stru op (cs.any isTau) (reps.filterMap id)
    return (some s, st')
/-- the loop over the children (process_tree/utils/regex.py:51-53) -/
def repL : List (PT α) → St α → Option (List (Option Str) × St α)
  | [], st => some ([], st)
  | c :: cs, st => do
    let (r, st') ← rep c st
    let (rs, st'') ← repL cs st'
    return (r :: rs, st'')
end

/-- `pt_to_regex(tree)` (process_tree/utils/regex.py:27-85): the pattern (`None` for a silent leaf) and the dictionary -/
def toRegex (t : PT α) : Option (Option Str × List (α × Nat)) := do
  let (s, st) ← rep t ⟨[], 0⟩
  return (s.map fun s => 94 :: s ++ [36], st.dict)

end Regex
end Verif
