import Verif.DfgNet.Spec
import Verif.Footprints.Model
import Mathlib.Data.Finset.Basic
import Mathlib.Data.Finset.Lattice.Basic
set_option linter.unusedSectionVars false
/-
C45: the Alpha Miner (/repo/pm4py/algo/discovery/alpha/variants/classic.py and
/repo/pm4py/algo/discovery/alpha/data_structures/alpha_classic_abstraction.py).

Python sets of activities are finite sets; the order in which the causal relation is iterated is the order of the dictionary.
The causal relation is `causalAlpha`, the parallel relation `parallelOf` (both modelled for C24-C26 in Verif/Footprints).
-/
namespace Verif.Alpha
variable {α : Type} [DecidableEq α]

/-- A pair of sets of activities: what precedes a place and what follows it. -/
abbrev PairOf (α : Type) := Finset α × Finset α

/-- `__initial_filter` (classic.py:225-228). -/
def initialFilter (par : List (α × α)) (p : α × α) : Bool :=
  if (p.1, p.1) ∈ par ∨ (p.2, p.2) ∈ par then false else true

/-- The pairs with one activity on each side (172-174). -/
def initialPairs (par causal : List (α × α)) : List (PairOf α) :=
  (causal.filter (initialFilter par)).map fun p => ({p.1}, {p.2})

/-- `__check_is_unrelated` (238-243): true if there IS a relation. -/
def checkIsUnrelated (par causal : List (α × α)) (s1 s2 : Finset α) : Bool :=
  decide (∃ a ∈ s1, ∃ b ∈ s2, ((a, b) ∈ par ∨ (a, b) ∈ causal) ∨ ((b, a) ∈ par ∨ (b, a) ∈ causal))

/-- `__check_all_causal` (246-251). -/
def checkAllCausal (causal : List (α × α)) (s1 s2 : Finset α) : Bool :=
  decide (∀ a ∈ s1, ∀ b ∈ s2, (a, b) ∈ causal)

/-- The body of the inner loop (178-187). -/
def mergeStep (par causal : List (α × α)) (t1 : PairOf α) (pairs : List (PairOf α)) (t2 : PairOf α) : List (PairOf α) :=
  if t1 ≠ t2 then
    if t1.1 ⊆ t2.1 ∨ t1.2 ⊆ t2.2 then
      if !(checkIsUnrelated par causal t1.1 t2.1 || checkIsUnrelated par causal t1.2 t2.2) then
        if (t1.1 ∪ t2.1, t1.2 ∪ t2.2) ∉ pairs then
          if checkAllCausal causal (t1.1 ∪ t2.1) (t1.2 ∪ t2.2) then pairs ++ [(t1.1 ∪ t2.1, t1.2 ∪ t2.2)] else pairs
        else pairs
      else pairs
    else pairs
  else pairs

/-- The body of the outer loop (176-187): `range(i, len(pairs))` is evaluated when the inner loop starts, and the list only
grows at its end. -/
def outerStep (par causal : List (α × α)) (pairs : List (PairOf α)) (i : Nat) : List (PairOf α) :=
  match pairs[i]? with
  | none => pairs
  | some t1 => (pairs.drop i).foldl (mergeStep par causal t1) pairs

/-- All pairs (172-187); `range(0, len(pairs))` is evaluated once. -/
def allPairs (par causal : List (α × α)) : List (PairOf α) :=
  (List.range (initialPairs par causal).length).foldl (outerStep par causal) (initialPairs par causal)

/-- `__pair_maximizer` (231-235). -/
def maximizer (pairs : List (PairOf α)) (p : PairOf α) : Bool :=
  pairs.all fun alt => !(decide (p ≠ alt) && decide (p.1 ⊆ alt.1) && decide (p.2 ⊆ alt.2))

/-- `internal_places` (188). -/
def internalPlaces (par causal : List (α × α)) : List (PairOf α) :=
  (allPairs par causal).filter (maximizer (allPairs par causal))

/-- The labels (160-168): a set, here in order of first occurrence. -/
def labels (dfg : List (α × α)) (starts ends : List α) : List α :=
  (dfg.flatMap (fun e => [e.1, e.2]) ++ starts ++ ends).foldl (fun s a => if a ∈ s then s else s ++ [a]) []

/-- Places of the net: source, sink and the pairs (196-201). -/
inductive APl (α : Type)
  | source | sink | pair (p : PairOf α)
deriving DecidableEq

/-- `apply_dfg_sa_ea` (122-206): transitions are the labels (189-194), arcs from the source and to the sink (209-222), from
and to the internal places (199-205). -/
def alphaNet (dfg : Dict (α × α) Int) (starts ends : List α) : Net (APl α) α :=
  let places := internalPlaces (Foot.parallelOf dfg) (Foot.causalAlpha dfg)
  { places := [.source, .sink] ++ places.map .pair
    transitions := labels (Dict.keys dfg) starts ends
    inArcs := fun t => (if t ∈ starts then [(.source, 1)] else []) ++
      (places.filter fun p => decide (t ∈ p.2)).map fun p => (.pair p, 1)
    outArcs := fun t => (if t ∈ ends then [(.sink, 1)] else []) ++
      (places.filter fun p => decide (t ∈ p.1)).map fun p => (.pair p, 1) }

/-- The miner on a log (57-93): the entries of the directly-follows graph with a positive value. -/
def alphaLog (log : List (List α)) : Net (APl α) α :=
  alphaNet ((Dfg.native 1 false log).filter fun x => decide (0 < x.2)) (Dfg.startActs log) (Dfg.endActs log)

/-! ### Specification: the eight steps of the Alpha algorithm -/

/-- Directly follows in the log. -/
def Follows (log : List (List α)) (a b : α) : Prop := ∃ t ∈ log, ∃ i : Nat, t[i]? = some a ∧ t[i + 1]? = some b

/-- `(A, B)` is a candidate: every activity of `A` causally precedes every activity of `B`, no activity of `A` follows one of
`A` (or itself), no activity of `B` follows one of `B` (or itself). -/
structure Candidate (follows : α → α → Prop) (p : PairOf α) : Prop where
  left : p.1.Nonempty
  right : p.2.Nonempty
  causal : ∀ a ∈ p.1, ∀ b ∈ p.2, follows a b ∧ ¬ follows b a
  leftUnrelated : ∀ a ∈ p.1, ∀ b ∈ p.1, ¬ follows a b
  rightUnrelated : ∀ a ∈ p.2, ∀ b ∈ p.2, ¬ follows a b

/-- A maximal candidate. -/
def Maximal' (follows : α → α → Prop) (p : PairOf α) : Prop :=
  Candidate follows p ∧ ∀ q : PairOf α, Candidate follows q → p.1 ⊆ q.1 → p.2 ⊆ q.2 → q = p

end Verif.Alpha
