import Verif.TreePlayout.Model
import Verif.Common.ListX
/-
C47: the extensive playout of process trees
(/repo/pm4py/algo/simulation/playout/process_tree/variants/extensive.py, /repo/pm4py/objects/process_tree/utils/bottomup.py).

The code visits the nodes bottom-up and stores a set of traces for each; the model is the recursion on the tree (all stored
values are functions of the subtree; the order of the visit is modelled in Verif/PTree/BottomUp.lean).  A Python set is a list
without repetitions; `ord` is the order in which a set is iterated.  `while` loops have a number of rounds as fuel.  `none`
stands for an exception (or for no fuel).
-/
namespace Verif.TreePlayout
variable {α : Type}

/-- The bound for loops in `get_max_length_dict` (bottomup.py:164-166) is a parameter `big` (`2 ** (48 - ...)`). -/
def maxOp (big : Int) : Op → List Int → Int
  | .xor, l => l.foldl max (l.headD 0)
  | .par, l => l.sum
  | .seq, l => l.sum
  | .or, l => l.sum
  | .loop, l => l.sum + big
  | .inter, _ => 0

/-- The inner nodes of `get_min_length_dict` (bottomup.py:186-191). -/
def minOp' : Op → List Int → Int
  | .xor, l => l.foldl min (l.headD 0)
  | .par, l => l.sum
  | .seq, l => l.sum
  | .or, l => l.sum
  | .loop, l => l.headD 0
  | .inter, _ => 0

mutual
/-- `get_max_length_dict` (bottomup.py:141-166). -/
def maxLen (big : Int) : PT α → Int
  | .leaf none => 0
  | .leaf (some _) => 1
  | .node op cs => maxOp big op (maxLens big cs)
/-- for the children -/
def maxLens (big : Int) : List (PT α) → List Int
  | [] => []
  | c :: cs => maxLen big c :: maxLens big cs
end

mutual
/-- `get_min_length_dict` (bottomup.py:169-191). -/
def minLen : PT α → Int
  | .leaf none => 0
  | .leaf (some _) => 1
  | .node op cs => minOp' op (minLens cs)
/-- for the children -/
def minLens : List (PT α) → List Int
  | [] => []
  | c :: cs => minLen c :: minLens cs
end

/-- The parameters of the playout: minimum and maximum length, loop bound, limit of traces, iteration order of sets. -/
structure Cfg (α : Type) where
  lo : Int
  hi : Int
  loops : Nat
  limit : Nat
  ord : List (List α) → List (List α)

/-- Inserts a trace before the first one that is not shorter. -/
def insLen (x : List α) : List (List α) → List (List α)
  | [] => [x]
  | y :: ys => if x.length ≤ y.length then x :: y :: ys else y :: insLen x ys

/-- `sorted(traces, key=len)` (extensive.py:177, 208, 223-224): stable. -/
def byLen (l : List (List α)) : List (List α) := l.foldr insLen []

/-- `min_len_traces` (81-87): the length of the first trace. -/
def firstLen (l : List (List α)) : Int := match l with | [] => 0 | x :: _ => x.length
/-- `max_len_traces` (107-113): the length of the last trace. -/
def lastLen (l : List (List α)) : Int := match l.getLast? with | none => 0 | some x => x.length

/-- The loop over the children after the first (145-166); `diff = max_trace_length - mr`, `diff2 = min_trace_length - mar`;
`mrl` and `marl` are the sums over the children that follow (89-94, 115-120). -/
def composeFrom (diff diff2 : Int) : List (List (List α)) → List (List (List α)) → List (List (List α))
  | curr, [] => curr
  | curr, t :: ts =>
    let mrl := (ts.map firstLen).sum
    let marl := (ts.map lastLen).sum
    composeFrom diff diff2 (curr.flatMap fun x => (t.map fun y => x ++ [y]).filter fun xy =>
      decide (((xy.map List.length).sum : Nat) + mrl ≤ diff) && decide (((xy.map List.length).sum : Nat) + marl ≥ diff2)) ts

/-- `get_sequential_compositions_children` (135-167); with less than two children `min_rem_length[-2]` raises. -/
def compositions (diff diff2 : Int) (traces : List (List (List α))) : Option (List (List (List α))) :=
  match traces with
  | [] => none
  | [_] => none
  | t :: ts => some (composeFrom diff diff2 (t.map fun x => [x]) ts)

/-- One round of the loop over partial interleavings (184-196): an entry is the trace so far and how much of each component
is left. -/
def choicesOf (rem : List Nat) : List Nat := (List.range rem.length).filter fun j => decide (0 < rem[j]?.getD 0)

/-- The entry after taking the next activity of component `j` (188-192). -/
def advance (x : List (List α)) (e : List α × List Nat) (j : Nat) : List α × List Nat :=
  (e.1 ++ (match x[j]? with
    | none => []
    | some xj => (xj[xj.length - e.2[j]?.getD 0]?).toList), e.2.set j (e.2[j]?.getD 0 - 1))

/-- The loop for one composition (183-196). -/
def interleave (limit : Nat) (x : List (List α)) : Nat → List (List α × List Nat) → List (List α) → Option (List (List α))
  | _, [], final => some final
  | 0, _ :: _, _ => none
  | n + 1, e :: q, final =>
    let js := choicesOf e.2
    let q := q ++ js.map (advance x e)
    if js.isEmpty then
      let final := final ++ [e.1]
      if final.length ≥ limit then some final else interleave limit x n q final
    else interleave limit x n q final

/-- The loop over the compositions (180-196). -/
def interleaveAll (limit fuel : Nat) : List (List (List α)) → List (List α) → Option (List (List α))
  | [], final => some final
  | x :: xs, final =>
    if final.length ≥ limit then some final
    else (interleave limit x fuel [([], x.map List.length)] final).bind (interleaveAll limit fuel xs)

/-- An entry of `to_visit` in the loop playout: trace, whether it waits for a do part (`position == 1`), number of loops. -/
abbrev LEntry (α : Type) := List α × Bool × Nat

/-- The state of the loop playout: `to_visit`, `closed`, `final_traces`. -/
structure LState (α : Type) where
  queue : List (LEntry α)
  closed : List (List α)
  final : List (List α)

variable [DecidableEq α]

/-- One round (232-259); the result says whether `break` was reached (243-244). -/
def lstep (c : Cfg α) (dos redos : List (List α)) (diff1 diff2 diff3 : Int) (e : LEntry α) (st : LState α) : LState α × Bool :=
  match e with
  | (u, false, k) =>
    if u ∈ st.closed then (st, false)
    else
      let st := { st with closed := st.closed ++ [u] }
      let st := if diff3 ≤ (u.length : Int) ∧ (u.length : Int) ≤ diff1 then
        { st with final := if u ∈ st.final then st.final else st.final ++ [u] } else st
      if (diff3 ≤ (u.length : Int) ∧ (u.length : Int) ≤ diff1) ∧ st.final.length > c.limit then (st, true)
      else ({ st with queue := st.queue ++ (redos.takeWhile fun y =>
          decide (((u ++ y).length : Int) ≤ diff2) && decide (k + 1 ≤ c.loops)).map fun y => (u ++ y, true, k + 1) }, false)
  | (u, true, k) =>
    ({ st with queue := st.queue ++ (dos.takeWhile fun y => decide (((u ++ y).length : Int) ≤ diff1)).map fun y => (u ++ y, false, k) }, false)

/-- The loop (231-259). -/
def lrun (c : Cfg α) (dos redos : List (List α)) (diff1 diff2 diff3 : Int) : Nat → LState α → Option (LState α)
  | n, st =>
    match n, st.queue with
    | _, [] => some st
    | 0, _ :: _ => none
    | n + 1, e :: q =>
      match lstep c dos redos diff1 diff2 diff3 e { st with queue := q } with
      | (st, true) => some st
      | (st, false) => lrun c dos redos diff1 diff2 diff3 n st

/-- `get_playout_xor` (58-69). -/
def xorUnion (limit : Nat) : List (List (List α)) → List (List α) → List (List α)
  | [], acc => acc
  | t :: ts, acc =>
    let acc := acc ++ (dedup t).filter fun x => !decide (x ∈ acc)
    if acc.length > limit then acc else xorUnion limit ts acc

/-- `get_playout_leaf` (43-55). -/
def leafPlayout (c : Cfg α) (mr mar : Int) : Option α → List (List α)
  | none => [[]]
  | some a => if mar + 1 ≥ c.lo ∧ c.hi - mr ≥ 1 then [[a]] else []

/-- The branches of `get_playout` (263-282); other operators store nothing, which is a `KeyError` later. -/
def opPlayout (c : Cfg α) (fuel : Nat) (mr mar : Int) : Op → List (List (List α)) → Option (List (List α))
  | .xor, Ts => some (xorUnion c.limit Ts [])
  | .seq, Ts => (compositions (c.hi - mr) (c.lo - mar) (Ts.map fun t => byLen (c.ord t))).map fun X => dedup (X.map List.flatten)
  | .par, Ts => (compositions (c.hi - mr) (c.lo - mar) (Ts.map fun t => byLen (c.ord t))).bind fun X =>
      (interleaveAll c.limit fuel X []).map dedup
  | .loop, D :: R :: _ =>
      let dos := byLen (c.ord D)
      let redos := byLen (c.ord R)
      (lrun c dos redos (c.hi - mr) (c.hi - firstLen dos - mr) (c.lo - mar) fuel
        { queue := dos.map fun x => (x, false, 0), closed := [], final := [] }).map (·.final)
  | _, _ => none

mutual
/-- `get_playout` (263-282) for the tree with shortest length `mn` and longest length `mx` (bottomup.py:77-138: the remaining
lengths are the differences). -/
def playout (c : Cfg α) (fuel : Nat) (big mn mx : Int) : PT α → Option (List (List α))
  | .leaf l => some (leafPlayout c (mn - minLen (.leaf l : PT α)) (mx - maxLen big (.leaf l : PT α)) l)
  | .node op cs =>
    (playouts c fuel big mn mx cs).bind (opPlayout c fuel (mn - minLen (.node op cs)) (mx - maxLen big (.node op cs)) op)
/-- for the children -/
def playouts (c : Cfg α) (fuel : Nat) (big mn mx : Int) : List (PT α) → Option (List (List (List α)))
  | [] => some []
  | t :: ts => (playout c fuel big mn mx t).bind fun a => (playouts c fuel big mn mx ts).map fun b => a :: b
end

/-- `apply` with `return_set_strings` (285-333). -/
def extensive (c : Cfg α) (fuel : Nat) (big : Int) (t : PT α) : Option (List (List α)) :=
  playout c fuel big (minLen t) (maxLen big t) t

/-! ### Specification -/

/-- Do, then at most `n` times redo and do. -/
inductive BLoop (D R : Lang α) : Nat → Lang α
  | exit {n d} : D d → BLoop D R n d
  | again {n d r w} : D d → R r → BLoop D R n w → BLoop D R (n + 1) (d ++ r ++ w)

/-- The language operators with bounded loops. -/
def bopLang (K : Nat) : Op → List (Lang α) → Lang α
  | .loop, D :: R :: _ => BLoop D R K
  | op, Ls => PT.opLang op Ls

mutual
/-- The traces of a tree in which each loop is repeated at most `K` times. -/
def blang (K : Nat) : PT α → Lang α
  | .leaf l => PT.lang (.leaf l)
  | .node op cs => bopLang K op (blangs K cs)
/-- for the children -/
def blangs (K : Nat) : List (PT α) → List (Lang α)
  | [] => []
  | c :: cs => blang K c :: blangs K cs
end

/-- The trees the extensive playout supports: choice, sequence, parallel with at least two children, loops with two. -/
inductive Supported : PT α → Prop
  | leaf (l) : Supported (.leaf l)
  | xor {cs} : cs ≠ [] → (∀ c ∈ cs, Supported c) → Supported (.node .xor cs)
  | seq {cs} : 2 ≤ cs.length → (∀ c ∈ cs, Supported c) → Supported (.node .seq cs)
  | par {cs} : 2 ≤ cs.length → (∀ c ∈ cs, Supported c) → Supported (.node .par cs)
  | loop {d r} : Supported d → Supported r → Supported (.node .loop [d, r])

end Verif.TreePlayout
