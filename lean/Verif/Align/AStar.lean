import Verif.Align.Dijkstra
import Mathlib.Tactic.Linarith
import Mathlib.Algebra.Order.Field.Rat
import Mathlib.Algebra.BigOperators.Group.List.Basic
/-
The A* search with the marking equation,
/repo/pm4py/algo/conformance/alignments/petri_net/variants/state_equation_a_star.py (`AS`) and
/repo/pm4py/objects/petri_net/utils/align_utils.py (`AU`).

The linear programme solver (`lp_solver.apply`) is a function of the marking; what is assumed about it is `LpOk`.
Numbers are exact rationals.  The time limit is not modelled.
-/
set_option linter.unusedSectionVars false
namespace Verif
namespace Align
open Reach

/-! ### Model -/

/-- `SearchTuple(f, g, h, m, p, t, x, trust)` (AU:294-312); `x` is the solution vector, indexed by transitions.  The
initial tuple (AS:455) has no parent. -/
inductive ATup (S T : Type)
  | root (h : Rat) (m : S) (x : T → Rat)
  | child (g : Int) (h : Rat) (m : S) (p : ATup S T) (t : T) (x : T → Rat) (trust : Bool)

namespace ATup
variable {S T : Type}
/-- field `g` -/
def g : ATup S T → Int
  | root .. => 0
  | child g .. => g
/-- field `h` -/
def h : ATup S T → Rat
  | root h .. => h
  | child _ h .. => h
/-- field `m` -/
def m : ATup S T → S
  | root _ m _ => m
  | child _ _ m .. => m
/-- field `x` -/
def x : ATup S T → T → Rat
  | root _ _ x => x
  | child _ _ _ _ _ x _ => x
/-- field `trust` (the initial tuple is trusted, AS:455) -/
def trust : ATup S T → Bool
  | root .. => true
  | child _ _ _ _ _ _ b => b
/-- field `f` (always created as `g + h`: AS:455, 483, 529) -/
def f (a : ATup S T) : Rat := a.g + a.h
/-- `SearchTuple(curr.g + h, curr.g, h, curr.m, curr.p, curr.t, x, True)` (AS:483) -/
def retrust (h : Rat) (x : T → Rat) : ATup S T → ATup S T
  | root _ m _ => root h m x
  | child g _ m p t _ _ => child g h m p t x true
/-- transitions collected by `__reconstruct_alignment` (AU:208-223; the code reports their labels) -/
def alignment : ATup S T → List T
  | root .. => []
  | child _ _ _ p t _ _ => alignment p ++ [t]
end ATup

/-- `sys.maxsize`, the heuristics of an infeasible problem (AU:272) -/
def maxSize : Rat := 9223372036854775807
/-- `lp_solver.MAX_ALLOWED_HEURISTICS` (/repo/pm4py/util/lp/solver.py:35) -/
def maxAllowed : Rat := 1000000000000000

/-- `__derive_heuristic` (AU:226-229) -/
def derive {T : Type} [DecidableEq T] (cost : T → Int) (x : T → Rat) (t : T) (h : Rat) : Rat × (T → Rat) :=
  (max 0 (h - cost t), fun s => if s = t then x s - 1 else x s)

/-- `__trust_solution` (AU:240-244) -/
def trustSolution {T : Type} (trans : List T) (x : T → Rat) : Bool := trans.all fun t => !decide (x t < -(1/1000 : Rat))

/-- Unspecified orders of an execution, as `Sched` for Dijkstra's algorithm: `heapq.heappop` (and `heappushpop`, a push
followed by a pop) in step `n`, and the iteration order of `enabled_trans`. -/
structure ASched (S T : Type) where
  pop : Nat → List (ATup S T) → Option (ATup S T × List (ATup S T))
  ord : Nat → List T → List T

/-- Contract of the heap: a popped tuple has the least `f`.  (`__lt__`, AU:314-322, is not a strict order among tuples of
the same `f`: of a trusted tuple and an untrusted one with less `h`, each is less than the other; so nothing is assumed
about ties.) -/
structure ASched.Ok {S T : Type} (sch : ASched S T) : Prop where
  pop_nil : ∀ n, sch.pop n [] = none
  pop_cons : ∀ n l, l ≠ [] → ∃ x rest, sch.pop n l = some (x, rest) ∧ l.Perm (x :: rest) ∧ ∀ y ∈ rest, x.f ≤ y.f
  ord_perm : ∀ n l, (sch.ord n l).Perm l

/-- State of `__search`: in the loop (with `curr` if it has been popped), or ended: an alignment, `None`, or the
`IndexError` of the `heappop` of line 472 on an empty list. -/
inductive ASt (S T : Type)
  | running (openSet : List (ATup S T)) (closed : List S) (cur : Option (ATup S T))
  | found (x : ATup S T)
  | exhausted
  | indexError

section
variable {S T : Type} [DecidableEq T]

/-- the successors of the expanded state that are pushed (AS:518-532) -/
def pushAll (sem : Sem S T) (cost : T → Int) (trans : List T) (closed : List S) (curr : ATup S T) (l : List T)
    (o : List (ATup S T)) : List (ATup S T) :=
  l.foldl (fun o t =>
    let nm := sem.exec t curr.m
    if closed.any fun c => sem.eqv c nm then o
    else
      let d := derive cost curr.x t curr.h
      o ++ [ATup.child (curr.g + cost t) d.1 nm curr t d.2 (trustSolution trans d.2)]) o

/-- One step of the two nested loops (AS:465-532): `none` is the head of the outer loop, `some curr` the inner loop
`while not curr.trust` (AS:473-487) and, when `curr` is trusted, the rest of the body of the outer one (AS:489-532). -/
def astarStep (sem : Sem S T) (cost : T → Int) (trans : List T) (lp : S → Rat × (T → Rat)) (fin : S) (sch : ASched S T)
    (n : Nat) : ASt S T → ASt S T
  | .running openSet closed none =>
    match sch.pop n openSet with
    | none => .exhausted
    | some (curr, rest) => .running rest closed (some curr)
  | .running openSet closed (some curr) =>
    if !curr.trust then
      if closed.any fun c => sem.eqv c curr.m then
        match sch.pop n openSet with
        | none => .indexError
        | some (curr, rest) => .running rest closed (some curr)
      else
        match sch.pop n (openSet ++ [curr.retrust (lp curr.m).1 (lp curr.m).2]) with
        | none => .indexError
        | some (curr, rest) => .running rest closed (some curr)
    else if curr.h > maxAllowed then .running openSet closed none
    else if closed.any fun c => sem.eqv c curr.m then .running openSet closed none
    else if curr.h < (1/100 : Rat) && sem.eqv curr.m fin then .found curr
    else
      let closed := closed ++ [curr.m]
      .running (pushAll sem cost trans closed curr (sch.ord n (sem.enabled curr.m)) openSet) closed none
  | s => s

/-- `__search` after `n` steps (AS:425-532) -/
def astar (sem : Sem S T) (cost : T → Int) (trans : List T) (lp : S → Rat × (T → Rat)) (ini fin : S) (sch : ASched S T) :
    Nat → ASt S T
  | 0 => .running [.root (lp ini).1 ini (lp ini).2] [] none
  | n + 1 => astarStep sem cost trans lp fin sch n (astar sem cost trans lp ini fin sch n)

/-! ### What is assumed about the linear programmes -/

/-- objective: costs times solution vector -/
def dotc (cost : T → Int) (trans : List T) (x : T → Rat) : Rat := (trans.map fun t => (cost t : Rat) * x t).sum

/-- constraint `-x ≤ 0` -/
def NonNeg (trans : List T) (x : T → Rat) : Prop := ∀ t ∈ trans, 0 ≤ x t

/-- What the search needs to know about the equation `A x = fin - m` (`Sol m x`). -/
structure MarkingEq (sem : Sem S T) (ini fin : S) (trans : List T) (Sol : S → (T → Rat) → Prop) : Prop where
  nodup : trans.Nodup
  mem : ∀ m t, Reachable sem ini m → t ∈ sem.enabled m → t ∈ trans
  shift : ∀ m t, Reachable sem ini m → t ∈ sem.enabled m → ∀ x,
    Sol m x ↔ Sol (sem.exec t m) (fun s => if s = t then x s - 1 else x s)
  congr : ∀ a b x, Reachable sem ini a → Reachable sem ini b → sem.eqv a b = true → Sol a x → Sol b x
  final : ∀ m, Reachable sem ini m → sem.eqv m fin = true → Sol m fun _ => 0

/-- Contract of the solver: an optimal solution and its value, or `(sys.maxsize, zeros)` if there is none (AU:266-275).
`gap`: the tolerance of `__trust_solution` makes no difference, i.e. no entry of a solution is less than, but within 0.001
of, a natural number. -/
structure LpOk (cost : T → Int) (trans : List T) (Sol : S → (T → Rat) → Prop) (lp : S → Rat × (T → Rat)) : Prop where
  feasible : ∀ m, (∃ x, Sol m x ∧ NonNeg trans x) → Sol m (lp m).2 ∧ NonNeg trans (lp m).2 ∧
    (lp m).1 = dotc cost trans (lp m).2 ∧ ∀ x, Sol m x → NonNeg trans x → (lp m).1 ≤ dotc cost trans x
  infeasible : ∀ m, (¬ ∃ x, Sol m x ∧ NonNeg trans x) → lp m = (maxSize, fun _ => 0)
  gap : ∀ m, ∀ t ∈ trans, ∀ k : Nat, -(1/1000 : Rat) ≤ (lp m).2 t - k → 0 ≤ (lp m).2 t - k

end
end Align
end Verif
