/-
C40: concrete cases meeting the hypotheses, and the refuted claim that the result has an edge.
-/
import Verif.Dfg.Targets
namespace Verif
namespace Dfg

theorem connected_of_onRunB {A : Type} [DecidableEq A] (d : D A) (h : d.cnt.keys.all (onRunB d) = true) : Connected d :=
  fun a ha => (onRunB_iff d a).1 (List.all_eq_true.1 h a ha)

/-- comparison of the activity names -/
def exGt (a b : Nat) : Bool := decide (a > b)
/-- some comparison of the edges -/
def exGte : GEdge Nat → GEdge Nat → Bool
  | (.act a, .act b), (.act c, .act d) => decide (a > c) || (decide (a = c) && decide (b > d))
  | (.act _, _), _ => true
  | _, _ => false

/-- the DFG of the log `⟨a,b,c,d⟩³ ⟨a,c,d⟩ ⟨a,b,d⟩²` (activities 1, 2, 3, 4) -/
def exD : D Nat :=
  { dfg := [((1, 2), 5), ((2, 3), 3), ((3, 4), 4), ((1, 3), 1), ((2, 4), 2)]
    sa := [(1, 6)], ea := [(4, 6)], cnt := [(1, 6), (2, 5), (3, 4), (4, 6)] }

/-- branches 1→2→4 and 1→3→4 -/
def exD2 : D Nat :=
  { dfg := [((1, 2), 5), ((1, 3), 3), ((2, 4), 5), ((3, 4), 3)]
    sa := [(1, 8)], ea := [(4, 8)], cnt := [(1, 8), (2, 5), (3, 3), (4, 8)] }

example : WF exD := by constructor <;> decide
example : Connected exD := connected_of_onRunB _ (by decide +kernel)
-- half of the activities: ⌈3/2⌉ + 1 = 3 activities are kept, the least frequent one can be dropped
example : filterActivities exGt exD (1 / 2) =
    { dfg := [((1, 2), 5), ((2, 4), 2)], sa := [(1, 6)], ea := [(4, 6)], cnt := [(1, 6), (2, 5), (4, 6)] } := by
  decide +kernel
example : filterPaths exGte exD (1 / 5) false =
    { dfg := [((1, 2), 5), ((2, 3), 3), ((3, 4), 4)], sa := [(1, 6)], ea := [(4, 6)],
      cnt := [(1, 6), (2, 5), (3, 4), (4, 6)] } := by decide +kernel
-- activity 3 is lost by default but not with `keep_all_activities`
example : (filterPaths exGte exD2 (1 / 3) false).cnt = [(1, 8), (2, 5), (4, 8)] := by decide +kernel
example : (filterPaths exGte exD2 (1 / 3) true).cnt = [(1, 8), (2, 5), (3, 3), (4, 8)] := by decide +kernel
example : filterPaths exGte exD (1 / 5) true =
    { dfg := [((1, 2), 5), ((2, 3), 3), ((3, 4), 4)], sa := [(1, 6)], ea := [(4, 6)],
      cnt := [(1, 6), (2, 5), (3, 4), (4, 6)] } := by decide +kernel
example : filterKeepConnected exGte exD (4 / 5) false =
    { dfg := [((1, 2), 5), ((2, 3), 3), ((3, 4), 4)], sa := [(1, 6)], ea := [(4, 6)],
      cnt := [(1, 6), (2, 5), (3, 4), (4, 6)] } := by decide +kernel
example : filterTo 2 exD 3 = some
    { dfg := [((1, 2), 5), ((2, 3), 3), ((1, 3), 1)], sa := [(1, 6)], ea := [(3, 4)],
      cnt := [(1, 6), (2, 5), (3, 4)] } := by decide +kernel
example : filterFrom 2 exD 2 = some
    { dfg := [((2, 3), 3), ((3, 4), 4), ((2, 4), 2)], sa := [(2, 5)], ea := [(4, 6)],
      cnt := [(2, 5), (3, 4), (4, 6)] } := by decide +kernel
example : filterContain 2 2 exD2 = some
    { dfg := [((1, 2), 5), ((2, 4), 5)], sa := [(1, 8)], ea := [(4, 8)], cnt := [(1, 8), (2, 5), (4, 8)] } := by
  decide +kernel
example : filterContain 2 1 exD2 = none := by decide +kernel
example : cleanNoise exD.dfg (1 / 2) [] = [((1, 2), 5), ((2, 3), 3), ((3, 4), 4), ((2, 4), 2)] := by decide +kernel
example : ∀ e ∈ exD.dfg, 0 ≤ e.2 := by decide

/-- the DFG of the log `⟨a,b,c,d,a⟩` -/
def exCycle : D Nat :=
  { dfg := [((1, 2), 1), ((2, 3), 1), ((3, 4), 1), ((4, 1), 1)]
    sa := [(1, 1)], ea := [(1, 1)], cnt := [(1, 2), (2, 1), (3, 1), (4, 1)] }

/-- **C40 (refuted).** The filters on activities and on paths test, before they remove an activity or an edge, that the
DFG does not become empty; still both can return a DFG without any edge for a connected DFG, because the final removal
of the disconnected activities is not tested. -/
theorem _root_.Verif.C40_nonempty_refuted :
    ∃ d : D Nat, WF d ∧ Connected d ∧ d.cnt.length > 1 ∧ d.dfg.length > 1 ∧
      (filterActivities exGt d 0).dfg = [] ∧ (filterPaths exGte d 0 false).dfg = [] := by
  refine ⟨exCycle, ?_, connected_of_onRunB _ (by decide +kernel), by decide, by decide, by decide +kernel, by decide +kernel⟩
  constructor <;> decide

end Dfg
end Verif
