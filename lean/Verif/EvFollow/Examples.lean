import Verif.EvFollow.Theorems
/-
Examples and limits for C76.
-/
set_option linter.unusedSectionVars false
namespace Verif
open EvFollow Dict
namespace EvFollow

/-- activities 0 (register), 1 (check), 2 (pay) -/
def exTrace : List (Ev Nat) := [⟨0, 0, 2⟩, ⟨2, 5, 9⟩, ⟨1, 1, 4⟩, ⟨1, 3, 6⟩]

theorem exProper : ∀ t ∈ [exTrace, exTrace], Proper t := by
  intro t ht
  simp only [List.mem_cons, List.not_mem_nil, or_false, or_self] at ht
  subst ht
  unfold Proper
  decide

example : efg [exTrace, exTrace] = [((0, 1), 2), ((0, 2), 2), ((1, 2), 2)] := by decide +kernel
example : conc false [exTrace] = [((0, 1), 1), ((1, 1), 1), ((1, 2), 1)] := by decide +kernel
example : get? (conc true [exTrace, exTrace]) (1, 1) = some 2 := by decide +kernel
example : ∃ n : Int, n = 2 ∧ get? (conc true [exTrace, exTrace]) (1, 1) = some n ∧ ∀ t ∈ [exTrace, exTrace], Proper t :=
  ⟨2, rfl, by decide +kernel, exProper⟩

example : pairCount (fun x y => Follows 0 2 x y) exTrace = 1 := by decide

/-- one time stamp, in order -/
def exLog : List (List (Ev Nat)) := [[⟨0, 0, 0⟩, ⟨1, 1, 1⟩, ⟨0, 1, 1⟩], [⟨0, 3, 3⟩, ⟨1, 4, 4⟩]]
example : (∀ t ∈ exLog, t.Pairwise fun x y => x.st ≤ y.st) ∧ (∀ t ∈ exLog, ∀ e ∈ t, e.st = e.et) := by decide
example : get? (efg exLog) (0, 1) = some 2 ∧ get? (efgDf exLog) (0, 0) = some 1 := by decide +kernel

end EvFollow

/-- C76, limits: the same case, as an event log and as a data frame.  The second event takes no time and starts together with the first one: the data
frame says that 0 follows 1 eventually, the event log does not. -/
theorem C76_efg_ties_refuted :
    let t : List (Ev Nat) := [⟨0, 5, 8⟩, ⟨1, 5, 5⟩]
    Proper t ∧ get? (efg [t]) (1, 0) = none ∧ get? (efgDf [t]) (1, 0) = some 1 := by
  refine ⟨?_, by decide +kernel, by decide +kernel⟩
  unfold Proper
  decide

/-- C76, limits: in two cases 0 and 1 are concurrent, in the first one 0 starts first, in the second one 1 does.  The event log counts two, the
data frame one. -/
theorem C76_conc_df_refuted :
    let log : List (List (Ev Nat)) := [[⟨0, 0, 5⟩, ⟨1, 1, 6⟩], [⟨1, 0, 5⟩, ⟨0, 1, 6⟩]]
    get? (conc false log) (0, 1) = some 2 ∧ get? (concDf false log) (0, 1) = some 1 := by
  decide +kernel

/-- C76, limits: an event that ends before it starts hides the concurrent events behind it. -/
theorem C76_conc_proper_needed :
    let log : List (List (Ev Nat)) := [[⟨0, 0, 9⟩, ⟨1, 2, 1⟩, ⟨2, 3, 8⟩]]
    get? (conc false log) (0, 2) = none ∧ Concurrent false (⟨0, 0, 9⟩ : Ev Nat) ⟨2, 3, 8⟩ := by
  refine ⟨by decide +kernel, 4, by decide⟩

end Verif
