import Verif.Alpha.Sequence
/-
C45: instances.
-/
namespace Verif.Alpha

/-- a choice between 1 and 2 after 0, then 3; and 1, 2 are never in the same trace -/
def exLog : List (List Nat) := [[0, 1, 3], [0, 2, 3]]

/-- The model computes the two places with the choice. -/
example : internalPlaces (Foot.parallelOf (Dfg.native 1 false exLog)) (Foot.causalAlpha (Dfg.native 1 false exLog)) =
    [({0}, {1, 2}), ({1, 2}, {3})] := by decide

/-- `C45_places` (right to left): a maximal pair. -/
example : Maximal' (Follows exLog) ({0}, {1, 2}) := by
  have := (mem_internal (rel_log exLog) ({0}, {1, 2})).1 (by decide)
  exact this

/-- `C45_connected`: its hypotheses. -/
example : Follows exLog 0 2 ∧ ¬ Follows exLog 2 0 ∧ ¬ Follows exLog 0 0 ∧ ¬ Follows exLog 2 2 := by
  have h : ∀ a b, Follows exLog a b ↔ (a, b) ∈ Dict.keys (Dfg.native 1 false exLog) := by
    intro a b; rw [DfgNet.keys_native]; rfl
  simp only [h]
  decide

/-- `C45_sequence`: its hypotheses. -/
example : [4, 2, 7, 1].Nodup ∧ [4, 2, 7, 1] ≠ [] := by decide

end Verif.Alpha
