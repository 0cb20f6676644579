import Verif.TransSys.Theorems
/-
C67: refutation and examples.
-/
namespace Verif
open TransSys

/-- `[0, 1, ..]` and its reverse are possible iteration orders -/
theorem TransSys.isOrder_id : IsOrder id := fun _ => .refl _
theorem TransSys.isOrder_reverse : IsOrder List.reverse := fun l => l.reverse_perm

/-- **C67 (refuted without the condition)**: with the default parameters (forward, window 2, sequence view) the trace `⟨a, a, a⟩` starts with
two equal views; the two states of the first step are both created, with the same name.  If the set of states then yields the first of
them, no state of the transition system has a path for the trace; if it yields the second one, there is such a path: the result depends on
the memory addresses of the states. -/
theorem C67_replay_refuted :
    (∃ i j, i ≠ j ∧ i < (discover List.reverse .forward 2 .sequence [["a", "a", "a"]]).states.length ∧
      j < (discover List.reverse .forward 2 .sequence [["a", "a", "a"]]).states.length ∧
      (discover List.reverse .forward 2 .sequence [["a", "a", "a"]]).name i =
        (discover List.reverse .forward 2 .sequence [["a", "a", "a"]]).name j) ∧
    (¬ ∃ i j, Path (discover List.reverse .forward 2 .sequence [["a", "a", "a"]]) i ["a", "a", "a"] j) ∧
    ∃ i j, Path (discover id .forward 2 .sequence [["a", "a", "a"]]) i ["a", "a", "a"] j := by
  refine ⟨⟨0, 1, by decide, by decide, by decide, by decide⟩, ?_, ?_⟩
  · rintro ⟨i, j, h⟩
    have e : (discover List.reverse .forward 2 .sequence [["a", "a", "a"]]).trans =
      [(0, "a", 1), (0, "a", 2), (2, "a", 3)] := by decide
    cases h with
    | cons h1 h =>
      cases h with
      | cons h2 h =>
        cases h with
        | cons h3 h =>
          rw [e] at h1 h2 h3
          simp only [List.mem_cons, List.not_mem_nil, or_false, Prod.mk.injEq, true_and] at h1 h2 h3
          omega
  · refine ⟨0, 3, .cons (j := 1) (by decide) (.cons (j := 2) (by decide) (.cons (by decide) (.nil _)))⟩

/-! ### the theorems apply to concrete logs -/

def TransSys.exLog : List (List String) := [["a", "b", "c"], ["a", "c", "b"], ["a", "b", "b"]]

theorem TransSys.exLog_noStutter : ∀ tr ∈ exLog, NoStutter .forward 2 .sequence tr := by
  unfold NoStutter; decide

/-- the log is replayed by its transition system with the default parameters -/
theorem C67_replay_case : ∃ f : Nat → Nat, Path (discover List.reverse .forward 2 .sequence exLog) (f 0) ["a", "b", "b"] (f 3) := by
  obtain ⟨f, _, _, h⟩ := C67_replay isOrder_reverse .forward 2 .sequence exLog exLog_noStutter (tr := ["a", "b", "b"]) (by decide) (by decide)
  exact ⟨f, h⟩

/-- the states of the transition systems of the log for some parameters -/
theorem C67_case : (discover id .forward 2 .sequence exLog).states = [["a", "b"], ["b", "c"], ["c"], [], ["a", "c"], ["c", "b"], ["b"], ["b", "b"]] ∧
    (discover id .backward 3 .sequence exLog).states =
      [[], ["a"], ["a", "b"], ["a", "b", "c"], ["a", "c"], ["a", "c", "b"], ["a", "b", "b"]] ∧
    (discover id .backward 3 .set exLog).states = [[], ["a"], ["a", "b"], ["a", "b", "c"], ["a", "c"]] := by decide

theorem C67_prefix_case : ∃ tr ∈ exLog, ["a", "c"] <+: tr := ⟨["a", "c", "b"], by decide, ["b"], rfl⟩

theorem C67_prefix_applies : (∀ tr ∈ exLog, tr.length ≤ 3) ∧ ∃ tr ∈ exLog, tr ≠ [] := by decide

end Verif
