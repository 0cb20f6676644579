import Verif.TempProfile.Theorems
/-
C71: the bound is sharp; examples.
-/
namespace Verif
open TempProfile Dict

/-- 37 traces in which `b` follows `a` at once, and one in which it takes one unit of time -/
def TempProfile.exLog : List (List Ev) := List.replicate 37 [⟨"a", 0, 0⟩, ⟨"b", 0, 0⟩] ++ [[⟨"a", 0, 0⟩, ⟨"b", 1, 1⟩]]

set_option maxRecDepth 100000 in
theorem TempProfile.exLog_obs : observations exLog ("a", "b") = List.replicate 37 0 ++ [1] := by decide

/-- **C71 (4, sharpness)**: with 38 observations a log need not conform to its own profile: the default `ζ = 6` reports the one trace that is
different. -/
theorem C71_self_sharp : ∃ D ∈ conformance (discover exLog) 6 exLog, D ≠ [] := by
  have hm : mean (List.replicate 37 0 ++ [1]) = 1 / 38 := by
    simp [mean]
  have hs : stdev (List.replicate 37 0 ++ [1]) = Real.sqrt (1 / 38) := by
    unfold stdev
    rw [hm]
    congr 1
    simp
    norm_num
  have hg := (C71_discovery exLog ("a", "b")).2.1 (by rw [exLog_obs]; simp)
  rw [exLog_obs, hm, hs, if_pos (by simp)] at hg
  have hlen : 37 < exLog.length := by simp [exLog]
  have he : exLog[37] = [⟨"a", 0, 0⟩, ⟨"b", 1, 1⟩] := by simp [exLog]
  have hsq : Real.sqrt (1 / 38) < 37 / 228 := by
    rw [Real.sqrt_lt' (by norm_num)]
    norm_num
  have hpos : (0 : ℝ) < Real.sqrt (1 / 38) := Real.sqrt_pos.2 (by norm_num)
  have hc := ((C71_conformance (discover exLog) 6 exLog).2 37 hlen ⟨("a", "b"), 1, some (|((1 : Int) : ℝ) - 1 / 38| / Real.sqrt (1 / 38))⟩).2
    ⟨0, 1, by rw [he]; simp, by rw [he]; simp, 1 / 38, Real.sqrt (1 / 38), by omega, by simp [he], by simpa [he] using hg, ?_, by simp [he], by simp [he],
      fun _ => by simp [he], fun h => absurd hpos h⟩
  · obtain ⟨D, hD, hv⟩ := hc
    exact ⟨D, List.mem_of_getElem? hD, fun e => by rw [e] at hv; simp at hv⟩
  · simp only [he, List.getElem_cons_succ, List.getElem_cons_zero]
    rw [gt_iff_lt, lt_abs]
    left
    push_cast
    linarith

/-- a log with two traces meets the condition of the theorems -/
theorem C71_case : ∀ D ∈ conformance (discover [[⟨"a", 0, 0⟩, ⟨"b", 5, 5⟩], [⟨"a", 0, 0⟩, ⟨"b", 9, 9⟩]]) 6
    [[⟨"a", 0, 0⟩, ⟨"b", 5, 5⟩], [⟨"a", 0, 0⟩, ⟨"b", 9, 9⟩]], D = [] := by
  refine C71_self_default fun ab => ?_
  unfold observations
  rw [List.length_flatMap]
  refine Nat.le_trans (m := 2) ?_ (by omega)
  simp only [List.map_cons, List.map_nil, List.sum_cons, List.sum_nil, Nat.add_zero]
  have key : ∀ (f : Nat × Nat → Option Int) (tr : List Ev), (positions tr).length ≤ 1 → ((positions tr).filterMap f).length ≤ 1 :=
    fun f tr h => Nat.le_trans (List.length_filterMap_le f _) h
  exact Nat.add_le_add (key _ _ (by decide)) (key _ _ (by decide))

end Verif
