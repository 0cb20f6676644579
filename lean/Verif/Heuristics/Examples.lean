import Verif.Heuristics.Theorems
/-
Examples and limits for C77.
-/
set_option linter.unusedSectionVars false
namespace Verif
open Heuristics Dict
namespace Heuristics

/-- 0 (register), then 1 (check) and 2 (examine) in any order, 3 (decide) -/
def exLog : List (List Nat) := [[0, 1, 2, 3], [0, 2, 1, 3], [0, 1, 2, 3], [0, 2, 1, 3]]

example : (discover dflt (1 / 20) exLog).arcs = [(0, 1), (2, 3), (0, 2), (1, 3)] := by decide +kernel
example : (discover dflt (1 / 20) exLog).nodes = [0, 1, 2, 3] := by decide +kernel
example : andOut dflt (inputOf (1 / 20) exLog) (strong dflt (inputOf (1 / 20) exLog)) 0 = [((1, 2), 4 / 5)] := by decide +kernel
example : andIn dflt (inputOf (1 / 20) exLog) (strong dflt (inputOf (1 / 20) exLog)) 3 = [((1, 2), 4 / 5)] := by decide +kernel
example : WF (inputOf (1 / 20) exLog) := (C77_input _ _).1
example : Strong dflt (inputOf (1 / 20) exLog) 0 1 ∧ ¬ Strong dflt (inputOf (1 / 20) exLog) 1 2 := by
  rw [← strongB_iff, ← strongB_iff]
  decide +kernel
example : dependency (inputOf (1 / 20) exLog) 0 1 = 2 / 3 := by decide +kernel

/-- a loop of length two: 0, then 1 2 1 2 1, 3 -/
def exLoop : List (List Nat) := [[0, 1, 2, 1, 2, 1, 3]]
example : (discover dflt (1 / 20) exLoop).arcs = [(0, 1), (1, 3), (1, 2), (2, 1)] := by decide +kernel
example : (discover dflt (1 / 20) exLoop).nodes = [0, 1, 3, 2] := by decide +kernel
example : Loop dflt (inputOf (1 / 20) exLoop) 1 2 := by
  rw [← cand_iff (C77_input _ _).1]
  decide +kernel

/-- no connection -/
example : (discover dflt (1 / 20) [[0], [1], [0]]).nodes = [0, 1] ∧ (discover dflt (1 / 20) [[0], [1], [0]]).arcs = [] := by decide +kernel

end Heuristics

/-- C77, limits: an activity can be missing although all thresholds on frequencies are met: with the default parameters, the activities of every second
trace do not appear in the net, because they only follow each other in both directions, and loops of length two are only searched at activities that
already have a connection. -/
theorem C77_complete_refuted :
    let log : List (List Nat) := [[0, 1, 0, 1, 0], [2, 3]]
    (discover dflt (1 / 20) log).nodes = [2, 3] ∧ loopMeasure (inputOf (1 / 20) log) 0 1 = 3 / 4 ∧
    Frequent dflt (inputOf (1 / 20) log) 0 ∧ Frequent dflt (inputOf (1 / 20) log) 1 := by
  refine ⟨by decide +kernel, by decide +kernel, ?_, ?_⟩
  · rw [← enough_iff]; decide +kernel
  · rw [← enough_iff]; decide +kernel

/-- C77, limits: the thresholds are not met by both directions of a loop.  With `min_dfg_occurrences = 3`, the connection 2 → 1 is in the net although 1
follows 2 only twice; and the frequencies at the two ends of this connection are different. -/
theorem C77_loop_refuted :
    let log : List (List Nat) := [[0, 1, 2, 1, 2, 1, 3], [0, 1, 2, 3], [0, 1, 3]]
    let p : Params := { dflt with minDfg := 3 }
    let h := discover p (1 / 20) log
    (2, 1) ∈ h.arcs ∧ count (inputOf (1 / 20) log).dfg (2, 1) = 2 ∧ ((2, 1), (0, 2)) ∈ h.outs ∧ ((2, 1), (0, 3)) ∈ h.ins := by
  decide +kernel

/-- C77, limits: with the default noise threshold, a connection that was removed as noise appears again as part of a loop, with the frequency 0. -/
theorem C77_noise_refuted :
    let log : List (List Nat) := List.replicate 100 [0, 1] ++ List.replicate 30 [1, 2] ++ [[1, 2, 1]]
    let p : Params := { dflt with dep := 99 / 100 }
    let h := discover p (1 / 20) log
    h.arcs = [(0, 1), (1, 2), (2, 1)] ∧ get? (inputOf (1 / 20) log).dfg (2, 1) = none ∧ ((2, 1), (0, 0)) ∈ h.outs := by
  decide +kernel

end Verif
