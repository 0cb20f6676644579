import Verif.SelfDist.Theorems
/-
Examples and limits for C75.
-/
set_option linter.unusedSectionVars false
namespace Verif
open SelfDist Dict
namespace SelfDist

def exLog : List (List String) := [["a", "b", "c", "a", "d", "d"], ["a", "x", "y", "z", "a"], ["a", "e", "f", "a", "c", "b", "c"]]

example : msd exLog = [("a", 2), ("c", 1), ("d", 0)] := by decide +kernel
example : witnesses (msd exLog) exLog = [("a", ["b", "c", "e", "f"]), ("c", ["b"])] := by decide +kernel
example : IsMsd exLog "a" 2 := (C75_min exLog "a" 2).1 (by decide +kernel)
example : rework exLog = [("a", 3), ("d", 1), ("c", 1)] := by decide +kernel
example : reworkCase ["a", "b", "a", "a"] = (4, 2) := by decide +kernel

def exRows : List (String × String) := [("1", "a"), ("12", "a"), ("1", "2a"), ("1", "b"), ("1", "a"), ("12", "b"), ("12", "c"), ("12", "c")]

/-- the keys of the second and the third row collide; the result is the right one -/
example : traces exRows = [["a", "2a", "b", "a"], ["a", "b", "c", "c"]] ∧ msdDf (fun c a => c ++ a) exRows = [("a", 2), ("c", 0)] := by
  decide +kernel
example : reworkDf exRows = [("a", 1), ("c", 1)] := by decide +kernel

end SelfDist

/-- C75, limits: with another activity key than the default one, the witnesses are not those of the log: here the activities of the given key are
`x y x`, the only witness of `x` is `y`, but the default key has `x u v x` for the same events, and no witness is found at distance 1. -/
theorem C75_witnesses_refuted :
    let log : List (List (String × String)) := [[("x", "x"), ("y", "u"), ("x", "v"), ("w", "x")]]
    IsMsd (log.map (List.map Prod.fst)) "x" 1 ∧ getWitnesses Prod.fst Prod.fst log = [("x", ["y"])] ∧
    getWitnesses Prod.fst Prod.snd log = [("x", [])] := by
  refine ⟨(C75_min _ "x" 1).1 (by decide +kernel), by decide +kernel, by decide +kernel⟩

end Verif
