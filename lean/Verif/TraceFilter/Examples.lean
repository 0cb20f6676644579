import Verif.TraceFilter.Theorems
/-
C41: concrete logs for the trace filters.  Events are pairs (activity, time), or triples with a resource.
-/
namespace Verif.TraceFilter

def exAct : String × Int → Option String := fun e => some e.1

def exLog : List (List (String × Int)) :=
  [[("a", 0), ("b", 5), ("c", 9)], [("a", 1), ("c", 2), ("b", 3)], [("b", 7), ("b", 8)], []]

example : eventuallyFollows exAct Prod.snd true false [] ["a", "c"] exLog
    = [[("a", 0), ("b", 5), ("c", 9)], [("a", 1), ("c", 2), ("b", 3)]] := by decide

example : eventuallyFollows exAct Prod.snd false false [] ["a", "b", "c"] exLog
    = [[("a", 1), ("c", 2), ("b", 3)], [("b", 7), ("b", 8)], []] := by decide

example : aNextBNextC exAct true "a" "c" "b" exLog = [[("a", 1), ("c", 2), ("b", 3)]] := by decide

example : startActivities Prod.fst false ["a"] exLog = [[("b", 7), ("b", 8)]] := by decide

example : attrCases exAct false ["c"] exLog = [[("b", 7), ("b", 8)]] := by decide

example : pathsFilter Prod.fst true [("b", "c"), ("b", "b")] exLog
    = [[("a", 0), ("b", 5), ("c", 9)], [("b", 7), ("b", 8)]] := by decide

example : pathsPerformance Prod.fst Prod.snd false ("a", "b") 0 10 exLog
    = [[("a", 1), ("c", 2), ("b", 3)], [("b", 7), ("b", 8)], []] := by decide

example : rework Prod.fst true "b" 2 exLog = [[("b", 7), ("b", 8)]] := by decide

example : repetition exAct "b" 0 (some 1) exLog
    = [[("a", 0), ("b", 5), ("c", 9)], [("a", 1), ("c", 2), ("b", 3)], []] := by decide

/-- The traces of the example log are sorted by time, and the interval is not empty. -/
example : ∀ t ∈ exLog, TimeSorted Prod.snd t := by
  intro t ht
  simp only [exLog, List.mem_cons, List.not_mem_nil, or_false] at ht
  rcases ht with rfl | rfl | rfl | rfl <;> simp [TimeSorted]

example : tracesContained Prod.snd 1 8 exLog = [[("a", 1), ("c", 2), ("b", 3)], [("b", 7), ("b", 8)]] := by decide

example : tracesIntersecting Prod.snd 6 6 exLog = [[("a", 0), ("b", 5), ("c", 9)]] := by decide

example : prefixes exAct true false "b" exLog = [[("a", 0), ("b", 5)], [("a", 1), ("c", 2), ("b", 3)], [("b", 7)]] := by
  decide

example : suffixes exAct false true "b" exLog = [[("c", 9)], [], []] := by decide

/-- Subtraces from a to b in ⟨x, a, c, a, b, b, a, b⟩ (with positions). -/
example : between (fun e : String × Nat => e.1 == "a") (fun e => e.1 == "b") false
    [[("x", 0), ("a", 1), ("c", 2), ("a", 3), ("b", 4), ("b", 5), ("a", 6), ("b", 7)]]
    = [((0, 0), [("a", 1), ("c", 2), ("a", 3), ("b", 4)]), ((0, 1), [("a", 6), ("b", 7)])] := by decide

/-- From a to a: the laps share their boundaries. -/
example : between (fun e : String × Nat => e.1 == "a") (fun e => e.1 == "a") true
    [[("x", 0), ("a", 1), ("c", 2), ("a", 3), ("b", 4), ("a", 5), ("c", 6)]]
    = [((0, 0), [("a", 1), ("c", 2), ("a", 3)]), ((0, 1), [("a", 3), ("b", 4), ("a", 5)])] := by decide

/-- Four eyes: in the first trace nobody does both a and b, in the second r1 does; the third has no b. -/
def exRes : List (List (String × Option String)) :=
  [[("a", some "r1"), ("b", some "r2"), ("a", some "r3")], [("a", some "r1"), ("b", some "r2"), ("b", some "r1")],
   [("a", some "r1"), ("b", none)]]

example : fourEyes (fun e => some e.1) Prod.snd true "a" "b" exRes
    = [[("a", some "r1"), ("b", some "r2"), ("a", some "r3")]] := by decide

example : fourEyes (fun e => some e.1) Prod.snd false "a" "b" exRes
    = [[("a", some "r1"), ("b", some "r2"), ("b", some "r1")]] := by decide

/-- The positive and the negative four-eyes filter do not split the log: the third trace is in neither. -/
theorem _root_.Verif.C41_four_eyes_partition_refuted :
    ¬ ∀ log : List (List (String × Option String)),
      (fourEyes (fun e => some e.1) Prod.snd true "a" "b" log ++
        fourEyes (fun e => some e.1) Prod.snd false "a" "b" log).length = log.length := by
  intro h
  have := h exRes
  revert this
  decide

/-- The positive and the negative numeric filter do not split the log: a trace with a value inside and one outside is in
both. -/
theorem _root_.Verif.C41_numeric_partition_refuted :
    ¬ ∀ log : List (List (Option Int)),
      (attrNumeric id (fun _ => true) true 0 10 log ++ attrNumeric id (fun _ => true) false 0 10 log).length
        = log.length := by
  intro h
  have := h [[some 5, some 50]]
  revert this
  decide

example : differentPersons (fun e => some e.1) Prod.snd true "a" exRes
    = [[("a", some "r1"), ("b", some "r2"), ("a", some "r3")]] := by decide

end Verif.TraceFilter
