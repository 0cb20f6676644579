import Verif.Bpmn.Theorems
import Verif.Convert.BlockLoop
/-
Examples for C65: concrete graphs that meet the hypotheses of the theorems, and the behaviour of inclusive gateways.
-/
set_option linter.unusedSectionVars false
namespace Verif
open Conv Sys Bpmn Dict Lang

namespace Bpmn

/-- start, two tasks between a pair of gateways of class `k`, end -/
def twoTasks (k : Kind) : Graph :=
  { nodes := [⟨0, .start, "start"⟩, ⟨1, k, ""⟩, ⟨2, .task, "a"⟩, ⟨3, .task, "b"⟩, ⟨4, k, ""⟩, ⟨5, .fin, "end"⟩],
    flows := [⟨0, 0, 1⟩, ⟨2, 1, 2⟩, ⟨3, 2, 4⟩, ⟨4, 1, 3⟩, ⟨5, 3, 4⟩, ⟨1, 4, 5⟩] }

theorem twoTasks_ok : (twoTasks .par).OK := by
  refine ⟨by decide, by decide, ?_, ?_⟩ <;>
  · intro f hf
    simp only [twoTasks, List.mem_cons, List.not_mem_nil, or_false] at hf
    rcases hf with rfl | rfl | rfl | rfl | rfl | rfl <;> simp [twoTasks]

theorem twoTasks_incl_ok : (twoTasks .incl).OK := by
  refine ⟨by decide, by decide, ?_, ?_⟩ <;>
  · intro f hf
    simp only [twoTasks, List.mem_cons, List.not_mem_nil, or_false] at hf
    rcases hf with rfl | rfl | rfl | rfl | rfl | rfl <;> simp [twoTasks]

theorem twoTasks_connected : (twoTasks .par).Connected := by
  constructor <;>
  · intro n hn _
    simp only [twoTasks, List.mem_cons, List.not_mem_nil, or_false] at hn
    rcases hn with rfl | rfl | rfl | rfl | rfl | rfl <;> simp [twoTasks]

theorem twoTasks_moves : (twoTasks .par).moves = [⟨[0], [2], none⟩, ⟨[2], [4, 6], none⟩, ⟨[4], [5], some "a"⟩, ⟨[6], [7], some "b"⟩,
    ⟨[5, 7], [3], none⟩, ⟨[3], [1], none⟩] := by
  simp [Graph.moves, twoTasks, Graph.takes, Graph.gives, Graph.inFlows, Graph.outFlows, Kind.sync, Node.label, flowPlace]

theorem twoTasks_block : Block (twoTasks .par).moves 0 1 2 8 (shuf (fun w => w = ["a"]) (fun w => w = ["b"])) := by
  have ha : Multi [(⟨[4], [5], some "a"⟩ : Tr String)] [4] [5] 4 6 (fun w => w = (some "a").toList) :=
    (block_leaf (some "a") 4 5 6 (by omega) (by omega) (by omega)).multi rfl rfl rfl
  have hb : Multi [(⟨[6], [7], some "b"⟩ : Tr String)] [6] [7] 6 8 (fun w => w = (some "b").toList) :=
    (block_leaf (some "b") 6 7 8 (by omega) (by omega) (by omega)).multi rfl rfl rfl
  have hp := block_par (i := 2) (o := 3) (multi_append ha hb) (by omega) (by omega) (by omega) (by simp)
  have h2 := block_seq hp (block_leaf (none : Option String) 3 1 8 (by omega) (by omega) (by omega)) (by omega) (by omega) (by omega) rfl rfl
  have h3 := block_seq (block_leaf (none : Option String) 0 2 3 (by omega) (by omega) (by omega)) h2 (by omega) (by omega) (by omega) rfl rfl
  refine (h3.mono fun t => ?_).congr fun w => ?_
  · rw [twoTasks_moves]
    simp only [parTr, List.mem_append, List.mem_cons, List.not_mem_nil, or_false]
    constructor
    · rintro (rfl | (rfl | rfl | rfl | rfl) | rfl) <;> simp
    · rintro (rfl | rfl | rfl | rfl | rfl | rfl) <;> simp
  · constructor
    · rintro ⟨u, v, rfl, ⟨x, y, hx, rfl, rfl⟩, rfl⟩
      simpa using hx
    · intro h
      exact ⟨[], w, rfl, ⟨w, [], h, rfl, by simp⟩, rfl⟩

theorem twoTasks_sound : Sound (twoTasks .par).moves 0 1 :=
  ⟨twoTasks_block.proper, twoTasks_block.safe, twoTasks_block.complete, twoTasks_block.live⟩

/-- the hypotheses of the C65 theorems are met, and the traces are not trivial: the parallel pair gives both orders of `a` and `b`, and
nothing else -/
example (w : List String) : Accepts ((twoTasks .par).toPetri (fun _ => none) (fun g => g.trans) id true) initialMarking finalMarking w ↔
    w = ["a", "b"] ∨ w = ["b", "a"] := by
  rw [(C65_sound (fun _ => List.Perm.refl _) id (fun _ => none) true (twoTasks .par) twoTasks_ok (.inl (by decide)) twoTasks_connected
    twoTasks_sound).1 w]
  refine (twoTasks_block.lang w).symm.trans ?_
  constructor
  · rintro ⟨u, v, rfl, rfl, h⟩
    cases h with
    | left h => cases h with
      | right h => cases h; exact .inl rfl
    | right h => cases h with
      | left h => cases h; exact .inr rfl
  · rintro (rfl | rfl)
    · exact ⟨_, _, rfl, rfl, .left (.right .nil)⟩
    · exact ⟨_, _, rfl, rfl, .right (.left .nil)⟩

/-- a task with two outgoing flows is a choice: only one of the two following tasks is done -/
def implicitSplit : Graph :=
  { nodes := [⟨0, .start, "start"⟩, ⟨1, .task, "a"⟩, ⟨2, .task, "b"⟩, ⟨3, .task, "c"⟩, ⟨4, .fin, "end"⟩],
    flows := [⟨0, 0, 1⟩, ⟨1, 1, 2⟩, ⟨2, 1, 3⟩, ⟨3, 2, 4⟩, ⟨4, 3, 4⟩] }

theorem implicitSplit_ok : implicitSplit.OK := by
  refine ⟨by decide, by decide, ?_, ?_⟩ <;>
  · intro f hf
    simp only [implicitSplit, List.mem_cons, List.not_mem_nil, or_false] at hf
    rcases hf with rfl | rfl | rfl | rfl | rfl <;> simp [implicitSplit]

end Bpmn

set_option maxRecDepth 100000 in
/-- C65, limits: between an inclusive split and an inclusive join the conversion adds a silent way around every branch, so that the net of
`start → OR(a, b) → end` also accepts the empty trace, in which no branch of the inclusive choice is taken.  (`nearest` is the function the
shortest paths of this net give: the flow after a task is the nearest entry of the join from the flow before it.) -/
theorem C65_inclusive_refuted :
    Accepts ((twoTasks .incl).toPetri (fun p => if p = 4 then some 5 else if p = 6 then some 7 else none) (fun g => g.trans) id false)
      initialMarking finalMarking [] := by
  refine ⟨[3, 0, 5, 6, 7, 8, 41, 42, 30, 28, 12, 13, 35, 39], [(1, 1)], ?_, ?_, ?_⟩
  · rfl
  · rfl
  · rfl

set_option maxRecDepth 100000 in
/-- C65, limits: a task with two outgoing flows is converted to a choice between the flows (BPMN reads it as a parallel split). -/
theorem C65_implicit_split :
    Accepts (implicitSplit.toPetri (fun _ => none) (fun g => g.trans) id false) initialMarking finalMarking ["a", "b"] := by
  refine ⟨[3, 0, 5, 6, 7, 12, 13, 14, 26, 27, 28, 32], [(1, 1)], ?_, ?_, ?_⟩
  · rfl
  · rfl
  · rfl

end Verif
