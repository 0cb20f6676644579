import Verif.Footprints.Theorems
/-
Property theorems C19/C20: where the footprints of process trees go wrong.
-/
namespace Verif
namespace Foot.Ex
open IM Dict Counter

/-- `⟨1⟩`, `⟨1, 2, 1⟩`, `⟨1, 3, 1⟩` -/
def l : List (List Nat) := [[1], [1, 2, 1], [1, 3, 1]]
/-- the loop with body 1 and the two redo parts 2 and 3 -/
def T : PT Nat := .node .loop [.leaf (some 1), .leaf (some 2), .leaf (some 3)]
/-- variants of the log -/
def L : UVCL Nat := ofList l
/-- directly-follows graph of the log -/
def g : Dfg.DFG Nat := Dfg.discoverUvcl L

theorem hseq : (holdsSeq exampleEnv g) = none := by
  have h : mergeLoop (succ exampleEnv g) ((verts exampleEnv g).map fun a => [a]).length ((verts exampleEnv g).map fun a => [a]) = [[2,3,1]] := by decide
  unfold holdsSeq
  simp only [h, List.mergeSort_singleton]
  decide
theorem hpar : (holdsPar exampleEnv g) = none := by
  have h : concLoop g ((exampleEnv.sorted (verts exampleEnv g)).map fun a => [a]).length ((exampleEnv.sorted (verts exampleEnv g)).map fun a => [a]) = [[2,3],[1]] := by decide
  have h2 : ([[2,3],[1]] : List (List Nat)).mergeSort (fun x y => decide (x.length ≤ y.length)) = [[1],[2,3]] := by
    simp [List.mergeSort, List.MergeSort.Internal.splitInTwo]
  unfold holdsPar
  simp only [h, h2]
  decide
theorem b10 : best [1, 0] = 0 := by
  simp [best, List.mergeSort, List.MergeSort.Internal.splitInTwo]
theorem b01 : best [0, 1] = 1 := by
  simp [best, List.mergeSort, List.MergeSort.Internal.splitInTwo]
theorem pl : (projectLoop L [[1],[2],[3]]) = some [[([1],5)],[([2],1)],[([3],1)]] := by
  have h1 : dedup [2] = [2] := by decide
  have h2 : dedup [3] = [3] := by decide
  simp [projectLoop, L, l, ofList, update, inc, Dict.set, loopTrace, loopEvent, appendRedo, b10, b01, List.modify, Dict.count, Dict.get?, h1, h2]
theorem f1 : PT.fold1 T = some (T, true) := by 
  have hl : ∀ l : Option Nat, PT.fold1 (.leaf l) = some (.leaf l, true) := by
    intro l; unfold PT.fold1
    split
    · rename_i h; simp [PT.reduceTau] at h; simp [h]
    · rename_i h; simp [PT.reduceTau] at h
    · rename_i h; simp [PT.reduceTau] at h
  have hr : PT.reduceTau T = T := rfl
  unfold PT.fold1
  split
  · rename_i h; rw [hr] at h; cases h
  · rename_i h; rw [hr] at h; cases h
  · rename_i h; rw [hr] at h; cases h
    simp [hl, T]
    rfl
theorem hfold (n : Nat) : PT.fold id (n+1) T = some T := by
  have hr : PT.reduceTau T = T := rfl
  have hs : PT.stripRoot T = T := by unfold PT.stripRoot T; simp
  simp [PT.fold, f1, hs, hr]
theorem him : im exampleEnv 2 L = some T := by
  have h1 : emptyTraces L = none := by decide
  have h2 : baseCase L = none := rfl
  have hx : holdsXor exampleEnv (Dfg.discoverUvcl L) = none := by decide
  have hp : holdsPar exampleEnv (Dfg.discoverUvcl L) = none := hpar
  have hs : holdsStrict exampleEnv (Dfg.discoverUvcl L) = none := by unfold holdsStrict; rw [show holdsSeq exampleEnv (Dfg.discoverUvcl L) = none from hseq]
  have hl : holdsLoop exampleEnv (Dfg.discoverUvcl L) = some [[1],[2],[3]] := by decide
  have hst : exampleEnv.strict = true := rfl
  have : cutOrFall exampleEnv L = .node (some .loop) [[([1],5)],[([2],1)],[([3],1)]] := by
    unfold cutOrFall findCut
    simp only [hx, hs, hp, hl, pl, hst, if_true]
  rw [im]
  simp only [h1, h2, this]
  rfl
theorem hdisc (n : Nat) : discover exampleEnv id id (n + 2) l = some T := by
  unfold discover
  rw [show im exampleEnv (n + 2) (ofList l) = some T from im_mono_le exampleEnv (by omega) him]
  simp only [hfold]
  rfl

end Foot.Ex
open Foot Foot.Ex

/-- From the log `⟨1⟩, ⟨1, 2, 1⟩, ⟨1, 3, 1⟩` the inductive miner discovers the loop with body 1 and redo parts 2 and 3; it accepts
every trace of the log, but footprints conformance reports `(1, 3)` and `(3, 1)`, since the footprints of a loop only use its
first two children (bottomup.py:315-331). -/
theorem C19_discovered_refuted : ∃ t : PT Nat, (∀ n, IM.discover exampleEnv id id (n + 2) l = some t) ∧ (∀ w ∈ l, t.lang w) ∧
    ∃ m, treeFP t = some m ∧ (confLog (logFP l) m).isFit = false ∧ (confLog (logFP l) m).footprints = [(1, 3), (3, 1)] ∧
      (confTraces true l m).map Conf.isFit = [true, true, false] := by
  refine ⟨T, hdisc, ?_, ⟨⟨[1], [1], [1, 2, 3], false, [], [(1, 2), (2, 1)], [1]⟩, 1⟩, by rfl, by decide, by decide, by decide⟩
  exact C07_fitness exampleEnv_lawful id id l (by unfold IM.SmallAlphabet; decide) 2 T (hdisc 0)

/-- The hypothesis on loops cannot be dropped from `C20_exact`: with a third child, activities directly following each other are
missed. -/
theorem C20_loop_refuted : ∃ (t : PT Nat) (m : MFP Nat), treeFP t = some m ∧ (∃ w, t.lang w ∧ Follows w 1 3) ∧
    (1, 3) ∉ m.sequence ++ m.parallel := by
  refine ⟨T, ⟨⟨[1], [1], [1, 2, 3], false, [], [(1, 2), (2, 1)], [1]⟩, 1⟩, by rfl, ⟨[1, 3, 1], ?_, [], [1], rfl⟩, by decide⟩
  exact C07_fitness exampleEnv_lawful id id l (by unfold IM.SmallAlphabet; decide) 2 T (hdisc 0) [1, 3, 1] (by decide)

/-- `O(tau, 1)` -/
def orTau : PT Nat := .node .or [.leaf none, .leaf (some 1)]
/-- `O(1, 2)` -/
def or12 : PT Nat := .node .or [.leaf (some 1), .leaf (some 2)]

/-- OR nodes are treated as parallel ones (bottomup.py:362, utils/bottomup.py:186): for `O(1, 2)`, which accepts `⟨1⟩`, the
footprints claim that 2 always happens and that traces have length at least 2, so that `⟨1⟩` is reported; for `O(tau, 1)`, which
accepts the empty trace, they claim that it cannot be skipped. -/
theorem C20_or_refuted :
    (or12.lang [1] ∧ ∃ m, treeFP or12 = some m ∧ 2 ∈ m.always ∧ m.minLen = 2 ∧ (confTrace true (traceFP [1]) m).isFit = false) ∧
    (orTau.lang [] ∧ ∃ m, treeFP orTau = some m ∧ m.skip = false) := by
  refine ⟨⟨?_, _, rfl, by decide, rfl, by decide⟩, ?_, _, rfl, rfl⟩
  · rw [or12, PT.lang_node]
    refine ⟨[PT.lang (.leaf (some 1))], by simp, List.Sublist.cons_cons _ (List.nil_sublist _), [1], [], rfl, rfl, ?_⟩
    exact .left .nil
  · rw [orTau, PT.lang_node]
    exact ⟨[PT.lang (.leaf none)], by simp, List.Sublist.cons_cons _ (List.nil_sublist _), [], [], rfl, rfl, .nil⟩

/-- An empty log does not fit a tree without empty trace: the minimal trace length of an empty log is set to 0
(entire_event_log.py:80). -/
theorem C19_empty_log_refuted : ∃ (t : PT Nat) (m : MFP Nat), Foot.Plain t ∧ treeFP t = some m ∧ (∀ w ∈ ([] : List (List Nat)), t.lang w) ∧
    (confLog (logFP []) m).isFit = false :=
  ⟨.leaf (some 1), _, .leaf _, rfl, by simp, by decide⟩

/-! ### The hypotheses of C19 and C20 can be met -/

/-- `->( 1, X( tau, *( 2, 3 ) ), +( 4, 5 ) )` -/
def fpTree : PT Nat := .node .seq [.leaf (some 1), .node .xor [.leaf none, .node .loop [.leaf (some 2), .leaf (some 3)]],
  .node .par [.leaf (some 4), .leaf (some 5)]]

theorem exTree_plain : Foot.Plain fpTree := by
  have L : ∀ l : Option Nat, Foot.Plain (.leaf l) := fun l => .leaf l
  refine .node _ _ (by simp) (by simp) (by simp) (by simp) ?_
  intro c hc
  simp only [List.mem_cons, List.not_mem_nil, or_false] at hc
  rcases hc with rfl | rfl | rfl
  · exact L _
  · refine .node _ _ (by simp) (by simp) (by simp) (by simp) ?_
    intro c hc
    simp only [List.mem_cons, List.not_mem_nil, or_false] at hc
    rcases hc with rfl | rfl
    · exact L _
    · refine .node _ _ (by simp) (by simp) (by simp) (by simp) ?_
      intro c hc
      simp only [List.mem_cons, List.not_mem_nil, or_false] at hc
      rcases hc with rfl | rfl <;> exact L _
  · refine .node _ _ (by simp) (by simp) (by simp) (by simp) ?_
    intro c hc
    simp only [List.mem_cons, List.not_mem_nil, or_false] at hc
    rcases hc with rfl | rfl <;> exact L _

/-- the footprints of `fpTree` -/
example : (treeFP fpTree).map (fun m => (m.start, m.always, m.skip, m.minLen)) = some ([1], [1, 4, 5], false, 3) := by decide

example : (treeFP fpTree).map (fun m => (m.sequence, m.parallel)) =
    some ([(1, 2), (1, 4), (1, 5), (2, 4), (2, 5)], [(2, 3), (3, 2), (4, 5), (5, 4)]) := by decide

example : (treeFP fpTree).map (fun m => (confTraces true [[1, 4, 5], [1, 2, 3, 2, 5, 4], [1, 5], [4, 5, 1], [1, 4, 5]] m).map Conf.isFit) =
    some [true, true, false, false, true] := by decide

example : (logFP [[1, 2, 3], [1, 3, 2]] : LFP Nat).sequence = [(1, 2), (1, 3)] ∧ (logFP [[1, 2, 3], [1, 3, 2]] : LFP Nat).parallel = [(2, 3), (3, 2)] := by
  decide

namespace Foot.Ex
open IM Dict Counter
/-- the log `l` without its last trace -/
def l2 : List (List Nat) := [[1], [1, 2, 1]]
/-- the loop with body 1 and redo part 2 -/
def T2 : PT Nat := .node .loop [.leaf (some 1), .leaf (some 2)]
theorem him2 : im exampleEnv 2 (ofList l2) = some T2 := by
  have h1 : emptyTraces (ofList l2) = none := by decide
  have h2 : baseCase (ofList l2) = none := rfl
  have hx : holdsXor exampleEnv (Dfg.discoverUvcl (ofList l2)) = none := by decide
  have hseq : holdsSeq exampleEnv (Dfg.discoverUvcl (ofList l2)) = none := by
    have h : mergeLoop (succ exampleEnv (Dfg.discoverUvcl (ofList l2))) ((verts exampleEnv (Dfg.discoverUvcl (ofList l2))).map fun a => [a]).length
      ((verts exampleEnv (Dfg.discoverUvcl (ofList l2))).map fun a => [a]) = [[2, 1]] := by decide
    unfold holdsSeq
    simp only [h, List.mergeSort_singleton]
    decide
  have hp : holdsPar exampleEnv (Dfg.discoverUvcl (ofList l2)) = none := by
    have h : concLoop (Dfg.discoverUvcl (ofList l2)) ((exampleEnv.sorted (verts exampleEnv (Dfg.discoverUvcl (ofList l2)))).map fun a => [a]).length
      ((exampleEnv.sorted (verts exampleEnv (Dfg.discoverUvcl (ofList l2)))).map fun a => [a]) = [[2], [1]] := by decide
    have h2 : ([[2], [1]] : List (List Nat)).mergeSort (fun x y => decide (x.length ≤ y.length)) = [[2], [1]] := by
      simp [List.mergeSort, List.MergeSort.Internal.splitInTwo]
    unfold holdsPar
    simp only [h, h2]
    decide
  have hs : holdsStrict exampleEnv (Dfg.discoverUvcl (ofList l2)) = none := by unfold holdsStrict; rw [hseq]
  have hl : holdsLoop exampleEnv (Dfg.discoverUvcl (ofList l2)) = some [[1], [2]] := by decide
  have hst : exampleEnv.strict = true := rfl
  have pl : projectLoop (ofList l2) [[1], [2]] = some [[([1], 3)], [([2], 1)]] := by
    have h1 : dedup [2] = [2] := by decide
    have b : best [1] = 0 := by simp [best]
    simp [projectLoop, l2, ofList, update, inc, Dict.set, loopTrace, loopEvent, appendRedo, b, List.modify, Dict.count, Dict.get?, h1]
  have : cutOrFall exampleEnv (ofList l2) = .node (some .loop) [[([1], 3)], [([2], 1)]] := by
    unfold cutOrFall findCut
    simp only [hx, hs, hp, hl, pl, hst, if_true]
  rw [im]
  simp only [h1, h2, this]
  rfl
theorem hdisc2 : discover exampleEnv id id 2 l2 = some T2 := by
  have hl : ∀ l : Option Nat, PT.fold1 (.leaf l) = some (.leaf l, true) := by
    intro l; rw [PT.fold1_eq]; rfl
  have f1 : PT.fold1 T2 = some (T2, true) := by
    rw [PT.fold1_eq, show PT.reduceTau T2 = T2 from rfl]
    simp [hl, T2]
    rfl
  have hr : PT.reduceTau T2 = T2 := rfl
  have hs : PT.stripRoot T2 = T2 := by unfold PT.stripRoot T2; simp
  have hfold : PT.fold id 2 T2 = some T2 := by simp [PT.fold, f1, hs, hr]
  unfold discover
  rw [him2]
  simp only [hfold]
  rfl
end Foot.Ex

/-- the hypotheses of `C19_discovered_fits` -/
example : IM.SmallAlphabet l2 ∧ l2 ≠ [] ∧ IM.discover exampleEnv id id 2 l2 = some T2 ∧ Foot.Plain T2 := by
  refine ⟨by unfold IM.SmallAlphabet; decide, by decide, hdisc2, .node _ _ (by simp) (by simp) (by simp) (by simp) ?_⟩
  intro c hc
  simp only [List.mem_cons, List.not_mem_nil, or_false] at hc
  rcases hc with rfl | rfl <;> exact .leaf _

end Verif
