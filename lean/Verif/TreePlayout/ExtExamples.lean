import Verif.TreePlayout.ExtMain
set_option linter.unusedSectionVars false
/-
C47: refutations and examples.
-/
namespace Verif.TreePlayout
open Lang

/-- a leaf with a label -/
abbrev lf (n : Nat) : PT Nat := .leaf (some n)

/-- **C47, refuted.** "With the default loop bound the playout has all traces up to the maximum length": not for the loop
`*(a, tau)` and maximum length 4; `aaaa` is never in the result. -/
theorem _root_.Verif.C47_default_loops_refuted :
    ¬ ∀ (c : Cfg Nat) (t : PT Nat), Supported t → (∀ l, (c.ord l).Perm l) → c.loops = c.hi.toNat / 2 →
      ∃ fuel big L, extensive c fuel big t = some L ∧
        ∀ w : List Nat, c.lo ≤ w.length → (w.length : Int) ≤ c.hi → (w ∈ L ↔ t.lang w) := by
  intro h
  obtain ⟨fuel, big, L, hL, hw⟩ := h { lo := 1, hi := 4, loops := 2, limit := 100000, ord := id } (.node .loop [lf 0, .leaf none])
    (.loop (.leaf _) (.leaf _)) (fun _ => List.Perm.refl _) rfl
  have h1 : (PT.node .loop [lf 0, .leaf none]).lang [0, 0, 0, 0] := by
    rw [PT.lang_node]
    refine .again (d := [0]) (r := []) (w := [0, 0, 0]) eps (by simp) (by simp) rfl ?_
    refine .again (d := [0]) (r := []) (w := [0, 0]) eps (by simp) (by simp) rfl ?_
    refine .again (d := [0]) (r := []) (w := [0]) eps (by simp) (by simp) rfl ?_
    exact .exit (by simp)
  have h2 := (hw [0, 0, 0, 0] (by decide) (by decide)).2 h1
  have h3 := (C47_sound _ (fun _ => List.Perm.refl _) fuel big _ (.loop (.leaf _) (.leaf _)) L hL _ h2).2.1
  have key : ∀ (n : Nat) (w : List Nat), BLoop (PT.lang (lf 0)) (PT.lang (.leaf none)) n w → w.length ≤ n + 1 := by
    intro n w h
    induction h with
    | exit hd => simp at hd; subst hd; simp
    | again hd hr _ ih =>
      simp [eps] at hd hr; subst hd; subst hr
      simpa using ih
  have := key 2 _ (show BLoop _ _ 2 _ from h3)
  simp at this

/-- **C47, refuted.** "No trace is longer than the maximum (or shorter than the minimum) length": not if the root is a choice
(for `X(a, ->(b, c, d))` and the maximum 1, `bcd` is returned) or silent (the empty trace, with the minimum 1). -/
theorem _root_.Verif.C47_bounds_choice_refuted :
    (∃ L, extensive { lo := 1, hi := 1, loops := 0, limit := 100000, ord := id } 10 1000
      (.node .xor [lf 0, .node .seq [lf 1, lf 2, lf 3]]) = some L ∧ [1, 2, 3] ∈ L) ∧
    ∃ L, extensive { lo := 1, hi := 1, loops := 0, limit := 100000, ord := id } 10 1000 (.leaf none : PT Nat) = some L ∧ [] ∈ L := by
  refine ⟨⟨[[0], [1, 2, 3]], ?_, by simp⟩, ⟨[[]], ?_, by simp⟩⟩
  · decide +kernel
  · decide +kernel

/-- **C47, refuted.** "The playout works for every tree": a sequence (or parallel composition) with one child, OR and interleaving
raise exceptions. -/
theorem _root_.Verif.C47_total_refuted (c : Cfg Nat) (fuel : Nat) (big : Int) :
    extensive c fuel big (.node .seq [lf 0]) = none ∧ extensive c fuel big (.node .par [lf 0]) = none ∧
    extensive c fuel big (.node .or [lf 0, lf 1]) = none ∧ extensive c fuel big (.node .inter [lf 0, lf 1]) = none := by
  refine ⟨?_, ?_, ?_, ?_⟩ <;> simp [extensive, playout, playouts, opPlayout, compositions]

/-- A tree with all supported operators. -/
def exTree : PT Nat :=
  .node .seq [lf 0, .node .par [lf 1, .node .xor [.leaf none, lf 2]], .node .loop [lf 3, lf 4]]

theorem exTree_supported : Supported exTree := by
  refine .seq (by simp) ?_
  intro c hc
  simp at hc
  rcases hc with rfl | rfl | rfl
  · exact .leaf _
  · refine .par (by simp) ?_
    intro c hc
    simp at hc
    rcases hc with rfl | rfl
    · exact .leaf _
    · refine .xor (by simp) ?_
      intro c hc
      simp at hc
      rcases hc with rfl | rfl <;> exact .leaf _
  · exact .loop (.leaf _) (.leaf _)

/-- its playout up to length 5 -/
example : extensive { lo := 4, hi := 5, loops := 5, limit := 100000, ord := id } 100 1000 exTree =
    some [[0, 1, 3, 4, 3], [0, 1, 2, 3], [0, 2, 1, 3]] := by decide +kernel

/-- The hypotheses of `C47_exhaustive` hold for it; the playout is non-trivial. -/
example : Supported exTree ∧ NotChoice exTree ∧ (∀ l : List (List Nat), (id l).Perm l) ∧ (5 : Int) ≤ 1000 ∧ (5 : Int) ≤ (5 : Nat) :=
  ⟨exTree_supported, .inl rfl, fun _ => .refl _, by decide, by decide⟩

/-- `C47_default_loops`: the tree has no loop part that can be skipped. -/
example : NoSkipLoop exTree := by
  refine .node ?_ (by simp)
  intro c hc
  simp at hc
  rcases hc with rfl | rfl | rfl
  · exact .leaf _
  · refine .node ?_ (by simp)
    intro c hc
    simp at hc
    rcases hc with rfl | rfl
    · exact .leaf _
    · refine .node ?_ (by simp)
      intro c hc
      simp at hc
      rcases hc with rfl | rfl <;> exact .leaf _
  · refine .node ?_ ?_
    · intro c hc
      simp at hc
      rcases hc with rfl | rfl <;> exact .leaf _
    · intro _ c hc
      simp at hc
      rcases hc with rfl | rfl <;> simp

end Verif.TreePlayout
