import Verif.Powl.BlockPoC
/-
Acyclic relations on 0 … n-1: ranks, and the transitive reduction of a relation that need not be transitively closed.
-/
namespace Verif
namespace Powl
open BinRel Sys

open Classical in
/-- number of predecessors -/
noncomputable def rank (n : Nat) (E : Edges) (j : Nat) : Nat := (List.range n).countP fun i => decide (Before n E i j)

theorem rank_le (n : Nat) (E : Edges) (j : Nat) : rank n E j ≤ n := by
  unfold rank
  exact Nat.le_trans List.countP_le_length (by simp)

theorem before_lt {n : Nat} {E : Edges} {i j : Nat} (h : Before n E i j) : i < n ∧ j < n := by
  induction h with
  | single h => exact ⟨h.1, h.2.1⟩
  | tail _ h ih => exact ⟨ih.1, h.2.1⟩

theorem rank_lt {n : Nat} {E : Edges} (hA : ∀ i, ¬ Before n E i i) {i j : Nat} (h : Before n E i j) : rank n E i < rank n E j := by
  classical
  unfold rank
  refine countP_lt _ _ _ ?_ i (by simpa using (before_lt h).1) (by simpa using h) (by simpa using hA i)
  intro x _ hx
  simp only [decide_eq_true_eq] at hx ⊢
  exact hx.trans h

/-- every relation without cycles has a minimal element -/
theorem exists_end {n : Nat} {E : Edges} (hA : ∀ i, ¬ Before n E i i) (hn : 0 < n) : ∃ k, k < n ∧ ∀ y, ¬ Rel n E k y := by
  obtain ⟨k, hk, h⟩ := exists_min (fun k => n - rank n E k) (fun k => k < n) (n - rank n E 0) 0 (Nat.le_refl _) hn
  refine ⟨k, hk, fun y hy => h y ?_ hy.2.1⟩
  have := rank_lt hA (.single hy)
  have := rank_le n E y
  omega

theorem reduction_before {n : Nat} {E r : Edges} (hA : ∀ i, ¬ Before n E i i) (h : transitiveReduction n E = some r) (i j : Nat) :
    Before n r i j ↔ Before n E i j := by
  have hI : Irrefl (Rel n E) := fun i h => hA i (.single h)
  have hr := reduction_rel n E r h hI
  constructor
  · exact transGen_mono fun i j h => .single ((hr i j).1 h).1
  · have key : ∀ m i j, rank n E j - rank n E i ≤ m → Rel n E i j → Before n r i j := by
      intro m
      induction m with
      | zero =>
        intro i j hm h
        have := rank_lt hA (.single h); omega
      | succ m ih =>
        intro i j hm h
        by_cases hk : ∃ k, Rel n E i k ∧ Rel n E k j
        · obtain ⟨k, h1, h2⟩ := hk
          have := rank_lt hA (.single h1); have := rank_lt hA (.single h2)
          exact (ih i k (by omega) h1).trans (ih k j (by omega) h2)
        · exact .single ((hr i j).2 ⟨h, hk⟩)
    exact transGen_mono fun i j h => key _ i j (Nat.le_refl _) h

end Powl
end Verif
