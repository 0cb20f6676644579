import Verif.Roles.Model
import Mathlib.Logic.Relation
import Mathlib.Data.Finset.Max
import Mathlib.Data.Fintype.Prod
import Mathlib.Order.WellFounded
import Mathlib.Algebra.BigOperators.Group.Finset.Basic
import Mathlib.Algebra.Order.BigOperators.Group.Finset
import Mathlib.Algebra.Order.Field.Basic
import Mathlib.Tactic.NormNum
set_option linter.unusedSectionVars false
/-
C92: role discovery.
-/
namespace Verif
namespace Roles

/-- the roles divide the activities; the originators of a role are those of the events of its activities, with their numbers -/
structure Good (events : List (String × String)) (R : List Role) : Prop where
  acts : (R.flatMap Prod.fst).Perm (events.map Prod.snd).dedup
  nonempty : ∀ ρ ∈ R, ρ.1 ≠ []
  res : ∀ ρ ∈ R, ∀ r, ρ.2.count r = events.countP fun e => decide (e.1 = r ∧ e.2 ∈ ρ.1)

theorem perm_erase (R : List Role) (i j : Nat) (hj : j < R.length) (hi : i < j) : R.Perm (R[i] :: R[j] :: (R.eraseIdx i).eraseIdx (j - 1)) := by
  have hi' : i < R.length := by omega
  have h1 : (R[i] :: R.eraseIdx i).Perm R := List.getElem_cons_eraseIdx_perm hi'
  have hl : j - 1 < (R.eraseIdx i).length := by rw [List.length_eraseIdx_of_lt hi']; omega
  have h2 : ((R.eraseIdx i)[j - 1] :: (R.eraseIdx i).eraseIdx (j - 1)).Perm (R.eraseIdx i) := List.getElem_cons_eraseIdx_perm hl
  have e : (R.eraseIdx i)[j - 1] = R[j] := by
    rw [List.getElem_eraseIdx]
    rw [dif_neg (by omega)]
    congr 1; omega
  rw [e] at h2
  exact h1.symm.trans (h2.symm.cons _)

theorem good_initial (events : List (String × String)) : Good events (initial events) := by
  refine ⟨?_, ?_, ?_⟩
  · unfold initial
    rw [List.flatMap_map]
    simp
  · intro ρ h
    obtain ⟨a, -, rfl⟩ := List.mem_map.1 h
    simp
  · intro ρ h r
    obtain ⟨a, -, rfl⟩ := List.mem_map.1 h
    rw [List.count, List.countP_map, List.countP_filter]
    refine List.countP_congr fun e _ => ?_
    simp [and_comm]

theorem countP_or (events : List (String × String)) (r : String) (x y : List String) (hd : ∀ z ∈ x, z ∉ y) :
    events.countP (fun e => decide (e.1 = r ∧ e.2 ∈ x ++ y)) = events.countP (fun e => decide (e.1 = r ∧ e.2 ∈ x)) + events.countP fun e => decide (e.1 = r ∧ e.2 ∈ y) := by
  induction events with
  | nil => rfl
  | cons e events ih =>
    rw [List.countP_cons, List.countP_cons, List.countP_cons, ih]
    by_cases h0 : e.1 = r
    · by_cases h1 : e.2 ∈ x
      · have h2 := hd _ h1
        simp [h0, h1, h2]; omega
      · by_cases h2 : e.2 ∈ y
        · simp [h0, h1, h2]; omega
        · simp [h0, h1, h2]
    · simp [h0]

theorem good_step {events : List (String × String)} {θ : Rat} {R R' : List Role} (hg : Good events R) (h : Step θ R R') : Good events R' := by
  obtain ⟨i, j, hj, hi, -, -, hp⟩ := h
  have hR := perm_erase R i j hj hi
  generalize R[i] = a at hR hp
  generalize R[j] = b at hR hp
  generalize (R.eraseIdx i).eraseIdx (j - 1) = T at hR hp
  have ha : a ∈ R := hR.mem_iff.2 (by simp)
  have hb : b ∈ R := hR.mem_iff.2 (by simp)
  have hT : ∀ ρ ∈ T, ρ ∈ R := fun ρ h => hR.mem_iff.2 (by simp [h])
  have hf : (R.flatMap Prod.fst).Perm (a.1 ++ (b.1 ++ T.flatMap Prod.fst)) := by
    have := hR.flatMap_right Prod.fst
    simpa using this
  have hnd : (a.1 ++ (b.1 ++ T.flatMap Prod.fst)).Nodup := hf.nodup_iff.1 (hg.acts.nodup_iff.2 (List.nodup_dedup _))
  have hab : (a.1 ++ b.1).Nodup := by
    rw [← List.append_assoc] at hnd
    exact (List.nodup_append.1 hnd).1
  have hm : merge a b = (a.1 ++ b.1, a.2 ++ b.2) := by unfold merge; rw [hab.dedup]
  have hdis : ∀ x ∈ a.1, x ∉ b.1 := fun x h1 h2 => (List.nodup_append.1 hab).2.2 x h1 x h2 rfl
  have hp' : R'.Perm (merge a b :: T) := hp.trans List.perm_append_comm
  refine ⟨?_, ?_, ?_⟩
  · have := hp'.flatMap_right Prod.fst
    rw [List.flatMap_cons, hm, List.append_assoc] at this
    exact this.trans (hf.symm.trans hg.acts)
  · intro ρ h
    rcases List.mem_cons.1 (hp'.mem_iff.1 h) with rfl | h
    · rw [hm]; simp [hg.nonempty a ha]
    · exact hg.nonempty ρ (hT ρ h)
  · intro ρ h r
    rcases List.mem_cons.1 (hp'.mem_iff.1 h) with rfl | h
    · rw [hm, List.count_append, hg.res a ha, hg.res b hb]
      exact (countP_or events r a.1 b.1 hdis).symm
    · exact hg.res ρ (hT ρ h) r

theorem step_length {θ : Rat} {R R' : List Role} (h : Step θ R R') : R'.length + 1 = R.length := by
  obtain ⟨i, j, hj, hi, -, -, hp⟩ := h
  have := (perm_erase R i j hj hi).length_eq
  rw [hp.length_eq]
  simp only [List.length_cons, List.length_append, List.length_nil] at this ⊢
  omega

/-- if there is a pair above the threshold, an iteration is possible -/
theorem step_exists {θ : Rat} {R : List Role} (k l : Nat) (hl : l < R.length) (hk : k < l) (h : θ < sim R[k] R[l]) : ∃ R', Step θ R R' := by
  let S : Finset (Fin R.length × Fin R.length) := Finset.univ.filter fun p => p.1 < p.2
  have hne : S.Nonempty := ⟨(⟨k, by omega⟩, ⟨l, hl⟩), Finset.mem_filter.2 ⟨Finset.mem_univ _, hk⟩⟩
  obtain ⟨⟨i, j⟩, hm, hmax⟩ := S.exists_max_image (fun p => sim R[p.1] R[p.2]) hne
  have hij : i < j := (Finset.mem_filter.1 hm).2
  refine ⟨_, i, j, j.2, hij, ?_, ?_, List.Perm.refl _⟩
  · exact lt_of_lt_of_le h (hmax (⟨k, by omega⟩, ⟨l, hl⟩) (Finset.mem_filter.2 ⟨Finset.mem_univ _, hk⟩))
  · intro k' l' hl' hk'
    exact hmax (⟨k', by omega⟩, ⟨l', hl'⟩) (Finset.mem_filter.2 ⟨Finset.mem_univ _, hk'⟩)

theorem share_nonneg (l : List String) (r : String) : 0 ≤ share l r := by
  unfold share
  exact div_nonneg (Nat.cast_nonneg _) (Nat.cast_nonneg _)

theorem share_zero {l : List String} {r : String} (h : r ∉ l) : share l r = 0 := by
  unfold share
  rw [List.count_eq_zero.2 h, Nat.cast_zero, zero_div]

theorem list_sum {l : List String} (h : l.Nodup) (f : String → Rat) : (l.map f).sum = ∑ r ∈ l.toFinset, f r :=
  (List.sum_toFinset f h).symm

end Roles

open Roles

/-- C92: the similarity of two roles is the sum of the smaller shares over the sum of the larger shares of all resources; a share is the part of the
work of the role done by the resource. -/
theorem C92_sim (a b : Role) : sim a b =
    (∑ r ∈ a.2.toFinset ∪ b.2.toFinset, min ((a.2.count r : Rat) / (a.2.length : Rat)) ((b.2.count r : Rat) / (b.2.length : Rat))) /
    (∑ r ∈ a.2.toFinset ∪ b.2.toFinset, max ((a.2.count r : Rat) / (a.2.length : Rat)) ((b.2.count r : Rat) / (b.2.length : Rat))) := by
  change _ = (∑ r ∈ a.2.toFinset ∪ b.2.toFinset, min (share a.2 r) (share b.2 r)) / (∑ r ∈ a.2.toFinset ∪ b.2.toFinset, max (share a.2 r) (share b.2 r))
  unfold sim
  congr 1
  · rw [list_sum ((List.nodup_dedup _).filter _)]
    refine Finset.sum_subset ?_ ?_
    · intro r hr
      simp only [List.mem_toFinset, List.mem_filter, List.mem_dedup] at hr
      exact Finset.mem_union_left _ (List.mem_toFinset.2 hr.1)
    · intro r _ hr
      simp only [List.mem_toFinset, List.mem_filter, List.mem_dedup, decide_eq_true_eq] at hr
      by_cases h1 : r ∈ a.2
      · rw [share_zero (fun h => hr ⟨h1, h⟩), min_eq_right (share_nonneg _ _)]
      · rw [share_zero h1, min_eq_left (share_nonneg _ _)]
  · rw [List.sum_append, list_sum (List.nodup_dedup _), list_sum ((List.nodup_dedup _).filter _)]
    have hu : a.2.toFinset ∪ b.2.toFinset = a.2.dedup.toFinset ∪ (b.2.dedup.filter fun r => decide (r ∉ a.2)).toFinset := by
      ext r
      simp only [Finset.mem_union, List.mem_toFinset, List.mem_dedup, List.mem_filter, decide_eq_true_eq]
      tauto
    have hd : Disjoint a.2.dedup.toFinset (b.2.dedup.filter fun r => decide (r ∉ a.2)).toFinset := by
      rw [Finset.disjoint_left]
      intro r h1 h2
      simp only [List.mem_toFinset, List.mem_dedup, List.mem_filter, decide_eq_true_eq] at h1 h2
      exact h2.2 h1
    rw [hu, Finset.sum_union hd]
    congr 1
    · refine Finset.sum_congr rfl fun r _ => ?_
      split
      · rfl
      · rename_i h
        rw [share_zero h, max_eq_left (share_nonneg _ _)]
    · refine Finset.sum_congr rfl fun r hr => ?_
      simp only [List.mem_toFinset, List.mem_dedup, List.mem_filter, decide_eq_true_eq] at hr
      rw [share_zero hr.2, max_eq_right (share_nonneg _ _)]

/-- C92: the similarity is symmetric and between 0 and 1. -/
theorem C92_sim_range (a b : Role) : sim a b = sim b a ∧ 0 ≤ sim a b ∧ sim a b ≤ 1 := by
  refine ⟨?_, ?_, ?_⟩
  · rw [C92_sim, C92_sim, Finset.union_comm]
    simp only [min_comm, max_comm]
  · rw [C92_sim]
    refine div_nonneg (Finset.sum_nonneg fun r _ => ?_) (Finset.sum_nonneg fun r _ => ?_)
    · exact le_min (share_nonneg a.2 r) (share_nonneg b.2 r)
    · exact (share_nonneg a.2 r).trans (le_max_left _ _)
  · rw [C92_sim]
    refine div_le_one_of_le₀ (Finset.sum_le_sum fun r _ => min_le_max) (Finset.sum_nonneg fun r _ => ?_)
    exact (share_nonneg a.2 r).trans (le_max_left _ _)

/-- C92: the aggregation ends, whatever the threshold and the choice between equally similar pairs: there is no infinite sequence of iterations. -/
theorem C92_terminates (θ : Rat) : WellFounded fun R' R : List Role => Step θ R R' :=
  Subrelation.wf (fun {_ _} h => Nat.lt_of_lt_of_eq (Nat.lt_succ_self _) (step_length h)) (InvImage.wf List.length Nat.lt_wfRel.wf)

/-- C92: the roles divide the activities of the log: every activity is in exactly one role and no role is empty; the number of a resource in a role is
the number of events of the resource with an activity of the role. -/
theorem C92_partition (θ : Rat) (events : List (String × String)) (R : List Role) (h : Relation.ReflTransGen (Step θ) (initial events) R) :
    (R.flatMap Prod.fst).Perm (events.map Prod.snd).dedup ∧ (∀ ρ ∈ R, ρ.1 ≠ []) ∧
    ∀ ρ ∈ R, ∀ r, ρ.2.count r = events.countP fun e => decide (e.1 = r ∧ e.2 ∈ ρ.1) := by
  have : Good events R := by
    induction h with
    | refl => exact good_initial events
    | tail _ hs ih => exact good_step ih hs
  exact ⟨this.acts, this.nonempty, this.res⟩

/-- C92: when the aggregation ends, no two roles are more similar than the threshold; and it ends only then. -/
theorem C92_similarity (θ : Rat) (R : List Role) :
    (¬ ∃ R', Step θ R R') ↔ ∀ (k l : Nat) (hl : l < R.length) (hk : k < l), sim R[k] R[l] ≤ θ := by
  constructor
  · intro h k l hl hk
    by_contra hn
    exact h (step_exists k l hl hk (not_le.1 hn))
  · rintro h ⟨R', i, j, hj, hi, hlt, -⟩
    exact absurd (h i j hj hi) (not_le.2 hlt)

/-- two activities done by the same resource become one role -/
example : ∃ R, Relation.ReflTransGen (Step (13 / 20)) (initial [("x", "a"), ("x", "b"), ("y", "c")]) R ∧ (["a", "b"], ["x", "x"]) ∈ R ∧ R.length = 2 := by
  have e : initial [("x", "a"), ("x", "b"), ("y", "c")] = [(["a"], ["x"]), (["b"], ["x"]), (["c"], ["y"])] := by decide
  have s1 : sim (["a"], ["x"]) (["b"], ["x"]) = 1 := by norm_num [sim, share]
  rw [e]
  refine ⟨[(["c"], ["y"]), (["a", "b"], ["x", "x"])], Relation.ReflTransGen.single ⟨0, 1, by decide, by decide, ?_, ?_, by decide⟩, by decide, rfl⟩
  · change _ < sim (["a"], ["x"]) (["b"], ["x"])
    rw [s1]; norm_num
  · intro k l hl hk
    change _ ≤ sim (["a"], ["x"]) (["b"], ["x"])
    rw [s1]
    exact (C92_sim_range _ _).2.2

end Verif
