import Verif.Quality.Model
import Mathlib.Algebra.Order.BigOperators.Group.List
import Mathlib.Tactic.Linarith
import Mathlib.Tactic.Positivity
set_option linter.unusedSectionVars false
/-
C88: generalization and simplicity.
-/
namespace Verif
namespace Quality

variable {τ ν : Type} [DecidableEq τ] [DecidableEq ν]

/-- the term of a transition: 1 if it never occurs, otherwise the inverse of the root of its number of occurrences -/
noncomputable def term (n : Nat) : Real := if n = 0 then 1 else 1 / Real.sqrt (n : Real)

theorem term_pos (n : Nat) : 0 < term n := by
  unfold term
  split
  · exact one_pos
  · rename_i h
    exact one_div_pos.2 (Real.sqrt_pos.2 (by exact_mod_cast Nat.pos_of_ne_zero h))

theorem term_anti {m n : Nat} (h : m ≤ n) : term n ≤ term m := by
  unfold term
  by_cases hn : n = 0
  · have : m = 0 := by omega
    rw [if_pos hn, if_pos this]
  · rw [if_neg hn]
    have h1 : (1 : Real) ≤ (n : Real) := by exact_mod_cast Nat.pos_of_ne_zero hn
    by_cases hm : m = 0
    · rw [if_pos hm, div_le_one (Real.sqrt_pos.2 (by linarith))]
      exact Real.one_le_sqrt.2 h1
    · rw [if_neg hm]
      have h2 : (0 : Real) < (m : Real) := by exact_mod_cast Nat.pos_of_ne_zero hm
      exact one_div_le_one_div_of_le (Real.sqrt_pos.2 h2) (Real.sqrt_le_sqrt (by exact_mod_cast h))

theorem term_le_one (n : Nat) : term n ≤ 1 := by
  have := term_anti (Nat.zero_le n)
  simpa [term] using this

theorem sum_filter_add (l : List τ) (p : τ → Prop) [DecidablePred p] (f : τ → Real) :
    ((l.filter fun t => decide (p t)).map f).sum + ((l.filter fun t => decide (¬ p t)).map f).sum = (l.map f).sum := by
  induction l with
  | nil => simp
  | cons a l ih =>
    by_cases h : p a
    · simp only [List.filter_cons, h, decide_true, if_true, not_true_eq_false, decide_false, List.map_cons, List.sum_cons]
      simp only [Bool.false_eq_true, if_false]
      linarith
    · simp only [List.filter_cons, h, decide_true, if_true, not_false_eq_true, decide_false, List.map_cons, List.sum_cons]
      simp only [Bool.false_eq_true, if_false, List.map_cons, List.sum_cons]
      linarith

/-- the sum of the code is the sum over the transitions of the net -/
theorem sum_eq (trans : List τ) (traces : List (List τ)) (hn : trans.Nodup) (hs : ∀ tr ∈ traces, ∀ t ∈ tr, t ∈ trans) :
    (traces.flatten.dedup.map fun t => 1 / Real.sqrt (occ traces t : Real)).sum +
      ((trans.filter fun t => decide (t ∉ traces.flatten.dedup)).map fun _ => (1 : Real)).sum = (trans.map fun t => term (occ traces t)).sum := by
  have hp : traces.flatten.dedup.Perm (trans.filter fun t => decide (t ∈ traces.flatten.dedup)) := by
    refine (List.perm_ext_iff_of_nodup (List.nodup_dedup _) (hn.filter _)).2 fun t => ?_
    rw [List.mem_filter, decide_eq_true_eq]
    refine ⟨fun h => ⟨?_, h⟩, fun h => h.2⟩
    obtain ⟨tr, h1, h2⟩ := List.mem_flatten.1 (List.mem_dedup.1 h)
    exact hs tr h1 t h2
  rw [← sum_filter_add trans (fun t => t ∈ traces.flatten.dedup) (fun t => term (occ traces t))]
  congr 1
  · rw [(hp.map _).sum_eq]
    congr 1
    refine List.map_congr_left fun t ht => ?_
    rw [List.mem_filter, decide_eq_true_eq, List.mem_dedup] at ht
    have : occ traces t ≠ 0 := by
      unfold occ
      exact Nat.pos_iff_ne_zero.1 (List.count_pos_iff.2 ht.2)
    rw [term, if_neg this]
  · congr 1
    refine List.map_congr_left fun t ht => ?_
    rw [List.mem_filter, decide_eq_true_eq, List.mem_dedup] at ht
    have : occ traces t = 0 := List.count_eq_zero.2 ht.2
    rw [term, if_pos this]

theorem sum_ind (l : List ν) (y : ν) : (l.map fun x => if y = x then 1 else 0).sum = l.count y := by
  induction l with
  | nil => rfl
  | cons z l ih =>
    rw [List.map_cons, List.sum_cons, ih, List.count_cons]
    by_cases h : y = z
    · subst h; simp; omega
    · have : z ≠ y := fun e => h e.symm
      simp [h, this]

theorem degree_sum (arcs : List (ν × ν)) (l : List ν) (hn : l.Nodup) (ha : ∀ a ∈ arcs, a.1 ∈ l ∧ a.2 ∈ l) : (l.map (degree arcs)).sum = 2 * arcs.length := by
  induction arcs with
  | nil =>
    have : l.map (degree ([] : List (ν × ν))) = l.map fun _ => 0 := List.map_congr_left fun x _ => rfl
    rw [this]; simp
  | cons a arcs ih =>
    have ih := ih fun b hb => ha b (List.mem_cons_of_mem _ hb)
    have hone : ∀ y ∈ l, (l.map fun x => if y = x then 1 else 0).sum = 1 := by
      intro y hy
      rw [sum_ind, List.count_eq_one_of_mem hn hy]
    have hd : ∀ x, degree (a :: arcs) x = degree arcs x + ((if a.2 = x then 1 else 0) + if a.1 = x then 1 else 0) := by
      intro x
      unfold degree
      rw [List.filter_cons, List.filter_cons]
      by_cases h1 : a.2 = x <;> by_cases h2 : a.1 = x <;> simp [h1, h2] <;> omega
    have e : l.map (degree (a :: arcs)) = l.map fun x => degree arcs x + ((if a.2 = x then 1 else 0) + if a.1 = x then 1 else 0) :=
      List.map_congr_left fun x _ => hd x
    rw [e, List.sum_map_add, List.sum_map_add, ih, hone _ (ha a (by simp)).2, hone _ (ha a (by simp)).1, List.length_cons]
    omega

end Quality

open Quality

/-- C88: generalization is one minus the average, over the transitions of the net, of the inverse root of their numbers of occurrences in the replay. -/
theorem C88_generalization {τ : Type} [DecidableEq τ] (trans : List τ) (traces : List (List τ)) (hn : trans.Nodup) (h0 : trans ≠ [])
    (hs : ∀ tr ∈ traces, ∀ t ∈ tr, t ∈ trans) :
    generalization trans traces = 1 - (trans.map fun t => if traces.flatten.count t = 0 then (1 : Real) else 1 / Real.sqrt (traces.flatten.count t : Real)).sum / (trans.length : Real) := by
  have hl : trans.length > 0 := List.length_pos_of_ne_nil h0
  unfold generalization
  rw [if_pos hl, sum_eq trans traces hn hs]
  rfl

/-- C88: generalization is at least 0 and at most 1. -/
theorem C88_range {τ : Type} [DecidableEq τ] (trans : List τ) (traces : List (List τ)) (hn : trans.Nodup)
    (hs : ∀ tr ∈ traces, ∀ t ∈ tr, t ∈ trans) : 0 ≤ generalization trans traces ∧ generalization trans traces ≤ 1 := by
  simp only [generalization]
  split
  · rename_i hl
    have hl' : (0 : Real) < (trans.length : Real) := by exact_mod_cast hl
    rw [sum_eq trans traces hn hs]
    have h1 : (trans.map fun t => term (occ traces t)).sum ≤ (trans.length : Real) := by
      have := List.sum_le_card_nsmul (trans.map fun t => term (occ traces t)) 1 (by
        intro x hx
        obtain ⟨t, -, rfl⟩ := List.mem_map.1 hx
        exact term_le_one _)
      simpa using this
    have h2 : 0 ≤ (trans.map fun t => term (occ traces t)).sum := List.sum_nonneg (by
        intro x hx
        obtain ⟨t, -, rfl⟩ := List.mem_map.1 hx
        exact (term_pos _).le)
    have h3 : (trans.map fun t => term (occ traces t)).sum / (trans.length : Real) ≤ 1 := (div_le_one hl').2 h1
    have h4 : 0 ≤ (trans.map fun t => term (occ traces t)).sum / (trans.length : Real) := div_nonneg h2 hl'.le
    constructor <;> linarith
  · exact ⟨zero_le_one, le_rfl⟩

/-- C88: replaying more traces never lowers the generalization. -/
theorem C88_monotone {τ : Type} [DecidableEq τ] (trans : List τ) (traces more : List (List τ)) (hn : trans.Nodup)
    (hs : ∀ tr ∈ traces ++ more, ∀ t ∈ tr, t ∈ trans) : generalization trans traces ≤ generalization trans (traces ++ more) := by
  simp only [generalization]
  split
  · rename_i hl
    have hl' : (0 : Real) < (trans.length : Real) := by exact_mod_cast hl
    rw [sum_eq trans traces hn fun tr h => hs tr (List.mem_append_left _ h), sum_eq trans (traces ++ more) hn hs]
    have h1 : (trans.map fun t => term (occ (traces ++ more) t)).sum ≤ (trans.map fun t => term (occ traces t)).sum := by
      refine List.sum_le_sum fun t _ => term_anti ?_
      unfold occ
      rw [List.flatten_append, List.count_append]
      omega
    have := div_le_div_of_nonneg_right h1 hl'.le
    linarith
  · exact le_rfl

/-- C88: simplicity depends on the numbers of places, transitions and arcs only: the average degree is twice the number of arcs over the number of nodes. -/
theorem C88_simplicity {ν : Type} [DecidableEq ν] (places trans : List ν) (arcs : List (ν × ν)) (k : Real) (hn : (places ++ trans).Nodup)
    (ha : ∀ a ∈ arcs, (a.1 ∈ places ∧ a.2 ∈ trans) ∨ (a.1 ∈ trans ∧ a.2 ∈ places)) (h0 : places ++ trans ≠ []) :
    simplicity places trans arcs k = 1 / (1 + max (2 * (arcs.length : Real) / ((places.length : Real) + (trans.length : Real)) - k) 0) := by
  simp only [simplicity]
  rw [← List.map_append, if_neg (by simpa using h0), degree_sum arcs _ hn]
  · simp only [List.length_map, List.length_append, Nat.cast_mul, Nat.cast_add, Nat.cast_ofNat]
  · intro a h
    rcases ha a h with h | h
    · exact ⟨List.mem_append_left _ h.1, List.mem_append_right _ h.2⟩
    · exact ⟨List.mem_append_right _ h.1, List.mem_append_left _ h.2⟩

/-- C88: simplicity is positive and at most 1, and 1 exactly if the average degree is not above the baseline. -/
theorem C88_simplicity_range {ν : Type} [DecidableEq ν] (places trans : List ν) (arcs : List (ν × ν)) (k : Real) (hn : (places ++ trans).Nodup)
    (ha : ∀ a ∈ arcs, (a.1 ∈ places ∧ a.2 ∈ trans) ∨ (a.1 ∈ trans ∧ a.2 ∈ places)) (h0 : places ++ trans ≠ []) :
    0 < simplicity places trans arcs k ∧ simplicity places trans arcs k ≤ 1 ∧
    (simplicity places trans arcs k = 1 ↔ 2 * (arcs.length : Real) / ((places.length : Real) + (trans.length : Real)) ≤ k) := by
  rw [C88_simplicity places trans arcs k hn ha h0]
  generalize 2 * (arcs.length : Real) / ((places.length : Real) + (trans.length : Real)) = m
  have h : 0 ≤ max (m - k) 0 := le_max_right _ _
  have hp : 0 < 1 + max (m - k) 0 := by linarith
  refine ⟨one_div_pos.2 hp, (div_le_one hp).2 (by linarith), ?_⟩
  rw [div_eq_one_iff_eq hp.ne']
  constructor
  · intro e
    have : m - k ≤ max (m - k) 0 := le_max_left _ _
    linarith
  · intro e
    rw [max_eq_right (by linarith)]; ring

/-- a net with two transitions; one occurs four times -/
example : generalization ["a", "b"] [["a", "a"], ["a", "a"]] = 1 / 4 := by
  rw [C88_generalization ["a", "b"] [["a", "a"], ["a", "a"]] (by decide) (by decide) (by decide)]
  have : Real.sqrt (4 : Real) = 2 := by rw [show (4 : Real) = 2 ^ 2 by norm_num]; exact Real.sqrt_sq (by norm_num)
  have e1 : [["a", "a"], ["a", "a"]].flatten.count "a" = 4 := by decide
  have e2 : [["a", "a"], ["a", "a"]].flatten.count "b" = 0 := by decide
  simp only [List.map_cons, List.map_nil, e1, e2]
  simp [this]
  norm_num

/-- a sequence of two transitions has simplicity 1 -/
example : simplicity [1, 2, 3] [10, 11] [(1, 10), (10, 2), (2, 11), (11, 3)] 2 = 1 :=
  ((C88_simplicity_range [1, 2, 3] [10, 11] [(1, 10), (10, 2), (2, 11), (11, 3)] 2 (by decide) (by decide) (by decide)).2.2).2 (by norm_num)

end Verif
