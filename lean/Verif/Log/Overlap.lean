import Verif.Common.ListX
/-
C30: /repo/pm4py/statistics/overlap/utils/compute.py.
Time stamps are integers (exact arithmetic instead of floating point).
-/
namespace Verif.Overlap

/-! ### Model -/

abbrev Iv := Int × Int

/-- `IntervalTree.add(Interval(b, e))`: an interval tree is a *set* of intervals; an interval with `b >= e` raises
ValueError (`none`).  (Behaviour of the `intervaltree` library, part of the trusted base.) -/
def treeAdd (t : List Iv) (p : Iv) : Option (List Iv) :=
  if p.1 ≥ p.2 then none else some (if p ∈ t then t else t ++ [p])

/-- `tree[b:e]` = `tree.overlap(b, e)`: intervals with `begin < e` and `end > b` (half-open intervals), nothing if
`b >= e`. -/
def treeOverlap (t : List Iv) (p : Iv) : List Iv :=
  if p.1 ≥ p.2 then [] else t.filter fun q => decide (q.1 < p.2) && decide (q.2 > p.1)

/-- `sorted(points)`: lexicographic order -/
def sortPoints (ps : List Iv) : List Iv :=
  ps.mergeSort fun p q => decide (p.1 < q.1 ∨ (p.1 = q.1 ∧ p.2 ≤ q.2))

/-- `apply` (compute.py:28-60). -/
def apply (eps : Int) (points : List Iv) : Option (List Nat) :=
  let points := points.map fun x => (x.1 - eps, x.2 + eps)
  match (sortPoints points).foldlM treeAdd [] with
  | none => none
  | some tree => some (points.map fun p => (treeOverlap tree p).length)

/-! ### Specification -/

/-- two closed intervals intersect -/
def Intersect (p q : Iv) : Prop := p.1 ≤ q.2 ∧ q.1 ≤ p.2

instance (p q : Iv) : Decidable (Intersect p q) := by unfold Intersect; infer_instance

/-! ### Proofs -/

theorem fold_add (ps t : List Iv) (ht : t.Nodup) (hp : ∀ p ∈ ps, p.1 < p.2) :
    ∃ t', ps.foldlM treeAdd t = some t' ∧ t'.Nodup ∧ ∀ x, x ∈ t' ↔ x ∈ t ∨ x ∈ ps := by
  induction ps generalizing t with
  | nil => exact ⟨t, rfl, ht, by simp⟩
  | cons p ps ih =>
    have h1 := hp p (by simp)
    have hne : ¬ p.1 ≥ p.2 := by omega
    simp only [List.foldlM_cons, treeAdd, hne, if_false, Option.bind_eq_bind, Option.bind_some]
    by_cases hm : p ∈ t
    · simp only [hm, if_true]
      obtain ⟨t', h2, h3, h4⟩ := ih t ht fun q hq => hp q (by simp [hq])
      refine ⟨t', h2, h3, fun x => ?_⟩
      rw [h4]
      constructor
      · rintro (h | h) <;> simp [h]
      · rintro (h | h)
        · exact .inl h
        · rcases List.mem_cons.1 h with rfl | h
          · exact .inl hm
          · exact .inr h
    · simp only [hm, if_false]
      obtain ⟨t', h2, h3, h4⟩ := ih (t ++ [p]) (by
        rw [List.nodup_append]; exact ⟨ht, by simp, by intro x hx y hy; simp at hy; subst hy; exact fun e => hm (e ▸ hx)⟩)
        fun q hq => hp q (by simp [hq])
      refine ⟨t', h2, h3, fun x => ?_⟩
      rw [h4]; simp only [List.mem_append, List.mem_cons, List.not_mem_nil, or_false]
      constructor
      · rintro ((h | h) | h)
        · exact .inl h
        · exact .inr (.inl h)
        · exact .inr (.inr h)
      · rintro (h | h | h)
        · exact .inl (.inl h)
        · exact .inl (.inr h)
        · exact .inr h

theorem nodup_filter_length {α : Type} [DecidableEq α] (l m : List α) (hl : l.Nodup) (hm : m.Nodup) (h : ∀ x, x ∈ l ↔ x ∈ m)
    (f : α → Bool) : (l.filter f).length = (m.filter f).length := by
  have : l.Perm m := (List.perm_ext_iff_of_nodup hl hm).2 h
  exact (this.filter f).length_eq

end Overlap
open Overlap

/-- C30: for every list of intervals (with `min ≤ max` and a positive epsilon) the computation succeeds, and the
number reported for an interval is the number of *different* intervals of the list that intersect it after
widening by epsilon (`2·eps` is the tolerance). -/
theorem C30_counts_distinct (eps : Int) (he : 0 < eps) (points : List Iv) (hp : ∀ p ∈ points, p.1 ≤ p.2) (i : Nat)
    (p : Iv) (hi : points[i]? = some p) :
    ∃ r, apply eps points = some r ∧ r.length = points.length ∧
      r[i]? = some (((dedup points).filter fun q =>
        decide (q.1 - eps < p.2 + eps) && decide (q.2 + eps > p.1 - eps)).length) := by
  have hmem : ∀ x, x ∈ sortPoints (points.map fun x => (x.1 - eps, x.2 + eps)) ↔
      x ∈ points.map fun x => (x.1 - eps, x.2 + eps) := fun x => List.mem_mergeSort
  obtain ⟨t, h1, h2, h3⟩ := fold_add (sortPoints (points.map fun x => (x.1 - eps, x.2 + eps))) [] List.nodup_nil (by
    intro q hq
    obtain ⟨x, hx, rfl⟩ := List.mem_map.1 ((hmem q).1 hq)
    have := hp x hx
    simp only; omega)
  refine ⟨_, by unfold apply; simp only [h1]; rfl, by simp, ?_⟩
  simp only [List.getElem?_map, hi, Option.map_some]
  have hpp := hp p (List.mem_of_getElem? hi)
  unfold treeOverlap
  have : ¬ (p.1 - eps ≥ p.2 + eps) := by omega
  simp only [this, if_false]
  congr 1
  have hnd : ((dedup points).map fun x => ((x.1 - eps, x.2 + eps) : Iv)).Nodup := by
    unfold List.Nodup
    rw [List.pairwise_map]
    refine List.Pairwise.imp ?_ (nodup_dedup points)
    intro a b hab h
    apply hab
    simp only [Prod.mk.injEq] at h
    exact Prod.ext (by omega) (by omega)
  rw [nodup_filter_length t _ h2 hnd (by
    intro x
    rw [h3, hmem]
    simp)]
  rw [List.filter_map, List.length_map]
  rfl

/-- C30 for lists without repeated intervals: the number reported for an interval is the number of intervals of
the list that intersect it (integer time stamps in units larger than `2·eps`: `eps = 1`, stamps multiplied by 3,
so widening does not create new intersections). -/
theorem C30_counts_intersections (points : List Iv) (hnd : points.Nodup) (hp : ∀ p ∈ points, p.1 ≤ p.2) (i : Nat)
    (p : Iv) (hi : points[i]? = some p) :
    ∃ r, apply 1 (points.map fun x => (3 * x.1, 3 * x.2)) = some r ∧
      r[i]? = some ((points.filter fun q => decide (Intersect p q)).length) := by
  obtain ⟨r, h1, _, h2⟩ := C30_counts_distinct 1 (by decide) (points.map fun x => ((3 * x.1, 3 * x.2) : Iv)) (by
    intro q hq
    obtain ⟨x, hx, rfl⟩ := List.mem_map.1 hq
    have := hp x hx
    simp only; omega) i (3 * p.1, 3 * p.2) (by simp [hi])
  refine ⟨r, h1, ?_⟩
  rw [h2]
  congr 1
  have hnd' : (points.map fun x => ((3 * x.1, 3 * x.2) : Iv)).Nodup := by
    unfold List.Nodup
    rw [List.pairwise_map]
    refine List.Pairwise.imp ?_ hnd
    intro a b hab h
    apply hab
    simp only [Prod.mk.injEq] at h
    exact Prod.ext (by omega) (by omega)
  rw [nodup_filter_length _ _ (nodup_dedup _) hnd' (by simp)]
  rw [List.filter_map, List.length_map]
  congr 2
  funext q
  simp only [Function.comp, Intersect]
  by_cases h3 : p.1 ≤ q.2 <;> by_cases h4 : q.1 ≤ p.2 <;> simp [h3, h4] <;> omega

/-- C30, refuted for repeated intervals: two cases with the same time span are counted as one. -/
theorem C30_duplicates_refuted : ∃ (points : List Iv) (p : Iv) (r : List Nat), points[0]? = some p ∧
    (∀ q ∈ points, q.1 ≤ q.2) ∧ apply 1 points = some r ∧
    r[0]? ≠ some ((points.filter fun q => decide (Intersect p q)).length) := by
  obtain ⟨r, h1, _, h2⟩ := C30_counts_distinct 1 (by decide) [(0, 5), (0, 5)] (by simp) 0 (0, 5) rfl
  refine ⟨[(0, 5), (0, 5)], (0, 5), r, rfl, by simp, h1, ?_⟩
  rw [h2]; decide

example : ∃ points : List Iv, points.Nodup ∧ (∀ p ∈ points, p.1 ≤ p.2) ∧ points[1]? = some (2, 4) :=
  ⟨[(0, 2), (2, 4), (5, 6)], by decide, by decide, rfl⟩
end Verif
