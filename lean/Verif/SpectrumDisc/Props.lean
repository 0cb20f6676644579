import Verif.SpectrumDisc.Model
set_option linter.unusedSectionVars false
/-
C90: the disconnected performance spectrum of event logs.
-/
namespace Verif
namespace SpectrumDisc

/-- the activities `x`, `y` are neighbours in the activity list -/
def Neighbours (as : List String) (x y : String) : Prop := ∃ u v, as = u ++ x :: y :: v

theorem mem_zip_tail {α : Type} (x y : α) (as : List α) : (x, y) ∈ as.zip as.tail ↔ ∃ u v, as = u ++ x :: y :: v := by
  induction as with
  | nil => simp
  | cons a as ih =>
    cases as with
    | nil =>
      refine ⟨fun h => by simp at h, ?_⟩
      rintro ⟨u, v, e⟩
      have := congrArg List.length e
      simp at this
      omega
    | cons b as =>
      rw [List.tail_cons, List.zip_cons_cons, List.mem_cons]
      rw [List.tail_cons] at ih
      rw [ih]
      constructor
      · rintro (h | ⟨u, v, e⟩)
        · obtain ⟨rfl, rfl⟩ := Prod.mk.inj h
          exact ⟨[], as, rfl⟩
        · exact ⟨a :: u, v, by rw [e, List.cons_append]⟩
      · rintro ⟨u, v, e⟩
        cases u with
        | nil =>
          rw [List.nil_append] at e
          injection e with e1 e2
          injection e2 with e2 e3
          exact .inl (by rw [e1, e2])
        | cons c u =>
          rw [List.cons_append] at e
          injection e with e1 e2
          exact .inr ⟨u, v, e2⟩

theorem not_mergeable (as : List String) (t : List Event) (m n : List Nat) : mergeable as t m n = false := by
  unfold mergeable
  rw [Bool.and_eq_false_iff]
  refine .inr (decide_eq_false fun h => ?_)
  unfold combs at h
  obtain ⟨i, -, hi⟩ := List.mem_flatMap.1 h
  split at hi
  · obtain ⟨j, -, e⟩ := List.mem_map.1 hi
    cases e
  · cases hi

theorem loop_id (as : List String) (t : List Event) (n : Nat) : ∀ (i : Nat) (ms : List (List Nat)), ms.length - i = n → loop as t i ms = ms := by
  induction n with
  | zero =>
    intro i ms h
    rw [loop, dif_neg (by omega)]
  | succ n ih =>
    intro i ms h
    rw [loop]
    split
    · rw [not_mergeable]
      exact ih (i + 1) ms (by omega)
    · rfl

theorem pairs_points (as : List String) (t : List Event) : ((pairs as t).map fun m => m.filterMap fun i => t[i]?) =
    ((t.zip t.tail).filter fun p => decide ((p.1.1, p.2.1) ∈ as.zip as.tail)).map fun p => [p.1, p.2] := by
  have hz : t.zip t.tail = (List.range (t.length - 1)).map fun i => (t.getD i ("", 0), t.getD (i + 1) ("", 0)) := by
    refine List.ext_getElem (by simp) fun i h1 h2 => ?_
    simp only [List.length_map, List.length_range] at h2
    have h3 : i < t.length := by omega
    have h4 : i + 1 < t.length := by omega
    simp [h3, h4]
  unfold pairs twoCombs
  rw [hz, List.filter_map, List.map_map, List.map_map]
  have hf : (List.range (t.length - 1)).filter (fun i => decide ((actAt t i, actAt t (i + 1)) ∈ as.zip as.tail)) =
      (List.range (t.length - 1)).filter ((fun p : Event × Event => decide ((p.1.1, p.2.1) ∈ as.zip as.tail)) ∘ fun i => (t.getD i ("", 0), t.getD (i + 1) ("", 0))) := by
    refine List.filter_congr fun i hi => ?_
    have hi := List.mem_range.1 hi
    have h3 : i < t.length := by omega
    have h4 : i + 1 < t.length := by omega
    simp [actAt, h3, h4]
  rw [hf]
  refine List.map_congr_left fun i hi => ?_
  have hi := List.mem_range.1 (List.mem_filter.1 hi).1
  have h3 : i < t.length := by omega
  have h4 : i + 1 < t.length := by omega
  simp [h3, h4]

theorem nodup_pairs (as : List String) (t : List Event) : (pairs as t).Nodup := by
  unfold pairs
  refine List.Nodup.map (fun i j h => ?_) (List.nodup_range.filter _)
  exact (List.cons.inj h).1

end SpectrumDisc

open SpectrumDisc

/-- C90: the points are exactly the pairs of neighbouring events of a case whose activities are neighbours in the given list, each occurrence once. -/
theorem C90_points (as : List String) (log : List Trace) : (points as log).Perm
    (log.flatMap fun t => ((t.2.zip t.2.tail).filter fun p => decide ((p.1.1, p.2.1) ∈ as.zip as.tail)).map fun p => (t.1, [p.1, p.2])) := by
  unfold points
  refine (List.perm_insertionSort _ _).trans ?_
  have : tracePoints as = fun t : Trace => ((t.2.zip t.2.tail).filter fun p => decide ((p.1.1, p.2.1) ∈ as.zip as.tail)).map fun p => (t.1, [p.1, p.2]) := by
    funext t
    unfold tracePoints
    rw [loop_id as t.2 _ 0 _ rfl, (nodup_pairs as t.2).dedup]
    have := congrArg (List.map fun l => (t.1, l)) (pairs_points as t.2)
    rw [List.map_map, List.map_map] at this
    exact this
  rw [this]

/-- C90: the same as a statement about single points. -/
theorem C90_mem (as : List String) (log : List Trace) (p : Point) : p ∈ points as log ↔
    ∃ t ∈ log, ∃ u v a b, t.2 = u ++ a :: b :: v ∧ Neighbours as a.1 b.1 ∧ p = (t.1, [a, b]) := by
  rw [(C90_points as log).mem_iff, List.mem_flatMap]
  refine exists_congr fun t => and_congr_right fun _ => ?_
  rw [List.mem_map]
  constructor
  · rintro ⟨⟨a, b⟩, h, rfl⟩
    rw [List.mem_filter, decide_eq_true_eq] at h
    obtain ⟨u, v, e⟩ := (mem_zip_tail a b t.2).1 h.1
    exact ⟨u, v, a, b, e, (mem_zip_tail _ _ _).1 h.2, rfl⟩
  · rintro ⟨u, v, a, b, e, h, rfl⟩
    exact ⟨(a, b), List.mem_filter.2 ⟨(mem_zip_tail a b t.2).2 ⟨u, v, e⟩, decide_eq_true ((mem_zip_tail _ _ _).2 h)⟩, rfl⟩

theorem SpectrumDisc.start_pair (c : Nat) (a b : Event) : start (c, [a, b]) = min a.2 b.2 := rfl

/-- C90: the points are ordered by their earliest time: no event of a later point is before all events of an earlier point. -/
theorem C90_sorted (as : List String) (log : List Trace) : (points as log).Pairwise fun p q => ∀ e ∈ q.2, ∃ e' ∈ p.2, e'.2 ≤ e.2 := by
  have : Std.Total (α := Point) byStart := ⟨fun p q => le_total (start p) (start q)⟩
  have : IsTrans Point byStart := ⟨fun p q r h1 h2 => le_trans (α := Int) h1 h2⟩
  have h : (points as log).Pairwise byStart := List.pairwise_insertionSort byStart _
  refine List.Pairwise.imp_of_mem ?_ h
  intro p q hp hq hpq e he
  obtain ⟨t, -, u, v, a, b, -, -, rfl⟩ := (C90_mem as log p).1 hp
  obtain ⟨t', -, u', v', a', b', -, -, rfl⟩ := (C90_mem as log q).1 hq
  unfold byStart at hpq
  rw [start_pair, start_pair] at hpq
  have h1 : min a'.2 b'.2 ≤ e.2 := by
    rcases List.mem_cons.1 he with rfl | he
    · exact min_le_left _ _
    · rw [List.mem_singleton] at he; rw [he]; exact min_le_right _ _
  rcases le_total a.2 b.2 with h2 | h2
  · exact ⟨a, by simp, by rw [min_eq_left h2] at hpq; exact hpq.trans h1⟩
  · exact ⟨b, by simp, by rw [min_eq_right h2] at hpq; exact hpq.trans h1⟩

/-- C90, refuted: connected segments are never joined: a complete occurrence of three activities gives two points, and no point has more than two
events. -/
theorem C90_segments_refuted : (∀ as log, ∀ p ∈ points as log, p.2.length = 2) ∧
    (points ["a", "b", "c"] [(7, [("a", 1), ("b", 2), ("c", 4)])]).Perm [(7, [("a", 1), ("b", 2)]), (7, [("b", 2), ("c", 4)])] := by
  refine ⟨fun as log p hp => ?_, (C90_points _ _).trans (by decide)⟩
  obtain ⟨t, -, u, v, a, b, -, -, rfl⟩ := (C90_mem as log p).1 hp
  rfl

end Verif
