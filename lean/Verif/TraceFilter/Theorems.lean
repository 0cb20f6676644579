import Verif.TraceFilter.BetweenProofs
/-
C41: every trace filter keeps exactly the traces its documentation promises, in their order.
-/
set_option linter.unusedSectionVars false
namespace Verif.TraceFilter
variable {ε α σ : Type} [DecidableEq α] [DecidableEq σ]

theorem keepLoop_keeps {good : List ε → Bool} {P : List ε → Prop} (h : ∀ t, good t = true ↔ P t)
    (log : List (List ε)) :
    Keeps P log (keepLoop good true log) ∧ Keeps (fun t => ¬ P t) log (keepLoop good false log) := by
  rw [keepLoop_eq, keepLoop_eq]
  refine ⟨keeps_of fun t _ => ?_, keeps_of fun t _ => ?_⟩
  · rw [← h]; cases good t <;> simp
  · rw [← h]; cases good t <;> simp

/-- **C41.** The eventually-follows filter (without time bounds) keeps exactly the traces in which the values occur in the
given order, in the order of the log; with `positive = False` exactly the others. -/
theorem _root_.Verif.C41_eventually_follows (act : ε → Option α) (time : ε → Int) (enable : Bool)
    (bounds : List (Int × Int)) (values : List α) (log : List (List ε)) (h : enable = false ∨ bounds = []) :
    Keeps (FollowsInOrder act values) log (eventuallyFollows act time true enable bounds values log) ∧
    Keeps (fun t => ¬ FollowsInOrder act values t) log (eventuallyFollows act time false enable bounds values log) :=
  keepLoop_keeps (fun t => efGood_iff act time enable bounds values t h) log

/-- **C41, refuted.** With time bounds the filter on event logs does not test the events it has matched: the timestamps
of the first events of the trace are compared.  In ⟨x@0, a@100, b@101⟩ the activities a and b are one time unit apart, but
the trace is not kept for the bound [0, 10]. -/
theorem _root_.Verif.C41_eventually_follows_timed_refuted :
    ¬ ∀ (bounds : List (Int × Int)) (values : List Nat) (log : List (List (Nat × Int))),
      bounds.length + 1 = values.length →
      Keeps (FollowsInOrderTimed (fun e => some e.1) Prod.snd values bounds) log
        (eventuallyFollows (fun e => some e.1) Prod.snd true true bounds values log) := by
  intro h
  obtain ⟨d, h1⟩ := h [(0, 10)] [1, 2] [[(0, 0), (1, 100), (2, 101)]] rfl
  have h2 : FollowsInOrderTimed (fun e : Nat × Int => some e.1) Prod.snd [1, 2] [(0, 10)]
      [(0, 0), (1, 100), (2, 101)] := ⟨[(1, 100), (2, 101)], by decide, rfl, by
      intro i e f b he hf hb
      match i with
      | 0 => simp at he hf hb; subst he; subst hf; subst hb; decide
      | i + 1 => simp at hb⟩
  rw [List.filter_cons_of_pos (by simp [h2])] at h1
  revert h1
  have : eventuallyFollows (fun e : Nat × Int => some e.1) Prod.snd true true [(0, 10)] [1, 2]
      [[(0, 0), (1, 100), (2, 101)]] = [] := by decide
  rw [this]
  simp

/-- **C41, refuted.** Nor does it keep only traces that satisfy the bounds: ⟨x@0, y@1, a@100, b@900⟩ is kept for the bound
[0, 10] on the time between a and b. -/
theorem _root_.Verif.C41_eventually_follows_timed_sound_refuted :
    ¬ ∀ (bounds : List (Int × Int)) (values : List Nat) (log : List (List (Nat × Int))) (t : List (Nat × Int)),
      bounds.length + 1 = values.length →
      t ∈ eventuallyFollows (fun e => some e.1) Prod.snd true true bounds values log →
      FollowsInOrderTimed (fun e => some e.1) Prod.snd values bounds t := by
  intro h
  obtain ⟨es, hs, hm, hb⟩ := h [(0, 10)] [1, 2] [[(0, 0), (3, 1), (1, 100), (2, 900)]]
    [(0, 0), (3, 1), (1, 100), (2, 900)] rfl (by decide)
  have hl := congrArg List.length hm
  match es with
  | [] => simp at hl
  | [_] => simp at hl
  | _ :: _ :: _ :: _ => simp at hl
  | [e, f] =>
    simp at hm
    have he := hs.subset (show e ∈ [e, f] by simp)
    have hf := hs.subset (show f ∈ [e, f] by simp)
    have := hb 0 e f (0, 10) rfl rfl rfl
    simp at he hf
    rcases he with rfl | rfl | rfl | rfl <;> rcases hf with rfl | rfl | rfl | rfl <;> simp_all

/-- **C41.** `A_next_B_next_C` keeps exactly the traces with three consecutive events A, B, C; the negative filter the
others. -/
theorem _root_.Verif.C41_next_next (act : ε → Option α) (A B C : α) (log : List (List ε)) :
    Keeps (Consecutive3 act A B C) log (aNextBNextC act true A B C log) ∧
    Keeps (fun t => ¬ Consecutive3 act A B C t) log (aNextBNextC act false A B C log) :=
  keepLoop_keeps (fun t => nextGood_iff act A B C t) log

/-- **C41.** The four-eyes filter keeps the traces with A and B (done by known resources) where nobody did both; the
negative filter the traces where somebody did both. -/
theorem _root_.Verif.C41_four_eyes (act : ε → Option α) (res : ε → Option σ) (A B : α) (log : List (List ε)) :
    Keeps (fun t => (∃ r, Did act res t A r) ∧ (∃ r, Did act res t B r) ∧ ¬ ∃ r, Did act res t A r ∧ Did act res t B r)
      log (fourEyes act res true A B log) ∧
    Keeps (fun t => ∃ r, Did act res t A r ∧ Did act res t B r) log (fourEyes act res false A B log) := by
  rw [fourEyes_eq, fourEyes_eq]
  have hne : ∀ (l : List σ), 0 < l.length ↔ ∃ r, r ∈ l := by
    intro l; cases l <;> simp
  have h0 : ∀ t : List ε, ((resOf act res t A).filter fun r => decide (r ∈ resOf act res t B)).length = 0 ↔
      ¬ ∃ r, Did act res t A r ∧ Did act res t B r := by
    intro t
    simp only [← mem_resOf]
    rw [List.length_eq_zero_iff, List.filter_eq_nil_iff]
    simp
  refine ⟨keeps_of fun t _ => ?_, keeps_of fun t _ => ?_⟩
  · simp only [Bool.and_eq_true, beq_iff_eq, decide_eq_true_eq, h0, hne, mem_resOf, and_assoc]
  · simp only [Bool.and_eq_true, beq_iff_eq, decide_eq_true_eq, decide_eq_false_iff_not, h0, hne, mem_resOf, Classical.not_not]
    exact ⟨fun h => h.2, fun ⟨r, h⟩ => ⟨⟨⟨r, h.1⟩, r, h.2⟩, r, h⟩⟩

/-- **C41.** `attr_value_different_persons` keeps exactly the traces where two different resources worked on A. -/
theorem _root_.Verif.C41_different_persons (act : ε → Option α) (res : ε → Option σ) (A : α) (log : List (List ε)) :
    Keeps (fun t => ∃ r s, Did act res t A r ∧ Did act res t A s ∧ r ≠ s) log (differentPersons act res true A log) ∧
    Keeps (fun t => ¬ ∃ r s, Did act res t A r ∧ Did act res t A s ∧ r ≠ s) log
      (differentPersons act res false A log) := by
  apply keepLoop_keeps
  intro t
  rw [decide_eq_true_eq, toSet_length]
  simp only [mem_resOf]
  constructor
  · rintro ⟨a, ha, b, hb, hab⟩; exact ⟨a, b, ha, hb, hab⟩
  · rintro ⟨a, b, ha, hb, hab⟩; exact ⟨a, ha, b, hb, hab⟩

/-- **C41.** The start activities filter keeps the (non-empty) traces that start with an admitted activity; the negative
one the non-empty traces that do not. -/
theorem _root_.Verif.C41_start_activities (act : ε → α) (values : List α) (log : List (List ε)) :
    Keeps (fun t => ∃ e r, t = e :: r ∧ act e ∈ values) log (startActivities act true values log) ∧
    Keeps (fun t => ∃ e r, t = e :: r ∧ act e ∉ values) log (startActivities act false values log) := by
  unfold startActivities
  simp only [if_true, Bool.false_eq_true, if_false]
  refine ⟨keeps_of fun t _ => ?_, keeps_of fun t _ => ?_⟩ <;> cases t <;> simp

/-- **C41.** The end activities filter. -/
theorem _root_.Verif.C41_end_activities (act : ε → α) (values : List α) (log : List (List ε)) :
    Keeps (fun t => ∃ r e, t = r ++ [e] ∧ act e ∈ values) log (endActivities act true values log) ∧
    Keeps (fun t => ∃ r e, t = r ++ [e] ∧ act e ∉ values) log (endActivities act false values log) := by
  unfold endActivities
  simp only [if_true, Bool.false_eq_true, if_false]
  refine ⟨keeps_of fun t _ => ?_, keeps_of fun t _ => ?_⟩ <;>
    rcases List.eq_nil_or_concat t with rfl | ⟨r, e, rfl⟩ <;> simp
  · constructor
    · intro h; exact ⟨r, e, ⟨rfl, rfl⟩, h⟩
    · rintro ⟨r', e', ⟨rfl, rfl⟩, h⟩; exact h
  · constructor
    · intro h; exact ⟨r, e, ⟨rfl, rfl⟩, h⟩
    · rintro ⟨r', e', ⟨rfl, rfl⟩, h⟩; exact h

/-- **C41.** The case-level attribute filter keeps the traces with an event whose value is in the set; the negative filter
the non-empty traces without such an event. -/
theorem _root_.Verif.C41_attribute_cases (act : ε → Option α) (values : List α) (log : List (List ε)) :
    Keeps (fun t => ∃ e ∈ t, ∃ v ∈ values, act e = some v) log (attrCases act true values log) ∧
    Keeps (fun t => t ≠ [] ∧ ¬ ∃ e ∈ t, ∃ v ∈ values, act e = some v) log (attrCases act false values log) := by
  rw [attrCases_eq, attrCases_eq]
  refine ⟨keeps_of fun t _ => ?_, keeps_of fun t _ => ?_⟩
  · simp only [Bool.and_eq_true, beq_iff_eq, attrFound_iff]
    constructor
    · exact fun h => h.2
    · intro h
      refine ⟨?_, h⟩
      obtain ⟨e, he, _⟩ := h
      cases t with
      | nil => simp at he
      | cons => rfl
  · rw [← attrFound_iff]
    cases t <;> cases attrFound act values _ <;> simp

/-- **C41.** The numeric case-level filter keeps the traces with a selected event whose value is in the interval; the
negative filter the traces with a selected event whose value is outside (so a trace may be kept by both, or by none). -/
theorem _root_.Verif.C41_numeric_cases (val : ε → Option Int) (sel : ε → Bool) (lo hi : Int) (log : List (List ε)) :
    Keeps (fun t => ∃ e ∈ t, sel e = true ∧ ∃ x, val e = some x ∧ lo ≤ x ∧ x ≤ hi) log
      (attrNumeric val sel true lo hi log) ∧
    Keeps (fun t => ∃ e ∈ t, sel e = true ∧ ∃ x, val e = some x ∧ (x < lo ∨ hi < x)) log
      (attrNumeric val sel false lo hi log) := by
  unfold attrNumeric
  refine ⟨keeps_of fun t _ => ?_, keeps_of fun t _ => ?_⟩ <;> rw [List.any_eq_true]
  · constructor
    · rintro ⟨e, he, h⟩
      refine ⟨e, he, ?_⟩
      cases hv : val e <;> simp_all
    · rintro ⟨e, he, hs, x, hx, h⟩; exact ⟨e, he, by simp [hs, hx, h.1, h.2]⟩
  · constructor
    · rintro ⟨e, he, h⟩
      refine ⟨e, he, ?_⟩
      cases hv : val e <;> simp_all
    · rintro ⟨e, he, hs, x, hx, h⟩; exact ⟨e, he, by simp [hs, hx, h]⟩

/-- **C41.** The directly-follows filter keeps exactly the traces in which some pair of the list occurs at consecutive
events; the negative one the others. -/
theorem _root_.Verif.C41_paths (act : ε → α) (paths : List (α × α)) (log : List (List ε)) :
    Keeps (fun t => ∃ e f, DirectlyFollows t e f ∧ (act e, act f) ∈ paths) log (pathsFilter act true paths log) ∧
    Keeps (fun t => ¬ ∃ e f, DirectlyFollows t e f ∧ (act e, act f) ∈ paths) log (pathsFilter act false paths log) := by
  rw [pathsFilter_eq, pathsFilter_eq]
  have h := pathFound_iff act (fun _ _ => true) paths
  refine ⟨keeps_of fun t _ => ?_, keeps_of fun t _ => ?_⟩
  · simp [h]
  · rw [beq_iff_eq, ← Bool.not_eq_true, h]; simp

/-- **C41.** The path performance filter keeps exactly the traces in which the path occurs at consecutive events whose
time difference is within the bounds; the negative one the others. -/
theorem _root_.Verif.C41_paths_performance (act : ε → α) (time : ε → Int) (a b : α) (lo hi : Int)
    (log : List (List ε)) :
    Keeps (fun t => ∃ e f, DirectlyFollows t e f ∧ act e = a ∧ act f = b ∧ lo ≤ time f - time e ∧ time f - time e ≤ hi)
      log (pathsPerformance act time true (a, b) lo hi log) ∧
    Keeps (fun t => ¬ ∃ e f, DirectlyFollows t e f ∧ act e = a ∧ act f = b ∧ lo ≤ time f - time e ∧
      time f - time e ≤ hi) log (pathsPerformance act time false (a, b) lo hi log) := by
  rw [pathsPerformance_eq, pathsPerformance_eq]
  have h := pathFound_iff act (fun e f => decide (lo ≤ time f - time e) && decide (time f - time e ≤ hi)) [(a, b)]
  simp only [List.mem_singleton, Prod.mk.injEq, Bool.and_eq_true, decide_eq_true_eq, and_assoc] at h
  refine ⟨keeps_of fun t _ => ?_, keeps_of fun t _ => ?_⟩
  · simp [h]
  · rw [beq_iff_eq, ← Bool.not_eq_true, h]

/-- **C41.** The repetition filter keeps exactly the traces in which the value occurs between `lo` and `hi` times. -/
theorem _root_.Verif.C41_repetition (act : ε → Option α) (v : α) (lo hi : Int) (log : List (List ε)) :
    Keeps (fun t => lo ≤ ((t.map act).count (some v) : Int) ∧ ((t.map act).count (some v) : Int) ≤ hi) log
      (repetition act v lo (some hi) log) ∧
    Keeps (fun t => lo ≤ ((t.map act).count (some v) : Int)) log (repetition act v lo none log) := by
  rw [repetition_eq, repetition_eq]
  refine ⟨keeps_of fun t _ => by simp [upTo], keeps_of fun t _ => by simp [upTo]⟩

/-- **C41.** The rework filter keeps exactly the traces in which the activity occurs, and at least `lo` times; the negative
one the others. -/
theorem _root_.Verif.C41_rework (act : ε → α) (v : α) (lo : Int) (log : List (List ε)) :
    Keeps (fun t => 1 ≤ (t.map act).count v ∧ lo ≤ ((t.map act).count v : Int)) log (rework act true v lo log) ∧
    Keeps (fun t => ¬ (1 ≤ (t.map act).count v ∧ lo ≤ ((t.map act).count v : Int))) log (rework act false v lo log) := by
  rw [rework_eq, rework_eq]
  have h : ∀ t : List ε, v ∈ t.map act ↔ 1 ≤ (t.map act).count v := fun t => by
    rw [← List.count_pos_iff]; exact Iff.rfl
  refine ⟨keeps_of fun t _ => ?_, keeps_of fun t _ => ?_⟩ <;> simp only [h]
  · simp
  · by_cases h1 : 1 ≤ (t.map act).count v <;> by_cases h2 : lo ≤ ((t.map act).count v : Int) <;> simp [h1, h2]

/-- **C41.** The case size filter. -/
theorem _root_.Verif.C41_case_size (lo hi : Nat) (log : List (List ε)) :
    Keeps (fun t => lo ≤ t.length ∧ t.length ≤ hi) log (caseSize lo (some hi) log) ∧
    Keeps (fun t => lo ≤ t.length) log (caseSize lo none log) :=
  ⟨keeps_of fun t _ => by simp, keeps_of fun t _ => by simp⟩

/-- **C41.** `filter_on_ncases` returns the first traces of the log, `n` of them if there are so many. -/
theorem _root_.Verif.C41_n_cases (n : Nat) (log : List (List ε)) :
    nCases n log <+: log ∧ (nCases n log).length = min n log.length := by
  unfold nCases
  refine ⟨List.take_prefix _ _, ?_⟩
  rw [List.length_take]; omega

theorem head_le_last {time : ε → Int} {t : List ε} (h : TimeSorted time t) {e f : ε} (he : t.head? = some e)
    (hf : t.getLast? = some f) : ∀ x ∈ t, time e ≤ time x ∧ time x ≤ time f := by
  intro x hx
  constructor
  · cases t with
    | nil => simp at hx
    | cons a t =>
      simp at he; subst he
      rcases List.mem_cons.1 hx with rfl | hx
      · omega
      · exact List.rel_of_pairwise_cons h hx
  · rcases List.eq_nil_or_concat t with rfl | ⟨r, a, rfl⟩
    · simp at hx
    · rw [List.concat_eq_append] at *
      simp at hf; subst hf
      rcases List.mem_append.1 hx with hx | hx
      · exact (List.pairwise_append.1 h).2.2 x hx a (by simp)
      · simp at hx; subst hx; omega

/-- **C41.** Case performance: the non-empty traces whose duration, from the first to the last event, is within the
bounds. -/
theorem _root_.Verif.C41_case_performance (time : ε → Int) (lo hi : Int) (log : List (List ε)) :
    Keeps (fun t => ∃ e f, t.head? = some e ∧ t.getLast? = some f ∧ lo ≤ time f - time e ∧ time f - time e ≤ hi) log
      (casePerformance time lo hi log) := by
  refine keeps_of fun t _ => ?_
  unfold satisfyPerf
  cases h1 : t.head? <;> cases h2 : t.getLast? <;> simp

/-- **C41.** On a log whose traces are sorted by time, the contained filter keeps exactly the non-empty traces all of whose
events are in the interval. -/
theorem _root_.Verif.C41_contained (time : ε → Int) (dt1 dt2 : Int) (log : List (List ε))
    (hs : ∀ t ∈ log, TimeSorted time t) :
    Keeps (fun t => t ≠ [] ∧ ∀ e ∈ t, dt1 ≤ time e ∧ time e ≤ dt2) log (tracesContained time dt1 dt2 log) := by
  refine keeps_of fun t ht => ?_
  unfold isContained
  cases h1 : t.head? with
  | none => simp [List.head?_eq_none_iff.1 h1]
  | some e =>
    have hne : t ≠ [] := by rintro rfl; simp at h1
    cases h2 : t.getLast? with
    | none => simp [List.getLast?_eq_none_iff.1 h2] at hne
    | some f =>
      have h := head_le_last (hs t ht) h1 h2
      simp only [decide_eq_true_eq]
      constructor
      · rintro ⟨h3, h4⟩
        exact ⟨hne, fun x hx => by have := h x hx; omega⟩
      · rintro ⟨_, h3⟩
        exact ⟨(h3 e (List.mem_of_mem_head? (by simp [h1]))).1, (h3 f (List.mem_of_getLast? h2)).2⟩

/-- **C41.** On a log whose traces are sorted by time, for a non-empty interval, the intersecting filter keeps exactly the
traces whose life span (from the time of some event to the time of another) shares a moment with the interval. -/
theorem _root_.Verif.C41_intersecting (time : ε → Int) (dt1 dt2 : Int) (log : List (List ε)) (hd : dt1 ≤ dt2)
    (hs : ∀ t ∈ log, TimeSorted time t) :
    Keeps (fun t => ∃ m : Int, dt1 ≤ m ∧ m ≤ dt2 ∧ ∃ e ∈ t, ∃ f ∈ t, time e ≤ m ∧ m ≤ time f) log
      (tracesIntersecting time dt1 dt2 log) := by
  refine keeps_of fun t ht => ?_
  unfold isIntersecting
  cases h1 : t.head? with
  | none => simp [List.head?_eq_none_iff.1 h1]
  | some e =>
    have hne : t ≠ [] := by rintro rfl; simp at h1
    cases h2 : t.getLast? with
    | none => simp [List.getLast?_eq_none_iff.1 h2] at hne
    | some f =>
      have h := head_le_last (hs t ht) h1 h2
      have he : e ∈ t := List.mem_of_mem_head? (by simp [h1])
      have hf : f ∈ t := List.mem_of_getLast? h2
      have hef := (h f hf).1
      simp only [Bool.or_eq_true, decide_eq_true_eq]
      constructor
      · rintro (((h3 | h3) | h3) | h3)
        · exact ⟨time e, h3.1, h3.2, e, he, f, hf, by omega, by omega⟩
        · exact ⟨time f, h3.1, h3.2, e, he, f, hf, by omega, by omega⟩
        · exact ⟨dt1, by omega, by omega, e, he, f, hf, by omega, by omega⟩
        · exact ⟨dt2, by omega, by omega, e, he, f, hf, by omega, by omega⟩
      · rintro ⟨m, hm1, hm2, x, hx, y, hy, hxm, hym⟩
        have h3 := h x hx
        have h4 := h y hy
        omega

/-- **C41.** The attribute-in-timeframe filter. -/
theorem _root_.Verif.C41_timeframe (act : ε → Option α) (time : ε → Int) (v : α) (dt1 dt2 : Int)
    (log : List (List ε)) :
    Keeps (fun t => ∃ e ∈ t, act e = some v ∧ dt1 ≤ time e ∧ time e ≤ dt2) log
      (tracesInTimeframe act time v dt1 dt2 log) :=
  keeps_of fun t _ => hasInTimeframe_iff act time v dt1 dt2 t

/-- **C41.** A filter and its negation split the log: together they return every trace once (as often as in the log). -/
theorem _root_.Verif.C41_partition {P : List ε → Prop} {log a b : List (List ε)} (ha : Keeps P log a)
    (hb : Keeps (fun t => ¬ P t) log b) : (a ++ b).Perm log := keeps_partition ha hb

/-- **C41.** The prefix filter for the first occurrence of an activity: a trace `u ++ e :: r`, whose first event of the
activity is `e`, becomes `u` (strict) or `u ++ [e]`; the traces without the activity disappear. -/
theorem _root_.Verif.C41_prefix_first (act : ε → Option α) (strict : Bool) (a : α) (log : List (List ε)) :
    ∃ pre : List ε → Option (List ε), prefixes act true strict a log = log.filterMap pre ∧
      (∀ t, pre t = none ↔ ∀ e ∈ t, act e ≠ some a) ∧
      ∀ u e r, act e = some a → (∀ x ∈ u, act x ≠ some a) → pre (u ++ e :: r) = some (if strict then u else u ++ [e]) := by
  refine ⟨_, prefixes_eq act true strict a log, ?_, ?_⟩
  · intro t; rw [Option.map_eq_none_iff, cutIdx_none]
  · intro u e r he hu
    have : cutIdx act true a (u ++ e :: r) = some u.length :=
      (cutIdx_first ..).2 ⟨e, by simp, he, by simpa using hu⟩
    rw [this]
    cases strict <;> simp [List.take_append, List.take_of_length_le]

/-- **C41.** The prefix filter for the last occurrence: `u ++ e :: r` whose last event of the activity is `e`. -/
theorem _root_.Verif.C41_prefix_last (act : ε → Option α) (strict : Bool) (a : α) (log : List (List ε)) :
    ∃ pre : List ε → Option (List ε), prefixes act false strict a log = log.filterMap pre ∧
      (∀ t, pre t = none ↔ ∀ e ∈ t, act e ≠ some a) ∧
      ∀ u e r, act e = some a → (∀ x ∈ r, act x ≠ some a) → pre (u ++ e :: r) = some (if strict then u else u ++ [e]) := by
  refine ⟨_, prefixes_eq act false strict a log, ?_, ?_⟩
  · intro t; rw [Option.map_eq_none_iff, cutIdx_none]
  · intro u e r he hr
    have : cutIdx act false a (u ++ e :: r) = some u.length :=
      (cutIdx_last ..).2 ⟨e, by simp, he, by simpa [List.drop_append, List.drop_eq_nil_of_le] using hr⟩
    rw [this]
    cases strict <;> simp [List.take_append, List.take_of_length_le]

/-- **C41.** The suffix filter for the first occurrence. -/
theorem _root_.Verif.C41_suffix_first (act : ε → Option α) (strict : Bool) (a : α) (log : List (List ε)) :
    ∃ suf : List ε → Option (List ε), suffixes act true strict a log = log.filterMap suf ∧
      (∀ t, suf t = none ↔ ∀ e ∈ t, act e ≠ some a) ∧
      ∀ u e r, act e = some a → (∀ x ∈ u, act x ≠ some a) → suf (u ++ e :: r) = some (if strict then r else e :: r) := by
  refine ⟨_, suffixes_eq act true strict a log, ?_, ?_⟩
  · intro t; rw [Option.map_eq_none_iff, cutIdx_none]
  · intro u e r he hu
    have : cutIdx act true a (u ++ e :: r) = some u.length :=
      (cutIdx_first ..).2 ⟨e, by simp, he, by simpa using hu⟩
    rw [this]
    cases strict <;> simp [List.drop_append]

/-- **C41.** The suffix filter for the last occurrence. -/
theorem _root_.Verif.C41_suffix_last (act : ε → Option α) (strict : Bool) (a : α) (log : List (List ε)) :
    ∃ suf : List ε → Option (List ε), suffixes act false strict a log = log.filterMap suf ∧
      (∀ t, suf t = none ↔ ∀ e ∈ t, act e ≠ some a) ∧
      ∀ u e r, act e = some a → (∀ x ∈ r, act x ≠ some a) → suf (u ++ e :: r) = some (if strict then r else e :: r) := by
  refine ⟨_, suffixes_eq act false strict a log, ?_, ?_⟩
  · intro t; rw [Option.map_eq_none_iff, cutIdx_none]
  · intro u e r he hr
    have : cutIdx act false a (u ++ e :: r) = some u.length :=
      (cutIdx_last ..).2 ⟨e, by simp, he, by simpa [List.drop_append, List.drop_eq_nil_of_le] using hr⟩
    rw [this]
    cases strict <;> simp [List.drop_append]

/-- **C41.** The prefixes and the suffixes of a log are complementary: for the same occurrence, the i-th strict prefix
followed by the i-th non-strict suffix is the i-th trace containing the activity. -/
theorem _root_.Verif.C41_prefix_suffix (act : ε → Option α) (first strict : Bool) (a : α) (log : List (List ε)) :
    List.zipWith (· ++ ·) (prefixes act first strict a log) (suffixes act first (!strict) a log) =
      log.filter fun t => decide (∃ e ∈ t, act e = some a) := by
  rw [prefixes_eq, suffixes_eq]
  induction log with
  | nil => rfl
  | cons t log ih =>
    cases h : cutIdx act first a t with
    | none =>
      have h' := (cutIdx_none ..).1 h
      rw [List.filterMap_cons_none (by simp [h]), List.filterMap_cons_none (by simp [h]), ih,
        List.filter_cons_of_neg]
      simpa using h'
    | some i =>
      have h' : ∃ e ∈ t, act e = some a := by
        rw [← Classical.not_not (a := ∃ e ∈ t, act e = some a)]
        intro hn
        have := (cutIdx_none act first a t).2 (by simpa using hn)
        rw [this] at h; cases h
      rw [List.filterMap_cons_some (by simp [h]; rfl), List.filterMap_cons_some (by simp [h]; rfl), List.zipWith_cons_cons,
        ih, List.filter_cons_of_pos (by simpa using h')]
      congr 1
      cases strict <;> simp

/-- **C41.** The between filter for different activities returns, trace by trace and numbered from 0, exactly the subtraces
from a start event to the next end event; every trace has exactly one such list of subtraces. -/
theorem _root_.Verif.C41_between (p q : ε → Bool) (log : List (List ε)) :
    (∀ t : List ε, ∃ segs, Segments p q t segs ∧ ∀ segs', Segments p q t segs' → segs' = segs) ∧
    ∀ segsOf : List ε → List (List ε), (∀ t ∈ log, Segments p q t (segsOf t)) →
      between p q false log = log.zipIdx.flatMap fun (t, idx) => (segsOf t).zipIdx.map fun (s, k) => ((idx, k), s) := by
  constructor
  · intro t
    obtain ⟨segs, hs⟩ := segments_total p q t.length t (by omega)
    exact ⟨segs, hs, fun s' h' => segments_det p q h' hs⟩
  · intro segsOf h
    unfold between
    apply flatMap_congr'
    rintro ⟨t, idx⟩ ht
    dsimp only
    have htl : t ∈ log := List.fst_mem_of_mem_zipIdx ht
    rw [segments_run p q t (segsOf t) (h t htl) 0 []]
    simp [numbered, List.map_map, Function.comp_def]

/-- **C41.** The between filter for one and the same activity returns the laps between its consecutive occurrences, the
last event of a lap being also the first of the next. -/
theorem _root_.Verif.C41_between_same (p : ε → Bool) (log : List (List ε)) :
    (∀ t : List ε, ∃ segs, Laps p t segs ∧ ∀ segs', Laps p t segs' → segs' = segs) ∧
    ∀ segsOf : List ε → List (List ε), (∀ t ∈ log, Laps p t (segsOf t)) →
      between p p true log = log.zipIdx.flatMap fun (t, idx) => (segsOf t).zipIdx.map fun (s, k) => ((idx, k), s) := by
  constructor
  · intro t
    obtain ⟨segs, hs⟩ := laps_total p t.length t (by omega)
    exact ⟨segs, hs, fun s' h' => laps_det p h' hs⟩
  · intro segsOf h
    unfold between
    apply flatMap_congr'
    rintro ⟨t, idx⟩ ht
    dsimp only
    have htl : t ∈ log := List.fst_mem_of_mem_zipIdx ht
    rw [laps_run p t (segsOf t) (h t htl) 0 []]
    simp [numbered, List.map_map, Function.comp_def]

end Verif.TraceFilter
