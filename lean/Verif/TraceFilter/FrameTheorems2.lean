import Verif.TraceFilter.FrameTheorems
/-
C42, continued: resources, start and end activities, attribute values, counting filters, durations and intervals.
-/
set_option linter.unusedSectionVars false
namespace Verif.TraceFilter
variable {ε α σ κ : Type} [DecidableEq α] [DecidableEq σ] [DecidableEq κ]

theorem caseRows_ne_nil {caseOf : ε → κ} {rows : List ε} {r : ε} (hr : r ∈ rows) :
    caseRows caseOf rows (caseOf r) ≠ [] := by
  intro h
  have := (mem_caseRows (caseOf := caseOf)).2 ⟨hr, rfl⟩
  rw [h] at this; simp at this

theorem did_iff {caseOf : ε → κ} {act : ε → Option α} {res : ε → Option σ} {rows : List ε} {c : κ} {v : α} {x : σ} :
    Did act res (caseRows caseOf rows c) v x ↔ ∃ r ∈ rows, caseOf r = c ∧ act r = some v ∧ res r = some x := by
  unfold Did
  simp only [mem_caseRows]
  constructor
  · rintro ⟨e, ⟨h1, h2⟩, h3⟩; exact ⟨e, h1, h2, h3⟩
  · rintro ⟨e, h1, h2, h3⟩; exact ⟨e, ⟨h1, h2⟩, h3⟩

theorem lastRes_did {caseOf : ε → κ} {act : ε → Option α} {res : ε → Option σ} {rows : List ε} {c : κ} {v : α} {y : σ}
    (h : lastRes caseOf act res rows v c = some y) : Did act res (caseRows caseOf rows c) v y :=
  (mem_resOf ..).1 (List.mem_of_getLast? h)

theorem lastRes_some {caseOf : ε → κ} {act : ε → Option α} {res : ε → Option σ} {rows : List ε} {c : κ} {v : α} {x : σ}
    (h : Did act res (caseRows caseOf rows c) v x) : ∃ y, lastRes caseOf act res rows v c = some y := by
  unfold lastRes
  cases hl : (resOf act res (caseRows caseOf rows c) v).getLast? with
  | none =>
    rw [List.getLast?_eq_none_iff] at hl
    have := (mem_resOf ..).2 h
    rw [hl] at this; simp at this
  | some y => exact ⟨y, rfl⟩

theorem mem_joinRes {caseOf : ε → κ} {act : ε → Option α} {res : ε → Option σ} {A B : α} {rows : List ε} {c : κ}
    {x y : σ} : (c, x, y) ∈ joinRes caseOf act res A B rows ↔
      Did act res (caseRows caseOf rows c) A x ∧ lastRes caseOf act res rows B c = some y := by
  unfold joinRes
  rw [List.mem_filterMap, did_iff]
  constructor
  · rintro ⟨r, hr, h⟩
    split at h
    · rename_i ha
      cases h1 : res r with
      | none => simp [h1] at h
      | some x' =>
        cases h2 : lastRes caseOf act res rows B (caseOf r) with
        | none => simp [h1, h2] at h
        | some y' =>
          simp only [h1, h2, Option.some.injEq, Prod.mk.injEq] at h
          obtain ⟨rfl, rfl, rfl⟩ := h
          exact ⟨⟨r, hr, rfl, ha, h1⟩, h2⟩
    · cases h
  · rintro ⟨⟨r, hr, rfl, ha, hx⟩, hy⟩
    exact ⟨r, hr, by simp [ha, hx, hy]⟩

/-- **C42.** `attr_value_different_persons` on dataframes agrees with the event log filter: it keeps the cases in which two
different resources worked on A. -/
theorem _root_.Verif.C42_different_persons (caseOf : ε → κ) (act : ε → Option α) (res : ε → Option σ) (A : α)
    (rows : List ε) :
    KeepsCases caseOf (fun t => ∃ r s, Did act res t A r ∧ Did act res t A s ∧ r ≠ s) rows
      (differentPersonsDf caseOf act res true A rows) ∧
    KeepsCases caseOf (fun t => ¬ ∃ r s, Did act res t A r ∧ Did act res t A s ∧ r ≠ s) rows
      (differentPersonsDf caseOf act res false A rows) := by
  unfold differentPersonsDf
  apply isin_keeps
  intro r _
  rw [List.mem_map]
  constructor
  · rintro ⟨⟨c, x, y⟩, h, rfl⟩
    rw [List.mem_filter, decide_eq_true_eq, mem_joinRes] at h
    exact ⟨x, y, h.1.1, lastRes_did h.1.2, h.2⟩
  · rintro ⟨x, y, hx, hy, hxy⟩
    obtain ⟨z, hz⟩ := lastRes_some hx
    by_cases h : x = z
    · subst h
      exact ⟨(caseOf r, y, x), List.mem_filter.2 ⟨mem_joinRes.2 ⟨hy, hz⟩, by simpa using fun h => hxy h.symm⟩, rfl⟩
    · exact ⟨(caseOf r, x, z), List.mem_filter.2 ⟨mem_joinRes.2 ⟨hx, hz⟩, by simpa using h⟩, rfl⟩

theorem mem_fourEyesDf {caseOf : ε → κ} {act : ε → Option α} {res : ε → Option σ} {A B : α} {rows : List ε} {r : ε} :
    (r ∈ fourEyesDf caseOf act res true A B rows ↔ r ∈ rows ∧
      (∃ x y, Did act res (caseRows caseOf rows (caseOf r)) A x ∧ lastRes caseOf act res rows B (caseOf r) = some y ∧ x ≠ y) ∧
      ¬ ∃ x, Did act res (caseRows caseOf rows (caseOf r)) A x ∧ lastRes caseOf act res rows B (caseOf r) = some x) ∧
    (r ∈ fourEyesDf caseOf act res false A B rows ↔ r ∈ rows ∧
      ∃ x, Did act res (caseRows caseOf rows (caseOf r)) A x ∧ lastRes caseOf act res rows B (caseOf r) = some x) := by
  have h2 : caseOf r ∈ ((joinRes caseOf act res A B rows).filter fun j => decide (j.2.1 = j.2.2)).map Prod.fst ↔
      ∃ x, Did act res (caseRows caseOf rows (caseOf r)) A x ∧ lastRes caseOf act res rows B (caseOf r) = some x := by
    rw [List.mem_map]
    constructor
    · rintro ⟨⟨c, x, y⟩, h, hc⟩
      simp only at hc; subst hc
      rw [List.mem_filter, decide_eq_true_eq, mem_joinRes] at h
      obtain ⟨h, h'⟩ := h
      simp only at h'; subst h'
      exact ⟨x, h⟩
    · rintro ⟨x, h⟩
      exact ⟨(caseOf r, x, x), List.mem_filter.2 ⟨mem_joinRes.2 h, by simp⟩, rfl⟩
  have h3 : caseOf r ∈ ((joinRes caseOf act res A B rows).filter fun j => decide (j.2.1 ≠ j.2.2)).map Prod.fst ↔
      ∃ x y, Did act res (caseRows caseOf rows (caseOf r)) A x ∧ lastRes caseOf act res rows B (caseOf r) = some y ∧
        x ≠ y := by
    rw [List.mem_map]
    constructor
    · rintro ⟨⟨c, x, y⟩, h, hc⟩
      simp only at hc; subst hc
      rw [List.mem_filter, decide_eq_true_eq, mem_joinRes] at h
      exact ⟨x, y, h.1.1, h.1.2, h.2⟩
    · rintro ⟨x, y, h1, h2, h3⟩
      exact ⟨(caseOf r, x, y), List.mem_filter.2 ⟨mem_joinRes.2 ⟨h1, h2⟩, by simpa using h3⟩, rfl⟩
  unfold fourEyesDf
  constructor
  · simp only [if_true, List.mem_filter, Bool.and_eq_true, Bool.not_eq_true', decide_eq_true_eq,
      decide_eq_false_iff_not]
    rw [h2, h3]
  · simp only [Bool.false_eq_true, if_false, List.mem_filter, decide_eq_true_eq]
    rw [h2]

theorem fourEyesDf_filter (caseOf : ε → κ) (act : ε → Option α) (res : ε → Option σ) (A B : α) (rows : List ε)
    (positive : Bool) : ∃ p : ε → Bool, fourEyesDf caseOf act res positive A B rows = rows.filter p := by
  unfold fourEyesDf
  cases positive
  · exact ⟨_, rfl⟩
  · exact ⟨_, rfl⟩

theorem keepsCases_of_mem {caseOf : ε → κ} {P : List ε → Prop} {rows out : List ε} (hf : ∃ p, out = rows.filter p)
    (h : ∀ r ∈ rows, (r ∈ out ↔ P (caseRows caseOf rows (caseOf r)))) : KeepsCases caseOf P rows out := by
  obtain ⟨p, rfl⟩ := hf
  refine keeps_of fun r hr => ?_
  have := h r hr
  rw [List.mem_filter] at this
  exact ⟨fun hp => this.1 ⟨hr, hp⟩, fun hp => (this.2 hp).2⟩

/-- **C42.** The four-eyes filter on dataframes compares the resources of A with the last resource of B only.  It keeps
every case that the event log filter keeps, and the negative filter keeps only cases that the negative event log filter
keeps. -/
theorem _root_.Verif.C42_four_eyes_bounds (caseOf : ε → κ) (act : ε → Option α) (res : ε → Option σ) (A B : α)
    (rows : List ε) :
    (∀ r ∈ rows, ((∃ x, Did act res (caseRows caseOf rows (caseOf r)) A x) ∧
        (∃ x, Did act res (caseRows caseOf rows (caseOf r)) B x) ∧
        ¬ ∃ x, Did act res (caseRows caseOf rows (caseOf r)) A x ∧ Did act res (caseRows caseOf rows (caseOf r)) B x) →
      r ∈ fourEyesDf caseOf act res true A B rows) ∧
    (∀ r ∈ fourEyesDf caseOf act res false A B rows, r ∈ rows ∧
      ∃ x, Did act res (caseRows caseOf rows (caseOf r)) A x ∧ Did act res (caseRows caseOf rows (caseOf r)) B x) := by
  constructor
  · rintro r hr ⟨⟨x, hx⟩, ⟨y, hy⟩, hn⟩
    obtain ⟨z, hz⟩ := lastRes_some hy
    refine (mem_fourEyesDf.1).2 ⟨hr, ⟨x, z, hx, hz, ?_⟩, ?_⟩
    · rintro rfl; exact hn ⟨x, hx, lastRes_did hz⟩
    · rintro ⟨w, hw, hw'⟩; exact hn ⟨w, hw, lastRes_did hw'⟩
  · intro r hr
    obtain ⟨h, x, hx, hy⟩ := (mem_fourEyesDf.2).1 hr
    exact ⟨h, x, hx, lastRes_did hy⟩

/-- **C42.** It agrees with the event log filter when, within a case, B is always done by the same resource. -/
theorem _root_.Verif.C42_four_eyes (caseOf : ε → κ) (act : ε → Option α) (res : ε → Option σ) (A B : α) (rows : List ε)
    (hB : ∀ c x y, Did act res (caseRows caseOf rows c) B x → Did act res (caseRows caseOf rows c) B y → x = y) :
    KeepsCases caseOf (fun t => (∃ r, Did act res t A r) ∧ (∃ r, Did act res t B r) ∧
      ¬ ∃ r, Did act res t A r ∧ Did act res t B r) rows (fourEyesDf caseOf act res true A B rows) ∧
    KeepsCases caseOf (fun t => ∃ r, Did act res t A r ∧ Did act res t B r) rows
      (fourEyesDf caseOf act res false A B rows) := by
  have hb := Verif.C42_four_eyes_bounds caseOf act res A B rows
  constructor
  · refine keepsCases_of_mem (fourEyesDf_filter ..) fun r hr => ⟨fun h => ?_, fun h => hb.1 r hr h⟩
    obtain ⟨_, ⟨x, y, hx, hy, hxy⟩, hn⟩ := (mem_fourEyesDf.1).1 h
    refine ⟨⟨x, hx⟩, ⟨y, lastRes_did hy⟩, ?_⟩
    rintro ⟨z, hz1, hz2⟩
    have := hB _ _ _ hz2 (lastRes_did hy)
    subst this
    exact hn ⟨z, hz1, hy⟩
  · refine keepsCases_of_mem (fourEyesDf_filter ..) fun r hr => ⟨fun h => (hb.2 r h).2, ?_⟩
    rintro ⟨x, hx, hy⟩
    obtain ⟨z, hz⟩ := lastRes_some hy
    have := hB _ _ _ hy (lastRes_did hz)
    subst this
    exact (mem_fourEyesDf.2).2 ⟨hr, x, hx, hz⟩

/-- **C42, refuted.** In general it does not: in the case ⟨A by ann, B by ann, B by bob⟩ the filter certifies the four-eyes
principle although ann did both A and B, and the negative filter does not report the case. -/
theorem _root_.Verif.C42_four_eyes_refuted :
    (¬ ∀ rows : List (Nat × String × String),
      KeepsCases Prod.fst (fun t => (∃ r, Did (fun e => some e.2.1) (fun e => some e.2.2) t "A" r) ∧
        (∃ r, Did (fun e => some e.2.1) (fun e => some e.2.2) t "B" r) ∧
        ¬ ∃ r, Did (fun e => some e.2.1) (fun e => some e.2.2) t "A" r ∧
          Did (fun e => some e.2.1) (fun e => some e.2.2) t "B" r) rows
        (fourEyesDf Prod.fst (fun e => some e.2.1) (fun e => some e.2.2) true "A" "B" rows)) ∧
    ¬ ∀ rows : List (Nat × String × String),
      KeepsCases Prod.fst (fun t => ∃ r, Did (fun e => some e.2.1) (fun e => some e.2.2) t "A" r ∧
          Did (fun e => some e.2.1) (fun e => some e.2.2) t "B" r) rows
        (fourEyesDf Prod.fst (fun e => some e.2.1) (fun e => some e.2.2) false "A" "B" rows) := by
  have key : ∃ r, Did (fun e : Nat × String × String => some e.2.1) (fun e => some e.2.2)
      [(1, "A", "ann"), (1, "B", "ann"), (1, "B", "bob")] "A" r ∧
      Did (fun e : Nat × String × String => some e.2.1) (fun e => some e.2.2)
      [(1, "A", "ann"), (1, "B", "ann"), (1, "B", "bob")] "B" r :=
    ⟨"ann", ⟨(1, "A", "ann"), by simp, rfl, rfl⟩, ⟨(1, "B", "ann"), by simp, rfl, rfl⟩⟩
  constructor
  · intro h
    obtain ⟨d, hd⟩ := h [(1, "A", "ann"), (1, "B", "ann"), (1, "B", "bob")]
    have h1 : fourEyesDf Prod.fst (fun e : Nat × String × String => some e.2.1) (fun e => some e.2.2) true "A" "B"
      [(1, "A", "ann"), (1, "B", "ann"), (1, "B", "bob")] = [(1, "A", "ann"), (1, "B", "ann"), (1, "B", "bob")] := by decide
    rw [h1] at hd
    have := hd ▸ (show (1, "A", "ann") ∈ [(1, "A", "ann"), (1, "B", "ann"), (1, "B", "bob")] by simp)
    rw [List.mem_filter, decide_eq_true_eq] at this
    exact this.2.2.2 key
  · intro h
    obtain ⟨d, hd⟩ := h [(1, "A", "ann"), (1, "B", "ann"), (1, "B", "bob")]
    have h1 : fourEyesDf Prod.fst (fun e : Nat × String × String => some e.2.1) (fun e => some e.2.2) false "A" "B"
      [(1, "A", "ann"), (1, "B", "ann"), (1, "B", "bob")] = [] := by decide
    rw [h1, List.filter_cons_of_pos] at hd
    · cases hd
    · rw [decide_eq_true_eq]; exact key

/-- **C42.** Start activities on dataframes. -/
theorem _root_.Verif.C42_start_activities (caseOf : ε → κ) (act : ε → α) (values : List α) (rows : List ε) :
    KeepsCases caseOf (fun t => ∃ e r, t = e :: r ∧ act e ∈ values) rows (startDf caseOf act true values rows) ∧
    KeepsCases caseOf (fun t => ¬ ∃ e r, t = e :: r ∧ act e ∈ values) rows (startDf caseOf act false values rows) := by
  unfold startDf
  apply isin_keeps
  intro r hr
  rw [List.mem_filter, List.mem_map]
  generalize caseRows caseOf rows (caseOf r) = t
  cases t with
  | nil => simp
  | cons e l =>
    simp only [List.head?_cons, decide_eq_true_eq]
    constructor
    · exact fun h => ⟨e, l, rfl, h.2⟩
    · rintro ⟨e', l', h, h'⟩
      simp only [List.cons.injEq] at h
      exact ⟨⟨r, hr, rfl⟩, h.1 ▸ h'⟩

/-- **C42.** End activities on dataframes. -/
theorem _root_.Verif.C42_end_activities (caseOf : ε → κ) (act : ε → α) (values : List α) (rows : List ε) :
    KeepsCases caseOf (fun t => ∃ r e, t = r ++ [e] ∧ act e ∈ values) rows (endDf caseOf act true values rows) ∧
    KeepsCases caseOf (fun t => ¬ ∃ r e, t = r ++ [e] ∧ act e ∈ values) rows (endDf caseOf act false values rows) := by
  unfold endDf
  apply isin_keeps
  intro r hr
  rw [List.mem_filter, List.mem_map]
  generalize caseRows caseOf rows (caseOf r) = t
  rcases List.eq_nil_or_concat t with rfl | ⟨l, e, rfl⟩
  · simp
  · simp only [List.concat_eq_append, List.getLast?_append, List.getLast?_singleton, Option.some_or, decide_eq_true_eq]
    constructor
    · exact fun h => ⟨l, e, rfl, h.2⟩
    · rintro ⟨l', e', h, h'⟩
      have := List.append_inj' h rfl
      simp only [List.cons.injEq, and_true] at this
      exact ⟨⟨r, hr, rfl⟩, this.2 ▸ h'⟩

/-- **C42.** Case-level attribute values on dataframes. -/
theorem _root_.Verif.C42_attribute_cases (caseOf : ε → κ) (act : ε → Option α) (values : List α) (rows : List ε) :
    KeepsCases caseOf (fun t => ∃ e ∈ t, ∃ v ∈ values, act e = some v) rows (attrCasesDf caseOf act true values rows) ∧
    KeepsCases caseOf (fun t => ¬ ∃ e ∈ t, ∃ v ∈ values, act e = some v) rows
      (attrCasesDf caseOf act false values rows) := by
  unfold attrCasesDf
  apply isin_keeps
  intro r hr
  simp only [List.mem_map, List.mem_filter, mem_caseRows]
  constructor
  · rintro ⟨e, ⟨he, h⟩, hc⟩
    cases ha : act e with
    | none => simp [ha] at h
    | some v => simp only [ha, decide_eq_true_eq] at h; exact ⟨e, ⟨he, hc⟩, v, h, ha⟩
  · rintro ⟨e, ⟨he, hc⟩, v, hv, ha⟩
    exact ⟨e, ⟨he, by simp [ha, hv]⟩, hc⟩

/-- **C42.** The numeric filter on dataframes: the positive filter agrees with the event log one, the negative filter keeps
the cases without a selected row whose value is in the interval. -/
theorem _root_.Verif.C42_numeric_cases (caseOf : ε → κ) (val : ε → Option Int) (sel : ε → Bool) (lo hi : Int)
    (rows : List ε) :
    KeepsCases caseOf (fun t => ∃ e ∈ t, sel e = true ∧ ∃ x, val e = some x ∧ lo ≤ x ∧ x ≤ hi) rows
      (attrNumericDf caseOf val sel true lo hi rows) ∧
    KeepsCases caseOf (fun t => ¬ ∃ e ∈ t, sel e = true ∧ ∃ x, val e = some x ∧ lo ≤ x ∧ x ≤ hi) rows
      (attrNumericDf caseOf val sel false lo hi rows) := by
  unfold attrNumericDf
  apply isin_keeps
  intro r hr
  simp only [List.mem_map, List.mem_filter, mem_caseRows]
  constructor
  · rintro ⟨e, ⟨⟨he, h⟩, hs⟩, hc⟩
    cases ha : val e with
    | none => simp [ha] at h
    | some v => simp only [ha, decide_eq_true_eq] at h; exact ⟨e, ⟨he, hc⟩, hs, v, ha, h⟩
  · rintro ⟨e, ⟨he, hc⟩, hs, v, ha, h1, h2⟩
    exact ⟨e, ⟨⟨he, by simp [ha, h1, h2]⟩, hs⟩, hc⟩

/-- **C42, refuted.** So the negative filters do not agree: a case with values 1 and 5 is kept by the negative event log
filter for the interval [0, 2], and dropped by the negative dataframe filter. -/
theorem _root_.Verif.C42_numeric_negative_refuted :
    ¬ ∀ (rows : List (Nat × Int)) (lo hi : Int),
      KeepsCases Prod.fst (fun t => ∃ e ∈ t, true = true ∧ ∃ x, some e.2 = some x ∧ (x < lo ∨ hi < x)) rows
        (attrNumericDf Prod.fst (fun e => some e.2) (fun _ => true) false lo hi rows) := by
  intro h
  obtain ⟨d, hd⟩ := h [(1, 1), (1, 5)] 0 2
  have h1 : attrNumericDf Prod.fst (fun e : Nat × Int => some e.2) (fun _ => true) false 0 2 [(1, 1), (1, 5)] = [] := by
    decide
  rw [h1, List.filter_cons_of_pos] at hd
  · cases hd
  · rw [decide_eq_true_eq]
    exact ⟨(1, 5), by simp, rfl, 5, rfl, by omega⟩

theorem cumcount_snoc (caseOf : ε → κ) (l : List ε) (r : ε) : cumcount caseOf (l ++ [r]) =
    cumcount caseOf l ++ [(r, ((cumcount caseOf l).filter fun x => decide (caseOf x.1 = caseOf r)).length)] := by
  unfold cumcount
  rw [List.foldl_append]; rfl

theorem cumcount_fst (caseOf : ε → κ) (rows : List ε) : (cumcount caseOf rows).map Prod.fst = rows := by
  induction rows using snocInduct with
  | nil => rfl
  | snoc l r ih => rw [cumcount_snoc]; simp [ih]

/-- The rows of a case with their `cumcount`: their positions in the trace. -/
theorem cumcount_case (caseOf : ε → κ) (rows : List ε) (c : κ) :
    ((cumcount caseOf rows).filter fun x => decide (caseOf x.1 = c)) = (caseRows caseOf rows c).zipIdx := by
  induction rows using snocInduct with
  | nil => rfl
  | snoc l r ih =>
    rw [cumcount_snoc, List.filter_append, ih, caseRows_snoc, List.zipIdx_append]
    by_cases h : caseOf r = c
    · subst h
      simp [ih]
    · simp [h]

/-- **C42.** The rework filter agrees. -/
theorem _root_.Verif.C42_rework (caseOf : ε → κ) (act : ε → α) (v : α) (lo : Int) (rows : List ε) :
    KeepsCases caseOf (fun t => 1 ≤ (t.map act).count v ∧ lo ≤ ((t.map act).count v : Int)) rows
      (reworkDf caseOf act true v lo rows) ∧
    KeepsCases caseOf (fun t => ¬ (1 ≤ (t.map act).count v ∧ lo ≤ ((t.map act).count v : Int))) rows
      (reworkDf caseOf act false v lo rows) := by
  unfold reworkDf
  apply isin_keeps
  intro r hr
  have hcount : ((caseRows caseOf rows (caseOf r)).map act).count v =
      (caseRows caseOf (rows.filter fun r => decide (act r = v)) (caseOf r)).length := by
    rw [List.count_eq_countP, List.countP_map, List.countP_eq_length_filter]
    unfold caseRows
    rw [List.filter_filter, List.filter_filter]
    congr 1
    apply List.filter_congr
    intro x _
    by_cases h : act x = v <;> simp [h]
  have hex : caseOf r ∈ ((cumcount caseOf (rows.filter fun r => decide (act r = v))).filter
      fun x => decide ((x.2 : Int) ≥ lo - 1)).map (fun x => caseOf x.1) ↔
      ∃ x ∈ (caseRows caseOf (rows.filter fun r => decide (act r = v)) (caseOf r)).zipIdx, (x.2 : Int) ≥ lo - 1 := by
    rw [← cumcount_case, List.mem_map]
    constructor
    · rintro ⟨x, hx, hc⟩
      rw [List.mem_filter, decide_eq_true_eq] at hx
      exact ⟨x, List.mem_filter.2 ⟨hx.1, by simpa using hc⟩, hx.2⟩
    · rintro ⟨x, hx, h⟩
      rw [List.mem_filter, decide_eq_true_eq] at hx
      exact ⟨x, List.mem_filter.2 ⟨hx.1, by simpa using h⟩, hx.2⟩
  rw [hex, hcount]
  generalize caseRows caseOf (rows.filter fun r => decide (act r = v)) (caseOf r) = t
  constructor
  · rintro ⟨⟨e, i⟩, hx, h⟩
    rw [List.mk_mem_zipIdx_iff_getElem?] at hx
    have := (List.getElem?_eq_some_iff.1 hx).1
    simp only at h
    omega
  · rintro ⟨h1, h2⟩
    refine ⟨(t[t.length - 1], t.length - 1), ?_, ?_⟩
    · rw [List.mk_mem_zipIdx_iff_getElem?, List.getElem?_eq_getElem]
    · simp only; omega

theorem mem_repetitionDf {caseOf : ε → κ} {act : ε → Option α} {v : α} {lo : Int} {hi : Option Int} {rows : List ε}
    {r : ε} : r ∈ repetitionDf caseOf act v lo hi rows ↔ r ∈ rows ∧
      1 ≤ ((caseRows caseOf rows (caseOf r)).map act).count (some v) ∧
      lo ≤ (((caseRows caseOf rows (caseOf r)).map act).count (some v) : Int) ∧
      upTo hi (((caseRows caseOf rows (caseOf r)).map act).count (some v) : Int) = true := by
  have hcount : ∀ c, ((caseRows caseOf rows c).map act).count (some v) =
      (caseRows caseOf (rows.filter fun r => decide (act r = some v)) c).length := by
    intro c
    rw [List.count_eq_countP, List.countP_map, List.countP_eq_length_filter]
    unfold caseRows
    rw [List.filter_filter, List.filter_filter]
    congr 1
    apply List.filter_congr
    intro x _
    by_cases h : act x = some v <;> simp [h]
  unfold repetitionDf
  simp only [List.mem_filter, decide_eq_true_eq, List.mem_map]
  rw [hcount]
  constructor
  · rintro ⟨hr, g, ⟨⟨⟨s, ⟨hs, ha⟩, rfl⟩, h1⟩, h2⟩, hc⟩
    simp only at hc h1 h2
    rw [hc] at h1 h2
    refine ⟨hr, ?_, h1, h2⟩
    exact List.length_pos_of_mem (a := s) (mem_caseRows.2 ⟨List.mem_filter.2 ⟨hs, by simpa using ha⟩, hc⟩)
  · rintro ⟨hr, h0, h1, h2⟩
    obtain ⟨s, hs⟩ := List.exists_mem_of_length_pos h0
    obtain ⟨hs, hc⟩ := mem_caseRows.1 hs
    rw [List.mem_filter, decide_eq_true_eq] at hs
    refine ⟨hr, (caseOf r, _), ⟨⟨⟨s, hs, by rw [hc]⟩, h1⟩, h2⟩, rfl⟩

/-- **C42.** The repetition filter agrees for a positive lower bound. -/
theorem _root_.Verif.C42_repetition (caseOf : ε → κ) (act : ε → Option α) (v : α) (lo hi : Int) (rows : List ε)
    (hlo : 1 ≤ lo) :
    KeepsCases caseOf (fun t => lo ≤ ((t.map act).count (some v) : Int) ∧ ((t.map act).count (some v) : Int) ≤ hi) rows
      (repetitionDf caseOf act v lo (some hi) rows) ∧
    KeepsCases caseOf (fun t => lo ≤ ((t.map act).count (some v) : Int)) rows
      (repetitionDf caseOf act v lo none rows) := by
  constructor
  · refine keepsCases_of_mem ⟨_, rfl⟩ fun r hr => ?_
    rw [mem_repetitionDf]
    simp only [upTo, decide_eq_true_eq]
    constructor
    · exact fun h => h.2.2
    · intro h; exact ⟨hr, by omega, h.1, h.2⟩
  · refine keepsCases_of_mem ⟨_, rfl⟩ fun r hr => ?_
    rw [mem_repetitionDf]
    simp only [upTo]
    constructor
    · exact fun h => h.2.2.1
    · intro h; exact ⟨hr, by omega, h, trivial⟩

/-- **C42, refuted.** With the lower bound 0 ("at most twice") it does not: the event log filter keeps the cases without the
value, the dataframe filter drops them. -/
theorem _root_.Verif.C42_repetition_zero_refuted :
    ¬ ∀ (rows : List (Nat × String)) (v : String) (hi : Int),
      KeepsCases Prod.fst (fun t => (0 : Int) ≤ ((t.map fun e => some e.2).count (some v) : Int) ∧
        ((t.map fun e => some e.2).count (some v) : Int) ≤ hi) rows
        (repetitionDf Prod.fst (fun e => some e.2) v 0 (some hi) rows) := by
  intro h
  obtain ⟨d, hd⟩ := h [(1, "A")] "B" 2
  have h1 : repetitionDf Prod.fst (fun e : Nat × String => some e.2) "B" 0 (some 2) [(1, "A")] = [] := by decide
  rw [h1, List.filter_cons_of_pos] at hd
  · cases hd
  · rw [decide_eq_true_eq]
    refine ⟨by omega, ?_⟩
    decide

/-- **C42.** The case size filter agrees. -/
theorem _root_.Verif.C42_case_size (caseOf : ε → κ) (lo hi : Nat) (rows : List ε) :
    KeepsCases caseOf (fun t => lo ≤ t.length ∧ t.length ≤ hi) rows (caseSizeDf caseOf lo (some hi) rows) ∧
    KeepsCases caseOf (fun t => lo ≤ t.length) rows (caseSizeDf caseOf lo none rows) := by
  constructor
  · refine keepsCases_of_mem ⟨_, List.filter_filter⟩ fun r hr => ?_
    unfold caseSizeDf
    simp [List.mem_filter, hr, and_comm]
  · refine keepsCases_of_mem ⟨_, rfl⟩ fun r hr => ?_
    unfold caseSizeDf
    simp [List.mem_filter, hr]

theorem mem_firstLast {caseOf : ε → κ} {time : ε → Int} {rows : List ε} {x : κ × Int × Int} :
    x ∈ firstLast caseOf time rows ↔ ∃ e f, (caseRows caseOf rows x.1).head? = some e ∧
      (caseRows caseOf rows x.1).getLast? = some f ∧ x.2 = (time e, time f) := by
  unfold firstLast
  rw [List.mem_filterMap]
  constructor
  · rintro ⟨r, hr, h⟩
    cases h1 : (caseRows caseOf rows (caseOf r)).head? with
    | none => simp [h1] at h
    | some e =>
      cases h2 : (caseRows caseOf rows (caseOf r)).getLast? with
      | none => simp [h1, h2] at h
      | some f =>
        simp only [h1, h2, Option.some.injEq] at h
        subst h
        exact ⟨e, f, h1, h2, rfl⟩
  · rintro ⟨e, f, h1, h2, h3⟩
    obtain ⟨he, hc⟩ := mem_caseRows.1 (List.mem_of_mem_head? (by simp [h1] : e ∈ (caseRows caseOf rows x.1).head?))
    refine ⟨e, he, ?_⟩
    rw [hc]
    simp only [h1, h2]
    rw [← h3]

theorem stacked_iff {caseOf : ε → κ} {time : ε → Int} {rows : List ε} {p : κ × Int × Int → Bool} {c : κ} :
    c ∈ ((firstLast caseOf time rows).filter p).map Prod.fst ↔ ∃ e f, (caseRows caseOf rows c).head? = some e ∧
      (caseRows caseOf rows c).getLast? = some f ∧ p (c, time e, time f) = true := by
  rw [List.mem_map]
  constructor
  · rintro ⟨x, hx, rfl⟩
    rw [List.mem_filter, mem_firstLast] at hx
    obtain ⟨⟨e, f, h1, h2, h3⟩, h4⟩ := hx
    refine ⟨e, f, h1, h2, ?_⟩
    rw [← h3]; exact h4
  · rintro ⟨e, f, h1, h2, h3⟩
    exact ⟨(c, time e, time f), List.mem_filter.2 ⟨mem_firstLast.2 ⟨e, f, h1, h2, rfl⟩, h3⟩, rfl⟩

/-- **C42.** The case performance filter agrees. -/
theorem _root_.Verif.C42_case_performance (caseOf : ε → κ) (time : ε → Int) (lo hi : Int) (rows : List ε) :
    KeepsCases caseOf (fun t => ∃ e f, t.head? = some e ∧ t.getLast? = some f ∧ lo ≤ time f - time e ∧
      time f - time e ≤ hi) rows (casePerformanceDf caseOf time lo hi rows) := by
  refine (isin_keeps fun r hr => ?_).1
  rw [List.filter_filter, stacked_iff]
  constructor
  · rintro ⟨e, f, h1, h2, h3⟩
    simp only [Bool.and_eq_true, decide_eq_true_eq] at h3
    exact ⟨e, f, h1, h2, h3.1, h3.2⟩
  · rintro ⟨e, f, h1, h2, h3, h4⟩
    exact ⟨e, f, h1, h2, by simp only [Bool.and_eq_true, decide_eq_true_eq]; exact ⟨h3, h4⟩⟩

/-- **C42.** The contained filter agrees, on cases sorted by time. -/
theorem _root_.Verif.C42_contained (caseOf : ε → κ) (time : ε → Int) (dt1 dt2 : Int) (rows : List ε)
    (hs : ∀ c, TimeSorted time (caseRows caseOf rows c)) :
    KeepsCases caseOf (fun t => t ≠ [] ∧ ∀ e ∈ t, dt1 ≤ time e ∧ time e ≤ dt2) rows
      (containedDf caseOf time dt1 dt2 rows) := by
  refine (isin_keeps fun r hr => ?_).1
  rw [List.filter_filter, stacked_iff]
  constructor
  · rintro ⟨e, f, h1, h2, h3⟩
    simp only [Bool.and_eq_true, decide_eq_true_eq] at h3
    refine ⟨caseRows_ne_nil hr, fun x hx => ?_⟩
    have := head_le_last (hs _) h1 h2 x hx
    omega
  · rintro ⟨hne, h⟩
    obtain ⟨e, h1⟩ := Option.ne_none_iff_exists'.1 (fun h => hne (List.head?_eq_none_iff.1 h))
    obtain ⟨f, h2⟩ := Option.ne_none_iff_exists'.1 (fun h => hne (List.getLast?_eq_none_iff.1 h))
    refine ⟨e, f, h1, h2, ?_⟩
    simp only [Bool.and_eq_true, decide_eq_true_eq]
    exact ⟨(h f (List.mem_of_getLast? h2)).2, (h e (List.mem_of_mem_head? (by simp [h1]))).1⟩

theorem intersecting_iff {caseOf : ε → κ} {time : ε → Int} {dt1 dt2 : Int} {rows : List ε} {r : ε} :
    r ∈ intersectingDf caseOf time dt1 dt2 rows ↔ r ∈ rows ∧
      ∃ e f, (caseRows caseOf rows (caseOf r)).head? = some e ∧ (caseRows caseOf rows (caseOf r)).getLast? = some f ∧
        ((dt1 < time e ∧ time e < dt2) ∨ (dt1 < time f ∧ time f < dt2) ∨ (time e < dt1 ∧ dt2 < time f)) := by
  unfold intersectingDf isinCases
  simp only [if_true]
  rw [List.mem_filter, decide_eq_true_eq, List.map_append, List.map_append, List.mem_append, List.mem_append,
    List.filter_filter, List.filter_filter, List.filter_filter, stacked_iff, stacked_iff, stacked_iff]
  simp only [Bool.and_eq_true, decide_eq_true_eq]
  constructor
  · rintro ⟨hr, (⟨e, f, h1, h2, h3⟩ | ⟨e, f, h1, h2, h3⟩) | ⟨e, f, h1, h2, h3⟩⟩
    · exact ⟨hr, e, f, h1, h2, Or.inl ⟨by omega, by omega⟩⟩
    · exact ⟨hr, e, f, h1, h2, Or.inr (Or.inl ⟨by omega, by omega⟩)⟩
    · exact ⟨hr, e, f, h1, h2, Or.inr (Or.inr ⟨by omega, by omega⟩)⟩
  · rintro ⟨hr, e, f, h1, h2, h3 | h3 | h3⟩
    · exact ⟨hr, Or.inl (Or.inl ⟨e, f, h1, h2, by omega, by omega⟩)⟩
    · exact ⟨hr, Or.inl (Or.inr ⟨e, f, h1, h2, by omega, by omega⟩)⟩
    · exact ⟨hr, Or.inr ⟨e, f, h1, h2, by omega, by omega⟩⟩

/-- **C42.** On cases sorted by time, the dataframe filter keeps only cases that the event log filter for intersecting
traces keeps, and all of them when no case starts or ends exactly at a bound of the interval. -/
theorem _root_.Verif.C42_intersecting (caseOf : ε → κ) (time : ε → Int) (dt1 dt2 : Int) (rows : List ε)
    (hd : dt1 ≤ dt2) (hs : ∀ c, TimeSorted time (caseRows caseOf rows c)) :
    (∀ r ∈ intersectingDf caseOf time dt1 dt2 rows, r ∈ rows ∧ ∃ m : Int, dt1 ≤ m ∧ m ≤ dt2 ∧
      ∃ e ∈ caseRows caseOf rows (caseOf r), ∃ f ∈ caseRows caseOf rows (caseOf r), time e ≤ m ∧ m ≤ time f) ∧
    ((∀ e ∈ rows, time e ≠ dt1 ∧ time e ≠ dt2) →
      KeepsCases caseOf (fun t => ∃ m : Int, dt1 ≤ m ∧ m ≤ dt2 ∧ ∃ e ∈ t, ∃ f ∈ t, time e ≤ m ∧ m ≤ time f) rows
        (intersectingDf caseOf time dt1 dt2 rows)) := by
  have sound : ∀ r ∈ intersectingDf caseOf time dt1 dt2 rows, r ∈ rows ∧ ∃ m : Int, dt1 ≤ m ∧ m ≤ dt2 ∧
      ∃ e ∈ caseRows caseOf rows (caseOf r), ∃ f ∈ caseRows caseOf rows (caseOf r), time e ≤ m ∧ m ≤ time f := by
    intro r hr
    obtain ⟨hr, e, f, h1, h2, h3⟩ := intersecting_iff.1 hr
    have he : e ∈ caseRows caseOf rows (caseOf r) := List.mem_of_mem_head? (by simp [h1])
    have hf := List.mem_of_getLast? h2
    have hef := (head_le_last (hs _) h1 h2 f hf).1
    refine ⟨hr, ?_⟩
    rcases h3 with h3 | h3 | h3
    · exact ⟨time e, by omega, by omega, e, he, f, hf, by omega, by omega⟩
    · exact ⟨time f, by omega, by omega, e, he, f, hf, by omega, by omega⟩
    · exact ⟨dt1, by omega, by omega, e, he, f, hf, by omega, by omega⟩
  refine ⟨sound, fun hb => keepsCases_of_mem ⟨_, rfl⟩ fun r hr => ⟨fun h => (sound r h).2, ?_⟩⟩
  rintro ⟨m, hm1, hm2, x, hx, y, hy, hxm, hym⟩
  have hne := caseRows_ne_nil (caseOf := caseOf) hr
  obtain ⟨e, h1⟩ := Option.ne_none_iff_exists'.1 (fun h => hne (List.head?_eq_none_iff.1 h))
  obtain ⟨f, h2⟩ := Option.ne_none_iff_exists'.1 (fun h => hne (List.getLast?_eq_none_iff.1 h))
  have hx' := head_le_last (hs _) h1 h2 x hx
  have hy' := head_le_last (hs _) h1 h2 y hy
  have be := hb e (mem_caseRows.1 (List.mem_of_mem_head? (by simp [h1] : e ∈ (caseRows caseOf rows (caseOf r)).head?))).1
  have bf := hb f (mem_caseRows.1 (List.mem_of_getLast? h2)).1
  exact intersecting_iff.2 ⟨hr, e, f, h1, h2, by omega⟩

/-- **C42, refuted.** A case that lasts exactly as long as the interval intersects it, the event log filter keeps it, and
the dataframe filter drops it. -/
theorem _root_.Verif.C42_intersecting_bounds_refuted :
    ¬ ∀ (rows : List (Nat × Int)) (dt1 dt2 : Int), dt1 ≤ dt2 → (∀ c, TimeSorted Prod.snd (caseRows Prod.fst rows c)) →
      KeepsCases Prod.fst (fun t => ∃ m : Int, dt1 ≤ m ∧ m ≤ dt2 ∧ ∃ e ∈ t, ∃ f ∈ t, e.2 ≤ m ∧ m ≤ f.2) rows
        (intersectingDf Prod.fst Prod.snd dt1 dt2 rows) := by
  intro h
  obtain ⟨d, hd⟩ := h [(1, 10), (1, 20)] 10 20 (by omega) (by
    intro c
    by_cases hc : 1 = c
    · subst hc
      simp [caseRows, TimeSorted]
    · simp [caseRows, hc, TimeSorted])
  have h1 : intersectingDf Prod.fst Prod.snd 10 20 [((1 : Nat), (10 : Int)), (1, 20)] = [] := by decide
  rw [h1, List.filter_cons_of_pos] at hd
  · cases hd
  · rw [decide_eq_true_eq]
    exact ⟨15, by omega, by omega, (1, 10), by simp, (1, 20), by simp, by decide, by decide⟩

/-- **C42.** The attribute-in-timeframe filter agrees. -/
theorem _root_.Verif.C42_timeframe (caseOf : ε → κ) (act : ε → Option α) (time : ε → Int) (v : α) (dt1 dt2 : Int)
    (rows : List ε) :
    KeepsCases caseOf (fun t => ∃ e ∈ t, act e = some v ∧ dt1 ≤ time e ∧ time e ≤ dt2) rows
      (timeframeDf caseOf act time v dt1 dt2 rows) := by
  refine keepsCases_of_mem ⟨_, rfl⟩ fun r hr => ?_
  unfold timeframeDf
  simp only [List.mem_filter, List.mem_map, decide_eq_true_eq, mem_caseRows]
  constructor
  · rintro ⟨_, e, ⟨⟨⟨he, ha⟩, h1⟩, h2⟩, hc⟩
    exact ⟨e, ⟨he, hc⟩, ha, h1, h2⟩
  · rintro ⟨e, ⟨he, hc⟩, ha, h1, h2⟩
    exact ⟨hr, e, ⟨⟨⟨he, ha⟩, h1⟩, h2⟩, hc⟩

end Verif.TraceFilter
