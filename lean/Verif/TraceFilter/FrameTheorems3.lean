import Verif.TraceFilter.FrameTheorems2
/-
C42, continued: paths, prefixes and suffixes, the filter by initial activities, and the conversion to event logs.
-/
set_option linter.unusedSectionVars false
namespace Verif.TraceFilter
variable {ε α σ κ : Type} [DecidableEq α] [DecidableEq σ] [DecidableEq κ]

theorem mem_caseIds {caseOf : ε → κ} {rows : List ε} {c : κ} :
    c ∈ caseIds caseOf rows ↔ ∃ r ∈ rows, caseOf r = c := by
  unfold caseIds
  induction rows using snocInduct with
  | nil => simp
  | snoc l r ih =>
    rw [List.foldl_append]
    simp only [List.foldl_cons, List.foldl_nil]
    split
    · rename_i h
      rw [ih]
      constructor
      · rintro ⟨s, hs, h⟩; exact ⟨s, by simp [hs], h⟩
      · rintro ⟨s, hs, rfl⟩
        rcases List.mem_append.1 hs with hs | hs
        · exact ⟨s, hs, rfl⟩
        · simp at hs; subst hs; exact ih.1 h
    · rw [List.mem_append, ih]
      constructor
      · rintro (⟨s, hs, h⟩ | h)
        · exact ⟨s, by simp [hs], h⟩
        · simp at h; exact ⟨r, by simp, h.symm⟩
      · rintro ⟨s, hs, rfl⟩
        rcases List.mem_append.1 hs with hs | hs
        · exact Or.inl ⟨s, hs, rfl⟩
        · simp at hs; subst hs; right; simp

theorem caseIds_filter (caseOf : ε → κ) (g : κ → Bool) (rows : List ε) :
    caseIds caseOf (rows.filter fun r => g (caseOf r)) = (caseIds caseOf rows).filter g := by
  induction rows using snocInduct with
  | nil => rfl
  | snoc l r ih =>
    have hs : caseIds caseOf (l ++ [r]) =
        if caseOf r ∈ caseIds caseOf l then caseIds caseOf l else caseIds caseOf l ++ [caseOf r] := by
      unfold caseIds; rw [List.foldl_append]; rfl
    rw [List.filter_append, hs]
    cases hg : g (caseOf r) with
    | false =>
      simp only [List.filter_cons, hg, List.filter_nil, List.append_nil, Bool.false_eq_true, if_false]
      rw [ih]
      split
      · rfl
      · simp [hg]
    | true =>
      simp only [List.filter_cons, hg, List.filter_nil, if_true]
      have hs' : caseIds caseOf ((l.filter fun r => g (caseOf r)) ++ [r]) =
          if caseOf r ∈ caseIds caseOf (l.filter fun r => g (caseOf r)) then caseIds caseOf (l.filter fun r => g (caseOf r))
          else caseIds caseOf (l.filter fun r => g (caseOf r)) ++ [caseOf r] := by
        unfold caseIds; rw [List.foldl_append]; rfl
      rw [hs', ih]
      by_cases h : caseOf r ∈ caseIds caseOf l
      · rw [if_pos h, if_pos (List.mem_filter.2 ⟨h, hg⟩)]
      · rw [if_neg h, if_neg (fun h' => h (List.mem_filter.1 h').1)]
        simp [hg]

/-- **C42.** A dataframe filter that keeps exactly the cases satisfying `P` commutes with the conversion to an event log:
converting its result gives exactly the traces satisfying `P` of the converted dataframe, in the same order.  (So every
`C42` theorem of the form `KeepsCases` says that the dataframe filter and the event log filter agree.) -/
theorem _root_.Verif.C42_to_log {caseOf : ε → κ} {P : List ε → Prop} {rows out : List ε}
    (h : KeepsCases caseOf P rows out) : Keeps P (toLog caseOf rows) (toLog caseOf out) := by
  obtain ⟨d, rfl⟩ := h
  let g : κ → Bool := fun c => @decide (P (caseRows caseOf rows c)) (Classical.propDecidable _)
  have hout : (rows.filter fun r => @decide (P (rows.filter fun s => decide (caseOf s = caseOf r))) (d r)) =
      rows.filter fun r => g (caseOf r) := by
    apply List.filter_congr
    intro r _
    rw [Bool.eq_iff_iff]
    simp only [g, decide_eq_true_eq]
    exact Iff.rfl
  rw [hout]
  unfold toLog
  rw [caseIds_filter]
  have h1 : ((caseIds caseOf rows).filter g).map (caseRows caseOf (rows.filter fun r => g (caseOf r))) =
      ((caseIds caseOf rows).filter g).map (caseRows caseOf rows) := by
    apply List.map_congr_left
    intro c hc
    have := (List.mem_filter.1 hc).2
    unfold caseRows
    rw [List.filter_filter]
    apply List.filter_congr
    intro x _
    by_cases hx : caseOf x = c
    · simp [hx, this]
    · simp [hx]
  rw [h1]
  have h2 : ((caseIds caseOf rows).map (caseRows caseOf rows)).filter
      (fun t => @decide (P t) (Classical.propDecidable _)) = ((caseIds caseOf rows).filter g).map (caseRows caseOf rows) := by
    rw [List.filter_map]; rfl
  rw [← h2]
  exact keeps_of fun t _ => by simp

theorem mem_shifted {e f : ε} {l : List ε} : (e, f) ∈ shifted l ↔ [e, f] <:+: l := by
  induction l with
  | nil => simp [shifted]
  | cons x l ih =>
    cases l with
    | nil =>
      simp only [shifted, List.not_mem_nil, false_iff]
      intro h; have := h.length_le; simp at this
    | cons y l =>
      rw [infix2_cons, ← ih]
      simp [shifted]

/-- The order used by `sort_values([case_id, timestamp])`. -/
def RowLe (le : κ → κ → Bool) (caseOf : ε → κ) (time : ε → Int) (r s : ε) : Prop :=
  (caseOf r = caseOf s ∧ time r ≤ time s) ∨ (caseOf r ≠ caseOf s ∧ le (caseOf r) (caseOf s) = true)

theorem insertRow_perm (le : κ → κ → Bool) (caseOf : ε → κ) (time : ε → Int) (r : ε) (l : List ε) :
    (insertRow le caseOf time r l).Perm (r :: l) := by
  induction l with
  | nil => exact List.Perm.refl _
  | cons s l ih =>
    unfold insertRow
    split
    · exact List.Perm.refl _
    · exact (ih.cons s).trans (List.Perm.swap r s l)

theorem sortRows_perm (le : κ → κ → Bool) (caseOf : ε → κ) (time : ε → Int) (rows : List ε) :
    (sortRows le caseOf time rows).Perm rows := by
  induction rows with
  | nil => exact List.Perm.refl _
  | cons r l ih => exact (insertRow_perm ..).trans (ih.cons r)

theorem sortRows_sorted (le : κ → κ → Bool) (caseOf : ε → κ) (time : ε → Int) (rows : List ε)
    (htot : ∀ a b, le a b = true ∨ le b a = true) (htr : ∀ a b c, le a b = true → le b c = true → le a c = true)
    (has : ∀ a b, le a b = true → le b a = true → a = b) :
    (sortRows le caseOf time rows).Pairwise (RowLe le caseOf time) := by
  have trans : ∀ r s t : ε, RowLe le caseOf time r s → RowLe le caseOf time s t → RowLe le caseOf time r t := by
    rintro r s t (⟨h1, h2⟩ | ⟨h1, h2⟩) (⟨h3, h4⟩ | ⟨h3, h4⟩)
    · exact Or.inl ⟨h1.trans h3, by omega⟩
    · exact Or.inr ⟨by rw [h1]; exact h3, by rw [h1]; exact h4⟩
    · exact Or.inr ⟨by rw [← h3]; exact h1, by rw [← h3]; exact h2⟩
    · refine Or.inr ⟨?_, htr _ _ _ h2 h4⟩
      intro h
      rw [h] at h2
      exact h3 (has _ _ h4 h2)
  have total : ∀ r s : ε, ¬ RowLe le caseOf time r s → RowLe le caseOf time s r := by
    intro r s h
    unfold RowLe at *
    by_cases hc : caseOf r = caseOf s
    · left; refine ⟨hc.symm, ?_⟩
      have : ¬ time r ≤ time s := fun h' => h (Or.inl ⟨hc, h'⟩)
      omega
    · right; refine ⟨fun h' => hc h'.symm, ?_⟩
      rcases htot (caseOf r) (caseOf s) with h' | h'
      · exact absurd (Or.inr ⟨hc, h'⟩) h
      · exact h'
  induction rows with
  | nil => exact List.Pairwise.nil
  | cons r l ih =>
    show (insertRow le caseOf time r (sortRows le caseOf time l)).Pairwise _
    generalize sortRows le caseOf time l = L at ih
    induction L with
    | nil => exact List.pairwise_singleton _ _
    | cons s L ihL =>
      unfold insertRow
      rw [List.pairwise_cons] at ih
      split
      · rename_i h
        refine List.pairwise_cons.2 ⟨?_, List.pairwise_cons.2 ih⟩
        intro x hx
        rcases List.mem_cons.1 hx with rfl | hx
        · exact h
        · exact trans _ _ _ h (ih.1 x hx)
      · rename_i h
        refine List.pairwise_cons.2 ⟨?_, ihL ih.2⟩
        intro x hx
        rcases List.mem_cons.1 ((insertRow_perm ..).mem_iff.1 hx) with rfl | hx
        · exact total _ _ h
        · exact ih.1 x hx

theorem sortRows_contiguous (le : κ → κ → Bool) (caseOf : ε → κ) (time : ε → Int) (rows : List ε)
    (htot : ∀ a b, le a b = true ∨ le b a = true) (htr : ∀ a b c, le a b = true → le b c = true → le a c = true)
    (has : ∀ a b, le a b = true → le b a = true → a = b) : Contiguous caseOf (sortRows le caseOf time rows) := by
  intro x m y hi hxy z hz
  have hp := (sortRows_sorted le caseOf time rows htot htr has).sublist hi.sublist
  rw [List.pairwise_append] at hp
  have h1 := List.rel_of_pairwise_cons hp.1 hz
  have h2 := hp.2.2 z (by simp [hz]) y (by simp)
  rcases h1 with h1 | h1
  · exact h1.1.symm
  · rcases h2 with h2 | h2
    · rw [h2.1, hxy]
    · rw [hxy] at h1
      exact absurd (has _ _ h1.2 h2.2) h1.1

/-- Sorting keeps the order of the rows of a case when their timestamps do not decrease. -/
theorem sortRows_case (le : κ → κ → Bool) (caseOf : ε → κ) (time : ε → Int) (rows : List ε) (c : κ)
    (hs : ∀ c, TimeSorted time (caseRows caseOf rows c)) :
    caseRows caseOf (sortRows le caseOf time rows) c = caseRows caseOf rows c := by
  induction rows with
  | nil => rfl
  | cons r l ih =>
    have hs' : ∀ c, TimeSorted time (caseRows caseOf l c) := by
      intro c
      have := hs c
      unfold caseRows at this
      rw [List.filter_cons] at this
      split at this
      · exact (List.pairwise_cons.1 this).2
      · exact this
    have ih := ih hs'
    show caseRows caseOf (insertRow le caseOf time r (sortRows le caseOf time l)) c = _
    have key : ∀ L : List ε, (∀ s ∈ L, caseOf s = caseOf r → time r ≤ time s) →
        caseRows caseOf (insertRow le caseOf time r L) c = caseRows caseOf (r :: L) c := by
      intro L
      induction L with
      | nil => intro _; rfl
      | cons s L ihL =>
        intro hL
        unfold insertRow
        split
        · rfl
        · rename_i hn
          have hne : caseOf s ≠ caseOf r := by
            intro h
            exact hn (Or.inl ⟨h.symm, hL s (by simp) h⟩)
          have ihL := ihL fun x hx => hL x (by simp [hx])
          unfold caseRows at ihL ⊢
          rw [List.filter_cons, ihL]
          by_cases hsc : caseOf s = c
          · have hrc : caseOf r ≠ c := fun h => hne (hsc.trans h.symm)
            simp [hsc, hrc]
          · by_cases hrc : caseOf r = c <;> simp [hsc, hrc]
    rw [key]
    · have : ∀ L, caseRows caseOf (r :: L) c = (if caseOf r = c then [r] else []) ++ caseRows caseOf L c := by
        intro L; unfold caseRows; by_cases h : caseOf r = c <;> simp [h]
      rw [this, this, ih]
    · intro s hs1 hc
      have hsl := (sortRows_perm ..).mem_iff.1 hs1
      have := hs (caseOf r)
      have e : caseRows caseOf (r :: l) (caseOf r) = r :: caseRows caseOf l (caseOf r) := by simp [caseRows]
      rw [e] at this
      exact List.rel_of_pairwise_cons this (mem_caseRows.2 ⟨hsl, hc⟩)

theorem adjacent_same_case (caseOf : ε → κ) (rows : List ε) (hc : Contiguous caseOf rows) (c : κ) (e f : ε) :
    DirectlyFollows (caseRows caseOf rows c) e f ↔ [e, f] <:+: rows ∧ caseOf e = c ∧ caseOf f = c := by
  unfold DirectlyFollows
  constructor
  · intro h
    refine ⟨h.trans (infix_block caseOf rows hc c), ?_, ?_⟩
    · exact (mem_caseRows.1 (h.subset (by simp))).2
    · exact (mem_caseRows.1 (h.subset (by simp))).2
  · rintro ⟨h, h1, h2⟩
    have := h.filter (fun r => decide (caseOf r = c))
    simpa [h1, h2, caseRows] using this

/-- **C42.** The paths filter on dataframes agrees with the event log filter, if different pairs of activities are joined to
different strings: on the rows sorted by case and time, it keeps exactly the cases in which some pair of the list occurs at
consecutive rows.  When the timestamps of a case do not decrease, its trace is the one of the given dataframe. -/
theorem _root_.Verif.C42_paths {π : Type} [DecidableEq π] (le : κ → κ → Bool) (caseOf : ε → κ) (act : ε → α)
    (time : ε → Int) (join : α → α → π) (paths : List (α × α)) (rows : List ε)
    (htot : ∀ a b, le a b = true ∨ le b a = true) (htr : ∀ a b c, le a b = true → le b c = true → le a c = true)
    (has : ∀ a b, le a b = true → le b a = true → a = b)
    (hj : ∀ a b c d, join a b = join c d → a = c ∧ b = d) :
    (sortRows le caseOf time rows).Perm rows ∧
    ((∀ c, TimeSorted time (caseRows caseOf rows c)) →
      ∀ c, caseRows caseOf (sortRows le caseOf time rows) c = caseRows caseOf rows c) ∧
    KeepsCases caseOf (fun t => ∃ e f, DirectlyFollows t e f ∧ (act e, act f) ∈ paths) (sortRows le caseOf time rows)
      (pathsDf le caseOf act time join true paths rows) ∧
    KeepsCases caseOf (fun t => ¬ ∃ e f, DirectlyFollows t e f ∧ (act e, act f) ∈ paths) (sortRows le caseOf time rows)
      (pathsDf le caseOf act time join false paths rows) := by
  refine ⟨sortRows_perm .., fun hs c => sortRows_case le caseOf time rows c hs, ?_⟩
  have hc := sortRows_contiguous le caseOf time rows htot htr has
  unfold pathsDf
  apply isin_keeps
  intro r hr
  simp only [adjacent_same_case caseOf _ hc]
  rw [List.mem_map]
  constructor
  · rintro ⟨⟨e, f⟩, h, hcr⟩
    simp only [List.mem_filter, decide_eq_true_eq, List.mem_map] at h hcr
    obtain ⟨⟨h1, h2⟩, p, hp, hpj⟩ := h
    obtain ⟨ha, hb⟩ := hj _ _ _ _ hpj
    refine ⟨e, f, ⟨mem_shifted.1 h1, hcr, by rw [← h2, hcr]⟩, ?_⟩
    rw [← ha, ← hb]; exact hp
  · rintro ⟨e, f, ⟨h1, h2, h3⟩, hp⟩
    refine ⟨(e, f), ?_, h2⟩
    simp only [List.mem_filter, decide_eq_true_eq, List.mem_map]
    exact ⟨⟨mem_shifted.2 h1, h2.trans h3.symm⟩, (act e, act f), hp, rfl⟩

/-- The string that `df[activity] + "," + df[activity_2]` builds. -/
def commaJoin (a b : List Char) : List Char := a ++ ',' :: b

/-- **C42, refuted.** With a comma in an activity name it does not: asked for the path from "A" to "B,C", the filter keeps a
case in which only "A,B" is directly followed by "C". -/
theorem _root_.Verif.C42_paths_separator_refuted :
    ¬ ∀ (rows : List (Nat × List Char × Int)) (paths : List (List Char × List Char)),
      KeepsCases Prod.fst (fun t => ∃ e f, DirectlyFollows t e f ∧ (e.2.1, f.2.1) ∈ paths)
        (sortRows Nat.ble Prod.fst (fun r => r.2.2) rows)
        (pathsDf Nat.ble Prod.fst (fun r => r.2.1) (fun r => r.2.2) commaJoin true paths rows) := by
  intro h
  have h := h [(1, ['A', ',', 'B'], 0), (1, ['C'], 1)] [(['A'], ['B', ',', 'C'])]
  have h1 : pathsDf Nat.ble Prod.fst (fun r => r.2.1) (fun r => r.2.2) commaJoin true [(['A'], ['B', ',', 'C'])]
      [((1 : Nat), ['A', ',', 'B'], (0 : Int)), (1, ['C'], 1)] = [(1, ['A', ',', 'B'], 0), (1, ['C'], 1)] := by decide
  have h2 : sortRows Nat.ble Prod.fst (fun r => r.2.2) [((1 : Nat), ['A', ',', 'B'], (0 : Int)), (1, ['C'], 1)] =
    [(1, ['A', ',', 'B'], 0), (1, ['C'], 1)] := by decide
  rw [h1, h2] at h
  obtain ⟨d, hd⟩ := h
  have h3 := hd ▸ (show (1, ['A', ',', 'B'], 0) ∈ [((1 : Nat), ['A', ',', 'B'], (0 : Int)), (1, ['C'], 1)] by simp)
  rw [List.mem_filter, decide_eq_true_eq] at h3
  obtain ⟨_, e, f, hdf, hp⟩ := h3
  have he := hdf.subset (show e ∈ [e, f] by simp)
  simp at he hp
  rcases he with rfl | rfl <;> simp at hp

/-- **C42.** The path performance filter on dataframes keeps every case in which the path occurs at consecutive rows within
the bounds. -/
theorem _root_.Verif.C42_paths_performance_complete {π : Type} [DecidableEq π] (le : κ → κ → Bool) (caseOf : ε → κ)
    (act : ε → α) (time : ε → Int) (join : α → α → π) (a b : α) (lo hi : Int) (rows : List ε)
    (htot : ∀ a b, le a b = true ∨ le b a = true) (htr : ∀ a b c, le a b = true → le b c = true → le a c = true)
    (has : ∀ a b, le a b = true → le b a = true → a = b) :
    ∀ r ∈ rows, (∃ e f, DirectlyFollows (caseRows caseOf (sortRows le caseOf time rows) (caseOf r)) e f ∧ act e = a ∧
        act f = b ∧ lo ≤ time f - time e ∧ time f - time e ≤ hi) →
      r ∈ pathsPerformanceDf le caseOf act time join true (a, b) lo hi rows ∧
      r ∉ pathsPerformanceDf le caseOf act time join false (a, b) lo hi rows := by
  rintro r hr ⟨e, f, hdf, ha, hb, h1, h2⟩
  have hc := sortRows_contiguous le caseOf time rows htot htr has
  rw [adjacent_same_case caseOf _ hc] at hdf
  have key : caseOf r ∈ ((((shifted (sortRows le caseOf time rows)).filter
      fun x => decide (join (act x.1) (act x.2) = join a b)).filter fun x => decide (time x.2 - time x.1 ≥ lo)).filter
      fun x => decide (time x.2 - time x.1 ≤ hi)).map fun x => caseOf x.1 := by
    rw [List.mem_map]
    refine ⟨(e, f), ?_, hdf.2.1⟩
    simp only [List.mem_filter, decide_eq_true_eq]
    exact ⟨⟨⟨mem_shifted.2 hdf.1, by rw [ha, hb]⟩, h1⟩, h2⟩
  constructor
  · unfold pathsPerformanceDf isinCases
    simp only [if_true, List.mem_filter, decide_eq_true_eq]
    exact ⟨(sortRows_perm ..).mem_iff.2 hr, key⟩
  · unfold pathsPerformanceDf isinCases
    simp only [Bool.false_eq_true, if_false, List.mem_filter, Bool.not_eq_true', decide_eq_false_iff_not]
    exact fun h => h.2 key

/-- **C42.** It keeps no other case provided different pairs are joined to different strings and no row is followed by a
row of the next case with which it forms the path. -/
theorem _root_.Verif.C42_paths_performance {π : Type} [DecidableEq π] (le : κ → κ → Bool) (caseOf : ε → κ) (act : ε → α)
    (time : ε → Int) (join : α → α → π) (a b : α) (lo hi : Int) (rows : List ε)
    (htot : ∀ a b, le a b = true ∨ le b a = true) (htr : ∀ a b c, le a b = true → le b c = true → le a c = true)
    (has : ∀ a b, le a b = true → le b a = true → a = b)
    (hj : ∀ a b c d, join a b = join c d → a = c ∧ b = d)
    (hx : ∀ e f, [e, f] <:+: sortRows le caseOf time rows → act e = a → act f = b → caseOf e = caseOf f) :
    KeepsCases caseOf (fun t => ∃ e f, DirectlyFollows t e f ∧ act e = a ∧ act f = b ∧ lo ≤ time f - time e ∧
        time f - time e ≤ hi) (sortRows le caseOf time rows)
      (pathsPerformanceDf le caseOf act time join true (a, b) lo hi rows) ∧
    KeepsCases caseOf (fun t => ¬ ∃ e f, DirectlyFollows t e f ∧ act e = a ∧ act f = b ∧ lo ≤ time f - time e ∧
        time f - time e ≤ hi) (sortRows le caseOf time rows)
      (pathsPerformanceDf le caseOf act time join false (a, b) lo hi rows) := by
  have hc := sortRows_contiguous le caseOf time rows htot htr has
  unfold pathsPerformanceDf
  apply isin_keeps
  intro r hr
  simp only [adjacent_same_case caseOf _ hc]
  rw [List.mem_map]
  constructor
  · rintro ⟨⟨e, f⟩, h, hcr⟩
    simp only [List.mem_filter, decide_eq_true_eq] at h hcr
    obtain ⟨⟨⟨h1, h2⟩, h3⟩, h4⟩ := h
    obtain ⟨ha, hb⟩ := hj _ _ _ _ h2
    have := hx e f (mem_shifted.1 h1) ha hb
    exact ⟨e, f, ⟨mem_shifted.1 h1, hcr, by rw [← this, hcr]⟩, ha, hb, h3, h4⟩
  · rintro ⟨e, f, ⟨h1, h2, h3⟩, ha, hb, h4, h5⟩
    refine ⟨(e, f), ?_, h2⟩
    simp only [List.mem_filter, decide_eq_true_eq]
    exact ⟨⟨⟨mem_shifted.2 h1, by rw [ha, hb]⟩, h4⟩, h5⟩

/-- **C42, refuted.** In general it does: the last row of a case is compared with the first row of the next one.  Of two
cases ⟨A⟩ and ⟨B⟩ the filter for the path from A to B keeps the first. -/
theorem _root_.Verif.C42_paths_performance_sound_refuted :
    ¬ ∀ (rows : List (Nat × String × Int)) (a b : String) (lo hi : Int),
      KeepsCases Prod.fst (fun t => ∃ e f, DirectlyFollows t e f ∧ e.2.1 = a ∧ f.2.1 = b ∧ lo ≤ f.2.2 - e.2.2 ∧
        f.2.2 - e.2.2 ≤ hi) (sortRows Nat.ble Prod.fst (fun r => r.2.2) rows)
        (pathsPerformanceDf Nat.ble Prod.fst (fun r => r.2.1) (fun r => r.2.2) Prod.mk true (a, b) lo hi rows) := by
  intro h
  have h := h [(1, "A", 0), (2, "B", 5)] "A" "B" 0 10
  have h1 : pathsPerformanceDf Nat.ble Prod.fst (fun r => r.2.1) (fun r => r.2.2) Prod.mk true ("A", "B") 0 10
      [((1 : Nat), "A", (0 : Int)), (2, "B", 5)] = [(1, "A", 0)] := by decide
  have h2 : sortRows Nat.ble Prod.fst (fun r => r.2.2) [((1 : Nat), "A", (0 : Int)), (2, "B", 5)] =
    [(1, "A", 0), (2, "B", 5)] := by decide
  rw [h1, h2] at h
  obtain ⟨d, hd⟩ := h
  have h3 := hd ▸ (show (1, "A", 0) ∈ [((1 : Nat), "A", (0 : Int))] by simp)
  rw [List.mem_filter, decide_eq_true_eq] at h3
  obtain ⟨_, e, f, hdf, _⟩ := h3
  have := hdf.length_le
  simp at this

/-- **C42, refuted.** `filter_df_keeping_spno_activities`, which should keep the rows of the most frequent activities,
returns the dataframe unchanged: a row whose activity is not to be kept is still there. -/
theorem _root_.Verif.C42_spno_activities_refuted :
    (∀ (act : ε → α) (keep : List α) (rows : List ε), spnoActivitiesDf act keep rows = rows) ∧
    ¬ ∀ (keep : List String) (rows : List String), ∀ r ∈ spnoActivitiesDf id keep rows, r ∈ keep :=
  ⟨fun _ _ _ => rfl, fun h => by simpa using h ["A"] ["B"] "B" (by simp [spnoActivitiesDf])⟩

theorem intercalate_prefix (p q : List (List Char)) :
    List.intercalate [','] p <+: List.intercalate [','] (p ++ q) := by
  induction p with
  | nil => exact List.nil_prefix
  | cons a p ih =>
    cases p with
    | nil =>
      cases q with
      | nil => exact List.prefix_refl _
      | cons b q => simp [List.intercalate, List.intersperse]
    | cons b p =>
      have e : ∀ (r : List (List Char)), List.intercalate [','] (a :: b :: r) = a ++ [','] ++ List.intercalate [','] (b :: r) := by
        intro r; simp [List.intercalate, List.intersperse]
      rw [e, List.cons_append, List.cons_append, e]
      exact (List.prefix_append_right_inj _).2 ih

/-- **C42.** The `starts_with` filter keeps every case whose trace starts with one of the given sequences of activities. -/
theorem _root_.Verif.C42_starts_with_complete (caseOf : ε → κ) (act : ε → List Char) (pre : List (List (List Char)))
    (rows : List ε) : ∀ r ∈ rows, (∃ p ∈ pre, p <+: (caseRows caseOf rows (caseOf r)).map act) →
      r ∈ startsWithDf caseOf act true pre rows ∧ r ∉ startsWithDf caseOf act false pre rows := by
  rintro r hr ⟨p, hp, q, hq⟩
  have key : caseOf r ∈ ((rows.map caseOf).filter fun c => pre.any fun p =>
      (List.intercalate [','] p).isPrefixOf (List.intercalate [','] ((caseRows caseOf rows c).map act))) := by
    rw [List.mem_filter, List.any_eq_true]
    refine ⟨List.mem_map_of_mem hr, p, hp, ?_⟩
    rw [List.isPrefixOf_iff_prefix, ← hq]
    exact intercalate_prefix p q
  constructor
  · unfold startsWithDf isinCases
    simp only [if_true, List.mem_filter, decide_eq_true_eq]
    exact ⟨hr, List.mem_filter.1 key⟩
  · unfold startsWithDf isinCases
    simp only [Bool.false_eq_true, if_false]
    intro h
    have := (List.mem_filter.1 h).2
    simp only [Bool.not_eq_true', decide_eq_false_iff_not] at this
    exact this key

/-- **C42, refuted.** It keeps others: the comparison is on the joined strings, so that the cases starting with "AB" are
kept when those starting with "A" are asked for. -/
theorem _root_.Verif.C42_starts_with_sound_refuted :
    ¬ ∀ (rows : List (Nat × List Char)) (pre : List (List (List Char))),
      KeepsCases Prod.fst (fun t => ∃ p ∈ pre, p <+: t.map Prod.snd) rows
        (startsWithDf Prod.fst Prod.snd true pre rows) := by
  intro h
  obtain ⟨d, hd⟩ := h [(1, ['A', 'B'])] [[['A']]]
  have h1 : startsWithDf Prod.fst Prod.snd true [[['A']]] [((1 : Nat), ['A', 'B'])] = [(1, ['A', 'B'])] := by decide
  rw [h1] at hd
  have h3 := hd ▸ (show (1, ['A', 'B']) ∈ [((1 : Nat), ['A', 'B'])] by simp)
  rw [List.mem_filter, decide_eq_true_eq] at h3
  obtain ⟨_, p, hp, hq⟩ := h3
  simp at hp hq; subst hp
  revert hq; decide

theorem zipIdx_filter_lt (p k : Nat) (t : List ε) :
    ((t.zipIdx k).filter fun x => decide (x.2 < p)).map Prod.fst = t.take (p - k) := by
  induction t generalizing k with
  | nil => simp
  | cons e t ih =>
    rw [List.zipIdx_cons, List.filter_cons]
    by_cases h : k < p
    · have : p - k = (p - (k + 1)) + 1 := by omega
      simp only [h, decide_true, if_true, List.map_cons]
      rw [this, List.take_succ_cons, ih]
    · have : p - k = 0 := by omega
      simp only [h, decide_false, Bool.false_eq_true, if_false]
      rw [ih, this]
      have : p - (k + 1) = 0 := by omega
      simp [this]

theorem zipIdx_filter_ge (p k : Nat) (t : List ε) :
    ((t.zipIdx k).filter fun x => decide (x.2 ≥ p)).map Prod.fst = t.drop (p - k) := by
  induction t generalizing k with
  | nil => simp
  | cons e t ih =>
    rw [List.zipIdx_cons, List.filter_cons]
    by_cases h : k ≥ p
    · have : p - k = 0 := by omega
      simp only [h, decide_true, if_true, List.map_cons]
      rw [this, ih]
      have : p - (k + 1) = 0 := by omega
      simp [this]
    · have : p - k = (p - (k + 1)) + 1 := by omega
      simp only [h, decide_false, Bool.false_eq_true, if_false]
      rw [ih, this, List.drop_succ_cons]

theorem zipIdx_filter_snd (act : ε → Option α) (a : α) (t : List ε) (k : Nat) :
    ((t.zipIdx k).filter fun x => decide (act x.1 = some a)).map Prod.snd =
      (List.range' k t.length).filter fun i => decide ((t[i - k]?.bind act) = some a) := by
  induction t generalizing k with
  | nil => simp
  | cons e t ih =>
    rw [List.zipIdx_cons, List.filter_cons, List.length_cons, List.range'_succ, List.filter_cons]
    have h1 : ((List.range' (k + 1) t.length).filter fun i => decide (((e :: t)[i - k]?.bind act) = some a)) =
        (List.range' (k + 1) t.length).filter fun i => decide ((t[i - (k + 1)]?.bind act) = some a) := by
      apply List.filter_congr
      intro i hi
      have hk : k + 1 ≤ i := (List.mem_range'_1.1 hi).1
      have : i - k = (i - (k + 1)) + 1 := by omega
      rw [this, List.getElem?_cons_succ]
    rw [h1, ← ih]
    by_cases h : act e = some a <;> simp [h]

theorem pos_eq_cutIdx (caseOf : ε → κ) (act : ε → Option α) (first : Bool) (a : α) (rows : List ε) (c : κ) :
    ((if first then ((cumcount caseOf rows).filter fun x => decide (act x.1 = some a) && decide (caseOf x.1 = c)).head?
      else ((cumcount caseOf rows).filter fun x => decide (act x.1 = some a) && decide (caseOf x.1 = c)).getLast?).map
        Prod.snd) = cutIdx act first a (caseRows caseOf rows c) := by
  have h : ((cumcount caseOf rows).filter fun x => decide (act x.1 = some a) && decide (caseOf x.1 = c)) =
      (caseRows caseOf rows c).zipIdx.filter fun x => decide (act x.1 = some a) := by
    rw [← cumcount_case, List.filter_filter]
  have h2 := zipIdx_filter_snd act a (caseRows caseOf rows c) 0
  unfold cutIdx occ
  rw [h, List.range_eq_range']
  simp only [Nat.sub_zero] at h2
  rw [← h2]
  cases first
  · simp [List.getLast?_map]
  · simp [List.head?_map]

theorem filter_cumcount_case (caseOf : ε → κ) (rows : List ε) (p : ε × Nat → Bool) (c : κ) :
    caseRows caseOf (((cumcount caseOf rows).filter p).map Prod.fst) c =
      ((caseRows caseOf rows c).zipIdx.filter p).map Prod.fst := by
  unfold caseRows
  rw [List.filter_map, List.filter_filter]
  have := cumcount_case caseOf rows c
  unfold caseRows at this
  rw [← this, List.filter_filter]
  congr 1
  apply List.filter_congr
  intro x _
  simp [Bool.and_comm]

theorem prefixesDf_case (caseOf : ε → κ) (act : ε → Option α) (first strict : Bool) (a : α) (rows : List ε) (c : κ) :
    caseRows caseOf (prefixesDf caseOf act first strict a rows) c =
      match cutIdx act first a (caseRows caseOf rows c) with
      | some i => (caseRows caseOf rows c).take (if !strict then i + 1 else i)
      | none => [] := by
  unfold prefixesDf
  simp only [pos_eq_cutIdx]
  rw [filter_cumcount_case]
  have hc : ∀ x ∈ (caseRows caseOf rows c).zipIdx, caseOf x.1 = c := by
    rintro ⟨e, i⟩ hx
    rw [List.mk_mem_zipIdx_iff_getElem?] at hx
    exact (mem_caseRows.1 (List.mem_of_getElem? hx)).2
  cases h : cutIdx act first a (caseRows caseOf rows c) with
  | none =>
    rw [List.map_eq_nil_iff, List.filter_eq_nil_iff]
    intro x hx
    rw [hc x hx, h]; simp
  | some i =>
    refine (congrArg (List.map Prod.fst) (List.filter_congr
      (q := fun x => decide (x.2 < (if !strict then i + 1 else i))) ?_)).trans ?_
    · intro x hx
      rw [hc x hx, h]
      cases strict <;> simp [Nat.lt_succ_iff]
    · rw [zipIdx_filter_lt]
      simp

theorem suffixesDf_case (caseOf : ε → κ) (act : ε → Option α) (first strict : Bool) (a : α) (rows : List ε) (c : κ) :
    caseRows caseOf (suffixesDf caseOf act first strict a rows) c =
      match cutIdx act first a (caseRows caseOf rows c) with
      | some i => (caseRows caseOf rows c).drop (if strict then i + 1 else i)
      | none => [] := by
  unfold suffixesDf
  simp only [pos_eq_cutIdx]
  rw [filter_cumcount_case]
  have hc : ∀ x ∈ (caseRows caseOf rows c).zipIdx, caseOf x.1 = c := by
    rintro ⟨e, i⟩ hx
    rw [List.mk_mem_zipIdx_iff_getElem?] at hx
    exact (mem_caseRows.1 (List.mem_of_getElem? hx)).2
  cases h : cutIdx act first a (caseRows caseOf rows c) with
  | none =>
    rw [List.map_eq_nil_iff, List.filter_eq_nil_iff]
    intro x hx
    rw [hc x hx, h]; simp
  | some i =>
    refine (congrArg (List.map Prod.fst) (List.filter_congr
      (q := fun x => decide (x.2 ≥ (if strict then i + 1 else i))) ?_)).trans ?_
    · intro x hx
      rw [hc x hx, h]
      cases strict <;> simp [Nat.succ_le_iff]
    · rw [zipIdx_filter_ge]
      simp

/-- **C42.** The prefix filter on dataframes: in the result, a case without the activity has no rows, and a case
`u ++ e :: r` whose first (last) row of the activity is `e` has the rows `u` (strict) or `u ++ [e]`; as on event logs, except
that a case whose strict prefix is empty disappears. -/
theorem _root_.Verif.C42_prefixes (caseOf : ε → κ) (act : ε → Option α) (first strict : Bool) (a : α) (rows : List ε)
    (c : κ) :
    (prefixesDf caseOf act first strict a rows).Sublist rows ∧
    ((∀ e ∈ caseRows caseOf rows c, act e ≠ some a) → caseRows caseOf (prefixesDf caseOf act first strict a rows) c = []) ∧
    ∀ u e r, caseRows caseOf rows c = u ++ e :: r → act e = some a →
      (if first then ∀ x ∈ u, act x ≠ some a else ∀ x ∈ r, act x ≠ some a) →
      caseRows caseOf (prefixesDf caseOf act first strict a rows) c = if strict then u else u ++ [e] := by
  refine ⟨?_, ?_, ?_⟩
  · have := (List.filter_sublist (l := cumcount caseOf rows) (p := fun x => match (if first then
        ((cumcount caseOf rows).filter fun y => decide (act y.1 = some a) && decide (caseOf y.1 = caseOf x.1)).head?
        else ((cumcount caseOf rows).filter fun y => decide (act y.1 = some a) &&
          decide (caseOf y.1 = caseOf x.1)).getLast?).map Prod.snd with
      | some p => if strict then decide (x.2 < p) else decide (x.2 ≤ p)
      | none => false)).map Prod.fst
    rw [cumcount_fst] at this
    exact this
  · intro h
    rw [prefixesDf_case, (cutIdx_none ..).2 h]
  · intro u e r ht he hu
    rw [prefixesDf_case, ht]
    have : cutIdx act first a (u ++ e :: r) = some u.length := by
      cases first
      · exact (cutIdx_last ..).2 ⟨e, by simp, he, by simpa [List.drop_append, List.drop_eq_nil_of_le] using hu⟩
      · exact (cutIdx_first ..).2 ⟨e, by simp, he, by simpa using hu⟩
    rw [this]
    cases strict <;> simp [List.take_append, List.take_of_length_le]

/-- **C42.** The suffix filter on dataframes. -/
theorem _root_.Verif.C42_suffixes (caseOf : ε → κ) (act : ε → Option α) (first strict : Bool) (a : α) (rows : List ε)
    (c : κ) :
    (suffixesDf caseOf act first strict a rows).Sublist rows ∧
    ((∀ e ∈ caseRows caseOf rows c, act e ≠ some a) → caseRows caseOf (suffixesDf caseOf act first strict a rows) c = []) ∧
    ∀ u e r, caseRows caseOf rows c = u ++ e :: r → act e = some a →
      (if first then ∀ x ∈ u, act x ≠ some a else ∀ x ∈ r, act x ≠ some a) →
      caseRows caseOf (suffixesDf caseOf act first strict a rows) c = if strict then r else e :: r := by
  refine ⟨?_, ?_, ?_⟩
  · have := (List.filter_sublist (l := cumcount caseOf rows) (p := fun x => match (if first then
        ((cumcount caseOf rows).filter fun y => decide (act y.1 = some a) && decide (caseOf y.1 = caseOf x.1)).head?
        else ((cumcount caseOf rows).filter fun y => decide (act y.1 = some a) &&
          decide (caseOf y.1 = caseOf x.1)).getLast?).map Prod.snd with
      | some p => if strict then decide (x.2 > p) else decide (x.2 ≥ p)
      | none => false)).map Prod.fst
    rw [cumcount_fst] at this
    exact this
  · intro h
    rw [suffixesDf_case, (cutIdx_none ..).2 h]
  · intro u e r ht he hu
    rw [suffixesDf_case, ht]
    have : cutIdx act first a (u ++ e :: r) = some u.length := by
      cases first
      · exact (cutIdx_last ..).2 ⟨e, by simp, he, by simpa [List.drop_append, List.drop_eq_nil_of_le] using hu⟩
      · exact (cutIdx_first ..).2 ⟨e, by simp, he, by simpa using hu⟩
    rw [this]
    cases strict <;> simp [List.drop_append]

end Verif.TraceFilter
