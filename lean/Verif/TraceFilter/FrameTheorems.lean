import Verif.TraceFilter.FrameProofs
/-
C42: the dataframe filters keep exactly the rows of the cases whose trace the event log filters of C41 keep — or not.
-/
set_option linter.unusedSectionVars false
namespace Verif.TraceFilter
variable {ε α σ κ : Type} [DecidableEq α] [DecidableEq σ] [DecidableEq κ]

/-- **C42.** On dataframes, `eventually_follows` without time bounds keeps exactly the cases in which two or more values
occur in the given order (and the negative filter the others); the rows of a case need not be contiguous. -/
theorem _root_.Verif.C42_eventually_follows (caseOf : ε → κ) (act : ε → Option α) (time : ε → Int)
    (bounds : List (Int × Int)) (v0 v1 : α) (vs : List α) (rows : List ε) :
    ∃ out nout, efDf caseOf act time true false bounds (v0 :: v1 :: vs) rows = some out ∧
      efDf caseOf act time false false bounds (v0 :: v1 :: vs) rows = some nout ∧
      KeepsCases caseOf (FollowsInOrder act (v0 :: v1 :: vs)) rows out ∧
      KeepsCases caseOf (fun t => ¬ FollowsInOrder act (v0 :: v1 :: vs) t) rows nout := by
  have h := isin_keeps (caseOf := caseOf) (rows := rows) (P := FollowsInOrder act (v0 :: v1 :: vs))
    (keep := (joined caseOf act rows v0 (v1 :: vs)).filterMap fun l => l.head?.map fun x => caseOf x.1)
    fun r _ => joined_cases caseOf act rows v0 (v1 :: vs) (caseOf r)
  refine ⟨_, _, rfl, rfl, ?_, ?_⟩
  · exact h.1
  · exact h.2

/-- **C42.** With a time bound and two values, the dataframe filter keeps exactly the cases with an event of the first
value and a later event of the second whose time difference is within the bound. -/
theorem _root_.Verif.C42_eventually_follows_timed (caseOf : ε → κ) (act : ε → Option α) (time : ε → Int)
    (lo hi : Int) (v0 v1 : α) (rows : List ε) :
    ∃ out nout, efDf caseOf act time true true [(lo, hi)] [v0, v1] rows = some out ∧
      efDf caseOf act time false true [(lo, hi)] [v0, v1] rows = some nout ∧
      KeepsCases caseOf (FollowsInOrderTimed act time [v0, v1] [(lo, hi)]) rows out ∧
      KeepsCases caseOf (fun t => ¬ FollowsInOrderTimed act time [v0, v1] [(lo, hi)] t) rows nout := by
  have h := isin_keeps (caseOf := caseOf) (rows := rows) (P := FollowsInOrderTimed act time [v0, v1] [(lo, hi)])
    (keep := ((joined caseOf act rows v0 [v1]).filter (timeBetween time [(lo, hi)])).filterMap
      fun l => l.head?.map fun x => caseOf x.1) ?_
  · refine ⟨_, _, rfl, rfl, ?_, ?_⟩
    · exact h.1
    · exact h.2
  · intro r _
    have hj : ∀ l, l ∈ joined caseOf act rows v0 [v1] ↔ ∃ y x : ε × Nat, l = [y, x] ∧ y ∈ dfWith act rows v1 ∧
        x ∈ dfWith act rows v0 ∧ caseOf y.1 = caseOf x.1 ∧ x.2 < y.2 := by
      intro l
      simp only [joined, List.foldl_cons, List.foldl_nil, mem_mergeStep, List.mem_map]
      constructor
      · rintro ⟨y, x, l', rfl, hy, ⟨z, hz, hzl⟩, hc, hlt⟩
        simp at hzl
        obtain ⟨rfl, rfl⟩ := hzl
        exact ⟨y, z, rfl, hy, hz, hc, hlt⟩
      · rintro ⟨y, x, rfl, hy, hx, hc, hlt⟩
        exact ⟨y, x, [], rfl, hy, ⟨x, hx, rfl⟩, hc, hlt⟩
    rw [List.mem_filterMap]
    constructor
    · rintro ⟨l, hl, hh⟩
      rw [List.mem_filter, hj] at hl
      obtain ⟨⟨y, x, rfl, hy, hx, hc, hlt⟩, ht⟩ := hl
      simp only [List.head?_cons, Option.map_some, Option.some.injEq] at hh
      rw [mem_dfWith] at hy hx
      simp only [timeBetween, Bool.and_eq_true, decide_eq_true_eq] at ht
      refine ⟨[x.1, y.1], ?_, by simp [hy.2, hx.2], ?_⟩
      · unfold caseRows
        rw [sublist_filter_iff]
        refine ⟨(pair_sublist ..).2 ⟨x.2, y.2, hlt, hx.1, hy.1⟩, ?_⟩
        intro z hz
        simp at hz
        rcases hz with rfl | rfl <;> simp [hh, ← hc]
      · intro i e f b he hf hb
        match i with
        | 0 => simp at he hf hb; subst he; subst hf; subst hb; exact ht
        | i + 1 => simp at hb
    · rintro ⟨es, hs, hm, hb⟩
      have hl := congrArg List.length hm
      match es with
      | [] => simp at hl
      | [_] => simp at hl
      | _ :: _ :: _ :: _ => simp at hl
      | [x, y] =>
        simp at hm
        unfold caseRows at hs
        rw [sublist_filter_iff, pair_sublist] at hs
        obtain ⟨⟨n, m, hlt, hx, hy⟩, hcs⟩ := hs
        have hcx := hcs x (by simp)
        have hcy := hcs y (by simp)
        simp only [decide_eq_true_eq] at hcx hcy
        refine ⟨[(y, m), (x, n)], List.mem_filter.2 ⟨(hj _).2 ⟨(y, m), (x, n), rfl, mem_dfWith.2 ⟨hy, hm.2⟩,
          mem_dfWith.2 ⟨hx, hm.1⟩, by simp [hcx, hcy], hlt⟩, ?_⟩, by simp [hcy]⟩
        have := hb 0 x y (lo, hi) rfl rfl rfl
        simp [timeBetween, this.1, this.2]

/-- **C42, refuted.** The dataframe filter is not total: with one value, or with three values and a time bound, it raises
whatever the dataframe, while the event log filter answers. -/
theorem _root_.Verif.C42_eventually_follows_total_refuted (caseOf : ε → κ) (act : ε → Option α) (time : ε → Int)
    (positive enable : Bool) (bounds : List (Int × Int)) (a b c : α) (vs : List α) (rows : List ε) :
    efDf caseOf act time positive enable bounds [a] rows = none ∧
    efDf caseOf act time positive true bounds (a :: b :: c :: vs) rows = none :=
  ⟨rfl, by simp [efDf]⟩

theorem mem_lastWith {caseOf : ε → κ} {act : ε → Option α} {rows : List ε} {v : α} {c : κ} {x : ε × Nat}
    (h : lastWith caseOf act rows v c = some x) : rows[x.2]? = some x.1 ∧ act x.1 = some v ∧ caseOf x.1 = c := by
  have := List.mem_of_getLast? h
  rw [List.mem_filter, mem_dfWith, decide_eq_true_eq] at this
  exact ⟨this.1.1, this.1.2, this.2⟩

theorem zipIdx_filter_fst (p : ε → Bool) (rows : List ε) (k : Nat) :
    ((rows.zipIdx k).filter fun x => p x.1).map Prod.fst = rows.filter p := by
  induction rows generalizing k with
  | nil => rfl
  | cons r l ih =>
    rw [List.zipIdx_cons, List.filter_cons, List.filter_cons]
    cases p r <;> simp [ih]

theorem lastWith_unique {caseOf : ε → κ} {act : ε → Option α} {rows : List ε} {v : α} {c : κ}
    (h1 : ((caseRows caseOf rows c).map act).count (some v) ≤ 1) {e : ε} {i : Nat} (hi : rows[i]? = some e)
    (ha : act e = some v) (hc : caseOf e = c) : lastWith caseOf act rows v c = some (e, i) := by
  have hl : ((dfWith act rows v).filter fun x => decide (caseOf x.1 = c)).length ≤ 1 := by
    have e1 : ((dfWith act rows v).filter fun x => decide (caseOf x.1 = c)).map Prod.fst =
        (caseRows caseOf rows c).filter fun x => decide (act x = some v) := by
      unfold dfWith caseRows
      rw [List.filter_filter, List.filter_filter, ← zipIdx_filter_fst _ rows 0]
      congr 1
      apply List.filter_congr
      intro x _
      simp [Bool.and_comm]
    rw [← List.length_map (f := Prod.fst), e1]
    rw [List.count_eq_countP, List.countP_map, List.countP_eq_length_filter] at h1
    refine Nat.le_trans (Nat.le_of_eq ?_) h1
    congr 1
    apply List.filter_congr
    intro x _
    by_cases h : act x = some v <;> simp [h]
  have hm : (e, i) ∈ (dfWith act rows v).filter fun x => decide (caseOf x.1 = c) := by
    rw [List.mem_filter, mem_dfWith]
    exact ⟨⟨hi, ha⟩, by simpa using hc⟩
  unfold lastWith
  generalize (dfWith act rows v).filter (fun x => decide (caseOf x.1 = c)) = L at hl hm ⊢
  match L, hl, hm with
  | [], _, hm => simp at hm
  | [y], _, hm => simp at hm; simp [hm]
  | _ :: _ :: _, hl, _ => simp at hl

theorem consec_of_index {caseOf : ε → κ} {act : ε → Option α} {rows : List ε} {A B C : α} {c : κ} {i : Nat} {x y z : ε}
    (hx : rows[i]? = some x) (hy : rows[i + 1]? = some y) (hz : rows[i + 2]? = some z) (cx : caseOf x = c)
    (cy : caseOf y = c) (cz : caseOf z = c) (ax : act x = some A) (ay : act y = some B) (az : act z = some C) :
    Consecutive3 act A B C (caseRows caseOf rows c) := by
  have h1 : [x, y, z] <:+: rows := (infix3_iff ..).2 ⟨i, hx, hy, hz⟩
  have h2 := h1.filter (fun r => decide (caseOf r = c))
  have h3 : [x, y, z].filter (fun r => decide (caseOf r = c)) = [x, y, z] := by simp [cx, cy, cz]
  rw [h3] at h2
  have := h2.map act
  unfold Consecutive3 caseRows
  simpa [ax, ay, az] using this

/-- **C42.** `A_next_B_next_C` on dataframes keeps only cases with three consecutive events A, B, C. -/
theorem _root_.Verif.C42_next_next_sound (caseOf : ε → κ) (act : ε → Option α) (A B C : α) (rows : List ε) :
    ∀ r ∈ nextDf caseOf act true A B C rows, r ∈ rows ∧ Consecutive3 act A B C (caseRows caseOf rows (caseOf r)) := by
  intro r hr
  unfold nextDf isinCases at hr
  simp only [if_true, List.mem_filter, decide_eq_true_eq, List.mem_filterMap] at hr
  obtain ⟨hr, a, ha, hj⟩ := hr
  refine ⟨hr, ?_⟩
  rw [mem_dfWith] at ha
  cases hb : lastWith caseOf act rows B (caseOf a.1) with
  | none => simp [hb] at hj
  | some b =>
    cases hc : lastWith caseOf act rows C (caseOf a.1) with
    | none => simp [hb, hc] at hj
    | some c =>
      simp only [hb, hc] at hj
      split at hj
      · rename_i hd
        simp only [Option.some.injEq] at hj
        have hb' := mem_lastWith hb
        have hc' := mem_lastWith hc
        have e1 : b.2 = a.2 + 1 := by omega
        have e2 : c.2 = a.2 + 2 := by omega
        exact consec_of_index ha.1 (e1 ▸ hb'.1) (e2 ▸ hc'.1) hj (by rw [hb'.2.2, hj]) (by rw [hc'.2.2, hj])
          ha.2 hb'.2.1 hc'.2.1
      · cases hj

/-- **C42.** It keeps all of them when the rows of each case are contiguous and B and C occur at most once in a case. -/
theorem _root_.Verif.C42_next_next (caseOf : ε → κ) (act : ε → Option α) (A B C : α) (rows : List ε)
    (hcont : Contiguous caseOf rows) (hB : ∀ c, ((caseRows caseOf rows c).map act).count (some B) ≤ 1)
    (hC : ∀ c, ((caseRows caseOf rows c).map act).count (some C) ≤ 1) :
    KeepsCases caseOf (Consecutive3 act A B C) rows (nextDf caseOf act true A B C rows) ∧
    KeepsCases caseOf (fun t => ¬ Consecutive3 act A B C t) rows (nextDf caseOf act false A B C rows) := by
  unfold nextDf
  apply isin_keeps
  intro r hr
  constructor
  · intro h
    have := Verif.C42_next_next_sound caseOf act A B C rows r (by
      unfold nextDf isinCases
      simp only [if_true, List.mem_filter, decide_eq_true_eq]
      exact ⟨hr, h⟩)
    exact this.2
  · intro h
    unfold Consecutive3 at h
    rw [List.infix_map_iff] at h
    obtain ⟨l, hl, hm⟩ := h
    match l, hm with
    | [], hm => simp at hm
    | [_], hm => simp at hm
    | [_, _], hm => simp at hm
    | _ :: _ :: _ :: _ :: _, hm => simp at hm
    | [x, y, z], hm =>
      simp at hm
      have hcx : ∀ u ∈ [x, y, z], caseOf u = caseOf r := fun u hu => (mem_caseRows.1 (hl.subset hu)).2
      obtain ⟨i, hx, hy, hz⟩ := (infix3_iff ..).1 (hl.trans (infix_block caseOf rows hcont (caseOf r)))
      rw [List.mem_filterMap]
      refine ⟨(x, i), mem_dfWith.2 ⟨hx, hm.1.symm⟩, ?_⟩
      have cx := hcx x (by simp)
      have cy := hcx y (by simp)
      have cz := hcx z (by simp)
      rw [lastWith_unique (hB _) hy hm.2.1.symm (by rw [cy, cx]), lastWith_unique (hC _) hz hm.2.2.symm (by rw [cz, cx])]
      simp only
      rw [if_pos ⟨by omega, by omega⟩, cx]

/-- **C42, refuted.** In general it does not: in the case ⟨A, B, C, B⟩ only the last B is compared, and the case is lost,
although the event log filter keeps it. -/
theorem _root_.Verif.C42_next_next_complete_refuted :
    ¬ ∀ rows : List (Nat × String), Contiguous Prod.fst rows →
      KeepsCases Prod.fst (Consecutive3 (fun e => some e.2) "A" "B" "C") rows
        (nextDf Prod.fst (fun e => some e.2) true "A" "B" "C" rows) := by
  intro h
  obtain ⟨d, hd⟩ := h [(1, "A"), (1, "B"), (1, "C"), (1, "B")] (by
    intro x m y hi _ z hz
    have h1 := hi.subset (show x ∈ x :: m ++ [y] by simp)
    have h2 := hi.subset (show z ∈ x :: m ++ [y] by simp [hz])
    simp at h1 h2
    rcases h1 with rfl | rfl | rfl | rfl <;> rcases h2 with rfl | rfl | rfl | rfl <;> rfl)
  have h1 : nextDf Prod.fst (fun e : Nat × String => some e.2) true "A" "B" "C"
      [(1, "A"), (1, "B"), (1, "C"), (1, "B")] = [] := by decide
  rw [h1, List.filter_cons_of_pos] at hd
  · cases hd
  · rw [decide_eq_true_eq]
    exact ⟨[], [some "B"], rfl⟩

end Verif.TraceFilter
