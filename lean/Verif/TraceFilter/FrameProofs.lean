import Verif.TraceFilter.Frame
import Verif.TraceFilter.Theorems
set_option linter.unusedSectionVars false
namespace Verif.TraceFilter
variable {ε α σ κ : Type} [DecidableEq α] [DecidableEq σ] [DecidableEq κ]

theorem isin_keeps {caseOf : ε → κ} {keep : List κ} {rows : List ε} {P : List ε → Prop}
    (h : ∀ r ∈ rows, (caseOf r ∈ keep ↔ P (caseRows caseOf rows (caseOf r)))) :
    KeepsCases caseOf P rows (isinCases caseOf true keep rows) ∧
    KeepsCases caseOf (fun t => ¬ P t) rows (isinCases caseOf false keep rows) := by
  unfold isinCases KeepsCases
  simp only [if_true, Bool.false_eq_true, if_false]
  refine ⟨keeps_of fun r hr => ?_, keeps_of fun r hr => ?_⟩
  · rw [decide_eq_true_eq, h r hr]; rfl
  · rw [Bool.not_eq_true', decide_eq_false_iff_not, h r hr]; rfl

theorem mem_dfWith {act : ε → Option α} {rows : List ε} {v : α} {x : ε × Nat} :
    x ∈ dfWith act rows v ↔ rows[x.2]? = some x.1 ∧ act x.1 = some v := by
  unfold dfWith
  rw [List.mem_filter, decide_eq_true_eq]
  obtain ⟨e, i⟩ := x
  rw [List.mk_mem_zipIdx_iff_getElem?]

theorem mem_caseRows {caseOf : ε → κ} {rows : List ε} {c : κ} {e : ε} :
    e ∈ caseRows caseOf rows c ↔ e ∈ rows ∧ caseOf e = c := by
  simp [caseRows]

theorem caseRows_snoc (caseOf : ε → κ) (l : List ε) (e : ε) (c : κ) :
    caseRows caseOf (l ++ [e]) c = caseRows caseOf l c ++ if caseOf e = c then [e] else [] := by
  unfold caseRows
  rw [List.filter_append]
  by_cases h : caseOf e = c <;> simp [h]

theorem snoc_sublist_snoc {β : Type} (a b : β) (u l : List β) :
    (u ++ [a]).Sublist (l ++ [b]) ↔ (u ++ [a]).Sublist l ∨ (a = b ∧ u.Sublist l) := by
  rw [← List.reverse_sublist, List.reverse_append, List.reverse_append]
  simp only [List.reverse_cons, List.reverse_nil, List.nil_append, List.cons_append]
  rw [List.sublist_cons_iff]
  constructor
  · rintro (h | ⟨r, hr, h⟩)
    · left; rw [← List.reverse_sublist]; simpa using h
    · simp only [List.cons.injEq] at hr
      right; exact ⟨hr.1, List.reverse_sublist.1 (by rw [hr.2]; exact h)⟩
  · rintro (h | ⟨rfl, h⟩)
    · left; rw [← List.reverse_sublist] at h; simpa using h
    · right; exact ⟨u.reverse, rfl, List.reverse_sublist.2 h⟩

theorem snoc_sublist_case (caseOf : ε → κ) (act : ε → Option α) (vs : List α) (v : α) (c : κ) (L : List ε) :
    ((vs ++ [v]).map some).Sublist ((caseRows caseOf L c).map act) ↔
      ∃ n x, L[n]? = some x ∧ caseOf x = c ∧ act x = some v ∧
        (vs.map some).Sublist ((caseRows caseOf (L.take n) c).map act) := by
  rw [List.map_append, List.map_cons, List.map_nil]
  induction L using snocInduct with
  | nil => simp [caseRows]
  | snoc L e ih =>
    rw [caseRows_snoc]
    have key : (∃ n x, (L ++ [e])[n]? = some x ∧ caseOf x = c ∧ act x = some v ∧
        (vs.map some).Sublist ((caseRows caseOf ((L ++ [e]).take n) c).map act)) ↔
        (∃ n x, L[n]? = some x ∧ caseOf x = c ∧ act x = some v ∧
        (vs.map some).Sublist ((caseRows caseOf (L.take n) c).map act)) ∨
        (caseOf e = c ∧ act e = some v ∧ (vs.map some).Sublist ((caseRows caseOf L c).map act)) := by
      constructor
      · rintro ⟨n, x, hx, h1, h2, h3⟩
        by_cases hn : n < L.length
        · left
          refine ⟨n, x, by rwa [List.getElem?_append_left hn] at hx, h1, h2, ?_⟩
          rwa [List.take_append_of_le_length (by omega)] at h3
        · right
          rw [List.getElem?_append_right (by omega)] at hx
          have hn' : n = L.length := by
            have := (List.getElem?_eq_some_iff.1 hx).1
            simp at this; omega
          subst hn'
          simp at hx; subst hx
          refine ⟨h1, h2, ?_⟩
          simpa using h3
      · rintro (⟨n, x, hx, h1, h2, h3⟩ | ⟨h1, h2, h3⟩)
        · have hn := (List.getElem?_eq_some_iff.1 hx).1
          refine ⟨n, x, by rwa [List.getElem?_append_left hn], h1, h2, ?_⟩
          rwa [List.take_append_of_le_length (by omega)]
        · exact ⟨L.length, e, by simp, h1, h2, by simpa using h3⟩
    rw [key, ← ih]
    by_cases hc : caseOf e = c
    · simp only [hc, if_true, List.map_append, List.map_cons, List.map_nil, true_and]
      rw [snoc_sublist_snoc]
      simp only [eq_comm]
    · simp [hc]

theorem mem_mergeStep {caseOf : ε → κ} {acc : List (List (ε × Nat))} {d : List (ε × Nat)} {l : List (ε × Nat)} :
    l ∈ mergeStep caseOf acc d ↔ ∃ y x l', l = y :: x :: l' ∧ y ∈ d ∧ x :: l' ∈ acc ∧ caseOf y.1 = caseOf x.1 ∧ x.2 < y.2 := by
  unfold mergeStep
  simp only [List.mem_filter, List.mem_flatMap]
  constructor
  · rintro ⟨⟨l', hl', h⟩, hd⟩
    cases l' with
    | nil => simp at h
    | cons x l' =>
      simp only [List.head?_cons, List.mem_map, List.mem_filter, decide_eq_true_eq] at h
      obtain ⟨y, ⟨hy, hc⟩, rfl⟩ := h
      simp only [decide_eq_true_eq] at hd
      exact ⟨y, x, l', rfl, hy, hl', hc, by omega⟩
  · rintro ⟨y, x, l', rfl, hy, hl, hc, hlt⟩
    refine ⟨⟨x :: l', hl, ?_⟩, ?_⟩
    · simp only [List.head?_cons, List.mem_map, List.mem_filter, decide_eq_true_eq]
      exact ⟨y, ⟨hy, hc⟩, rfl⟩
    · simp only [decide_eq_true_eq]; omega

/-- The joined rows after some values. -/
def joined (caseOf : ε → κ) (act : ε → Option α) (rows : List ε) (v0 : α) (vs : List α) : List (List (ε × Nat)) :=
  vs.foldl (fun acc v => mergeStep caseOf acc (dfWith act rows v)) ((dfWith act rows v0).map fun x => [x])

theorem joined_iff (caseOf : ε → κ) (act : ε → Option α) (rows : List ε) (v0 : α) (vs : List α) :
    ∀ (us : List α) (v : α), v0 :: vs = us ++ [v] → ∀ (r : ε) (n : Nat),
      ((∃ l ∈ joined caseOf act rows v0 vs, l.head? = some (r, n)) ↔
        rows[n]? = some r ∧ act r = some v ∧
          (us.map some).Sublist ((caseRows caseOf (rows.take n) (caseOf r)).map act)) := by
  induction vs using snocInduct with
  | nil =>
    intro us v h r n
    have hus : us = [] := by
      cases us with
      | nil => rfl
      | cons => simp at h
    subst hus
    simp at h; subst h
    simp only [joined, List.foldl_nil, List.mem_map]
    constructor
    · rintro ⟨l, ⟨x, hx, rfl⟩, h⟩
      simp at h; subst h
      have := mem_dfWith.1 hx
      exact ⟨this.1, this.2, by simp⟩
    · rintro ⟨h1, h2, _⟩
      exact ⟨[(r, n)], ⟨(r, n), mem_dfWith.2 ⟨h1, h2⟩, rfl⟩, rfl⟩
  | snoc vs w ih =>
    intro us v h r n
    have h' : us = v0 :: vs ∧ v = w := by
      rw [← List.cons_append] at h
      have := List.append_inj' h rfl
      exact ⟨this.1.symm, by simpa using this.2.symm⟩
    obtain ⟨rfl, rfl⟩ := h'
    obtain ⟨us', v', hv'⟩ : ∃ us' v', v0 :: vs = us' ++ [v'] := by
      rcases List.eq_nil_or_concat (v0 :: vs) with h | ⟨a, b, h⟩
      · simp at h
      · exact ⟨a, b, by simpa using h⟩
    have ih' := ih us' v' hv'
    have hj : joined caseOf act rows v0 (vs ++ [v]) =
        mergeStep caseOf (joined caseOf act rows v0 vs) (dfWith act rows v) := by
      simp [joined, List.foldl_append]
    rw [hj, hv', snoc_sublist_case]
    constructor
    · rintro ⟨l, hl, hh⟩
      obtain ⟨y, x, l', rfl, hy, hl', hc, hlt⟩ := mem_mergeStep.1 hl
      simp at hh; subst hh
      obtain ⟨h1, h2⟩ := mem_dfWith.1 hy
      have h3 := (ih' x.1 x.2).1 ⟨x :: l', hl', rfl⟩
      simp only at hc hlt h1
      refine ⟨h1, h2, x.2, x.1, ?_, hc.symm, h3.2.1, ?_⟩
      · rw [List.getElem?_take_of_lt hlt]; exact h3.1
      · rw [List.take_take, Nat.min_eq_left (by omega), hc]; exact h3.2.2
    · rintro ⟨h1, h2, m, x, hx, hc, hv, hs⟩
      have hmn : m < n := by
        have := (List.getElem?_eq_some_iff.1 hx).1
        rw [List.length_take] at this; omega
      rw [List.getElem?_take_of_lt hmn] at hx
      rw [List.take_take, Nat.min_eq_left (by omega), ← hc] at hs
      obtain ⟨l, hl, hh⟩ := (ih' x m).2 ⟨hx, hv, hs⟩
      cases l with
      | nil => simp at hh
      | cons a l =>
        simp at hh; subst hh
        exact ⟨(r, n) :: (x, m) :: l, mem_mergeStep.2 ⟨_, _, _, rfl, mem_dfWith.2 ⟨h1, h2⟩, hl, hc.symm, hmn⟩, rfl⟩

theorem joined_cases (caseOf : ε → κ) (act : ε → Option α) (rows : List ε) (v0 : α) (vs : List α) (c : κ) :
    c ∈ ((joined caseOf act rows v0 vs).filterMap fun l => l.head?.map fun x => caseOf x.1) ↔
      FollowsInOrder act (v0 :: vs) (caseRows caseOf rows c) := by
  obtain ⟨us, v, hv⟩ : ∃ us v, v0 :: vs = us ++ [v] := by
    rcases List.eq_nil_or_concat (v0 :: vs) with h | ⟨a, b, h⟩
    · simp at h
    · exact ⟨a, b, by simpa using h⟩
  unfold FollowsInOrder
  rw [hv, snoc_sublist_case, List.mem_filterMap]
  have hj := joined_iff caseOf act rows v0 vs us v hv
  constructor
  · rintro ⟨l, hl, h⟩
    cases l with
    | nil => simp at h
    | cons x l =>
      simp only [List.head?_cons, Option.map_some, Option.some.injEq] at h
      have := (hj x.1 x.2).1 ⟨_, hl, rfl⟩
      exact ⟨x.2, x.1, this.1, h, this.2.1, by rw [← h]; exact this.2.2⟩
  · rintro ⟨n, x, h1, h2, h3, h4⟩
    obtain ⟨l, hl, hh⟩ := (hj x n).2 ⟨h1, h3, by rw [h2]; exact h4⟩
    exact ⟨l, hl, by rw [hh]; simp [h2]⟩

theorem sublist_filter_iff {β : Type} (p : β → Bool) (l L : List β) :
    l.Sublist (L.filter p) ↔ l.Sublist L ∧ ∀ x ∈ l, p x = true := by
  constructor
  · intro h
    exact ⟨h.trans List.filter_sublist, fun x hx => (List.mem_filter.1 (h.subset hx)).2⟩
  · rintro ⟨h, hp⟩
    have := h.filter p
    rwa [List.filter_eq_self.2 hp] at this

theorem pair_sublist (x y : ε) (L : List ε) :
    [x, y].Sublist L ↔ ∃ n m : Nat, n < m ∧ L[n]? = some x ∧ L[m]? = some y := by
  rw [cons_sublist_get]
  constructor
  · rintro ⟨n, hn, hs⟩
    obtain ⟨k, hk⟩ := List.getElem?_of_mem (List.singleton_sublist.1 hs)
    rw [List.getElem?_drop] at hk
    exact ⟨n, n + 1 + k, by omega, hn, hk⟩
  · rintro ⟨n, m, hlt, hn, hm⟩
    refine ⟨n, hn, List.singleton_sublist.2 (List.mem_of_getElem? (i := m - (n + 1)) ?_)⟩
    rw [List.getElem?_drop]
    have : n + 1 + (m - (n + 1)) = m := by omega
    rwa [this]

theorem prefix_block (caseOf : ε → κ) (l : List ε) : ∀ r, Contiguous caseOf (r :: l) →
    caseRows caseOf l (caseOf r) <+: l := by
  induction l with
  | nil => intro r _; simp [caseRows]
  | cons u l ih =>
    intro r hc
    by_cases hu : caseOf u = caseOf r
    · have hc' : Contiguous caseOf (u :: l) := fun x m y hi => hc x m y (hi.trans (List.suffix_cons r _).isInfix)
      have := ih u hc'
      have e : caseRows caseOf (u :: l) (caseOf r) = u :: caseRows caseOf l (caseOf u) := by
        simp [caseRows, hu]
      rw [e]
      exact (List.cons_prefix_cons).2 ⟨rfl, this⟩
    · have e : caseRows caseOf (u :: l) (caseOf r) = [] := by
        unfold caseRows
        rw [List.filter_eq_nil_iff]
        intro y hy
        simp only [decide_eq_true_eq]
        intro hyc
        obtain ⟨s1, s2, hsplit⟩ := List.append_of_mem hy
        cases s1 with
        | nil =>
          simp only [List.nil_append, List.cons.injEq] at hsplit
          exact hu (by rw [hsplit.1]; exact hyc)
        | cons w s1 =>
          simp only [List.cons_append, List.cons.injEq] at hsplit
          have := hc r (w :: s1) y ⟨[], s2, by simp [hsplit.1, hsplit.2]⟩ hyc.symm w (by simp)
          exact hu (by rw [hsplit.1]; exact this)
      rw [e]; exact List.nil_prefix

theorem infix_block (caseOf : ε → κ) (rows : List ε) (hc : Contiguous caseOf rows) (c : κ) :
    caseRows caseOf rows c <:+: rows := by
  induction rows with
  | nil => simp [caseRows]
  | cons r l ih =>
    by_cases h : caseOf r = c
    · subst h
      have e : caseRows caseOf (r :: l) (caseOf r) = r :: caseRows caseOf l (caseOf r) := by simp [caseRows]
      rw [e]
      exact ((List.cons_prefix_cons).2 ⟨rfl, prefix_block caseOf l r hc⟩).isInfix
    · have e : caseRows caseOf (r :: l) c = caseRows caseOf l c := by simp [caseRows, h]
      rw [e]
      exact (ih fun x m y hi => hc x m y (hi.trans (List.suffix_cons r _).isInfix)).trans (List.suffix_cons r _).isInfix

end Verif.TraceFilter
