import Verif.Filter.Theorems
/-
C24 and C36 for dataframes.
-/
namespace Verif.Filter
open Dict
variable {α ρ κ : Type} [LinearOrder α] [LinearOrder κ]

theorem set_snoc_new {ν : Type} {κ : Type} [DecidableEq κ] (d : Dict κ ν) (v : κ) (x y : ν) (hd : v ∉ keys d) :
    Dict.set (d ++ [(v, x)]) v y = d ++ [(v, y)] := by
  induction d with
  | nil => simp [Dict.set]
  | cons e d ih =>
    obtain ⟨k, z⟩ := e
    simp only [keys, List.map_cons, List.mem_cons, not_or] at hd
    simp only [List.cons_append, Dict.set, Ne.symm hd.1, if_false, List.cons.injEq, true_and]
    exact ih hd.2

theorem variantsDf_eq (caseOf : ρ → κ) (actOf : ρ → α) (rows : List ρ) :
    variantsDf caseOf actOf rows = (firstOcc (rows.map caseOf)).map fun c => (c, caseTrace caseOf actOf rows c) := by
  induction rows using snocInduct with
  | nil => rfl
  | snoc rows r ih =>
    unfold variantsDf at ih ⊢
    rw [List.foldl_append, ih]
    simp only [List.foldl_cons, List.foldl_nil, List.map_append, List.map_cons, List.map_nil, firstOcc_snoc]
    have hct : ∀ c, caseTrace caseOf actOf (rows ++ [r]) c = caseTrace caseOf actOf rows c ++ if caseOf r = c then [actOf r] else [] := by
      intro c
      unfold caseTrace
      rw [List.filter_append, List.map_append]
      by_cases h : caseOf r = c <;> simp [h]
    have hn := firstOcc_nodup (rows.map caseOf)
    by_cases h : caseOf r ∈ rows.map caseOf
    · have hk : caseOf r ∈ firstOcc (rows.map caseOf) := (firstOcc_mem _ _).2 h
      rw [get?_map, if_pos hk, set_map_eq _ hn _ _ _ hk, if_pos h]
      apply List.map_congr_left
      intro c _
      rw [hct]
      by_cases hc : c = caseOf r
      · subst hc; simp
      · simp [hc, Ne.symm hc]
    · have hk : caseOf r ∉ firstOcc (rows.map caseOf) := fun hc => h ((firstOcc_mem _ _).1 hc)
      have hnk : caseOf r ∉ keys (List.map (fun c => (c, caseTrace caseOf actOf rows c)) (firstOcc (rows.map caseOf))) := by
        rw [mem_keys_iff, get?_map]; simp [hk]
      rw [get?_map, if_neg hk, set_new _ _ _ hnk, if_neg h, List.map_append]
      congr 1
      · apply List.map_congr_left
        intro c hc
        have : caseOf r ≠ c := by rintro rfl; exact hk hc
        rw [hct]; simp [this]
      · simp only [List.map_cons, List.map_nil, hct, if_true, Option.getD_none]
        have : caseTrace caseOf actOf rows (caseOf r) = [] := by
          unfold caseTrace
          rw [List.map_eq_nil_iff, List.filter_eq_nil_iff]
          intro x hx
          simp only [decide_eq_true_eq]
          intro hc; exact h (hc ▸ List.mem_map_of_mem hx)
        rw [this]

theorem dfApply_eq (caseOf : ρ → κ) (actOf : ρ → α) (pos : Bool) (V : List (List α)) (rows : List ρ) :
    dfApply caseOf actOf pos V rows = rows.filter fun r => decide (caseTrace caseOf actOf rows (caseOf r) ∈ V) == pos := by
  have hm : ∀ r ∈ rows, (caseOf r ∈ keys ((variantsDf caseOf actOf rows).filter fun e => decide (e.2 ∈ V)) ↔
      caseTrace caseOf actOf rows (caseOf r) ∈ V) := by
    intro r hr
    rw [variantsDf_eq]
    simp only [keys, List.mem_map, List.mem_filter, firstOcc_mem, decide_eq_true_eq]
    constructor
    · rintro ⟨e, ⟨⟨c, _, rfl⟩, hV⟩, hc⟩
      simp only at hc hV
      subst hc; exact hV
    · intro h
      exact ⟨(caseOf r, _), ⟨⟨caseOf r, ⟨r, hr, rfl⟩, rfl⟩, h⟩, rfl⟩
  unfold dfApply
  cases pos
  · simp only [Bool.false_eq_true, if_false]
    apply List.filter_congr
    intro r hr
    by_cases h : caseTrace caseOf actOf rows (caseOf r) ∈ V
    · simp [(hm r hr).2 h, h]
    · have : caseOf r ∉ _ := fun hc => h ((hm r hr).1 hc)
      simp [this, h]
  · simp only [if_true]
    apply List.filter_congr
    intro r hr
    by_cases h : caseTrace caseOf actOf rows (caseOf r) ∈ V
    · simp [(hm r hr).2 h, h]
    · have : caseOf r ∉ _ := fun hc => h ((hm r hr).1 hc)
      simp [this, h]

omit [LinearOrder κ] in
theorem contiguous_tail {caseOf : ρ → κ} {r : ρ} {l : List ρ} (h : Contiguous caseOf (r :: l)) : Contiguous caseOf l :=
  fun x m y hi => h x m y (hi.trans (List.suffix_cons r l).isInfix)

theorem block_from_head (caseOf : ρ → κ) (r : ρ) (l : List ρ) (hc : Contiguous caseOf (r :: l)) :
    l.take ((l.map caseOf).count (caseOf r)) = l.filter fun x => decide (caseOf x = caseOf r) := by
  induction l generalizing r with
  | nil => rfl
  | cons u l ih =>
    by_cases hu : caseOf u = caseOf r
    · have := ih u (contiguous_tail hc)
      rw [hu] at this
      simp [hu, this]
    · have hnot : caseOf r ∉ (u :: l).map caseOf := by
        intro hmem
        obtain ⟨y, hy, hyt⟩ := List.mem_map.1 hmem
        obtain ⟨s1, s2, hsplit⟩ := List.append_of_mem hy
        cases s1 with
        | nil =>
          simp only [List.nil_append, List.cons.injEq] at hsplit
          exact hu (by rw [hsplit.1]; exact hyt)
        | cons w s1 =>
          simp only [List.cons_append, List.cons.injEq] at hsplit
          have := hc r (w :: s1) y ⟨[], s2, by simp [hsplit.1, hsplit.2]⟩ hyt.symm w (by simp)
          exact hu (by rw [hsplit.1]; exact this)
      rw [List.count_eq_zero.2 hnot, List.take_zero]
      symm
      rw [List.filter_eq_nil_iff]
      intro x hx
      simp only [decide_eq_true_eq]
      intro hxc; exact hnot (hxc ▸ List.mem_map_of_mem hx)

theorem block_eq (caseOf : ρ → κ) (rows : List ρ) (hc : Contiguous caseOf rows) (c : κ) :
    (rows.drop ((rows.map caseOf).idxOf c)).take ((rows.map caseOf).count c) = rows.filter fun x => decide (caseOf x = c) := by
  induction rows with
  | nil => rfl
  | cons r l ih =>
    by_cases h : caseOf r = c
    · subst h
      have := block_from_head caseOf r l hc
      simp [this]
    · have := ih (contiguous_tail hc)
      rw [List.map_cons, List.idxOf_cons_ne _ h, List.count_cons_of_ne h, List.drop_succ_cons, this]
      simp [h]

theorem numpyCaseVariant_eq (caseOf : ρ → κ) (actOf : ρ → α) (rows : List ρ) (hc : Contiguous caseOf rows) :
    numpyCaseVariant caseOf actOf rows = (npUnique (rows.map caseOf)).map fun c => (c, caseTrace caseOf actOf rows c) := by
  unfold numpyCaseVariant
  simp only
  apply List.map_congr_left
  intro c _
  rw [← List.map_drop, ← List.map_take, block_eq caseOf rows hc c]; rfl

theorem npUnique_perm (l : List κ) : (npUnique l).Perm (firstOcc l) := List.mergeSort_perm _ _

theorem numpyCaseVariant_get (caseOf : ρ → κ) (actOf : ρ → α) (rows : List ρ) (c : κ) :
    get? (numpyCaseVariant caseOf actOf rows) c = if c ∈ rows.map caseOf then
      some (((rows.map actOf).drop ((rows.map caseOf).idxOf c)).take ((rows.map caseOf).count c)) else none := by
  unfold numpyCaseVariant
  simp only
  rw [get?_map]
  simp only [(npUnique_perm _).mem_iff, firstOcc_mem]

theorem numpyVariants_count (caseOf : ρ → κ) (actOf : ρ → α) (rows : List ρ) (hc : Contiguous caseOf rows) (v : List α) :
    count (numpyVariants caseOf actOf rows) v = (caseFreq caseOf actOf rows v : Int) := by
  unfold numpyVariants
  rw [Counter.count_ofList, numpyCaseVariant_eq caseOf actOf rows hc, List.map_map]
  unfold Counter.cnt
  rw [List.countP_map, (npUnique_perm (rows.map caseOf)).countP_eq, List.countP_eq_length_filter]
  rfl

end Verif.Filter

namespace Verif
open Filter Dict
variable {α ρ κ : Type} [LinearOrder α] [LinearOrder κ]

/-- On dataframes the filter keeps the rows of the cases whose variant is (is not) admitted, in their order. -/
theorem C24_df_kept (caseOf : ρ → κ) (actOf : ρ → α) (pos : Bool) (V : List (List α)) (rows : List ρ) :
    dfApply caseOf actOf pos V rows =
      rows.filter fun r => decide (caseTrace caseOf actOf rows (caseOf r) ∈ V) == pos := dfApply_eq caseOf actOf pos V rows

/-- so a case is kept with all its rows or dropped with all its rows, and filtering twice is filtering once -/
theorem C24_df_idempotent (caseOf : ρ → κ) (actOf : ρ → α) (pos : Bool) (V : List (List α)) (rows : List ρ) :
    (∀ r ∈ dfApply caseOf actOf pos V rows,
      caseTrace caseOf actOf (dfApply caseOf actOf pos V rows) (caseOf r) = caseTrace caseOf actOf rows (caseOf r)) ∧
    dfApply caseOf actOf pos V (dfApply caseOf actOf pos V rows) = dfApply caseOf actOf pos V rows := by
  have h1 : ∀ r ∈ dfApply caseOf actOf pos V rows,
      caseTrace caseOf actOf (dfApply caseOf actOf pos V rows) (caseOf r) = caseTrace caseOf actOf rows (caseOf r) := by
    intro r hr
    rw [dfApply_eq] at hr ⊢
    have hk := (List.mem_filter.1 hr).2
    unfold caseTrace at hk ⊢
    rw [List.filter_filter]
    congr 1
    apply List.filter_congr
    intro x _
    by_cases hx : caseOf x = caseOf r
    · simp only [hx, decide_true, Bool.true_and]; exact hk
    · simp [hx]
  refine ⟨h1, ?_⟩
  rw [dfApply_eq caseOf actOf pos V (dfApply caseOf actOf pos V rows), List.filter_eq_self]
  intro r hr
  rw [h1 r hr]
  rw [dfApply_eq] at hr
  exact (List.mem_filter.1 hr).2

/-- C36: when the rows of each case follow one another, `get_variants` of a dataframe counts, for each variant, the
cases with that variant, and the recorded variant of a case is the sequence of its activities. -/
theorem C36_contiguous (caseOf : ρ → κ) (actOf : ρ → α) (rows : List ρ) (hc : Contiguous caseOf rows) :
    (∀ v, count (numpyVariants caseOf actOf rows) v = (caseFreq caseOf actOf rows v : Int)) ∧
    (∀ v, v ∈ keys (numpyVariants caseOf actOf rows) ↔ ∃ r ∈ rows, v = caseTrace caseOf actOf rows (caseOf r)) ∧
    (∀ c, get? (numpyCaseVariant caseOf actOf rows) c =
      if c ∈ rows.map caseOf then some (caseTrace caseOf actOf rows c) else none) := by
  refine ⟨numpyVariants_count caseOf actOf rows hc, ?_, ?_⟩
  · intro v
    unfold numpyVariants
    rw [Counter.keys_ofList, numpyCaseVariant_eq caseOf actOf rows hc, List.map_map]
    simp only [List.mem_map, (npUnique_perm _).mem_iff, firstOcc_mem, Function.comp]
    constructor
    · rintro ⟨c, ⟨r, hr, rfl⟩, rfl⟩; exact ⟨r, hr, rfl⟩
    · rintro ⟨r, hr, rfl⟩; exact ⟨_, ⟨r, hr, rfl⟩, rfl⟩
  · intro c
    rw [numpyCaseVariant_eq caseOf actOf rows hc, get?_map]
    simp only [(npUnique_perm _).mem_iff, firstOcc_mem]

/-- C36: on the same contiguous dataframe the two ways of computing the variants (by `groupby` and by numpy) agree. -/
theorem C36_agree (caseOf : ρ → κ) (actOf : ρ → α) (rows : List ρ) (hc : Contiguous caseOf rows) (c : κ) :
    get? (numpyCaseVariant caseOf actOf rows) c = get? (variantsDf caseOf actOf rows) c := by
  rw [(C36_contiguous caseOf actOf rows hc).2.2, variantsDf_eq, get?_map]
  simp only [firstOcc_mem]

/-- C36 fails for dataframes with interleaved cases: two rows per case in timestamp order give a variant that mixes both
cases, and no case has it. -/
theorem C36_interleaved_refuted :
    ¬ ∀ (rows : List (Nat × Nat)) (c : Nat), c ∈ rows.map Prod.fst →
      get? (numpyCaseVariant Prod.fst Prod.snd rows) c = some (caseTrace Prod.fst Prod.snd rows c) := by
  intro h
  have := h [(1, 10), (2, 20), (1, 11), (2, 21)] 1 (by simp)
  rw [numpyCaseVariant_get] at this
  revert this
  decide

/-- the coverage filters on dataframes: the rows of the cases whose variant has at least (at most) that share of the cases -/
theorem C24_df_coverage (caseOf : ρ → κ) (actOf : ρ → α) (p : Rat) (rows : List ρ) (hc : Contiguous caseOf rows) :
    dfMinCoverage caseOf actOf p rows = rows.filter (fun r =>
      decide (p * (firstOcc (rows.map caseOf)).length ≤ (caseFreq caseOf actOf rows (caseTrace caseOf actOf rows (caseOf r)) : Rat))) ∧
    dfMaxCoverage caseOf actOf p rows = rows.filter (fun r =>
      decide ((caseFreq caseOf actOf rows (caseTrace caseOf actOf rows (caseOf r)) : Rat) ≤ p * (firstOcc (rows.map caseOf)).length)) := by
  have key : ∀ q : Int → Bool, dfApply caseOf actOf true (((numpyVariants caseOf actOf rows).filter fun e => q e.2).map Prod.fst) rows =
      rows.filter fun r => q (caseFreq caseOf actOf rows (caseTrace caseOf actOf rows (caseOf r))) := by
    intro q
    rw [dfApply_eq]
    apply List.filter_congr
    intro r hr
    have hm : caseTrace caseOf actOf rows (caseOf r) ∈ ((numpyVariants caseOf actOf rows).filter fun e => q e.2).map Prod.fst ↔
        q (caseFreq caseOf actOf rows (caseTrace caseOf actOf rows (caseOf r))) = true := by
      have hkey := ((C36_contiguous caseOf actOf rows hc).2.1 (caseTrace caseOf actOf rows (caseOf r))).2 ⟨r, hr, rfl⟩
      have hcount := (C36_contiguous caseOf actOf rows hc).1 (caseTrace caseOf actOf rows (caseOf r))
      have hnod : (keys (numpyVariants caseOf actOf rows)).Nodup := Counter.nodup_ofList _
      simp only [List.mem_map, List.mem_filter]
      constructor
      · rintro ⟨⟨v, n⟩, ⟨hmem, hq⟩, hv⟩
        simp only at hv hq
        subst hv
        have := get?_of_mem_nodup hnod hmem
        rw [← hcount]; unfold count; rw [this]; exact hq
      · intro hq
        rw [mem_keys_iff] at hkey
        obtain ⟨n, hn⟩ := Option.isSome_iff_exists.1 hkey
        refine ⟨(_, n), ⟨mem_of_get? hn, ?_⟩, rfl⟩
        rw [← hcount] at hq; unfold count at hq; rw [hn] at hq; exact hq
    by_cases h : q (caseFreq caseOf actOf rows (caseTrace caseOf actOf rows (caseOf r))) = true
    · rw [h, decide_eq_true (hm.2 h)]; rfl
    · have := fun hc' => h (hm.1 hc')
      rw [Bool.not_eq_true] at h
      rw [h, decide_eq_false this]; rfl
  have := key fun n => decide ((n : Rat) ≥ p * (firstOcc (rows.map caseOf)).length)
  have := key fun n => decide ((n : Rat) ≤ p * (firstOcc (rows.map caseOf)).length)
  constructor
  · unfold dfMinCoverage
    rw [key fun n => decide ((n : Rat) ≥ p * (firstOcc (rows.map caseOf)).length)]
    simp
  · unfold dfMaxCoverage
    rw [key fun n => decide ((n : Rat) ≤ p * (firstOcc (rows.map caseOf)).length)]
    simp

/-- the top-k filter on dataframes: the kept variants are the first in the ranking by (number of cases, variant) -/
theorem C24_df_top_k (caseOf : ρ → κ) (actOf : ρ → α) (k : Nat) (rows : List ρ) (hc : Contiguous caseOf rows) :
    ∃ K : List (List α), K.Nodup ∧ (∀ v ∈ K, ∃ r ∈ rows, v = caseTrace caseOf actOf rows (caseOf r)) ∧
      K.length = min k (firstOcc ((firstOcc (rows.map caseOf)).map (caseTrace caseOf actOf rows))).length ∧
      (∀ v ∈ K, ∀ r ∈ rows, caseTrace caseOf actOf rows (caseOf r) ∉ K →
        caseFreq caseOf actOf rows (caseTrace caseOf actOf rows (caseOf r)) < caseFreq caseOf actOf rows v ∨
        (caseFreq caseOf actOf rows (caseTrace caseOf actOf rows (caseOf r)) = caseFreq caseOf actOf rows v ∧
          caseTrace caseOf actOf rows (caseOf r) < v)) ∧
      dfTopK caseOf actOf k rows = rows.filter fun r => decide (caseTrace caseOf actOf rows (caseOf r) ∈ K) := by
  obtain ⟨hcount, hkeys, -⟩ := C36_contiguous caseOf actOf rows hc
  have hnod : (keys (numpyVariants caseOf actOf rows)).Nodup := Counter.nodup_ofList _
  let geI : List α × Int → List α × Int → Bool := fun x y =>
    decide (y.2 < x.2) || (decide (x.2 = y.2) && decide (y.1 ≤ x.1))
  have hvc : ((numpyVariants caseOf actOf rows).mergeSort geI).Perm (numpyVariants caseOf actOf rows) :=
    List.mergeSort_perm _ _
  have hpw : ((numpyVariants caseOf actOf rows).mergeSort geI).Pairwise fun x y => geI x y = true :=
    List.pairwise_mergeSort
      (by
        intro a b c hab hbc
        simp only [geI, Bool.or_eq_true, Bool.and_eq_true, decide_eq_true_eq] at *
        rcases hab with h1 | ⟨h1, h2⟩ <;> rcases hbc with h3 | ⟨h3, h4⟩
        · left; omega
        · left; omega
        · left; omega
        · right; exact ⟨by omega, le_trans h4 h2⟩)
      (by
        intro a b
        simp only [geI, Bool.or_eq_true, Bool.and_eq_true, decide_eq_true_eq]
        rcases Int.lt_trichotomy a.2 b.2 with h | h | h
        · right; left; exact h
        · rcases le_total a.1 b.1 with h' | h'
          · right; right; exact ⟨h.symm, h'⟩
          · left; right; exact ⟨h, h'⟩
        · left; left; exact h) _
  generalize hL : (numpyVariants caseOf actOf rows).mergeSort geI = L at hvc hpw
  have hval : ∀ e ∈ L, e.2 = (caseFreq caseOf actOf rows e.1 : Int) := by
    intro e he
    rw [← hcount]; unfold count
    rw [get?_of_mem_nodup (v := e.2) hnod (hvc.mem_iff.1 he)]; rfl
  have hfst : (L.map Prod.fst).Perm (keys (numpyVariants caseOf actOf rows)) := hvc.map _
  have hslice : sliceTo L (min (k : Int) L.length) = L.take (min k L.length) := by
    unfold sliceTo
    rw [if_pos (by omega)]; congr 1; omega
  refine ⟨(L.take (min k L.length)).map Prod.fst, ?_, ?_, ?_, ?_, ?_⟩
  · rw [List.map_take]; exact (hfst.nodup_iff.2 hnod).sublist (List.take_sublist _ _)
  · intro v hv
    rw [List.map_take] at hv
    exact (hkeys v).1 (hfst.mem_iff.1 (List.mem_of_mem_take hv))
  · rw [List.length_map, List.length_take]
    have h1 : L.length = (keys (numpyVariants caseOf actOf rows)).length := by simpa using hfst.length_eq
    have h2 : (keys (numpyVariants caseOf actOf rows)).length =
        (firstOcc ((firstOcc (rows.map caseOf)).map (caseTrace caseOf actOf rows))).length := by
      apply List.Perm.length_eq
      rw [List.perm_ext_iff_of_nodup hnod (firstOcc_nodup _)]
      intro v
      rw [hkeys, firstOcc_mem]
      simp only [List.mem_map, firstOcc_mem]
      constructor
      · rintro ⟨r, hr, rfl⟩; exact ⟨_, ⟨r, hr, rfl⟩, rfl⟩
      · rintro ⟨c, ⟨r, hr, rfl⟩, rfl⟩; exact ⟨r, hr, rfl⟩
    omega
  · intro v hv r hr hw
    rw [List.map_take] at hv hw
    have hwL : caseTrace caseOf actOf rows (caseOf r) ∈ L.map Prod.fst := hfst.mem_iff.2 ((hkeys _).2 ⟨r, hr, rfl⟩)
    have hpw' : (L.map Prod.fst).Pairwise fun v w => caseFreq caseOf actOf rows w < caseFreq caseOf actOf rows v ∨
        (caseFreq caseOf actOf rows w = caseFreq caseOf actOf rows v ∧ w < v) := by
      rw [List.pairwise_map]
      have hne := hfst.nodup_iff.2 hnod
      rw [List.Nodup, List.pairwise_map] at hne
      refine List.Pairwise.imp_of_mem ?_ (hpw.and hne)
      rintro a b ha hb ⟨hab, hab'⟩
      have h1 := hval a ha
      have h2 := hval b hb
      simp only [geI, Bool.or_eq_true, Bool.and_eq_true, decide_eq_true_eq] at hab
      rcases hab with h | ⟨h, h'⟩
      · left; omega
      · right; exact ⟨by omega, lt_of_le_of_ne h' (Ne.symm hab')⟩
    have hsplit := List.take_append_drop (min k L.length) (L.map Prod.fst)
    rw [← hsplit] at hpw' hwL
    rcases List.mem_append.1 hwL with h | h
    · exact absurd h hw
    · exact (List.pairwise_append.1 hpw').2.2 v hv _ h
  · unfold dfTopK
    simp only
    rw [show (numpyVariants caseOf actOf rows).mergeSort (fun x y =>
      decide (y.2 < x.2) || (decide (x.2 = y.2) && decide (y.1 ≤ x.1))) = L from hL, hslice, dfApply_eq]
    apply List.filter_congr; intro r _; simp

/-- On a dataframe with interleaved cases the top-k filter can lose every row, although k variants are asked for. -/
theorem C24_df_top_k_refuted :
    ¬ ∀ (k : Int) (rows : List (Nat × Nat)), 0 < k → rows ≠ [] → dfTopK Prod.fst Prod.snd k rows ≠ [] := by
  intro h
  refine h 5 [(1, 10), (2, 20), (1, 11), (2, 21)] (by decide) (by simp) ?_
  unfold dfTopK
  simp only
  rw [dfApply_eq, List.filter_eq_nil_iff]
  intro r hr hc
  rw [beq_true, decide_eq_true_eq] at hc
  obtain ⟨e, he, hv⟩ := List.mem_map.1 hc
  have he' : e ∈ numpyVariants Prod.fst Prod.snd [(1, 10), (2, 20), (1, 11), (2, 21)] := by
    unfold sliceTo at he
    split at he <;> exact (List.mergeSort_perm _ _).mem_iff.1 (List.mem_of_mem_take he)
  have hk : e.1 ∈ keys (numpyVariants Prod.fst Prod.snd [(1, 10), (2, 20), (1, 11), (2, 21)]) := List.mem_map_of_mem he'
  unfold numpyVariants at hk
  rw [Counter.keys_ofList] at hk
  unfold numpyCaseVariant at hk
  simp only [List.map_map, List.mem_map, (npUnique_perm _).mem_iff, firstOcc_mem] at hk
  obtain ⟨c, ⟨a, ha, rfl⟩, hcv⟩ := hk
  rw [hv] at hcv
  revert hcv
  simp only [List.mem_cons, List.not_mem_nil, or_false] at ha hr
  rcases ha with rfl | rfl | rfl | rfl <;> rcases hr with rfl | rfl | rfl | rfl <;> decide

/-! a contiguous frame -/
namespace FrameExamples
def rows1 : List (Nat × Nat) := [(2, 10), (2, 11), (1, 10), (1, 11), (3, 10)]
example : Contiguous Prod.fst rows1 := by
  intro x m y hi hxy z hz
  obtain ⟨s, t, h⟩ := hi
  -- all splits of a list of five rows
  have hlen : s.length + m.length + t.length = 3 := by
    have := congrArg List.length h
    simp [rows1] at this; omega
  rcases s with _ | ⟨s1, _ | ⟨s2, _ | ⟨s3, s4⟩⟩⟩ <;> rcases m with _ | ⟨m1, _ | ⟨m2, _ | ⟨m3, m4⟩⟩⟩ <;>
    rcases t with _ | ⟨t1, _ | ⟨t2, _ | ⟨t3, t4⟩⟩⟩ <;> simp [rows1] at h hlen hz <;> grind
example : variantsDf Prod.fst Prod.snd rows1 = [(2, [10, 11]), (1, [10, 11]), (3, [10])] := by decide
example : caseFreq Prod.fst Prod.snd rows1 [10, 11] = 2 := by decide
end FrameExamples

end Verif
