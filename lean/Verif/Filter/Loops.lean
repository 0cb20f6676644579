import Verif.Filter.Proofs
/-
C24: the loops of filter_variants_variants_percentage and find_auto_threshold.
-/
namespace Verif.Filter
open Dict
variable {α τ : Type} [LinearOrder α]

/-- the counts of the entries with a count above `c` -/
def sumAbove (l : List (List α × Nat)) (c : Nat) : Nat := ((l.filter fun e => decide (c < e.2)).map Prod.snd).sum

omit [LinearOrder α] in
theorem sumAbove_append (l m : List (List α × Nat)) (c : Nat) : sumAbove (l ++ m) c = sumAbove l c + sumAbove m c := by
  simp [sumAbove, List.filter_append]

omit [LinearOrder α] in
theorem sumAbove_all {l : List (List α × Nat)} {c : Nat} (h : ∀ e ∈ l, c < e.2) : sumAbove l c = (l.map Prod.snd).sum := by
  unfold sumAbove
  rw [List.filter_eq_self.2]; intro e he; simpa using h e he

omit [LinearOrder α] in
theorem sumAbove_none {l : List (List α × Nat)} {c : Nat} (h : ∀ e ∈ l, e.2 ≤ c) : sumAbove l c = 0 := by
  unfold sumAbove
  rw [List.filter_eq_nil_iff.2]
  · rfl
  · intro e he; have := h e he; simp; omega

omit [LinearOrder α] in
theorem sumAbove_le (l : List (List α × Nat)) (c : Nat) : sumAbove l c ≤ (l.map Prod.snd).sum := by
  induction l with
  | nil => simp [sumAbove]
  | cons e l ih =>
    have : sumAbove (e :: l) c = sumAbove [e] c + sumAbove l c := sumAbove_append [e] l c
    rw [this, List.map_cons, List.sum_cons]
    have h1 : sumAbove [e] c ≤ e.2 := by unfold sumAbove; by_cases h : c < e.2 <;> simp [h]
    omega

/-- which entries are kept -/
def keepE (all : List (List α × Nat)) (n : Nat) (p : Rat) (e : List α × Nat) : Prop :=
  sumAbove all e.2 = 0 ∨ ((sumAbove all e.2 : Nat) : Rat) / (n : Rat) < p

instance (all : List (List α × Nat)) (n : Nat) (p : Rat) (e : List α × Nat) : Decidable (keepE all n p e) := by
  unfold keepE; infer_instance

theorem le_sum_of_mem {l : List Nat} {x : Nat} (h : x ∈ l) : x ≤ l.sum := by
  induction l with
  | nil => cases h
  | cons a l ih =>
    rw [List.sum_cons]
    rcases List.mem_cons.1 h with rfl | h
    · omega
    · have := ih h; omega

theorem pctLoop_eq (d : Dict (List α) (List τ)) (n : Nat) (p : Rat) (pre l : List (List α × Nat))
    (hs : (pre ++ l).Pairwise fun x y => y.2 ≤ x.2) (hpos : ∀ e ∈ pre ++ l, 0 < e.2) (s : Nat) (b : Int)
    (hsum : s = (pre.map Prod.snd).sum) (hkeep : ∀ e ∈ pre, keepE (pre ++ l) n p e)
    (hb : (b = -1 ∧ (pre = [] ∨ (s : Rat) / (n : Rat) < p)) ∨
      (∃ e ∈ pre, (∀ e' ∈ pre, e.2 ≤ e'.2) ∧ b = (e.2 : Int) ∧ (s : Rat) / (n : Rat) ≥ p)) :
    pctLoop d n p l s b = (l.filter fun e => decide (keepE (pre ++ l) n p e)).flatMap fun e => (get? d e.1).getD [] := by
  induction l generalizing pre s b with
  | nil => simp [pctLoop]
  | cons x l ih =>
    obtain ⟨v, c⟩ := x
    have hle_pre : ∀ e ∈ pre, ∀ e' ∈ (v, c) :: l, e'.2 ≤ e.2 := by
      intro e he e' he'
      exact (List.pairwise_append.1 hs).2.2 e he e' he'
    have hle_l : ∀ e ∈ (v, c) :: l, e.2 ≤ c := by
      intro e he
      have := (List.pairwise_append.1 hs).2.1
      rw [List.pairwise_cons] at this
      rcases List.mem_cons.1 he with rfl | he
      · exact Nat.le_refl _
      · exact this.1 e he
    simp only [pctLoop]
    by_cases hc : (c : Int) < b
    · rw [if_pos hc]
      rcases hb with ⟨rfl, _⟩ | ⟨e, he, hmin, rfl, hge⟩
      · omega
      · have hce : c < e.2 := by omega
        symm
        rw [List.filter_eq_nil_iff.2]
        · rfl
        · intro e' he'
          have h1 : e'.2 ≤ c := hle_l e' he'
          have habove : s ≤ sumAbove (pre ++ (v, c) :: l) e'.2 := by
            rw [sumAbove_append, sumAbove_all (l := pre), ← hsum]
            · omega
            · intro e'' he''; have := hmin e'' he''; omega
          have hs0 : 0 < s := by
            rw [hsum]
            have := hpos e (by simp [he])
            have hm : e.2 ≤ (pre.map Prod.snd).sum := le_sum_of_mem (List.mem_map_of_mem he)
            omega
          rw [decide_eq_true_eq, keepE, not_or, not_lt]
          refine ⟨by omega, ?_⟩
          have : (s : Rat) ≤ ((sumAbove (pre ++ (v, c) :: l) e'.2 : Nat) : Rat) := by exact_mod_cast habove
          refine le_trans hge ?_
          exact div_le_div_of_nonneg_right this (by exact_mod_cast Nat.zero_le n)
    · rw [if_neg hc]
      have habove_le : sumAbove (pre ++ (v, c) :: l) c ≤ s := by
        rw [sumAbove_append, sumAbove_none (l := (v, c) :: l) hle_l, Nat.add_zero, hsum]
        exact sumAbove_le _ _
      have hk : keepE (pre ++ (v, c) :: l) n p (v, c) := by
        rcases hb with ⟨_, h | h⟩ | ⟨e, he, hmin, rfl, hge⟩
        · subst h
          left
          rw [List.nil_append]
          exact sumAbove_none hle_l
        · right
          have : ((sumAbove (pre ++ (v, c) :: l) c : Nat) : Rat) ≤ (s : Rat) := by exact_mod_cast habove_le
          exact lt_of_le_of_lt (div_le_div_of_nonneg_right this (by exact_mod_cast Nat.zero_le n)) h
        · have h1 := hle_pre e he (v, c) (by simp)
          have h2 : c = e.2 := by simp only at h1; omega
          have := hkeep e he
          unfold keepE at this ⊢
          simp only
          rw [h2]; rw [← h2] at this ⊢; exact this
      have happ : pre ++ (v, c) :: l = (pre ++ [(v, c)]) ++ l := by simp
      rw [List.filter_cons, if_pos (c := decide (keepE (pre ++ (v, c) :: l) n p (v, c)) = true) (by simpa using hk), List.flatMap_cons]
      congr 1
      rw [happ]
      apply ih (pre ++ [(v, c)])
      · rw [← happ]; exact hs
      · rw [← happ]; exact hpos
      · simp [hsum]
      · rw [← happ]
        intro e he
        rcases List.mem_append.1 he with he | he
        · exact hkeep e he
        · simp only [List.mem_singleton] at he; subst he; exact hk
      · by_cases hge : ((s + c : Nat) : Rat) / (n : Rat) ≥ p
        · right
          refine ⟨(v, c), by simp, ?_, by rw [if_pos hge], hge⟩
          intro e he
          rcases List.mem_append.1 he with he | he
          · exact hle_pre e he (v, c) (by simp)
          · simp only [List.mem_singleton] at he; subst he; exact Nat.le_refl _
        · rw [if_neg hge]
          rw [not_le] at hge
          rcases hb with ⟨rfl, _⟩ | ⟨e, he, hmin, rfl, hge'⟩
          · exact .inl ⟨rfl, .inr hge⟩
          · exfalso
            have : (s : Rat) ≤ ((s + c : Nat) : Rat) := by exact_mod_cast Nat.le_add_right s c
            have h3 : (s : Rat) / (n : Rat) ≤ ((s + c : Nat) : Rat) / (n : Rat) :=
              div_le_div_of_nonneg_right this (by exact_mod_cast Nat.zero_le n)
            exact absurd (le_trans hge' h3) (not_le.2 hge)

theorem map_snd_sum_freq (var : τ → List α) (log : List τ) (q : List α → Bool) (vs : List (List α)) (hn : vs.Nodup) :
    (((vs.filter q).map fun v => freq var log v)).sum = (log.filter fun t => decide (var t ∈ vs) && q (var t)).length := by
  have h := (flatMap_perm var log (vs.filter q) (hn.filter _)).length_eq
  rw [List.length_flatMap] at h
  rw [show (fun v => freq var log v) = fun v => (tracesOf var log v).length from rfl, h]
  congr 1
  apply List.filter_congr
  intro t _
  by_cases h1 : var t ∈ vs <;> by_cases h2 : q (var t) = true <;> simp [h1, h2]

theorem sumAbove_eq (var : τ → List α) (log : List τ) (v : List α) :
    sumAbove (sortedByCount (getVariants var log)) (freq var log v) = moreFrequent var log v := by
  unfold sumAbove moreFrequent
  have h := (((sorted_perm var log).filter fun e => decide (freq var log v < e.2)).map Prod.snd).sum_eq
  rw [h, List.filter_map, List.map_map]
  have := map_snd_sum_freq var log (fun w => decide (freq var log v < freq var log w)) _ (firstOcc_nodup (log.map var))
  rw [show (Prod.snd ∘ fun w => (w, freq var log w)) = fun w => freq var log w from rfl,
    show ((fun e : List α × Nat => decide (freq var log v < e.2)) ∘ fun w => (w, freq var log w)) =
      fun w => decide (freq var log v < freq var log w) from rfl, this]
  congr 1
  apply List.filter_congr
  intro t ht
  have : var t ∈ firstOcc (log.map var) := (firstOcc_mem _ _).2 (List.mem_map_of_mem ht)
  simp [this]

/-- the traces kept by the filter on the percentage, in order -/
theorem logPctFilter_eq (var : τ → List α) (p : Rat) (log : List τ) :
    logPctFilter var p log =
      (((sortedByCount (getVariants var log)).map Prod.fst).filter fun v =>
        decide (moreFrequent var log v = 0 ∨ (moreFrequent var log v : Rat) / (log.length : Rat) < p)).flatMap (tracesOf var log) := by
  unfold logPctFilter pctFilter
  have hs : (sortedByCount (getVariants var log)).Pairwise fun x y => y.2 ≤ x.2 := by
    refine List.Pairwise.imp ?_ (sorted_pairwise (getVariants var log))
    intro a b h; rcases h with h | h <;> omega
  have hpos : ∀ e ∈ sortedByCount (getVariants var log), 0 < e.2 := by
    intro e he
    obtain ⟨h1, h2⟩ := (sorted_mem var log e).1 he
    rw [h2, freq_pos]; exact h1
  rw [pctLoop_eq (getVariants var log) log.length p [] (sortedByCount (getVariants var log)) hs hpos 0 (-1) (by simp) (by simp) (.inl ⟨rfl, .inl rfl⟩)]
  rw [List.nil_append, List.filter_map, List.flatMap_map]
  have hcongr : ∀ e ∈ sortedByCount (getVariants var log),
      decide (keepE (sortedByCount (getVariants var log)) log.length p e) =
        ((fun v => decide (moreFrequent var log v = 0 ∨ (moreFrequent var log v : Rat) / (log.length : Rat) < p)) ∘ Prod.fst) e := by
    intro e he
    obtain ⟨h1, h2⟩ := (sorted_mem var log e).1 he
    simp only [Function.comp, keepE, h2, sumAbove_eq]
  rw [List.filter_congr hcongr]
  have hg : ∀ e ∈ sortedByCount (getVariants var log), (get? (getVariants var log) e.1).getD [] = tracesOf var log e.1 := by
    intro e he
    obtain ⟨h1, _⟩ := (sorted_mem var log e).1 he
    rw [getVariants_eq, get?_map, if_pos ((firstOcc_mem _ _).2 h1)]; rfl
  generalize sortedByCount (getVariants var log) = L at hg
  induction L with
  | nil => rfl
  | cons e L ih =>
    have ih' := ih (fun e' he' => hg e' (by simp [he']))
    rw [List.filter_cons]
    split
    · rw [List.flatMap_cons, List.flatMap_cons, hg e (by simp), ih']
    · exact ih'

theorem autoLoop_eq (f : Rat) (l : List Nat) (s prev : Nat) (hs : 0 < s) :
    autoLoop f l s (prev : Int) = s + (slowPrefix f prev l).sum := by
  induction l generalizing s prev with
  | nil => simp [autoLoop, slowPrefix]
  | cons c l ih =>
    simp only [autoLoop, slowPrefix]
    by_cases h : (c : Rat) > f * (prev : Rat)
    · have h' : (c : Rat) > f * ((prev : Int) : Rat) := by simpa using h
      rw [if_pos (Or.inr h'), if_pos h, ih (s + c) c (by omega), List.sum_cons]; omega
    · have h' : ¬ (s = 0 ∨ (c : Rat) > f * ((prev : Int) : Rat)) := by
        rintro (h1 | h1)
        · omega
        · exact h (by simpa using h1)
      rw [if_neg h', if_neg h]; simp

end Verif.Filter
