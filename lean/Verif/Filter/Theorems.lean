import Verif.Filter.Loops
import Mathlib.Tactic.Ring
/-
C24: filtering an event log on its variants.
-/
namespace Verif
open Filter Dict
variable {α τ : Type} [LinearOrder α]

/-- `get_variants`: each variant of the log once, in the order of first occurrence, with its traces in log order. -/
theorem C24_variants (var : τ → List α) (log : List τ) :
    getVariants var log = (firstOcc (log.map var)).map fun v => (v, tracesOf var log v) := getVariants_eq var log

/-- `get_variants_sorted_by_count`: each variant once with its number of traces, the more frequent first, ties in
descending lexicographic order. -/
theorem C24_sorted (var : τ → List α) (log : List τ) :
    ((sortedByCount (getVariants var log)).map Prod.fst).Perm (firstOcc (log.map var)) ∧
    (∀ e ∈ sortedByCount (getVariants var log), e.2 = freq var log e.1) ∧
    ((sortedByCount (getVariants var log)).map Prod.fst).Pairwise (Above var log) := by
  refine ⟨?_, fun e he => ((sorted_mem var log e).1 he).2, ?_⟩
  · refine ((sorted_perm var log).map Prod.fst).trans (List.Perm.of_eq ?_)
    rw [List.map_map]
    simp [Function.comp_def]
  · rw [List.pairwise_map]
    have h1 := sorted_pairwise (getVariants var log)
    have h2 := sorted_fst_nodup var log
    rw [List.Nodup, List.pairwise_map] at h2
    refine List.Pairwise.imp_of_mem ?_ (h1.and h2)
    rintro a b ha hb ⟨hab, hne⟩
    have hfa := ((sorted_mem var log a).1 ha).2
    have hfb := ((sorted_mem var log b).1 hb).2
    unfold Above
    rw [← hfa, ← hfb]
    rcases hab with h | ⟨h, h'⟩
    · exact .inl h
    · exact .inr ⟨h.symm, lt_of_le_of_ne h' (Ne.symm hne)⟩

/-- The stochastic language: each variant with its share of the traces. -/
theorem C24_language (var : τ → List α) (log : List τ) :
    getLanguage var log = (firstOcc (log.map var)).map (fun v => (v, (freq var log v : Rat) / (log.length : Rat))) ∧
    (log ≠ [] → ((getLanguage var log).map Prod.snd).sum = 1) := by
  have hsum : ((firstOcc (log.map var)).map fun v => freq var log v).sum = log.length := by
    have := map_snd_sum_freq var log (fun _ => true) _ (firstOcc_nodup (log.map var))
    rw [List.filter_true] at this
    rw [this]
    congr 1
    rw [List.filter_eq_self]
    intro t ht
    simpa [firstOcc_mem] using ⟨t, ht, rfl⟩
  have heq : getLanguage var log =
      (firstOcc (log.map var)).map (fun v => (v, (freq var log v : Rat) / (log.length : Rat))) := by
    unfold getLanguage
    simp only [getVariants_eq, List.map_map]
    apply List.map_congr_left
    intro v _
    simp only [Function.comp]
    rw [show (Prod.snd ∘ (fun e : List α × List τ => (e.1, e.2.length)) ∘ fun v => (v, tracesOf var log v)) =
      fun v => freq var log v from rfl, hsum]
    rfl
  refine ⟨heq, fun hne => ?_⟩
  rw [heq, List.map_map]
  have h2 : ∀ (l : List Nat) (k : Rat), (l.map fun n : Nat => (n : Rat) / k).sum = ((l.sum : Nat) : Rat) / k := by
    intro l k
    induction l with
    | nil => simp
    | cons a l ih => simp only [List.map_cons, List.sum_cons, ih]; push_cast; ring
  have h3 := h2 ((firstOcc (log.map var)).map fun v => freq var log v) (log.length : Rat)
  rw [List.map_map] at h3
  have h4 : (Prod.snd ∘ fun v => (v, (freq var log v : Rat) / (log.length : Rat))) =
      (fun n : Nat => (n : Rat) / (log.length : Rat)) ∘ fun v => freq var log v := rfl
  rw [h4, h3, hsum]
  have : (log.length : Rat) ≠ 0 := by
    simpa [List.length_eq_zero_iff] using hne
  exact div_self this

/-- The filter keeps exactly the traces whose variant is (is not) admitted, each as often as before, and keeps the order
of the traces of each variant. -/
theorem C24_kept (var : τ → List α) (pos : Bool) (V : List (List α)) (log : List τ) :
    (applyFilter var pos V log).Perm (log.filter fun t => decide (var t ∈ V) == pos) ∧
    (∀ v, tracesOf var (applyFilter var pos V log) v = if decide (v ∈ V) == pos then tracesOf var log v else []) ∧
    applyFilter var pos V log =
      ((firstOcc (log.map var)).filter fun v => decide (v ∈ V) == pos).flatMap (tracesOf var log) :=
  ⟨applyFilter_perm var pos V log, applyFilter_tracesOf var pos V log, applyFilter_eq var pos V log⟩

/-- Keeping and removing the same variants splits the log. -/
theorem C24_partition (var : τ → List α) (V : List (List α)) (log : List τ) :
    (applyFilter var true V log ++ applyFilter var false V log).Perm log ∧
    ∀ t ∈ applyFilter var true V log, t ∉ applyFilter var false V log := by
  constructor
  · refine ((applyFilter_perm var true V log).append (applyFilter_perm var false V log)).trans ?_
    have := List.filter_append_perm (fun t => decide (var t ∈ V)) log
    refine List.Perm.trans (List.Perm.of_eq ?_) this
    congr 1
    · apply List.filter_congr; intro t _; simp
    · apply List.filter_congr; intro t _; simp
  · intro t ht hf
    have h1 := (List.mem_filter.1 ((applyFilter_perm var true V log).mem_iff.1 ht)).2
    have h2 := (List.mem_filter.1 ((applyFilter_perm var false V log).mem_iff.1 hf)).2
    simp_all

/-- The variants of the result. -/
theorem C24_result_variants (var : τ → List α) (pos : Bool) (V : List (List α)) (log : List τ) (v : List α) :
    v ∈ (applyFilter var pos V log).map var ↔ v ∈ log.map var ∧ (v ∈ V ↔ pos = true) := by
  rw [((applyFilter_perm var pos V log).map var).mem_iff]
  simp only [List.mem_map, List.mem_filter]
  constructor
  · rintro ⟨t, ⟨h1, h2⟩, rfl⟩
    refine ⟨⟨t, h1, rfl⟩, ?_⟩
    cases pos <;> simpa using h2
  · rintro ⟨⟨t, h1, rfl⟩, h2⟩
    refine ⟨t, ⟨h1, ?_⟩, rfl⟩
    cases pos <;> simpa using h2

/-- Filtering twice is filtering once (also the order is the same). -/
theorem C24_idempotent (var : τ → List α) (pos : Bool) (V : List (List α)) (log : List τ) :
    applyFilter var pos V (applyFilter var pos V log) = applyFilter var pos V log := by
  rw [applyFilter_eq var pos V (applyFilter var pos V log), applyFilter_firstOcc, List.filter_filter]
  conv_rhs => rw [applyFilter_eq]
  simp only [Bool.and_self]
  rw [List.flatMap, List.flatMap]
  congr 1
  apply List.map_congr_left
  intro v hv
  rw [applyFilter_tracesOf, if_pos (List.mem_filter.1 hv).2]

/-- If the traces of each variant follow one another in the log, the order of the log is kept. -/
theorem C24_order_grouped (var : τ → List α) (pos : Bool) (V : List (List α)) (log : List τ) (h : Contiguous var log) :
    applyFilter var pos V log = log.filter fun t => decide (var t ∈ V) == pos := by
  have key : ∀ (log : List τ), Contiguous var log → log = (firstOcc (log.map var)).flatMap (tracesOf var log) := by
    intro log hc
    induction log with
    | nil => rfl
    | cons t l ih =>
      have hl : Contiguous var l := fun x m y hi => hc x m y (hi.trans (List.suffix_cons t l).isInfix)
      have ih := ih hl
      simp only [List.map_cons, firstOcc, List.flatMap_cons]
      have hrest : ∀ vs : List (List α), (∀ v ∈ vs, v ≠ var t) → vs.flatMap (tracesOf var (t :: l)) = vs.flatMap (tracesOf var l) := by
        intro vs hvs
        induction vs with
        | nil => rfl
        | cons v vs ihv =>
          rw [List.flatMap_cons, List.flatMap_cons, ihv (fun w hw => hvs w (by simp [hw]))]
          congr 1
          have := hvs v (by simp)
          simp [tracesOf, Ne.symm this]
      have hfilt : ∀ v ∈ (firstOcc (l.map var)).filter (fun b => decide (b ≠ var t)), v ≠ var t := by
        intro v hv; simpa using (List.mem_filter.1 hv).2
      rw [hrest _ hfilt]
      have h1 : tracesOf var (t :: l) (var t) = t :: tracesOf var l (var t) := by simp [tracesOf]
      rw [h1, List.cons_append]
      congr 1
      -- the variant of the first trace either starts the rest or does not occur any more
      cases l with
      | nil => rfl
      | cons u l' =>
        by_cases hu : var u = var t
        · conv_lhs => rw [ih]
          simp only [List.map_cons, firstOcc, List.flatMap_cons, hu]
          congr 1
          congr 1
          rw [List.filter_cons]
          simp [List.filter_filter]
        · have hnot : var t ∉ (u :: l').map var := by
            intro hmem
            obtain ⟨y, hy, hyt⟩ := List.mem_map.1 hmem
            obtain ⟨s1, s2, hsplit⟩ := List.append_of_mem hy
            cases s1 with
            | nil =>
              simp only [List.nil_append, List.cons.injEq] at hsplit
              exact hu (by rw [hsplit.1]; exact hyt)
            | cons w s1 =>
              simp only [List.cons_append, List.cons.injEq] at hsplit
              have := hc t (w :: s1) y ⟨[], s2, by simp [hsplit.1, hsplit.2]⟩ hyt.symm w (by simp)
              exact hu (by rw [hsplit.1]; exact this)
          rw [tracesOf_nil_of var _ _ hnot, List.nil_append]
          conv_lhs => rw [ih]
          congr 1
          symm
          rw [List.filter_eq_self]
          intro v hv
          rw [firstOcc_mem] at hv
          simp only [decide_eq_true_eq]
          rintro rfl; exact hnot hv
  rw [applyFilter_eq]
  have hk := key log h
  conv_rhs => rw [hk]
  rw [List.filter_flatMap]
  generalize firstOcc (log.map var) = vs
  induction vs with
  | nil => rfl
  | cons v vs ih =>
    rw [List.filter_cons, List.flatMap_cons]
    have hvt : ∀ t ∈ tracesOf var log v, var t = v := by intro t ht; simpa using (List.mem_filter.1 ht).2
    split
    · rename_i hv
      rw [List.flatMap_cons, ih]
      congr 1
      symm; rw [List.filter_eq_self]
      intro t ht; rw [hvt t ht]; exact hv
    · rename_i hv
      rw [ih]
      have : (tracesOf var log v).filter (fun t => decide (var t ∈ V) == pos) = [] := by
        rw [List.filter_eq_nil_iff]; intro t ht; rw [hvt t ht]; exact hv
      rw [this, List.nil_append]

/-- `filter_variants_top_k`: the kept variants are the `k` first in the ranking (all of them when there are fewer); a
negative `k` drops the `-k` last ones. -/
theorem C24_top_k (var : τ → List α) (k : Int) (log : List τ) :
    ∃ K : List (List α), K.Nodup ∧ (∀ v ∈ K, v ∈ log.map var) ∧
      (K.length : Int) = (if 0 ≤ k then min k (firstOcc (log.map var)).length
        else max 0 (((firstOcc (log.map var)).length : Int) + k)) ∧
      (∀ v ∈ K, ∀ w ∈ log.map var, w ∉ K → Above var log v w) ∧
      (topK var k log).Perm (log.filter fun t => decide (var t ∈ K)) := by
  obtain ⟨hperm, -, hpair⟩ := C24_sorted var log
  have hn : ((sortedByCount (getVariants var log)).map Prod.fst).Nodup := sorted_fst_nodup var log
  have hlen : (sortedByCount (getVariants var log)).length = (firstOcc (log.map var)).length := by
    simpa using hperm.length_eq
  obtain ⟨j, hj, hslice⟩ : ∃ j : Nat,
      (j : Int) = (if 0 ≤ k then min k (firstOcc (log.map var)).length
        else max 0 (((firstOcc (log.map var)).length : Int) + k)) ∧
      sliceTo (sortedByCount (getVariants var log)) (min k (sortedByCount (getVariants var log)).length) =
        (sortedByCount (getVariants var log)).take j := by
    unfold sliceTo
    rw [hlen]
    by_cases hk : 0 ≤ k
    · have : 0 ≤ min k ((firstOcc (log.map var)).length : Int) := by omega
      refine ⟨(min k ((firstOcc (log.map var)).length : Int)).toNat, ?_, by rw [if_pos this]⟩
      rw [if_pos hk]; omega
    · have : ¬ 0 ≤ min k ((firstOcc (log.map var)).length : Int) := by omega
      refine ⟨(firstOcc (log.map var)).length - (-min k ((firstOcc (log.map var)).length : Int)).toNat, ?_, by rw [if_neg this]⟩
      rw [if_neg hk]; omega
  refine ⟨((sortedByCount (getVariants var log)).take j).map Prod.fst, ?_, ?_, ?_, ?_, ?_⟩
  · rw [List.map_take]; exact hn.sublist (List.take_sublist _ _)
  · intro v hv
    rw [List.map_take] at hv
    have := hperm.mem_iff.1 (List.mem_of_mem_take hv)
    exact (firstOcc_mem _ _).1 this
  · rw [← hj, List.length_map, List.length_take, hlen]
    have : (j : Int) ≤ (firstOcc (log.map var)).length := by rw [hj]; split <;> omega
    omega
  · intro v hv w hw hwn
    rw [List.map_take] at hv hwn
    have hw' : w ∈ (sortedByCount (getVariants var log)).map Prod.fst := hperm.mem_iff.2 ((firstOcc_mem _ _).2 hw)
    have hsplit := List.take_append_drop j ((sortedByCount (getVariants var log)).map Prod.fst)
    rw [← hsplit] at hpair hw'
    rcases List.mem_append.1 hw' with h | h
    · exact absurd h hwn
    · exact (List.pairwise_append.1 hpair).2.2 v hv w h
  · unfold topK
    simp only
    rw [hslice]
    refine (applyFilter_perm var true _ log).trans (List.Perm.of_eq ?_)
    apply List.filter_congr; intro t _; simp

/-- The filters on the coverage keep the traces of the variants with at least (at most) that share of the log. -/
theorem C24_coverage (var : τ → List α) (p : Rat) (log : List τ) :
    (minCoverage var p log).Perm (log.filter fun t => decide (p * log.length ≤ (freq var log (var t) : Rat))) ∧
    (maxCoverage var p log).Perm (log.filter fun t => decide ((freq var log (var t) : Rat) ≤ p * log.length)) := by
  have key : ∀ (q : Nat → Bool), (applyFilter var true
      (((getVariants var log).filter fun e => q e.2.length).map Prod.fst) log).Perm
      (log.filter fun t => q (freq var log (var t))) := by
    intro q
    refine (applyFilter_perm var true _ log).trans (List.Perm.of_eq ?_)
    apply List.filter_congr
    intro t ht
    have hm : var t ∈ ((getVariants var log).filter fun e => q e.2.length).map Prod.fst ↔ q (freq var log (var t)) = true := by
      simp only [getVariants_eq, List.mem_map, List.mem_filter, firstOcc_mem]
      constructor
      · rintro ⟨e, ⟨⟨v, _, rfl⟩, hq⟩, hv⟩
        simp only at hv hq
        subst hv; exact hq
      · intro hq
        exact ⟨(var t, tracesOf var log (var t)), ⟨⟨var t, ⟨t, ht, rfl⟩, rfl⟩, hq⟩, rfl⟩
    by_cases h : q (freq var log (var t)) = true
    · have := hm.2 h; simp only [this, h]; rfl
    · have := fun hc => h (hm.1 hc)
      rw [Bool.not_eq_true] at h
      rw [h, decide_eq_false this]; rfl
  exact ⟨key fun n => decide ((n : Rat) ≥ p * log.length), key fun n => decide ((n : Rat) ≤ p * log.length)⟩

/-- `filter_log_variants_percentage`: a variant is kept when no variant is more frequent, or when the strictly more
frequent variants cover less than the given share of the log; the kept traces cover at least that share. -/
theorem C24_percentage (var : τ → List α) (p : Rat) (log : List τ) :
    (logPctFilter var p log).Perm (log.filter fun t =>
      decide (moreFrequent var log (var t) = 0 ∨ (moreFrequent var log (var t) : Rat) / (log.length : Rat) < p)) ∧
    (∀ v, tracesOf var (logPctFilter var p log) v =
      if moreFrequent var log v = 0 ∨ (moreFrequent var log v : Rat) / (log.length : Rat) < p then tracesOf var log v else []) ∧
    (p ≤ 1 → p * log.length ≤ ((logPctFilter var p log).length : Rat)) := by
  have hn : ((sortedByCount (getVariants var log)).map Prod.fst).Nodup := sorted_fst_nodup var log
  have hmem : ∀ v, v ∈ (sortedByCount (getVariants var log)).map Prod.fst ↔ v ∈ log.map var := by
    intro v
    rw [(C24_sorted var log).1.mem_iff, firstOcc_mem]
  have h1 : (logPctFilter var p log).Perm (log.filter fun t =>
      decide (moreFrequent var log (var t) = 0 ∨ (moreFrequent var log (var t) : Rat) / (log.length : Rat) < p)) := by
    rw [logPctFilter_eq]
    refine (flatMap_perm var log _ (hn.filter _)).trans (List.Perm.of_eq ?_)
    apply List.filter_congr
    intro t ht
    have : var t ∈ (sortedByCount (getVariants var log)).map Prod.fst := (hmem _).2 (List.mem_map_of_mem ht)
    simp only [List.mem_filter, this, true_and, decide_eq_true_eq]
  refine ⟨h1, ?_, ?_⟩
  · intro v
    rw [logPctFilter_eq]
    have := filter_flatMap_tracesOf var log _ (hn.filter fun v =>
      decide (moreFrequent var log v = 0 ∨ (moreFrequent var log v : Rat) / (log.length : Rat) < p)) v
    rw [show ∀ l : List τ, tracesOf var l v = l.filter fun t => decide (var t = v) from fun _ => rfl, this]
    simp only [List.mem_filter, hmem, decide_eq_true_eq]
    by_cases hv : v ∈ log.map var
    · simp only [hv, true_and]
    · have := tracesOf_nil_of var log v hv
      rw [this]
      simp
  · intro hp
    by_cases hempty : log = []
    · subst hempty; simp
    have hlen : (0 : Rat) < (log.length : Rat) := by
      have : 0 < log.length := List.length_pos_iff.2 hempty
      exact_mod_cast this
    rw [h1.length_eq]
    -- either everything is kept, or the dropped trace of highest frequency bounds the kept ones from below
    by_cases hall : ∀ t ∈ log, moreFrequent var log (var t) = 0 ∨ (moreFrequent var log (var t) : Rat) / (log.length : Rat) < p
    · rw [List.filter_eq_self.2 (by intro t ht; simpa using hall t ht)]
      nlinarith
    · push Not at hall
      obtain ⟨t, ht, hne, hge⟩ := hall
      -- choose a dropped trace with the most frequent variant
      have hmax : ∃ u ∈ log, p ≤ (moreFrequent var log (var u) : Rat) / (log.length : Rat) ∧ moreFrequent var log (var u) ≠ 0 ∧
          ∀ w ∈ log, freq var log (var u) < freq var log (var w) →
            (moreFrequent var log (var w) = 0 ∨ (moreFrequent var log (var w) : Rat) / (log.length : Rat) < p) := by
        by_contra hcon
        push Not at hcon
        have hub : ∀ n, ∃ u ∈ log, n ≤ freq var log (var u) ∧ p ≤ (moreFrequent var log (var u) : Rat) / (log.length : Rat) ∧
            moreFrequent var log (var u) ≠ 0 := by
          intro n
          induction n with
          | zero => exact ⟨t, ht, Nat.zero_le _, hge, hne⟩
          | succ n ih =>
            obtain ⟨u, hu, hn', hg', hz⟩ := ih
            obtain ⟨w, hw, hlt, hwz, hwg⟩ := hcon u hu hg' hz
            exact ⟨w, hw, by omega, hwg, hwz⟩
        obtain ⟨u, hu, hbig, _⟩ := hub (log.length + 1)
        have : freq var log (var u) ≤ log.length := List.length_filter_le _ _
        omega
      obtain ⟨u, hu, hug, huz, hmax⟩ := hmax
      have hsub : moreFrequent var log (var u) ≤ (log.filter fun t =>
          decide (moreFrequent var log (var t) = 0 ∨ (moreFrequent var log (var t) : Rat) / (log.length : Rat) < p)).length := by
        unfold moreFrequent
        rw [← List.countP_eq_length_filter, ← List.countP_eq_length_filter]
        apply List.countP_mono_left
        intro w hw hlt
        simp only [decide_eq_true_eq] at hlt ⊢
        exact hmax w hw hlt
      have h2 : p * log.length ≤ (moreFrequent var log (var u) : Rat) := by
        rwa [le_div_iff₀ hlen] at hug
      refine le_trans h2 ?_
      exact_mod_cast hsub

/-- `find_auto_threshold`: the share of the log of the most frequent variants as long as each count exceeds the given
factor of the count before. -/
theorem C24_auto_threshold (var : τ → List α) (f : Rat) (log : List τ) (hne : log ≠ []) :
    ∃ c l, (sortedByCount (getVariants var log)).map Prod.snd = c :: l ∧
      autoThreshold (getVariants var log) f log = some (((c + (slowPrefix f c l).sum : Nat) : Rat) / (log.length : Rat)) := by
  have hpos : ∀ e ∈ (sortedByCount (getVariants var log)).map Prod.snd, 0 < e := by
    intro n hn
    obtain ⟨e, he, rfl⟩ := List.mem_map.1 hn
    obtain ⟨h1, h2⟩ := (sorted_mem var log e).1 he
    rw [h2, freq_pos]; exact h1
  have hne' : (sortedByCount (getVariants var log)).map Prod.snd ≠ [] := by
    intro hc
    rw [List.map_eq_nil_iff] at hc
    cases log with
    | nil => exact hne rfl
    | cons t l =>
      have := (sorted_mem var (t :: l) (var t, freq var (t :: l) (var t))).2 ⟨by simp, rfl⟩
      rw [hc] at this; cases this
  have hlen : log.length ≠ 0 := by simpa [List.length_eq_zero_iff] using hne
  unfold autoThreshold
  rw [if_neg hlen]
  cases hL : (sortedByCount (getVariants var log)).map Prod.snd with
  | nil => exact absurd hL hne'
  | cons c l =>
    refine ⟨c, l, rfl, ?_⟩
    have hc : 0 < c := hpos c (by rw [hL]; simp)
    simp only [autoLoop, true_or, if_true, Nat.zero_add]
    rw [autoLoop_eq f l c c hc]

/-! examples: hypotheses and results on a concrete log -/
namespace FilterExamples
/-- a log of six traces (number, variant) over two activities -/
def log1 : List (Nat × List Nat) := [(0, [1, 2]), (1, [2]), (2, [1, 2]), (3, [2, 2]), (4, [1, 2]), (5, [2])]

example : firstOcc (log1.map Prod.snd) = [[1, 2], [2], [2, 2]] := by decide
example : applyFilter Prod.snd true [[1, 2], [2]] log1 = [(0, [1, 2]), (2, [1, 2]), (4, [1, 2]), (1, [2]), (5, [2])] := by
  rw [applyFilter_eq]; decide
example : moreFrequent Prod.snd log1 [2] = 3 ∧ moreFrequent Prod.snd log1 [1, 2] = 0 ∧ moreFrequent Prod.snd log1 [2, 2] = 5 := by decide
/-- a log whose variants are grouped -/
example : applyFilter Prod.snd false [[3]] [((0 : Nat), [(1 : Nat)]), (1, [1]), (2, [3]), (3, [2])] = [(0, [1]), (1, [1]), (3, [2])] := by
  rw [applyFilter_eq]; decide
end FilterExamples

/-- The order of the log is not kept: retaining all variants of the log can reorder it. -/
theorem C24_order_refuted :
    ¬ ∀ (V : List (List Nat)) (log : List (Nat × List Nat)),
      applyFilter Prod.snd true V log = log.filter fun t => decide (t.2 ∈ V) := by
  intro h
  have := h [[1], [2]] [(0, [1]), (1, [2]), (2, [1])]
  rw [applyFilter_eq] at this
  revert this
  decide

end Verif
