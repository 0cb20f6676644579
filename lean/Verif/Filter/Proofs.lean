import Verif.Common.ListX
import Verif.Filter.Model
import Mathlib.Tactic.Linarith
import Mathlib.Algebra.Order.Field.Rat
import Mathlib.Data.Rat.Cast.Order
import Mathlib.Tactic.FieldSimp
/-
C24: lemmas on the variants dictionary.
-/
namespace Verif.Filter
open Dict
variable {α τ : Type} [LinearOrder α]

section FirstOcc
variable {β : Type} [DecidableEq β]

theorem firstOcc_mem (l : List β) (x : β) : x ∈ firstOcc l ↔ x ∈ l := by
  induction l with
  | nil => simp [firstOcc]
  | cons a l ih => simp only [firstOcc, List.mem_cons, List.mem_filter, ih]; grind

theorem firstOcc_nodup (l : List β) : (firstOcc l).Nodup := by
  induction l with
  | nil => simp [firstOcc]
  | cons a l ih =>
    simp only [firstOcc, List.nodup_cons]
    exact ⟨by simp, ih.filter _⟩

theorem firstOcc_snoc (l : List β) (a : β) : firstOcc (l ++ [a]) = if a ∈ l then firstOcc l else firstOcc l ++ [a] := by
  induction l with
  | nil => simp [firstOcc]
  | cons b l ih =>
    simp only [List.cons_append, firstOcc, ih]
    by_cases h : a ∈ l
    · simp [h]
    · by_cases hb : a = b
      · subst hb; simp [h]
      · simp [h, hb]

theorem firstOcc_of_nodup {l : List β} (h : l.Nodup) : firstOcc l = l := by
  induction l with
  | nil => rfl
  | cons a l ih =>
    rw [List.nodup_cons] at h
    simp only [firstOcc, ih h.2]
    congr 1
    rw [List.filter_eq_self]; intro b hb
    simp; rintro rfl; exact h.1 hb

end FirstOcc

/-- the positions of the traces of a variant -/
def idxOfVar (var : τ → List α) (log : List τ) (v : List α) : List Nat :=
  (log.zipIdx.filter fun p => decide (var p.1 = v)).map Prod.snd

theorem set_map_eq {κ ν : Type} [DecidableEq κ] (ks : List κ) (hn : ks.Nodup) (f : κ → ν) (v : κ) (x : ν) (hv : v ∈ ks) :
    Dict.set (ks.map fun k => (k, f k)) v x = ks.map fun k => (k, if k = v then x else f k) := by
  induction ks with
  | nil => cases hv
  | cons k ks ih =>
    rw [List.nodup_cons] at hn
    simp only [List.map_cons, Dict.set]
    by_cases h : k = v
    · subst h
      simp only [if_true, List.cons.injEq, true_and]
      apply List.map_congr_left
      intro k' hk'
      have : k' ≠ k := by rintro rfl; exact hn.1 hk'
      simp [this]
    · have hv' : v ∈ ks := by simpa [Ne.symm h] using hv
      simp [h, ih hn.2 hv']

theorem get?_map {κ : Type} [DecidableEq κ] (ks : List κ) {ν : Type} (f : κ → ν) (v : κ) :
    get? (ks.map fun k => (k, f k)) v = if v ∈ ks then some (f v) else none := by
  induction ks with
  | nil => simp
  | cons k ks ih =>
    simp only [List.map_cons, get?_cons, ih, List.mem_cons]
    by_cases h : k = v
    · subst h; simp
    · simp [h, Ne.symm h]

theorem set_new {κ ν : Type} [DecidableEq κ] (d : Dict κ ν) (v : κ) (x : ν) (h : v ∉ keys d) : Dict.set d v x = d ++ [(v, x)] := by
  induction d with
  | nil => rfl
  | cons e d ih =>
    obtain ⟨k, y⟩ := e
    simp only [keys, List.map_cons, List.mem_cons, not_or] at h
    simp only [Dict.set, Ne.symm h.1, if_false, List.cons_append, List.cons.injEq, true_and]
    exact ih h.2

theorem variantsIdx_eq (var : τ → List α) (log : List τ) :
    variantsIdx var log = (firstOcc (log.map var)).map fun v => (v, idxOfVar var log v) := by
  induction log using snocInduct with
  | nil => rfl
  | snoc log t ih =>
  unfold variantsIdx at ih ⊢
  rw [List.zipIdx_append, List.foldl_append, ih]
  simp only [List.zipIdx_cons, List.zipIdx_nil, List.foldl_cons, List.foldl_nil, Nat.zero_add, List.map_append, List.map_cons,
    List.map_nil, firstOcc_snoc]
  have hidx : ∀ v, idxOfVar var (log ++ [t]) v = idxOfVar var log v ++ if var t = v then [log.length] else [] := by
    intro v
    unfold idxOfVar
    rw [List.zipIdx_append, List.filter_append, List.map_append]
    by_cases h : var t = v <;> simp [h]
  have hn := firstOcc_nodup (log.map var)
  by_cases h : var t ∈ log.map var
  · have hk : var t ∈ firstOcc (log.map var) := (firstOcc_mem _ _).2 h
    have hh : has (List.map (fun v => (v, idxOfVar var log v)) (firstOcc (log.map var))) (var t) = true := by
      unfold has; rw [get?_map]; simp [hk]
    rw [hh]
    simp only [if_true, get?_map, hk, Option.getD_some]
    rw [set_map_eq _ hn _ _ _ hk, if_pos h]
    apply List.map_congr_left
    intro v _
    rw [hidx]
    by_cases hv : v = var t
    · subst hv; simp
    · simp [hv, Ne.symm hv]
  · have hk : var t ∉ firstOcc (log.map var) := fun hc => h ((firstOcc_mem _ _).1 hc)
    have hh : has (List.map (fun v => (v, idxOfVar var log v)) (firstOcc (log.map var))) (var t) = false := by
      unfold has; rw [get?_map]; simp [hk]
    have hnk : var t ∉ keys (List.map (fun v => (v, idxOfVar var log v)) (firstOcc (log.map var))) := by
      rw [mem_keys_iff, get?_map]; simp [hk]
    rw [hh, if_neg h]
    simp only [Bool.false_eq_true, if_false]
    rw [set_new _ _ _ hnk]
    have hg : get? (List.map (fun v => (v, idxOfVar var log v)) (firstOcc (log.map var)) ++ [(var t, ([] : List Nat))]) (var t) = some [] := by
      rw [← set_new _ _ _ hnk, get?_set]; simp
    rw [hg]
    simp only [Option.getD_some, List.nil_append, List.map_append, List.map_cons, List.map_nil]
    have hset : ∀ (d : Dict (List α) (List Nat)) v x y, v ∉ keys d → Dict.set (d ++ [(v, x)]) v y = d ++ [(v, y)] := by
      intro d v x y hd
      induction d with
      | nil => simp [Dict.set]
      | cons e d ih =>
        obtain ⟨k, z⟩ := e
        simp only [keys, List.map_cons, List.mem_cons, not_or] at hd
        simp only [List.cons_append, Dict.set, Ne.symm hd.1, if_false, List.cons.injEq, true_and]
        exact ih hd.2
    rw [hset _ _ _ _ hnk]
    congr 1
    · apply List.map_congr_left
      intro v hv
      rw [hidx]
      have : var t ≠ v := by rintro rfl; exact hk hv
      simp [this]
    · rw [hidx]
      have : idxOfVar var log (var t) = [] := by
        unfold idxOfVar
        rw [List.map_eq_nil_iff, List.filter_eq_nil_iff]
        intro p hp
        simp only [decide_eq_true_eq]
        intro hc
        apply h
        rw [← hc]
        exact List.mem_map_of_mem (List.fst_mem_of_mem_zipIdx hp)
      simp [this]

theorem traces_of_idx (var : τ → List α) (log : List τ) (v : List α) :
    (idxOfVar var log v).filterMap (fun i => log[i]?) = tracesOf var log v := by
  unfold idxOfVar tracesOf
  rw [List.filterMap_map]
  have h1 : ∀ p ∈ log.zipIdx.filter (fun p => decide (var p.1 = v)), ((fun i => log[i]?) ∘ Prod.snd) p = some p.1 := by
    intro p hp
    have := (List.mem_filter.1 hp).1
    obtain ⟨t, i⟩ := p
    have := List.mem_zipIdx_iff_getElem?.1 this
    simpa using this
  rw [List.filterMap_congr h1]
  rw [show (fun p : τ × Nat => some p.1) = some ∘ Prod.fst from rfl, List.filterMap_eq_map]
  have h2 : ∀ (l : List τ) n, ((l.zipIdx n).filter fun p => decide (var p.1 = v)).map Prod.fst = l.filter fun t => decide (var t = v) := by
    intro l
    induction l with
    | nil => simp
    | cons t l ih =>
      intro n
      simp only [List.zipIdx_cons, List.filter_cons]
      split <;> simp [ih]
  exact h2 log 0

theorem getVariants_eq (var : τ → List α) (log : List τ) :
    getVariants var log = (firstOcc (log.map var)).map fun v => (v, tracesOf var log v) := by
  unfold getVariants toTraces
  rw [variantsIdx_eq, List.map_map]
  apply List.map_congr_left
  intro v _
  simp [traces_of_idx]

/-- the result of `apply` in terms of the specification -/
theorem applyFilter_eq (var : τ → List α) (pos : Bool) (V : List (List α)) (log : List τ) :
    applyFilter var pos V log =
      ((firstOcc (log.map var)).filter fun v => decide (v ∈ V) == pos).flatMap (tracesOf var log) := by
  unfold applyFilter
  rw [getVariants_eq, List.flatMap_map]
  induction firstOcc (log.map var) with
  | nil => rfl
  | cons v l ih =>
    rw [List.flatMap_cons, ih, List.filter_cons]
    by_cases h : v ∈ V <;> cases pos <;> simp [h]

theorem filter_flatMap_tracesOf (var : τ → List α) (log : List τ) (vs : List (List α)) (hn : vs.Nodup) (v : List α) :
    (vs.flatMap (tracesOf var log)).filter (fun t => decide (var t = v)) = if v ∈ vs then tracesOf var log v else [] := by
  induction vs with
  | nil => simp
  | cons w vs ih =>
    rw [List.nodup_cons] at hn
    rw [List.flatMap_cons, List.filter_append, ih hn.2]
    by_cases h : v = w
    · subst h
      simp only [List.mem_cons, true_or, if_true, hn.1, if_false, List.append_nil]
      unfold tracesOf; simp [List.filter_filter]
    · have : (tracesOf var log w).filter (fun t => decide (var t = v)) = [] := by
        rw [List.filter_eq_nil_iff]; intro t ht
        have := (List.mem_filter.1 ht).2
        simp only [decide_eq_true_eq] at this ⊢
        rw [this]; exact Ne.symm h
      rw [this]
      simp [h]

/-- grouping is a permutation -/
theorem flatMap_perm (var : τ → List α) (log : List τ) (vs : List (List α)) (hn : vs.Nodup) :
    (vs.flatMap (tracesOf var log)).Perm (log.filter fun t => decide (var t ∈ vs)) := by
  induction vs with
  | nil => simp
  | cons v vs ih =>
    rw [List.nodup_cons] at hn
    rw [List.flatMap_cons]
    have h1 := (ih hn.2).append_left (tracesOf var log v)
    refine h1.trans ?_
    have h2 : ∀ l : List τ, (l.filter (fun t => decide (var t = v)) ++ l.filter fun t => decide (var t ∈ vs)).Perm
        (l.filter fun t => decide (var t ∈ v :: vs)) := by
      intro l
      induction l with
      | nil => simp
      | cons t l ihl =>
        by_cases h : var t = v
        · have : v ∉ vs := hn.1
          simp [h, this]
          simpa [List.mem_cons] using ihl
        · by_cases h' : var t ∈ vs
          · simp only [List.filter_cons, h, decide_false, Bool.false_eq_true, if_false, h', decide_true, if_true, List.mem_cons, or_true]
            refine List.perm_middle.trans (List.Perm.cons _ ?_)
            simpa [List.mem_cons] using ihl
          · simp [h, h']
            simpa [List.mem_cons] using ihl
    exact h2 log

theorem applyFilter_perm (var : τ → List α) (pos : Bool) (V : List (List α)) (log : List τ) :
    (applyFilter var pos V log).Perm (log.filter fun t => decide (var t ∈ V) == pos) := by
  rw [applyFilter_eq]
  refine (flatMap_perm var log _ ((firstOcc_nodup _).filter _)).trans ?_
  apply List.Perm.of_eq
  apply List.filter_congr
  intro t ht
  have : var t ∈ firstOcc (log.map var) := (firstOcc_mem _ _).2 (List.mem_map_of_mem ht)
  by_cases h : var t ∈ V <;> cases pos <;> simp [this, h]

theorem applyFilter_tracesOf (var : τ → List α) (pos : Bool) (V : List (List α)) (log : List τ) (v : List α) :
    tracesOf var (applyFilter var pos V log) v = if decide (v ∈ V) == pos then tracesOf var log v else [] := by
  rw [applyFilter_eq]
  unfold tracesOf at *
  have := filter_flatMap_tracesOf var log _ ((firstOcc_nodup (log.map var)).filter fun v => decide (v ∈ V) == pos) v
  unfold tracesOf at this
  rw [this]
  by_cases h : (decide (v ∈ V) == pos) = true
  · rw [if_pos h]
    by_cases hv : v ∈ log.map var
    · rw [if_pos]; rw [List.mem_filter, firstOcc_mem]; exact ⟨hv, h⟩
    · rw [if_neg]
      · symm; rw [List.filter_eq_nil_iff]; intro t ht
        simp only [decide_eq_true_eq]
        rintro rfl; exact hv (List.mem_map_of_mem ht)
      · rw [List.mem_filter, firstOcc_mem]; exact fun hc => hv hc.1
  · rw [if_neg h, if_neg]; rw [List.mem_filter]; exact fun hc => h hc.2

theorem firstOcc_append_of {β : Type} [DecidableEq β] (l m : List β) :
    firstOcc (l ++ m) = firstOcc l ++ (firstOcc m).filter fun b => decide (b ∉ l) := by
  induction l with
  | nil => simp [firstOcc]; 
  | cons a l ih =>
    simp only [List.cons_append, firstOcc, ih, List.filter_append, List.filter_filter]
    congr 2
    apply List.filter_congr
    intro b _
    by_cases h : b = a <;> by_cases h' : b ∈ l <;> simp [h, h']

theorem firstOcc_replicateLike (var : τ → List α) (log : List τ) (v : List α) (h : v ∈ log.map var) :
    firstOcc ((tracesOf var log v).map var) = [v] := by
  have hall : ∀ x ∈ (tracesOf var log v).map var, x = v := by
    intro x hx
    obtain ⟨t, ht, rfl⟩ := List.mem_map.1 hx
    simpa using (List.mem_filter.1 ht).2
  have hne : (tracesOf var log v).map var ≠ [] := by
    obtain ⟨t, ht, rfl⟩ := List.mem_map.1 h
    intro hc
    rw [List.map_eq_nil_iff] at hc
    have : t ∈ tracesOf var log (var t) := List.mem_filter.2 ⟨ht, by simp⟩
    rw [hc] at this; cases this
  revert hall hne
  generalize (tracesOf var log v).map var = l
  intro hall hne
  cases l with
  | nil => exact absurd rfl hne
  | cons a l =>
    obtain rfl := hall a (by simp)
    simp only [firstOcc]
    congr 1
    rw [List.filter_eq_nil_iff]
    intro b hb
    rw [firstOcc_mem] at hb
    have := hall b (by simp [hb])
    simp [this]

theorem firstOcc_flatMap (var : τ → List α) (log : List τ) (vs : List (List α)) (hn : vs.Nodup) (hs : ∀ v ∈ vs, v ∈ log.map var) :
    firstOcc ((vs.flatMap (tracesOf var log)).map var) = vs := by
  induction vs with
  | nil => rfl
  | cons v vs ih =>
    rw [List.nodup_cons] at hn
    rw [List.flatMap_cons, List.map_append, firstOcc_append_of, ih hn.2 (fun w hw => hs w (by simp [hw])),
      firstOcc_replicateLike var log v (hs v (by simp))]
    simp only [List.singleton_append, List.cons.injEq, true_and]
    rw [List.filter_eq_self]
    intro w hw
    simp only [decide_eq_true_eq]
    intro hc
    obtain ⟨t, ht, rfl⟩ := List.mem_map.1 hc
    have : var t = v := by simpa using (List.mem_filter.1 ht).2
    exact hn.1 (this ▸ hw)

theorem applyFilter_firstOcc (var : τ → List α) (pos : Bool) (V : List (List α)) (log : List τ) :
    firstOcc ((applyFilter var pos V log).map var) = (firstOcc (log.map var)).filter fun v => decide (v ∈ V) == pos := by
  rw [applyFilter_eq]
  apply firstOcc_flatMap
  · exact (firstOcc_nodup _).filter _
  · intro v hv; exact (firstOcc_mem _ _).1 (List.mem_filter.1 hv).1

theorem tracesOf_nil_of (var : τ → List α) (log : List τ) (v : List α) (h : v ∉ log.map var) : tracesOf var log v = [] := by
  unfold tracesOf
  rw [List.filter_eq_nil_iff]; intro t ht
  simp only [decide_eq_true_eq]
  rintro rfl; exact h (List.mem_map_of_mem ht)

theorem freq_pos (var : τ → List α) (log : List τ) (v : List α) : 0 < freq var log v ↔ v ∈ log.map var := by
  unfold freq
  rw [List.length_pos_iff]
  constructor
  · intro h; by_contra hc; exact h (tracesOf_nil_of var log v hc)
  · intro h hc
    obtain ⟨t, ht, rfl⟩ := List.mem_map.1 h
    have : t ∈ tracesOf var log (var t) := List.mem_filter.2 ⟨ht, by simp⟩
    rw [hc] at this; cases this

/-! sorting -/

def geB (x y : List α × Nat) : Bool := decide (y.2 < x.2) || (decide (x.2 = y.2) && decide (y.1 ≤ x.1))

theorem sorted_perm (var : τ → List α) (log : List τ) :
    (sortedByCount (getVariants var log)).Perm ((firstOcc (log.map var)).map fun v => (v, freq var log v)) := by
  unfold sortedByCount
  refine (List.mergeSort_perm _ _).trans ?_
  rw [getVariants_eq, List.map_map]
  rfl

theorem sorted_pairwise (d : Dict (List α) (List τ)) :
    (sortedByCount d).Pairwise fun x y => y.2 < x.2 ∨ (x.2 = y.2 ∧ y.1 ≤ x.1) := by
  have h := List.pairwise_mergeSort (le := geB (α := α)) (l := d.map fun e => (e.1, e.2.length))
    (by
      intro a b c hab hbc
      simp only [geB, Bool.or_eq_true, Bool.and_eq_true, decide_eq_true_eq] at *
      rcases hab with h1 | ⟨h1, h2⟩ <;> rcases hbc with h3 | ⟨h3, h4⟩
      · left; omega
      · left; omega
      · left; omega
      · right; exact ⟨by omega, le_trans h4 h2⟩)
    (by
      intro a b
      simp only [geB, Bool.or_eq_true, Bool.and_eq_true, decide_eq_true_eq]
      rcases Nat.lt_trichotomy a.2 b.2 with h | h | h
      · right; left; exact h
      · rcases le_total a.1 b.1 with h' | h'
        · right; right; exact ⟨h.symm, h'⟩
        · left; right; exact ⟨h, h'⟩
      · left; left; exact h)
  refine List.Pairwise.imp ?_ h
  intro a b hab
  simpa [geB] using hab

theorem sorted_fst_nodup (var : τ → List α) (log : List τ) : ((sortedByCount (getVariants var log)).map Prod.fst).Nodup := by
  have := ((sorted_perm var log).map Prod.fst).nodup_iff
  rw [this, List.map_map]
  simpa [Function.comp_def] using firstOcc_nodup (log.map var)

theorem sorted_mem (var : τ → List α) (log : List τ) (e : List α × Nat) :
    e ∈ sortedByCount (getVariants var log) ↔ e.1 ∈ log.map var ∧ e.2 = freq var log e.1 := by
  rw [(sorted_perm var log).mem_iff]
  simp only [List.mem_map, firstOcc_mem]
  constructor
  · rintro ⟨v, hv, rfl⟩; exact ⟨by simpa using hv, rfl⟩
  · rintro ⟨h1, h2⟩; refine ⟨e.1, by simpa using h1, ?_⟩; rw [← h2]

end Verif.Filter
