import Verif.Arrival.Model
import Mathlib.Tactic.Ring
import Mathlib.Tactic.NormNum
set_option linter.unusedSectionVars false
/-
C94: average time between case starts and ends.
-/
namespace Verif
namespace Arrival

theorem diffs_length (F : Int → Rat) (l : List Int) : (diffs F l).length = l.length - 1 := by
  induction l with
  | nil => rfl
  | cons a l ih =>
    cases l with
    | nil => rfl
    | cons b l => rw [diffs, List.length_cons, ih]; rfl

theorem diffs_sum (F : Int → Rat) (l : List Int) (h : l ≠ []) : (diffs F l).sum = F (l.getLast h) - F (l.head h) := by
  induction l with
  | nil => exact absurd rfl h
  | cons a l ih =>
    cases l with
    | nil => simp [diffs]
    | cons b l =>
      have e : (a :: b :: l).getLast h = (b :: l).getLast (by simp) := List.getLast_cons (by simp)
      rw [diffs, List.sum_cons, ih (by simp), e, List.head_cons, List.head_cons]
      ring

/-- the first and the last of the sorted times are the smallest and the largest one -/
theorem sorted_ends (l : List Int) (h : l.insertionSort (· ≤ ·) ≠ []) (lo hi : Int) (hlo : lo ∈ l) (hhi : hi ∈ l) (hb : ∀ x ∈ l, lo ≤ x ∧ x ≤ hi) :
    (l.insertionSort (· ≤ ·)).head h = lo ∧ (l.insertionSort (· ≤ ·)).getLast h = hi := by
  have hs : (l.insertionSort (· ≤ ·)).Pairwise (· ≤ ·) := List.pairwise_insertionSort _ l
  have hp := List.perm_insertionSort (· ≤ ·) l
  generalize l.insertionSort (· ≤ ·) = s at h hs hp
  constructor
  · have h1 := (hb _ (hp.mem_iff.1 (List.head_mem h))).1
    have h2 : s.head h ≤ lo := by
      have hm := hp.mem_iff.2 hlo
      cases s with
      | nil => exact absurd rfl h
      | cons a s =>
        rw [List.head_cons]
        rcases List.mem_cons.1 hm with rfl | hm
        · exact le_rfl
        · exact List.rel_of_pairwise_cons hs hm
    exact le_antisymm h2 h1
  · have h1 := (hb _ (hp.mem_iff.1 (List.getLast_mem h))).2
    have h2 : hi ≤ s.getLast h := by
      have hm := hp.mem_iff.2 hhi
      have hd := List.dropLast_append_getLast h
      rw [← hd] at hm hs
      rcases List.mem_append.1 hm with hm | hm
      · exact (List.pairwise_append.1 hs).2.2 _ hm _ (by simp)
      · rw [List.mem_singleton] at hm; exact hm.le
    exact le_antisymm h1 h2

theorem average_eq (F : Int → Rat) (l : List Int) (h2 : 2 ≤ l.length) (lo hi : Int) (hlo : lo ∈ l) (hhi : hi ∈ l) (hb : ∀ x ∈ l, lo ≤ x ∧ x ≤ hi) :
    average F l = (F hi - F lo) / ((l.length : Rat) - 1) := by
  have hl : (l.insertionSort (· ≤ ·)).length = l.length := List.length_insertionSort _ _
  have hne : l.insertionSort (· ≤ ·) ≠ [] := fun e => by rw [e] at hl; simp at hl; omega
  have hd := diffs_length F (l.insertionSort (· ≤ ·))
  rw [hl] at hd
  have hne' : diffs F (l.insertionSort (· ≤ ·)) ≠ [] := fun e => by rw [e] at hd; simp at hd; omega
  obtain ⟨e1, e2⟩ := sorted_ends l hne lo hi hlo hhi hb
  simp only [average]
  rw [if_neg hne', diffs_sum F _ hne, e1, e2, hd, Nat.cast_sub (by omega), Nat.cast_one]

theorem average_small (F : Int → Rat) (l : List Int) (h : l.length < 2) : average F l = 0 := by
  have hd := diffs_length F (l.insertionSort (· ≤ ·))
  rw [List.length_insertionSort] at hd
  simp only [average]
  rw [if_pos (List.eq_nil_of_length_eq_zero (by omega))]

theorem average_perm (F : Int → Rat) (l m : List Int) (h : l.Perm m) : average F l = average F m := by
  have : l.insertionSort (· ≤ ·) = m.insertionSort (· ≤ ·) :=
    List.Perm.eq_of_pairwise (fun _ _ _ _ h1 h2 => le_antisymm h1 h2) (List.pairwise_insertionSort _ _) (List.pairwise_insertionSort _ _)
      ((List.perm_insertionSort _ _).trans (h.trans (List.perm_insertionSort _ _).symm))
  simp only [average, this]

theorem mapM_some {α β : Type} (f : α → Option β) (g : α → β) (l : List α) (h : ∀ x ∈ l, f x = some (g x)) : l.mapM f = some (l.map g) := by
  induction l with
  | nil => rfl
  | cons a l ih => rw [List.mapM_cons, h a (by simp), ih fun x hx => h x (List.mem_cons_of_mem _ hx)]; rfl

end Arrival

open Arrival

/-- C94: the average time between case starts is the time from the earliest to the latest start, over the number of cases minus one; only the two
extreme cases matter. -/
theorem C94_arrival (F : Int → Rat) (log : List (List (Option Int))) (starts : List Int) (hs : starts = log.filterMap fun t => (t.head?).bind id)
    (lo hi : Int) (hlo : lo ∈ starts) (hhi : hi ∈ starts) (hb : ∀ x ∈ starts, lo ≤ x ∧ x ≤ hi) :
    (2 ≤ starts.length → arrival F log = (F hi - F lo) / ((starts.length : Rat) - 1)) ∧ (starts.length < 2 → arrival F log = 0) := by
  subst hs
  exact ⟨fun h => average_eq F _ h lo hi hlo hhi hb, fun h => average_small F _ h⟩

/-- C94: the order of the traces does not matter. -/
theorem C94_order (F : Int → Rat) (log log' : List (List (Option Int))) (h : log.Perm log') : arrival F log = arrival F log' :=
  average_perm F _ _ (h.filterMap _)

/-- C94: the same for the ends of the cases, if the first and the last event of every trace have time stamps. -/
theorem C94_dispersion (F : Int → Rat) (log : List (List (Option Int))) (ends : List Int)
    (he : List.Forall₂ (fun t x => ∃ y, t.head? = some (some y) ∧ t.getLast? = some (some x)) log ends) (lo hi : Int) (hlo : lo ∈ ends) (hhi : hi ∈ ends)
    (hb : ∀ x ∈ ends, lo ≤ x ∧ x ≤ hi) :
    (2 ≤ ends.length → dispersion F log = some ((F hi - F lo) / ((ends.length : Rat) - 1))) ∧ (ends.length < 2 → dispersion F log = some 0) := by
  have : endTimes log = some ends := by
    clear hlo hhi hb
    unfold endTimes
    induction he with
    | nil => rfl
    | cons h _ ih =>
      obtain ⟨y, h1, h2⟩ := h
      rw [List.filter_cons, if_pos (by rw [h1]; rfl), List.mapM_cons, h2, ih]
      rfl
  unfold dispersion
  rw [this]
  exact ⟨fun h => by rw [Option.map_some, average_eq F _ h lo hi hlo hhi hb], fun h => by rw [Option.map_some, average_small F _ h]⟩

/-- C94, refuted: the average end time is an error if only the first event of a trace has a time stamp (the check looks at the first event), and for
one case the event log gives 0 and the data frame no number. -/
theorem C94_refuted (F : Int → Rat) : dispersion F [[some 1, none]] = none ∧ arrival F [[some 1]] = 0 ∧ arrivalDf [("c", 1)] = none :=
  ⟨rfl, rfl, rfl⟩

/-- C94: for at least two cases the data frame gives the average of the log whose traces are the cases. -/
theorem C94_df (rows : List (String × Int)) (h2 : 2 ≤ (rows.map Prod.fst).dedup.length) :
    arrivalDf rows = some (arrival (fun t => (t : Rat)) ((rows.map Prod.fst).dedup.map fun c => (rows.filter fun r => decide (r.1 = c)).map fun r => some r.2)) := by
  have e : startTimes ((rows.map Prod.fst).dedup.map fun c => (rows.filter fun r => decide (r.1 = c)).map fun r => some r.2) =
      (rows.map Prod.fst).dedup.filterMap fun c => ((rows.filter fun r => decide (r.1 = c)).head?).map Prod.snd := by
    unfold startTimes
    rw [List.filterMap_map]
    refine List.filterMap_congr fun c _ => ?_
    simp only [Function.comp]
    cases rows.filter fun r => decide (r.1 = c) <;> rfl
  have hlen : ((rows.map Prod.fst).dedup.filterMap fun c => ((rows.filter fun r => decide (r.1 = c)).head?).map Prod.snd).length = (rows.map Prod.fst).dedup.length := by
    have key : ∀ l : List String, (∀ c ∈ l, c ∈ rows.map Prod.fst) → (l.filterMap fun c => ((rows.filter fun r => decide (r.1 = c)).head?).map Prod.snd).length = l.length := by
      intro l hl
      induction l with
      | nil => rfl
      | cons c l ih =>
        obtain ⟨r, hr, hc⟩ := List.mem_map.1 (hl c (by simp))
        have hne : rows.filter (fun r => decide (r.1 = c)) ≠ [] := List.ne_nil_of_mem (List.mem_filter.2 ⟨hr, by simpa using hc⟩)
        rw [List.filterMap_cons_some (b := ((rows.filter fun r => decide (r.1 = c)).head hne).2) (by rw [List.head?_eq_some_head hne]; rfl),
          List.length_cons, List.length_cons, ih fun c hc => hl c (List.mem_cons_of_mem _ hc)]
    exact key _ fun c hc => List.mem_dedup.1 hc
  simp only [arrivalDf, arrival, average]
  rw [e]
  have hd := diffs_length (fun t => (t : Rat)) ((((rows.map Prod.fst).dedup.filterMap fun c => ((rows.filter fun r => decide (r.1 = c)).head?).map Prod.snd)).insertionSort (· ≤ ·))
  rw [List.length_insertionSort, hlen] at hd
  have hne : diffs (fun t => (t : Rat)) ((((rows.map Prod.fst).dedup.filterMap fun c => ((rows.filter fun r => decide (r.1 = c)).head?).map Prod.snd)).insertionSort (· ≤ ·)) ≠ [] :=
    fun h => by rw [h] at hd; simp only [List.length_nil] at hd; omega
  rw [if_neg hne, if_neg hne]

/-- three cases that start at 0, 4 and 10: the average is 5 -/
example : arrival (fun t => (t : Rat)) [[some 4, some 5], [some 10], [some 0, some 20]] = 5 := by
  have h := (C94_arrival (fun t => (t : Rat)) [[some 4, some 5], [some 10], [some 0, some 20]] [4, 10, 0] rfl 0 10 (by decide) (by decide) (by decide)).1 (by decide)
  rw [h]; norm_num

end Verif
