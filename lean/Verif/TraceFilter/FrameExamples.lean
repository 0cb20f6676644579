import Verif.TraceFilter.FrameBetween
/-
C42: concrete dataframes that meet the hypotheses of the theorems.
-/
namespace Verif.TraceFilter.FrameEx
open Verif.TraceFilter

/-- Rows: case, activity, resource, time. -/
abbrev Row := Nat × String × String × Int
abbrev cs (r : Row) : Nat := r.1
abbrev ac (r : Row) : Option String := some r.2.1
abbrev rs (r : Row) : Option String := some r.2.2.1
abbrev tm (r : Row) : Int := r.2.2.2

def df : List Row := [(1, "A", "ann", 0), (1, "B", "bob", 5), (1, "C", "ann", 9), (2, "A", "ann", 1), (2, "C", "ann", 4),
  (3, "B", "bob", 2), (3, "A", "bob", 3), (3, "B", "bob", 7)]

/-- Contiguity is decidable on indices. -/
theorem contiguous_of_idx {rows : List Row}
    (h : ((List.range rows.length).all fun i => (List.range rows.length).all fun j => (List.range rows.length).all fun k =>
      !decide (i < k) || !decide (k < j) || !(rows[i]?.map cs == rows[j]?.map cs) ||
        rows[k]?.map cs == rows[i]?.map cs) = true) : Contiguous cs rows := by
  rintro x m y ⟨s, t, hi⟩ hxy z hz
  obtain ⟨n, hn⟩ := List.getElem?_of_mem hz
  have hn' := (List.getElem?_eq_some_iff.1 hn).1
  have hlen : rows.length = s.length + (m.length + 2) + t.length := by rw [← hi]; simp; omega
  have g1 : rows[s.length]? = some x := by rw [← hi]; simp
  have g2 : rows[s.length + 1 + n]? = some z := by
    rw [← hi, List.append_assoc, List.getElem?_append_right (by omega)]
    have e : s.length + 1 + n - s.length = n + 1 := by omega
    rw [e]
    simp only [List.cons_append, List.getElem?_cons_succ, List.append_assoc]
    rw [List.getElem?_append_left hn']
    exact hn
  have g3 : rows[s.length + 1 + m.length]? = some y := by
    rw [← hi, List.append_assoc, List.getElem?_append_right (by omega)]
    have e : s.length + 1 + m.length - s.length = m.length + 1 := by omega
    rw [e]
    simp
  simp only [List.all_eq_true, List.mem_range] at h
  have := h s.length (by omega) (s.length + 1 + m.length) (by omega) (s.length + 1 + n) (by omega)
  rw [g1, g2, g3] at this
  simp [hxy] at this
  rcases this with h1 | h1
  · omega
  · rw [hxy]; exact h1

theorem df_contiguous : Contiguous cs df := contiguous_of_idx (by decide)

theorem df_case (P : List Row → Prop) (h1 : P (caseRows cs df 1)) (h2 : P (caseRows cs df 2)) (h3 : P (caseRows cs df 3))
    (h0 : P []) : ∀ c, P (caseRows cs df c) := by
  intro c
  by_cases e1 : c = 1
  · subst e1; exact h1
  · by_cases e2 : c = 2
    · subst e2; exact h2
    · by_cases e3 : c = 3
      · subst e3; exact h3
      · have : caseRows cs df c = [] := by
          simp only [caseRows, df]
          rw [List.filter_eq_nil_iff]
          intro r hr
          simp at hr
          rcases hr with rfl | rfl | rfl | rfl | rfl | rfl | rfl | rfl <;> simp [Ne.symm e1, Ne.symm e2, Ne.symm e3]
        rw [this]; exact h0

theorem df_sorted : ∀ c, TimeSorted tm (caseRows cs df c) :=
  df_case _ (by unfold TimeSorted; decide) (by unfold TimeSorted; decide) (by unfold TimeSorted; decide) (by simp [TimeSorted])

/-- Hypotheses of `C42_next_next`: A, B and C occur at most once in the cases 1 and 2 (here without case 3). -/
def df2 : List Row := df.take 5

theorem df2_contiguous : Contiguous cs df2 := contiguous_of_idx (by decide)

example : (nextDf cs ac true "A" "B" "C" df2).map cs = [1, 1, 1] := by decide
example : (nextDf cs ac false "A" "B" "C" df2).map cs = [2, 2] := by decide

/-- Hypothesis of `C42_four_eyes` (B always by the same resource within a case). -/
theorem df_one_resource : ∀ c x y, Did ac rs (caseRows cs df c) "B" x → Did ac rs (caseRows cs df c) "B" y → x = y := by
  refine df_case (fun t => ∀ x y, Did ac rs t "B" x → Did ac rs t "B" y → x = y) ?_ ?_ ?_ ?_ <;>
  · rintro x y ⟨e, he, h1, h2⟩ ⟨f, hf, h3, h4⟩
    simp [caseRows, df, cs] at he hf
    try first
      | (rcases he with rfl | rfl | rfl <;> rcases hf with rfl | rfl | rfl <;> simp_all)
      | (rcases he with rfl | rfl <;> rcases hf with rfl | rfl <;> simp_all)
      | simp_all

example : (fourEyesDf cs ac rs true "A" "B" df).map cs = [1, 1, 1] := by decide
example : (fourEyesDf cs ac rs false "A" "B" df).map cs = [3, 3, 3] := by decide
example : (efDf cs ac tm true false [] ["A", "C"] df).map (List.map cs) = some [1, 1, 1, 2, 2] := by decide
example : (efDf cs ac tm true true [(0, 3)] ["A", "C"] df).map (List.map cs) = some [2, 2] := by decide
example : (reworkDf cs (fun r => r.2.1) true "B" 2 df).map cs = [3, 3, 3] := by decide
example : (repetitionDf cs ac "B" 1 (some 1) df).map cs = [1, 1, 1] := by decide
example : (containedDf cs tm 1 7 df).map cs = [2, 2, 3, 3, 3] := by decide
example : (intersectingDf cs tm 6 8 df).map cs = [1, 1, 1, 3, 3, 3] := by decide
example : (prefixesDf cs ac true true "B" df) = [(1, "A", "ann", 0)] := by decide
example : (suffixesDf cs ac true true "B" df).map cs = [1, 3, 3] := by decide
example : (toLog cs df).map List.length = [3, 2, 3] := by decide

/-- Hypotheses on the order of the cases in `C42_paths`. -/
theorem nat_order : (∀ a b : Nat, Nat.ble a b = true ∨ Nat.ble b a = true) ∧
    (∀ a b c : Nat, Nat.ble a b = true → Nat.ble b c = true → Nat.ble a c = true) ∧
    (∀ a b : Nat, Nat.ble a b = true → Nat.ble b a = true → a = b) := by
  simp only [Nat.ble_eq]
  exact ⟨fun a b => Nat.le_total a b, fun a b c h1 h2 => Nat.le_trans h1 h2, fun a b h1 h2 => Nat.le_antisymm h1 h2⟩

example : (pathsDf Nat.ble cs (fun r => r.2.1) tm Prod.mk true [("A", "B")] df).map cs = [1, 1, 1, 3, 3, 3] := by decide
example : (pathsPerformanceDf Nat.ble cs (fun r => r.2.1) tm Prod.mk true ("A", "B") 0 4 df).map cs = [3, 3, 3] := by decide

/-- Hypotheses of `C42_between` and `C42_activity_split` for the identifiers. -/
theorem df_ids : (caseIds cs df).Nodup ∧ caseIds cs df = [1, 2, 3] ∧ (caseIds cs df).flatMap (caseRows cs df) = df := by decide

theorem df_segments : Segments (fun r : Row => decide (r.2.1 = "A")) (fun r => decide (r.2.1 = "C")) (caseRows cs df 1)
    [[(1, "A", "ann", 0), (1, "B", "bob", 5), (1, "C", "ann", 9)]] :=
  Segments.found [] (1, "A", "ann", 0) [(1, "B", "bob", 5)] (1, "C", "ann", 9) [] [] (by simp) rfl (by decide) rfl
    (Segments.none [] (by simp))

example : (betweenDf cs (fun r => decide (r.2.1 = "A")) (fun r => decide (r.2.1 = "C")) false (caseIds cs df) df).map
    (fun x => x.2) = [(1, 0), (1, 0), (1, 0), (2, 0), (2, 0)] := by decide
example : (splitDf cs (fun r => decide (r.2.1 = "B")) true (caseIds cs df) df).map (fun x => x.2) =
    [(1, 0), (1, 1), (1, 1), (2, 0), (2, 0), (3, 1), (3, 1), (3, 2)] := by decide

end Verif.TraceFilter.FrameEx
