import Verif.LogConv.Theorems
/-
C43: hypotheses met by concrete logs and streams.
-/
namespace Verif.LogConv.Ex

/-- A name without the letter `s` does not contain `"case:"`. -/
theorem noCase (k : Key) (h : List.count 's' k = 0) : NoCase k := by
  rintro ⟨s, t, rfl⟩
  simp [casePref] at h

theorem notCase (k : Key) (h : List.count 's' k = 0) : NotCaseKey k := fun hp => noCase k h hp.isInfix

/-- Two traces, with different attributes. -/
def log : List (Trace Nat) :=
  [⟨[(traceId, 1), (['x'], 9)], [[(traceId, 5)], [(traceId, 6), (['t'], 3)]]⟩, ⟨[(['y'], 4), (traceId, 2)], [[(traceId, 5)]]⟩]

theorem log_wellFormed : WellFormed log := by
  constructor
  · decide
  · intro t ht
    simp [log] at ht
    rcases ht with rfl | rfl
    · exact ⟨by simp [DistinctKeys, traceId], by intro a ha; simp at ha; rcases ha with rfl | rfl <;> exact noCase _ (by decide)⟩
    · exact ⟨by simp [DistinctKeys, traceId], by intro a ha; simp at ha; rcases ha with rfl | rfl <;> exact noCase _ (by decide)⟩
  · intro t ht e he x hx
    apply notCase
    revert x e t
    decide
  · intro t ht
    simp [log] at ht
    rcases ht with rfl | rfl
    · exact ⟨1, by decide⟩
    · exact ⟨2, by decide⟩
  · decide

example : toStream log =
    [[(traceId, 5), (glueKey, 1), (casePref ++ ['x'], 9)], [(traceId, 6), (['t'], 3), (glueKey, 1), (casePref ++ ['x'], 9)],
     [(traceId, 5), (casePref ++ ['y'], 4), (glueKey, 2)]] := by decide

example : (toFrame log).2 ≠ log := by decide

/-- Events of two cases, interleaved. -/
def rows : List (Dict Nat) :=
  [[(glueKey, 1), (['t'], 3)], [(glueKey, 2)], [(['t'], 4), (glueKey, 1)]]

theorem rows_distinct : ∀ r ∈ rows, DistinctKeys r := by unfold DistinctKeys; decide
theorem rows_ids : ∀ r ∈ rows, ∃ v, r.get? glueKey = some v := by
  intro r hr
  simp [rows] at hr
  rcases hr with rfl | rfl | rfl
  · exact ⟨1, by decide⟩
  · exact ⟨2, by decide⟩
  · exact ⟨1, by decide⟩

theorem rows_names : ∀ r ∈ rows, ∀ x ∈ r, ∀ k, x.1 = casePref ++ k → NoCase k := by
  intro r hr x hx k hk
  have : x.1 = glueKey ∨ x.1 = ['t'] := by clear hk; revert r x; decide
  rcases this with h | h
  · rw [h] at hk
    rw [← List.append_cancel_left (show casePref ++ traceId = casePref ++ k from hk)]
    exact traceId_noCase
  · rw [h] at hk; simp [casePref] at hk

theorem rows_const : ∀ r ∈ rows, ∀ s ∈ rows, r.get? glueKey = s.get? glueKey →
    ∀ k, r.get? (casePref ++ k) = s.get? (casePref ++ k) := by
  have key : ∀ r ∈ rows, ∀ k, r.get? (casePref ++ k) = if k = traceId then r.get? glueKey else none := by
    intro r hr k
    by_cases hk : k = traceId
    · subst hk; rw [if_pos rfl]; rfl
    · rw [if_neg hk, get?_none]
      have hsub : ∀ y ∈ r.map Prod.fst, y = glueKey ∨ y = ['t'] := by revert r; decide
      intro hm
      rcases hsub _ hm with h | h
      · exact hk (List.append_cancel_left (show casePref ++ k = casePref ++ traceId from h))
      · simp [casePref] at h
  intro r hr s hs h k
  rw [key r hr, key s hs, h]

example : toLog glueKey rows =
    some [⟨[(traceId, 1)], [[(['t'], 3)], [(['t'], 4)]]⟩, ⟨[(traceId, 2)], [[]]⟩] := by decide
example : toLog glueKey [[(['t'], 3)]] = (none : Option (List (Trace Nat))) := by decide

end Verif.LogConv.Ex
