import Verif.DfgNet.Theorems
import Verif.DfgNet.PlayoutApply
/-
C44: instances of the hypotheses.
-/
namespace Verif.DfgNet

/-- a → b → c, b → b, with start a, ends c and b. -/
def exDfg : List (Nat × Nat) := [(1, 2), (2, 2), (2, 3)]

/-- `C44_language`, `C44_language_long`: a trace with a loop, accepted; and one that is not. -/
example : (toNet exDfg [1] [2, 3]).Accepts (·.label) im fm [1, 2, 2, 3] := by
  rw [C44_language_long _ _ _ _ (by decide)]
  refine ⟨⟨1, by simp, rfl⟩, ⟨3, by simp, rfl⟩, ?_⟩
  intro i a b h1 h2
  rcases i with _ | _ | _ | i <;> simp at h1 h2 <;> subst h1 <;> subst h2 <;> decide

example : ¬ (toNet exDfg [1] [2, 3]).Accepts (·.label) im fm [1, 3] := by
  rw [C44_language_long _ _ _ _ (by decide)]
  intro h
  have := h.2.2 0 1 3 rfl rfl
  revert this; decide

/-- `C44_invisibles_language`, `C44_invisibles_raises`: fresh names. -/
example : Fresh 8 9 exDfg [1] [2, 3] ∧ (toNet2 8 9 exDfg [1] [2, 3]).isSome := by
  refine ⟨⟨by decide, ⟨?_, ?_⟩, by decide, by decide⟩, by decide⟩ <;> rintro ⟨e, he, h⟩ <;> revert e <;> decide

/-- `C44_option_to_complete`: its hypotheses. -/
example : (∃ a ∈ [1], InArc exDfg a) ∧ (∀ a, Reached exDfg [1] a → ∃ b ∈ [2, 3], Dfg.Path exDfg a b) := by
  refine ⟨⟨1, by simp, (1, 2), by simp [exDfg], .inl rfl⟩, ?_⟩
  rintro a ⟨s, hs, hp⟩
  simp at hs
  subst hs
  have key : ∀ a, Dfg.Path exDfg 1 a → a = 1 ∨ a = 2 ∨ a = 3 := by
    intro a h
    induction h with
    | refl => exact .inl rfl
    | step _ he ih => simp [exDfg] at he; omega
  have h12 : Dfg.Path exDfg 1 2 := .step .refl (by decide)
  rcases key a hp with rfl | rfl | rfl
  · exact ⟨2, by simp, h12⟩
  · exact ⟨2, by simp, .refl⟩
  · exact ⟨3, by simp, .refl⟩

/-- `C44_playout`, `C44_playout_mass`, `C44_trace_probability`, `C44_playout_kept`: a complete graph with a loop, and a heap. -/
def exGraph : Graph Nat := { arcs := [((1, 2), 10), ((2, 2), 4), ((2, 3), 7)], starts := [(1, 10)], ends := [(2, 3), (3, 7)] }

example : Complete exGraph := by
  refine ⟨by decide, by decide, ?_⟩
  intro a ha
  rcases ha with ha | ⟨e, he, rfl⟩
  · revert a; decide
  · revert e; decide

example : Picks (fun l : List (Rat × List Nat) => match l with | [] => none | x :: r => some (x, r)) := by
  constructor
  · intro l x rest h
    cases l with
    | nil => cases h
    | cons y l => cases h; exact List.Perm.refl _
  · intro l h
    cases l with
    | nil => rfl
    | cons y l => cases h

example : traceProb exGraph [1, 2, 2, 3] = 1 * (4 / 14) * (7 / 14) := by decide +kernel
example : traceProb exGraph [1, 3] = 0 := by decide +kernel

end Verif.DfgNet
