import Verif.Decomp.Merge
/-
Examples and limits for C78.
-/
set_option linter.unusedSectionVars false
namespace Verif
open Decomp
namespace Decomp

/-- register (10), then check (11) and examine (12) in parallel, a silent join (13), decide (14); 20-24 are the labels -/
def exNet : ANet Nat :=
  { net :=
      { places := [0, 1, 2, 3, 4, 5, 6]
        trs := [⟨10, some 20⟩, ⟨11, some 21⟩, ⟨12, some 22⟩, ⟨13, none⟩, ⟨14, some 24⟩]
        arcs := [⟨true, 0, 10, 1⟩, ⟨false, 1, 10, 1⟩, ⟨false, 2, 10, 1⟩, ⟨true, 1, 11, 1⟩, ⟨false, 3, 11, 1⟩, ⟨true, 2, 12, 1⟩, ⟨false, 4, 12, 1⟩,
          ⟨true, 3, 13, 1⟩, ⟨true, 4, 13, 1⟩, ⟨false, 5, 13, 1⟩, ⟨true, 5, 14, 1⟩, ⟨false, 6, 14, 1⟩] }
    im := fun p => if p = 0 then 1 else 0
    fm := fun p => if p = 6 then 1 else 0 }

theorem exProper : Proper exNet.net := ⟨by decide, by decide⟩
theorem exUnweighted : Unweighted exNet.net := by unfold Unweighted; decide
theorem exUnique : UniqueLabels exNet.net := by unfold UniqueLabels; decide
theorem exIm : Within exNet.net exNet.im := by
  intro p hp
  have : p ≠ 0 := fun e => hp (by rw [e]; decide)
  simp [exNet, this]
theorem exFm : Within exNet.net exNet.fm := by
  intro p hp
  have : p ≠ 6 := fun e => hp (by rw [e]; decide)
  simp [exNet, this]

/-- five components; the silent join holds three places together -/
example : (decompose exNet).map (fun C => (C.net.places, C.net.trs.map Tr.name)) =
    [([3, 4, 5], [11, 12, 13, 14]), ([0], [10]), ([1], [10, 11]), ([2], [10, 12]), ([6], [14])] := by decide +kernel

example : decompose exNet ≠ [] := by decide +kernel
example : ∃ r, mergeAll (decompose exNet) = some r ∧ r.net.places.Perm [0, 1, 2, 3, 4, 5, 6] :=
  (C78_merge exNet exProper exUnweighted exUnique exIm exFm (by decide +kernel)).imp fun _ h => ⟨h.1, h.2.1⟩

/-- a word of the net, and its part for a component -/
example : word (decompose exNet)[0].net [20, 22, 21, 24] = [22, 21, 24] := by decide +kernel
example : ∀ a ∈ [20, 22, 21, 24], some a ∈ exNet.net.trs.map Tr.label := by decide

/-- two transitions with the label 20 in a row -/
def exDup : ANet Nat :=
  { net :=
      { places := [0, 1, 2]
        trs := [⟨10, some 20⟩, ⟨11, some 20⟩]
        arcs := [⟨true, 0, 10, 1⟩, ⟨false, 1, 10, 1⟩, ⟨true, 1, 11, 1⟩, ⟨false, 2, 11, 1⟩] }
    im := fun p => if p = 0 then 1 else 0
    fm := fun p => if p = 2 then 1 else 0 }

/-- a transition that takes two tokens -/
def exWeight : ANet Nat :=
  { net :=
      { places := [0, 1]
        trs := [⟨10, some 20⟩]
        arcs := [⟨true, 0, 10, 2⟩, ⟨false, 1, 10, 1⟩] }
    im := fun p => if p = 0 then 1 else 0
    fm := fun p => if p = 1 then 1 else 0 }

end Decomp

/-- C78, limits: duplicated labels.  Transitions with the same label are not kept together (only the label itself becomes a node of the graph, and no
edge leads to the transitions); the net accepts a word that one of its components rejects, so the components are no valid decomposition. -/
theorem C78_duplicates_refuted :
    Proper exDup.net ∧ Unweighted exDup.net ∧ Within exDup.net exDup.im ∧ Within exDup.net exDup.fm ∧
    Accepts exDup [20, 20] ∧ ∃ C ∈ decompose exDup, ¬ Accepts C (word C.net [20, 20]) := by
  refine ⟨⟨by decide, by decide⟩, by unfold Unweighted; decide, ?_, ?_, ?_, ?_⟩
  · intro p hp
    have : p ≠ 0 := fun e => hp (by rw [e]; decide)
    simp [exDup, this]
  · intro p hp
    have : p ≠ 2 := fun e => hp (by rw [e]; decide)
    simp [exDup, this]
  · refine ⟨[10, 11], ⟨fun p => if p = 1 then 1 else 0, ⟨by decide, ?_, ?_⟩, exDup.fm, ⟨by decide, ?_, ?_⟩, rfl⟩, by decide⟩
    · intro p
      by_cases h0 : 0 = p
      · subst h0; decide
      · simp [taken, exDup, h0]
    · intro p
      by_cases h0 : p = 0
      · subst h0; decide
      · by_cases h1 : p = 1
        · subst h1; decide
        · simp [taken, given, exDup, h0, h1, Ne.symm h0, Ne.symm h1]
    · intro p
      by_cases h1 : 1 = p
      · subst h1; decide
      · simp [taken, exDup, h1]
    · intro p
      by_cases h1 : p = 1
      · subst h1; decide
      · by_cases h2 : p = 2
        · subst h2; decide
        · simp [taken, given, exDup, h1, h2, Ne.symm h1, Ne.symm h2]
  · have hmem : compNet exDup [0] ∈ decompose exDup := by
      refine (mem_decompose _ _).2 ⟨[0], by decide +kernel, rfl, .inl (by decide +kernel)⟩
    refine ⟨_, hmem, ?_⟩
    have hnet : (compNet exDup [0]).net = ⟨[0], [⟨10, some 20⟩], [⟨true, 0, 10, 1⟩]⟩ := by decide +kernel
    rintro ⟨s, hr, hl⟩
    have hword : word (compNet exDup [0]).net [20, 20] = [20, 20] := by decide +kernel
    rw [hword] at hl
    match s, hr, hl with
    | [], _, hl => simp [labels] at hl
    | [t], _, hl =>
      have := congrArg List.length hl
      have h2 : (labels (compNet exDup [0]).net [t]).length ≤ 1 := List.length_filterMap_le _ _
      rw [this] at h2
      simp at h2
    | t :: u :: s, hr, _ =>
      obtain ⟨M1, h1, M2, h2, _⟩ := hr
      rw [hnet] at h1 h2
      have ht : t = 10 := by simpa using h1.1
      have hu : u = 10 := by simpa using h2.1
      subst ht hu
      have e := h1.2.2 0
      have f := h2.2.1 0
      have g1 : taken (⟨[0], [⟨10, some 20⟩], [⟨true, 0, 10, 1⟩]⟩ : PNet Nat) 0 10 = 1 := by decide
      have g2 : given (⟨[0], [⟨10, some 20⟩], [⟨true, 0, 10, 1⟩]⟩ : PNet Nat) 0 10 = 0 := by decide
      have g3 : (compNet exDup [0]).im 0 = 1 := by decide +kernel
      rw [g1, g2, g3] at e
      rw [g1] at f
      omega

/-- C78, limits: arc weights get lost.  The transition needs two tokens in the net, and one in the component. -/
theorem C78_weights_refuted :
    Proper exWeight.net ∧ taken exWeight.net 0 10 = 2 ∧ ∃ C ∈ decompose exWeight, 0 ∈ C.net.places ∧ taken C.net 0 10 = 1 := by
  refine ⟨⟨by decide, by decide⟩, by decide, compNet exWeight [0], ?_, by decide +kernel, by decide +kernel⟩
  exact (mem_decompose _ _).2 ⟨[0], by decide +kernel, rfl, .inl (by decide +kernel)⟩

end Verif
