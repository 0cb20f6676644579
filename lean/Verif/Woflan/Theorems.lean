import Verif.Woflan.Names
set_option linter.unusedSectionVars false
/-
C63: what the answer of `check_soundness` says.
-/
namespace Verif.Woflan
variable {P T : Type}

theorem answers_single {N : WNet P T} (hN : Listed N) (hd : DistinctNames N) {i o : P} (hw : IsWorkflowNet N i o) (asap : Bool)
    (O : Oracle P) (x y : P × Int) (r : Bool) : Answers asap O N [x] [y] r ↔
    Step3 asap O (shortCircuit N i o) (vec (single x.1)) r := by
  obtain ⟨h1, h2⟩ := (wf_iff hN hd).2 hw
  unfold Answers
  rw [if_pos ⟨rfl, rfl⟩, h1]
  simp only
  rw [if_pos h2]
  have := convert_single hd i o x.1 x.2
  rw [show (x.1, x.2) = x from rfl] at this
  rw [this]

/-- If some execution returns `True`, the markings have one place each, the net is a workflow net and, if the initial
    marking is on the source, it is sound. -/
theorem _root_.Verif.C63_true {N : WNet P T} (hN : Listed N) (hd : DistinctNames N) (h1000 : N.places.length ≤ 1000)
    {asap : Bool} {O : Oracle P} {im fm : List (P × Int)} (h : Answers asap O N im fm true) :
    ∃ i o x, IsWorkflowNet N i o ∧ im = [x] ∧ fm.length = 1 ∧ (x.1 = i → Sound N i o) := by
  have h' := h
  unfold Answers at h'
  split at h'
  · rename_i hl
    split at h'
    · simp at h'
    · rename_i i o hso
      split at h'
      · rename_i hc
        have hw := (wf_iff hN hd).1 ⟨hso, hc⟩
        obtain ⟨x, rfl⟩ := List.length_eq_one_iff.1 hl.1
        obtain ⟨y, rfl⟩ := List.length_eq_one_iff.1 hl.2
        refine ⟨i, o, x, hw, rfl, rfl, ?_⟩
        rintro rfl
        exact good_sound (step3_true (listed_short hN _ o) h1000 asap O
          ((answers_single hN hd hw asap O x y true).1 h))
      · simp at h'
  · simp at h'

/-- Even if the initial marking is on another place, `True` means that from it finitely many markings of the
    short-circuited net can be reached, each from each other, and every task can be done. -/
theorem _root_.Verif.C63_true_short {N : WNet P T} (hN : Listed N) (hd : DistinctNames N) (h1000 : N.places.length ≤ 1000)
    {asap : Bool} {O : Oracle P} {im fm : List (P × Int)} (h : Answers asap O N im fm true) :
    ∃ i o x, IsWorkflowNet N i o ∧ im = [x] ∧
      (∃ l : List (Mk P), ∀ m, Reaches (shortCircuit N i o) (single x.1) m → m ∈ l) ∧
      (∀ m m', Reaches (shortCircuit N i o) (single x.1) m → Reaches (shortCircuit N i o) (single x.1) m' →
        Reaches (shortCircuit N i o) m m') ∧
      ∀ t, N.label t ≠ none → ∃ m, Reaches (shortCircuit N i o) (single x.1) m ∧ Enabled N m t := by
  obtain ⟨i, o, x, hw, rfl, hf, _⟩ := Verif.C63_true hN hd h1000 h
  obtain ⟨y, rfl⟩ := List.length_eq_one_iff.1 hf
  have hg := step3_true (listed_short hN i o) h1000 asap O ((answers_single hN hd hw asap O x y true).1 h)
  exact ⟨i, o, x, hw, rfl, hg.bounded, hg.connected, fun t ht => hg.tasks (some t) ht⟩

/-- For a sound workflow net with the token on the source, if the S-components found cover all places (or WOFLAN is to go on
    and finds a pair that is not well handled), both constructions end for every order in which nodes are taken, and every
    execution answers `True`. -/
theorem _root_.Verif.C63_complete {N : WNet P T} (hN : Listed N) (hd : DistinctNames N) (h1000 : N.places.length ≤ 1000)
    {i o : P} (hw : IsWorkflowNet N i o) (hs : Sound N i o) (asap : Bool) (O : Oracle P) (k : Int) (y : P × Int)
    (hO : uncovered (shortCircuit N i o) O.supports = [] ∨ (asap = false ∧ O.notWellHandled = true)) :
    (∀ r, Answers asap O N [(i, k)] [y] r ↔ r = true) ∧
    Acc (fun s' s => MctStep (shortCircuit N i o) s s') (mctInit (vec (single i))) ∧
    Acc (fun s' s => RgStep (shortCircuit N i o) s s') (rgInit (vec (single i))) := by
  have hg := sound_good hN hs
  refine ⟨fun r => ?_, ?_, ?_⟩
  · rw [answers_single hN hd hw]
    exact step3_good (listed_short hN i o) h1000 hg asap O hO r
  · exact mct_acc (listed_short hN i o) hg.incomparable hg.bounded
  · exact rg_acc (listed_short hN i o) h1000 hg.bounded

/-- For a sound workflow net whose places are not all covered, the function always answers `False`. -/
theorem _root_.Verif.C63_uncovered {N : WNet P T} (hN : Listed N) (hd : DistinctNames N) {i o : P}
    (hw : IsWorkflowNet N i o) (O : Oracle P) (x y : P × Int) (hO : uncovered (shortCircuit N i o) O.supports ≠ []) (r : Bool) :
    CheckSoundness O N [x] [y] r ↔ r = false := by
  unfold CheckSoundness
  rw [answers_single hN hd hw]
  unfold Step3
  rw [if_neg hO]
  simp

/-- If infinitely many markings can be reached the loop of step 11 does not end. -/
theorem _root_.Verif.C63_unbounded {N : WNet P T} (hN : Listed N) (h1000 : N.places.length ≤ 1000) {m0 : Mk P}
    (h : ∀ l : List (Mk P), ∃ m, Reaches N m0 m ∧ m ∉ l) : ∀ g, ¬ RgEnds N (vec m0) g := by
  intro g hg
  obtain ⟨l, hl⟩ := rg_bounded hN h1000 hg
  obtain ⟨m, hm, hn⟩ := h l
  exact hn (hl m hm)

/-- A net that is not a workflow net, or markings with several places, get the answer `False`. -/
theorem _root_.Verif.C63_not_workflow {N : WNet P T} (hN : Listed N) (hd : DistinctNames N) (asap : Bool) (O : Oracle P)
    (im fm : List (P × Int)) (h : im.length ≠ 1 ∨ fm.length ≠ 1 ∨ ∀ i o, ¬ IsWorkflowNet N i o) (r : Bool) :
    Answers asap O N im fm r ↔ r = false := by
  unfold Answers
  split
  · rename_i hl
    have hw : ∀ i o, ¬ IsWorkflowNet N i o := by
      rcases h with h | h | h
      · exact absurd hl.1 h
      · exact absurd hl.2 h
      · exact h
    split
    · rfl
    · rename_i i o hso
      rw [if_neg]
      intro hc
      exact hw i o ((wf_iff hN hd).1 ⟨hso, hc⟩)
  · rfl

/-- The initial and final markings are not compared with the source and sink: if a sound net is covered by S-components, it
    gets the answer `True` as well for every initial marking that can be reached, and for every final place. -/
theorem _root_.Verif.C63_initial_any {N : WNet P T} (hN : Listed N) (hd : DistinctNames N) (h1000 : N.places.length ≤ 1000)
    {i o : P} (hw : IsWorkflowNet N i o) (hs : Sound N i o) (asap : Bool) (O : Oracle P) (x y : P × Int)
    (hx : Reaches N (single i) (single x.1)) (hO : uncovered (shortCircuit N i o) O.supports = []) (r : Bool) :
    Answers asap O N [x] [y] r ↔ r = true := by
  have hg := (sound_good hN hs).start (reaches_short i o hx)
  rw [answers_single hN hd hw]
  exact step3_good (listed_short hN i o) h1000 hg asap O (.inl hO) r

end Verif.Woflan
