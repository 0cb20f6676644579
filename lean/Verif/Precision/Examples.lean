import Verif.Precision.Theorems
/-
C66: a model and a log that meet the hypotheses of the theorems, and a net on which the search fails.
-/
namespace Verif
open Dict Reach Align
namespace Precision

/-- a schedule that meets the contract -/
def exSch (S T : Type) : Sched S T := ⟨fun _ l => popMin l, fun _ l => l⟩

theorem exSch_ok (S T : Type) : (exSch S T).Ok where
  pop_nil _ := rfl
  pop_cons _ l h := by
    obtain ⟨x, rest, h1, h2, h3⟩ := popMin_spec l h
    refine ⟨x, rest, h1, h2, fun y hy => ?_⟩
    have := lt_false (h3 y hy)
    simp [before]; omega
  ord_perm _ _ := List.Perm.refl _

/-- silent 0: 0 → 1; `a` 1: 1 → 2; `b` 2: 2 → 3; `c` 3: 2 → 3 -/
def exP : LNet Nat Nat Str where
  places := [0, 1, 2, 3]
  transitions := [0, 1, 2, 3]
  inArcs t := if t = 0 then [(0, 1)] else if t = 1 then [(1, 1)] else [(2, 1)]
  outArcs t := if t = 0 then [(1, 1)] else if t = 1 then [(2, 1)] else [(3, 1)]
  label t := if t = 0 then none else if t = 1 then some ['a'] else if t = 2 then some ['b'] else some ['c']

/-- the run-time choices of the example -/
def exExec : Exec Nat Nat := ⟨fun _ => exSch _ _, id, fun _ => 5, 4⟩

/-- one trace ⟨a, b⟩ -/
def exLog : List (List Str) := [[['a'], ['b']]]

/-- the returned markings, if the search has ended -/
def PSt.result {S T : Type} : PSt S T → Option (Option (List S))
  | .done r => some r
  | _ => none

theorem exP_simple : exP.toNet.Simple where
  noParallel := by intro t _; simp only [exP]; split <;> (try split) <;> simp
  inPos := by intro t _ a ha; simp only [exP] at ha; split at ha <;> (try split at ha) <;> simp at ha <;> subst ha <;> decide
  outPos := by intro t _ a ha; simp only [exP] at ha; split at ha <;> (try split at ha) <;> simp at ha <;> subst ha <;> decide

theorem exP_unit : UnitWeights exP.toNet := by
  intro t _
  constructor <;> intro a ha <;> simp only [exP] at ha <;> split at ha <;> (try split at ha) <;> simp at ha <;> subst ha <;> rfl

example : NoSep exLog := by
  intro tr htr a ha; simp [exLog] at htr; subst htr; simp at ha; rcases ha with rfl | rfl <;> decide

example : ∀ t ∈ exP.transitions, exP.label t = none → exP.inArcs t ≠ [] := by decide

set_option maxRecDepth 100000 in
theorem exP_search : (alignStop [['a']] exP [(0, 1)] [(3, 1)] (exSch _ _) 5).result = some (some [[(.inl 1, 1), (.inr 2, 1)]]) := by decide

set_option maxRecDepth 100000 in
theorem exEnds : exExec.Ends exLog exP [(0, 1)] [(3, 1)] where
  sch _ := exSch_ok _ _
  ord _ := List.Perm.refl _
  search := by
    intro p hp
    have hv : visited exLog = [[['a']]] := by decide
    rw [hv, List.mem_singleton] at hp
    subst hp
    have h := exP_search
    show ∃ r, alignStop [['a']] exP [(0, 1)] [(3, 1)] (exSch _ _) 5 = .done r ∧ _
    cases hst : alignStop [['a']] exP [(0, 1)] [(3, 1)] (exSch _ _) 5 with
    | running o c r q => rw [hst] at h; cases h
    | done r =>
      rw [hst] at h
      simp only [PSt.result, Option.some.injEq] at h
      subst h
      refine ⟨_, rfl, ?_⟩
      intro l hl x hx
      simp only [Option.some.injEq] at hl
      subst hl
      simp only [List.mem_singleton] at hx
      subst hx
      unfold EE.Done; decide
  ini := by unfold EE.Done; decide

/-- the markings with one token -/
def exMarkings : List (Marking Nat) := [[(0, 1)], [(1, 1)], [(2, 1)], [(3, 1)]]

theorem exP_step : ∀ m ∈ exMarkings, ∀ t m', exP.toNet.execute t m = some m' → m' ∈ exMarkings := by
  intro m hm t m' he
  have ht := ((Net.isEnabled_iff _ _ _).1 ((execute_some_iff t).1 ⟨m', he⟩)).1
  have key : ∀ m ∈ exMarkings, ∀ t ∈ exP.transitions, ∀ m' ∈ exP.toNet.execute t m, m' ∈ exMarkings := by decide
  exact key m hm t ht m' he

theorem exP_run (ts : List Nat) (m m' : Marking Nat) (hm : m ∈ exMarkings)
    (h : ts.foldlM (fun m t => exP.toNet.execute t m) m = some m') : m' ∈ exMarkings := by
  induction ts generalizing m with
  | nil => simp at h; subst h; exact hm
  | cons t ts ih =>
    simp only [List.foldlM_cons, Option.bind_eq_bind, Option.bind_eq_some_iff] at h
    obtain ⟨m1, h1, h2⟩ := h
    exact ih m1 (exP_step m hm t m1 h1) h2

/-- the hypothesis on silent transitions of `C66_precision` holds in the example -/
theorem exP_one (p : List Str) : OneContexts exP [(0, 1)] p := by
  rintro m ⟨ts, ⟨hr, _⟩, _⟩ t hl m1 m2 ⟨s1, _, h1⟩ ⟨s2, _, h2⟩ e1 e2
  have ht : t = 0 := by
    simp only [exP] at hl
    split at hl
    · assumption
    · split at hl
      · cases hl
      · split at hl <;> cases hl
  subst ht
  have hm := exP_run ts _ m (by decide) hr
  have h0 : ∀ m ∈ exMarkings, exP.toNet.isEnabled 0 m = true → m = [(0, 1)] := by decide
  rw [h0 m1 (exP_run s1 m m1 hm h1) e1, h0 m2 (exP_run s2 m m2 hm h2) e2]
  exact fun _ => rfl

set_option maxRecDepth 100000 in
/-- the log takes one of the two activities allowed after `a`: sums 3 and 1, precision 2/3 -/
example : precisionAlignments exLog exP [(0, 1)] [(3, 1)] exExec = ⟨3, 1⟩ := by decide

/-- silent 0 without input place: ∅ → 0; `a` 1: 0 → 1 -/
def exNoIn : LNet Nat Nat Str where
  places := [0, 1]
  transitions := [0, 1]
  inArcs t := if t = 0 then [] else [(0, 1)]
  outArcs t := if t = 0 then [(0, 1)] else [(1, 1)]
  label t := if t = 0 then none else some ['a']

/-- C66: a silent transition without input places is never fired by the search: here the prefix ⟨a⟩ can be replayed, and
no marking is found for it. -/
theorem _root_.Verif.C66_source_transition_refuted :
    (∃ ts m, Replays exNoIn [] [['a']] ts m) ∧ (alignStop [['a']] exNoIn [] [(1, 1)] (exSch _ _) 3).result = some none :=
  ⟨⟨[0, 1], [(1, 1)], by decide, by decide⟩, by decide⟩

end Precision
end Verif
