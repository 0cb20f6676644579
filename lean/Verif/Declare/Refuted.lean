import Verif.Declare.Agreement
/-
C25: where the checks agree with the standard meaning of the templates, where they do not, and examples.
-/
namespace Verif
open Declare Declare.Spec Dict Counter
variable {α : Type} [DecidableEq α]

namespace Declare

/-- the model with a single constraint -/
def single (r : Rule α) : DModel α where
  un t := (keyUn t r).map fun a => [a]
  bi t := (keyBi t r).map fun c => [c]

/-- two responses/alternate responses -/
def withAlt (r a : List (α × α)) : DModel α where
  un _ := none
  bi t := if t = .response then some r else if t = .altResponse then some a else none

theorem single_keys (r : Rule α) : (single r).Keys := by
  constructor
  · intro t l h
    simp only [single, Option.map_eq_some_iff] at h
    obtain ⟨a, -, rfl⟩ := h
    simp
  · intro t l h
    simp only [single, Option.map_eq_some_iff] at h
    obtain ⟨a, -, rfl⟩ := h
    simp

theorem single_deviations (r : Rule α) (hr : Distinct r) (hn : ∀ a b, r ≠ .bi .altResponse a b) (tr : List α) :
    ∃ ds, deviations (single r) tr = some ds ∧ (r ∈ ds ↔ ¬ Accepted tr r) := by
  have hA : (single r).bi .altResponse = none := by
    cases r with
    | un t a => rfl
    | bi t a b =>
      simp only [single, keyBi]
      split
      · rename_i h; exact absurd (by rw [h]) (hn a b)
      · rfl
  have hsome : ∃ ds, deviations (single r) tr = some ds := by
    unfold deviations runAltResponse
    simp only [hA, Option.map_some]
    exact ⟨_, rfl⟩
  obtain ⟨ds, hds⟩ := hsome
  refine ⟨ds, hds, fun h ha => not_dev (single_keys r) hds hr ha h, fun h => dev (single_keys r) hds hr ?_ h⟩
  cases r with
  | un t a => exact ⟨[a], by simp [single, keyUn], by simp⟩
  | bi t a b => cases t <;> first | exact absurd rfl (hn a b) | exact ⟨[(a, b)], by simp [single, keyBi], by simp⟩

end Declare

/-- C25: for existence, absence, exactly one, init, responded existence, coexistence, non-coexistence, response, precedence, alternate
succession and chain succession, a trace is reported to deviate exactly when it violates the standard meaning of the constraint. -/
theorem C25_standard (tr : List α) (r : Rule α) (hr : Distinct r)
    (ht : match r with
      | .un _ _ => True
      | .bi t _ _ => t ∈ [BT.respondedExistence, .coexistence, .nonCoexistence, .response, .precedence, .altSuccession, .chainSuccession]) :
    ∃ ds, deviations (single r) tr = some ds ∧ (r ∈ ds ↔ ¬ Holds tr r) := by
  have hacc : Accepted tr r = Holds tr r := by
    cases r with
    | un t a => rfl
    | bi t a b => cases t <;> first | rfl | (simp at ht; done)
  rw [← hacc]
  refine single_deviations r hr ?_ tr
  rintro a b rfl
  simp at ht

/-- C25: a trace reported to meet succession, alternate response or chain response meets their standard meaning. -/
theorem C25_response_sound (tr : List α) (a b : α) :
    (Accepted tr (.bi .succession a b) → Succession a b tr) ∧
    (Accepted tr (.bi .altResponse a b) → AltResponse a b tr) ∧
    (Accepted tr (.bi .chainResponse a b) → ChainResponse a b tr) := by
  refine ⟨fun h => h.2.2, ?_, ?_⟩
  · rintro ⟨u, v, rfl, hu, hv⟩
    induction u with
    | nil => exact hv.1
    | cons x u ih =>
      simp only [List.mem_cons, not_or] at hu
      rw [List.cons_append, altResponse_cons]
      exact ⟨fun h => absurd h.symm hu.1, ih hu.2⟩
  · rintro ⟨u, v, rfl, hu, hv⟩
    induction u with
    | nil => exact hv.1
    | cons x u ih =>
      simp only [List.mem_cons, not_or] at hu
      rw [List.cons_append, chainResponse_cons]
      exact ⟨fun h => absurd h.symm hu.1, ih hu.2⟩

/-- C25: the fitness is not negative for a model with neither non-coexistence (checked twice) nor alternate response (checked for the couples of
response). -/
theorem C25_fitness_nonneg (m : DModel α) (hn : m.bi .nonCoexistence = none) (ha : m.bi .altResponse = none) (tr : List α) (r : Result α)
    (h : checkTrace m tr = some r) : 0 ≤ r.devFitness := by
  unfold checkTrace at h
  cases hds : deviations m tr with
  | none => simp [hds] at h
  | some ds =>
    simp only [hds] at h
    split at h
    · cases h
    · rename_i hN
      cases h
      have hlen : ds.length ≤ numConstraints m := by
        have hu : ∀ t chk, (runUn m t chk).length ≤ ((m.un t).getD []).length := by
          intro t chk
          unfold runUn
          cases m.un t with
          | none => simp
          | some l => simpa using List.length_filter_le _ _
        have hb : ∀ t chk, (runBi m t chk).length ≤ ((m.bi t).getD []).length := by
          intro t chk
          unfold runBi
          cases m.bi t with
          | none => simp
          | some l => simpa using List.length_filter_le _ _
        have hnc : ∀ chk, (runBi m .nonCoexistence chk).length = 0 := by intro chk; simp [runBi, hn]
        unfold deviations runAltResponse at hds
        simp only [ha, Option.map_some, Option.some.injEq] at hds
        subst hds
        simp only [List.length_append, List.length_nil, hnc, numConstraints, allUT, allBT, List.map_cons, List.map_nil, List.sum_cons,
          List.sum_nil]
        have a1 := hu .existence (checkExistence tr)
        have a2 := hu .exactlyOne (checkExactlyOne tr)
        have a3 := hu .init (checkInit tr)
        have a4 := hu .absence (checkAbsence tr)
        have b1 := hb .respondedExistence (checkRespondedExistence tr)
        have b2 := hb .coexistence (checkCoexistence tr)
        have b3 := hb .response (checkResponse tr)
        have b4 := hb .precedence (checkPrecedence tr)
        have b5 := hb .succession (checkSuccession tr)
        have b6 := hb .chainResponse (checkChainResponse tr)
        have b7 := hb .altPrecedence (checkAltPrecedence tr)
        have b8 := hb .chainPrecedence (checkChainPrecedence tr)
        have b9 := hb .altSuccession (checkAltSuccession tr)
        have b10 := hb .chainSuccession (checkChainSuccession tr)
        omega
      have hpos : (0 : Rat) < (numConstraints m : Rat) := by exact_mod_cast (by omega : 0 < numConstraints m)
      have hle : (ds.length : Rat) ≤ (numConstraints m : Rat) := by exact_mod_cast hlen
      have : (ds.length : Rat) / (numConstraints m : Rat) ≤ 1 := (div_le_one hpos).2 hle
      show 0 ≤ 1 - (ds.length : Rat) / (numConstraints m : Rat)
      linarith

/-- C25: the checks of alternate and chain response reject traces that meet the standard meaning, as ⟨a, b, b⟩. -/
theorem C25_response_complete_refuted : ∃ (tr : List Nat),
    (AltResponse 0 1 tr ∧ ¬ Accepted tr (.bi .altResponse 0 1)) ∧ (ChainResponse 0 1 tr ∧ ¬ Accepted tr (.bi .chainResponse 0 1)) := by
  have h01 : (0 : Nat) ≠ 1 := by decide
  have hnil : AltResponse (0 : Nat) 1 [] := fun u v h => by simp at h
  have hnil' : ChainResponse (0 : Nat) 1 [] := fun u v h => by simp at h
  refine ⟨[0, 1, 1], ⟨?_, ?_⟩, ⟨?_, ?_⟩⟩
  · simp only [altResponse_cons, hnil]
    exact ⟨fun _ => ⟨[], [1], rfl, by simp⟩, by simp, by simp, trivial⟩
  · have := chkBi_iff h01 [0, 1, 1] .altResponse
    rw [← this]
    simp only [chkBi, checkAltResponse, specIdxs_eq h01, altLoop_eq]
    decide
  · simp only [chainResponse_cons, hnil']
    exact ⟨fun _ => ⟨[1], rfl⟩, by simp, by simp, trivial⟩
  · have := chkBi_iff h01 [0, 1, 1] .chainResponse
    rw [← this]
    simp only [chkBi, checkChainResponse, specIdxs_eq h01, chainLoop_eq]
    decide

/-- C25: succession, alternate precedence and chain precedence reject traces that meet the standard meaning: the empty trace, and
⟨a⟩. -/
theorem C25_precedence_complete_refuted :
    (Succession (0 : Nat) 1 [] ∧ ¬ Accepted [] (.bi .succession (0 : Nat) 1)) ∧
    (AltPrecedence (0 : Nat) 1 [0] ∧ ¬ Accepted [0] (.bi .altPrecedence (0 : Nat) 1)) ∧
    (ChainPrecedence (0 : Nat) 1 [0] ∧ ¬ Accepted [0] (.bi .chainPrecedence (0 : Nat) 1)) := by
  have h01 : (0 : Nat) ≠ 1 := by decide
  refine ⟨⟨⟨fun u v h => by simp at h, fun u v h => by simp at h⟩, by simp [Accepted]⟩, ⟨?_, ?_⟩, ?_, ?_⟩
  · intro u v h
    cases u <;> simp at h
  · rw [← chkBi_iff h01 [0] .altPrecedence]
    simp only [chkBi, checkAltPrecedence, specIdxs_eq h01, altLoop_eq]
    decide
  · intro u v h
    cases u <;> simp at h
  · rw [← chkBi_iff h01 [0] .chainPrecedence]
    simp only [chkBi, checkChainPrecedence, specIdxs_eq h01, chainLoop_eq]
    decide

/-- C25: alternate and chain precedence accept traces that violate the standard meaning, even plain precedence: ⟨b, a, b⟩. -/
theorem C25_precedence_sound_refuted :
    (¬ Precedence (0 : Nat) 1 [1, 0, 1]) ∧ Accepted [1, 0, 1] (.bi .altPrecedence (0 : Nat) 1) ∧
    Accepted [1, 0, 1] (.bi .chainPrecedence (0 : Nat) 1) := by
  have h01 : (0 : Nat) ≠ 1 := by decide
  refine ⟨fun h => by have := h [] [0, 1] rfl; simp at this, ?_, ?_⟩
  · by_contra hc
    rw [← chkBi_iff h01 [1, 0, 1] .altPrecedence] at hc
    simp only [chkBi, checkAltPrecedence, specIdxs_eq h01, altLoop_eq] at hc
    revert hc
    decide
  · by_contra hc
    rw [← chkBi_iff h01 [1, 0, 1] .chainPrecedence] at hc
    simp only [chkBi, checkChainPrecedence, specIdxs_eq h01, chainLoop_eq] at hc
    revert hc
    decide

/-- C25: the alternate responses of the model are not the ones checked: a trace that violates the only alternate response of the model is
reported as fit; and an alternate response that is not in the model is reported. -/
theorem C25_altresponse_refuted :
    (∃ r, checkTrace (withAlt [((2 : Nat), 3)] [(0, 1)]) [0] = some r ∧ r.isFit = true ∧ ¬ AltResponse (0 : Nat) 1 [0]) ∧
    (∃ r, checkTrace (withAlt [((0 : Nat), 1)] [(2, 3)]) [0, 0, 1] = some r ∧ r.deviations = [.bi .altResponse 0 1]) := by
  have h01 : (0 : Nat) ≠ 1 := by decide
  have h23 : (2 : Nat) ≠ 3 := by decide
  have e1 : checkAltResponse [0] ((2 : Nat), 3) = false := by
    simp only [checkAltResponse, specIdxs_eq h23, altLoop_eq]; decide
  have e2 : checkAltResponse [0, 0, 1] ((0 : Nat), 1) = true := by
    simp only [checkAltResponse, specIdxs_eq h01, altLoop_eq]; decide
  constructor
  · refine ⟨_, rfl, ?_, ?_⟩
    · simp [withAlt, runUn, runBi, e1]
      decide
    · intro h
      obtain ⟨x, y, h, -⟩ := h [] [] rfl
      simp at h
  · refine ⟨_, rfl, ?_⟩
    simp [withAlt, runUn, runBi, e2]
    decide

/-- C25: a violated non-coexistence is counted twice, the fitness can be negative. -/
theorem C25_fitness_refuted : ∃ r, checkTrace (single (.bi .nonCoexistence (0 : Nat) 1)) [0, 1] = some r ∧
    r.noConstrTotal = 1 ∧ r.noDevTotal = 2 ∧ r.devFitness = -1 := by
  refine ⟨_, rfl, rfl, rfl, ?_⟩
  decide +kernel

/-- C25: for precedence, exactly one and succession, confidence equal to support does not exclude deviations: the traces that do
not activate the constraint are rejected by conformance checking.  The log is ⟨a, b⟩, ⟨b⟩ (precedence), ⟨a⟩, ⟨b⟩ (exactly one),
⟨a, b⟩, ⟨c⟩ (succession). -/
theorem C25_agreement_refuted :
    let al : Allowed := ⟨fun t => t == .exactlyOne, fun t => t == .precedence || t == .response || t == .succession⟩
    let later : Rule Nat → Rule Nat → Bool := fun _ _ => false
    (∃ fs f, discover later al none (some (1/10, 1/10)) 1 [[0, 1], [1]] = some fs ∧ f ∈ fs ∧ f.confidence = f.support ∧
      f.rule = .bi .precedence 0 1 ∧ ∃ ds, deviations (toModel fs) [1] = some ds ∧ f.rule ∈ ds) ∧
    (∃ fs f, discover later al none (some (1/10, 1/10)) 1 [[0], [1]] = some fs ∧ f ∈ fs ∧ f.confidence = f.support ∧
      f.rule = .un .exactlyOne 0 ∧ ∃ ds, deviations (toModel fs) [1] = some ds ∧ f.rule ∈ ds) ∧
    (∃ fs f, discover later al none (some (1/10, 1/10)) 1 [[0, 1], [2]] = some fs ∧ f ∈ fs ∧ f.confidence = f.support ∧
      f.rule = .bi .succession 0 1 ∧ ∃ ds, deviations (toModel fs) [2] = some ds ∧ f.rule ∈ ds) := by
  intro al later
  have key : ∀ (m : DModel Nat) (tr : List Nat) (r : Rule Nat), (deviations m tr).any (fun ds => decide (r ∈ ds)) = true →
      ∃ ds, deviations m tr = some ds ∧ r ∈ ds := by
    intro m tr r h
    cases hd : deviations m tr with
    | none => simp [hd] at h
    | some ds => simp [hd] at h; exact ⟨ds, rfl, h⟩
  refine ⟨⟨_, ⟨.bi .precedence 0 1, 1, 1⟩, rfl, ?_, rfl, rfl, key _ _ _ ?_⟩, ⟨_, ⟨.un .exactlyOne 0, 1, 1⟩, rfl, ?_, rfl, rfl, key _ _ _ ?_⟩,
    ⟨_, ⟨.bi .succession 0 1, 1, 1⟩, rfl, ?_, rfl, rfl, key _ _ _ ?_⟩⟩ <;> decide +kernel

namespace Declare.Ex

/-- a non-trivial log for which the hypotheses of the agreement theorem are met: response(0, 1) is activated by two traces of
three, with confidence 2 -/
example : ∃ fs, discover (fun _ _ => false) ⟨fun _ => true, fun t => t == .response⟩ none (some (1/10, 1/10)) 1 [[0, 2, 1], [0, 0, 1], [2]] = some fs ∧
    ⟨.bi .response (0 : Nat) 1, 2, 2⟩ ∈ fs := ⟨_, rfl, by decide +kernel⟩

/-- automatic thresholds -/
example : (discover (fun _ _ => false) ⟨fun _ => true, fun t => t == .response⟩ none none (4/5) [[(0 : Nat), 2, 1], [0, 0, 1], [2]]).isSome = true := by
  decide +kernel

/-- a model and a trace with a verdict -/
example : ∃ r, checkTrace ⟨fun _ => none, fun t => if t = .response then some [((0 : Nat), 1), (1, 2)] else none⟩ [0, 2, 1] = some r ∧ r.noDevTotal = 1 ∧ r.isFit = false :=
  ⟨_, rfl, by decide +kernel, by decide +kernel⟩

/-- the characterisations of the checks are not empty: alternate precedence with deletions before the accepted part -/
example : Accepted [1, 2, 0, 0, 1, 0, 2, 1] (.bi .altPrecedence (0 : Nat) 1) := by
  have h01 : (0 : Nat) ≠ 1 := by decide
  by_contra hc
  rw [← chkBi_iff h01 _ .altPrecedence] at hc
  simp only [chkBi, checkAltPrecedence, specIdxs_eq h01, altLoop_eq] at hc
  revert hc
  decide

end Declare.Ex

end Verif
