import Verif.Declare.Proofs
import Mathlib.Tactic.Positivity
import Mathlib.Tactic.Linarith
/-
C25: Declare conformance checking and discovery.
-/
namespace Verif
open Declare Declare.Spec Dict Counter
variable {α : Type} [DecidableEq α]

namespace Declare

/-- the constraint is one the checks look at: it is in the model, but for alternate response the couples are those listed for
response -/
def Checked (m : DModel α) : Rule α → Prop
  | .un t a => ∃ l, m.un t = some l ∧ a ∈ l
  | .bi .altResponse a b => ∃ l, m.bi .response = some l ∧ (a, b) ∈ l ∧ ∃ l', m.bi .altResponse = some l'
  | .bi t a b => ∃ l, m.bi t = some l ∧ (a, b) ∈ l

/-- the keys of a dictionary are distinct -/
def DModel.Keys (m : DModel α) : Prop := (∀ t l, m.un t = some l → l.Nodup) ∧ (∀ t l, m.bi t = some l → l.Nodup)

/-! ### the single checks -/

theorem exactlyOne_iff (tr : List α) (a : α) : (∃ u v, tr = u ++ a :: v ∧ a ∉ u ∧ a ∉ v) ↔ cnt a tr = 1 := by
  constructor
  · rintro ⟨u, v, rfl, hu, hv⟩
    rw [cnt_append, cnt_cons, (cnt_zero a u).2 hu, (cnt_zero a v).2 hv]; simp
  · intro h
    have hm : a ∈ tr := (cnt_pos a tr).1 (by omega)
    obtain ⟨u, v, rfl⟩ := List.append_of_mem hm
    rw [cnt_append, cnt_cons] at h
    simp at h
    exact ⟨u, v, rfl, (cnt_zero a u).1 (by omega), (cnt_zero a v).1 (by omega)⟩

/-- the check used for a template with one activity -/
def chkUn (tr : List α) : UT → α → Bool
  | .existence => checkExistence tr
  | .absence => checkAbsence tr
  | .exactlyOne => checkExactlyOne tr
  | .init => checkInit tr

/-- the check used for a template with two activities -/
def chkBi (tr : List α) : BT → α × α → Bool
  | .respondedExistence => checkRespondedExistence tr
  | .response => checkResponse tr
  | .precedence => checkPrecedence tr
  | .succession => checkSuccession tr
  | .altResponse => checkAltResponse tr
  | .altPrecedence => checkAltPrecedence tr
  | .altSuccession => checkAltSuccession tr
  | .chainResponse => checkChainResponse tr
  | .chainPrecedence => checkChainPrecedence tr
  | .chainSuccession => checkChainSuccession tr
  | .coexistence => checkCoexistence tr
  | .nonCoexistence => checkNonCoexistence tr
  | .nonSuccession => fun _ => false
  | .nonChainSuccession => fun _ => false

theorem chkUn_iff (tr : List α) (t : UT) (a : α) : chkUn tr t a = true ↔ ¬ Accepted tr (.un t a) := by
  cases t
  · simp [chkUn, checkExistence, Accepted, Holds]
  · simp only [chkUn, checkExactlyOne, Accepted, Holds, exactlyOne_iff, ofList, count_update]
    simp
  · simp only [chkUn, checkInit, Accepted, Holds]
    cases tr <;> simp
  · simp [chkUn, checkAbsence, Accepted, Holds]

theorem checkResponse_iff {a b : α} (hab : a ≠ b) (tr : List α) : checkResponse tr (a, b) = true ↔ ¬ Response a b tr := by
  by_cases ha : a ∈ tr
  · by_cases hb : b ∈ tr
    · rw [response_last hab (maxIdx_last ha) (maxIdx_last hb)]
      have := last_ne hab (maxIdx_last ha).1 (maxIdx_last hb).1
      simp [checkResponse, ha, hb]
      omega
    · simp [checkResponse, ha, hb]
      exact fun h => hb (response_mem h ha)
  · simp [checkResponse, ha, response_of_not_mem b ha]

theorem checkPrecedence_iff {a b : α} (hab : a ≠ b) (tr : List α) : checkPrecedence tr (a, b) = true ↔ ¬ Precedence a b tr := by
  by_cases hb : b ∈ tr
  · by_cases ha : a ∈ tr
    · rw [precedence_first hab (minIdx_first ha) (minIdx_first hb)]
      have := last_ne hab (minIdx_first ha).1 (minIdx_first hb).1
      simp [checkPrecedence, ha, hb]
      omega
    · simp [checkPrecedence, ha, hb]
      exact fun h => ha (precedence_mem h hb)
  · simp [checkPrecedence, hb, precedence_of_not_mem a hb]

theorem checkSuccession_iff {a b : α} (hab : a ≠ b) (tr : List α) :
    checkSuccession tr (a, b) = true ↔ ¬ (a ∈ tr ∧ b ∈ tr ∧ Succession a b tr) := by
  by_cases ha : a ∈ tr
  · by_cases hb : b ∈ tr
    · rw [Succession, precedence_first hab (minIdx_first ha) (minIdx_first hb),
        response_last hab (maxIdx_last ha) (maxIdx_last hb)]
      have := last_ne hab (minIdx_first ha).1 (minIdx_first hb).1
      have := last_ne hab (maxIdx_last ha).1 (maxIdx_last hb).1
      simp [checkSuccession, ha, hb]
      omega
    · simp [checkSuccession, hb]
  · simp [checkSuccession, ha]

theorem chkBi_iff {a b : α} (hab : a ≠ b) (tr : List α) (t : BT) : chkBi tr t (a, b) = true ↔ ¬ Accepted tr (.bi t a b) := by
  cases t
  · simp [chkBi, checkRespondedExistence, Accepted, Holds]
  · exact checkResponse_iff hab tr
  · exact checkPrecedence_iff hab tr
  · exact checkSuccession_iff hab tr
  · simp only [chkBi, checkAltResponse, Accepted, specIdxs_eq hab, altLoop_eq, auResp_loop hab, Bool.not_eq_true',
      ← au_alt hab, ← auResp_iff]
    simp
  · simp only [chkBi, checkAltPrecedence, Accepted, specIdxs_eq hab, altLoop_eq, auPrec_loop hab, Bool.not_eq_true',
      ← au_alt hab, ← auPrec_iff hab]
    simp
  · simp only [chkBi, checkAltSuccession, Accepted, Holds, specIdxs_eq hab, altLoop_eq, (pairLoop_au hab _ _ _).1,
      Bool.not_eq_true', ← au_alt hab]
    simp
  · simp only [chkBi, checkChainResponse, Accepted, specIdxs_eq hab, chainLoop_eq, auResp_loop hab, Bool.not_eq_true',
      ← au_chain hab, ← auResp_iff]
    simp
  · simp only [chkBi, checkChainPrecedence, Accepted, specIdxs_eq hab, chainLoop_eq, auPrec_loop hab, Bool.not_eq_true',
      ← au_chain hab, ← auPrec_iff hab]
    simp
  · simp only [chkBi, checkChainSuccession, Accepted, Holds, specIdxs_eq hab, chainLoop_eq, (pairLoop_au hab _ _ _).1,
      Bool.not_eq_true', ← au_chain hab]
    simp
  · simp [chkBi, checkCoexistence, Accepted, Holds]
    grind
  · simp [chkBi, checkNonCoexistence, Accepted, Holds]
  · simp [chkBi, Accepted]
  · simp [chkBi, Accepted]

/-! ### the list of deviations -/

theorem count_map_inj {β γ : Type} [BEq β] [LawfulBEq β] [BEq γ] [LawfulBEq γ] (l : List β) (f : β → γ)
    (hf : ∀ x y, f x = f y → x = y) (x : β) : (l.map f).count (f x) = l.count x := by
  induction l with
  | nil => simp
  | cons y l ih =>
    rw [List.map_cons, List.count_cons, List.count_cons, ih]
    have : (f y == f x) = (y == x) := by
      rw [Bool.eq_iff_iff, beq_iff_eq, beq_iff_eq]
      exact ⟨hf _ _, fun h => by rw [h]⟩
    rw [this]

theorem count_runUn (m : DModel α) (t : UT) (chk : α → Bool) (r : Rule α) :
    (runUn m t chk).count r = match r with
      | .un t' a => if t' = t then (((m.un t).getD []).filter chk).count a else 0
      | .bi _ _ _ => 0 := by
  unfold runUn
  cases hm : m.un t with
  | none => cases r <;> simp
  | some l =>
    simp only [Option.getD_some]
    cases r with
    | un t' a =>
      simp only
      split
      · rename_i h; subst h
        exact count_map_inj _ _ (fun x y h => by injection h) _
      · rename_i h
        rw [List.count_eq_zero]
        simp [Ne.symm h]
    | bi t' a b => rw [List.count_eq_zero]; simp

theorem count_map_bi (t t' : BT) (l : List (α × α)) (a b : α) :
    (l.map fun c => Rule.bi t c.1 c.2).count (.bi t' a b) = if t' = t then l.count (a, b) else 0 := by
  split
  · rename_i h; subst h
    exact count_map_inj l (fun c : α × α => Rule.bi t' c.1 c.2)
      (fun x y h => by injection h with _ h1 h2; exact Prod.ext h1 h2) (a, b)
  · rename_i h
    rw [List.count_eq_zero]
    simp [Ne.symm h]

theorem count_runBi (m : DModel α) (t : BT) (chk : α × α → Bool) (r : Rule α) :
    (runBi m t chk).count r = match r with
      | .un _ _ => 0
      | .bi t' a b => if t' = t then (((m.bi t).getD []).filter chk).count (a, b) else 0 := by
  unfold runBi
  cases hm : m.bi t with
  | none => cases r <;> simp
  | some l =>
    simp only [Option.getD_some]
    cases r with
    | un t' a => rw [List.count_eq_zero]; simp
    | bi t' a b => exact count_map_bi _ _ _ _ _

theorem count_filter_nodup {β : Type} [BEq β] [LawfulBEq β] {l : List β} (h : l.Nodup) (p : β → Bool) (x : β) [Decidable (x ∈ l ∧ p x = true)] :
    (l.filter p).count x = if x ∈ l ∧ p x = true then 1 else 0 := by
  split
  · rename_i hx
    have h1 := List.nodup_iff_count.1 (h.filter p) x
    have h2 : 0 < (l.filter p).count x := List.count_pos_iff.2 (List.mem_filter.2 hx)
    omega
  · rename_i hx
    rw [List.count_eq_zero, List.mem_filter]
    exact hx

open Classical in
theorem count_un (m : DModel α) (hm : m.Keys) (tr : List α) (t : UT) (a : α) :
    (((m.un t).getD []).filter (chkUn tr t)).count a =
      if Checked m (.un t a) ∧ ¬ Accepted tr (.un t a) then 1 else 0 := by
  cases h : m.un t with
  | none => simp [Checked, h]
  | some l =>
    rw [Option.getD_some, count_filter_nodup (hm.1 t l h)]
    have : (a ∈ l ∧ chkUn tr t a = true) ↔ (Checked m (.un t a) ∧ ¬ Accepted tr (.un t a)) := by
      rw [chkUn_iff]; simp [Checked, h]
    simp [this]

open Classical in
theorem count_bi (m : DModel α) (hm : m.Keys) (tr : List α) (t : BT) (ht : t ≠ .altResponse) {a b : α} (hab : a ≠ b) :
    (((m.bi t).getD []).filter (chkBi tr t)).count (a, b) =
      if Checked m (.bi t a b) ∧ ¬ Accepted tr (.bi t a b) then 1 else 0 := by
  have hc : Checked m (.bi t a b) ↔ ∃ l, m.bi t = some l ∧ (a, b) ∈ l := by
    cases t <;> first | exact Iff.rfl | exact absurd rfl ht
  cases h : m.bi t with
  | none => simp [hc, h]
  | some l =>
    rw [Option.getD_some, count_filter_nodup (hm.2 t l h)]
    have : ((a, b) ∈ l ∧ chkBi tr t (a, b) = true) ↔ (Checked m (.bi t a b) ∧ ¬ Accepted tr (.bi t a b)) := by
      rw [chkBi_iff hab, hc]; simp [h]
    simp [this]

open Classical in
theorem count_altr (m : DModel α) (hm : m.Keys) (tr : List α) (ds : List (Rule α)) (h : runAltResponse m tr = some ds)
    (r : Rule α) (hr : Distinct r) :
    ds.count r = match r with
      | .bi .altResponse a b => if Checked m (.bi .altResponse a b) ∧ ¬ Accepted tr (.bi .altResponse a b) then 1 else 0
      | _ => 0 := by
  unfold runAltResponse at h
  cases h1 : m.bi .altResponse with
  | none =>
    simp only [h1] at h
    cases h
    cases r with
    | un t a => simp
    | bi t a b => cases t <;> simp [Checked, h1]
  | some l1 =>
    simp only [h1] at h
    cases h2 : m.bi .response with
    | none => simp [h2] at h
    | some l =>
      simp only [h2, Option.map_some, Option.some.injEq] at h
      subst h
      cases r with
      | un t a => rw [List.count_eq_zero]; simp
      | bi t a b =>
        rw [count_map_bi]
        cases t <;> simp only [if_true, reduceCtorEq, if_false]
        rw [count_filter_nodup (hm.2 _ l h2)]
        have : ((a, b) ∈ l ∧ checkAltResponse tr (a, b) = true) ↔
            (Checked m (.bi .altResponse a b) ∧ ¬ Accepted tr (.bi .altResponse a b)) := by
          have := chkBi_iff hr tr .altResponse
          simp only [chkBi] at this
          rw [this]; simp [Checked, h1, h2]
        simp [this]

theorem fitness_facts (n d : Nat) (hd : d ≠ 0) :
    (1 - (n : Rat) / d ≤ 1) ∧ ((1 - (n : Rat) / d = 1) ↔ n = 0) := by
  have hpos : (0 : Rat) < (d : Rat) := by
    have : 0 < d := by omega
    exact_mod_cast this
  constructor
  · have : (0 : Rat) ≤ (n : Rat) / d := by positivity
    linarith
  · constructor
    · intro h
      have : (n : Rat) / d = 0 := by linarith
      rcases div_eq_zero_iff.1 this with h | h
      · exact_mod_cast h
      · exact absurd h (ne_of_gt hpos)
    · intro h; simp [h]

theorem mem_deviations_checked {m : DModel α} {tr : List α} {ds : List (Rule α)} (h : deviations m tr = some ds)
    (r : Rule α) (hr : r ∈ ds) : Checked m r := by
  have hu : ∀ t chk, r ∈ runUn m t chk → Checked m r := by
    intro t chk h
    unfold runUn at h
    cases hm : m.un t with
    | none => simp [hm] at h
    | some l =>
      simp only [hm, List.mem_map, List.mem_filter] at h
      obtain ⟨a, ⟨ha, -⟩, rfl⟩ := h
      exact ⟨l, hm, ha⟩
  have hb : ∀ t chk, t ≠ .altResponse → r ∈ runBi m t chk → Checked m r := by
    intro t chk ht h
    unfold runBi at h
    cases hm : m.bi t with
    | none => simp [hm] at h
    | some l =>
      simp only [hm, List.mem_map, List.mem_filter] at h
      obtain ⟨c, ⟨hc, -⟩, rfl⟩ := h
      cases t <;> first | exact absurd rfl ht | exact ⟨l, hm, hc⟩
  unfold deviations at h
  cases hA : runAltResponse m tr with
  | none => simp [hA] at h
  | some altr =>
    simp only [hA, Option.map_some, Option.some.injEq] at h
    subst h
    simp only [List.mem_append] at hr
    by_cases h1 : r ∈ altr
    · unfold runAltResponse at hA
      cases h2 : m.bi .altResponse with
      | none => simp only [h2, Option.some.injEq] at hA; subst hA; simp at h1
      | some l1 =>
        cases h3 : m.bi .response with
        | none => simp [h2, h3] at hA
        | some l =>
          simp only [h2, h3, Option.map_some, Option.some.injEq] at hA
          subst hA
          simp only [List.mem_map, List.mem_filter] at h1
          obtain ⟨c, ⟨hc, -⟩, rfl⟩ := h1
          exact ⟨l, h3, hc, l1, h2⟩
    · simp only [h1, or_false] at hr
      rcases hr with ((((((((((((((((h | h) | h) | h) | h) | h) | h) | h) | h)) | h) | h) | h) | h) | h) | h) | h)
      all_goals first | exact hu _ _ h | exact hb _ _ (by simp) h

end Declare

open Classical in
/-- C25: the deviations reported for a trace.  A constraint is reported exactly when it is checked and the trace does
not meet it (as described by `Accepted`), once — non-coexistence twice. -/
theorem C25_deviations (m : DModel α) (hm : m.Keys) (tr : List α) (ds : List (Rule α)) (h : deviations m tr = some ds)
    (r : Rule α) (hr : Distinct r) :
    ds.count r = if Checked m r ∧ ¬ Accepted tr r then (match r with | .bi .nonCoexistence _ _ => 2 | _ => 1) else 0 := by
  unfold deviations at h
  cases hA : runAltResponse m tr with
  | none => simp [hA] at h
  | some altr =>
    simp only [hA, Option.map_some, Option.some.injEq] at h
    subst h
    have hc := count_altr m hm tr altr hA r hr
    simp only [List.count_append, count_runUn, count_runBi, hc]
    cases r with
    | un t a =>
      have := count_un m hm tr t a
      cases t <;> simpa [chkUn] using this
    | bi t a b =>
      by_cases ht : t = .altResponse
      · subst ht; simp
      · have := count_bi m hm tr t ht hr
        cases t
        all_goals first
          | exact absurd rfl ht
          | (simp only [chkBi] at this; simp [this]; done)
          | (simp only [chkBi] at this; simp [this]; split <;> rfl)
          | (simp [Accepted])

/-- C25: the verdict of a trace: the numbers of constraints and of deviations, the fitness `1 - deviations/constraints`, and the
trace is fit exactly when it meets all checked constraints.  There is no verdict for a model without constraints, and none
when alternate response is a template of the model but response is not. -/
theorem C25_verdict (m : DModel α) (hm : m.Keys) (hd : ∀ t l, m.bi t = some l → ∀ c ∈ l, c.1 ≠ c.2) (tr : List α) :
    (checkTrace m tr = none ↔ (numConstraints m = 0 ∨ ((m.bi .altResponse).isSome = true ∧ m.bi .response = none))) ∧
    ∀ r, checkTrace m tr = some r →
      deviations m tr = some r.deviations ∧ r.noConstrTotal = numConstraints m ∧ r.noDevTotal = r.deviations.length ∧
      r.devFitness = 1 - (r.noDevTotal : Rat) / r.noConstrTotal ∧ r.devFitness ≤ 1 ∧
      (r.devFitness = 1 ↔ r.isFit = true) ∧
      (r.isFit = true ↔ ∀ rule, Checked m rule → Accepted tr rule) := by
  constructor
  · unfold checkTrace deviations runAltResponse
    cases h1 : m.bi .altResponse <;> cases h2 : m.bi .response <;> simp
  · intro r h
    unfold checkTrace at h
    cases hds : deviations m tr with
    | none => simp [hds] at h
    | some ds =>
      simp only [hds] at h
      split at h
      · cases h
      · rename_i hn
        cases h
        obtain ⟨f1, f2⟩ := fitness_facts ds.length (numConstraints m) hn
        refine ⟨rfl, rfl, rfl, rfl, f1, ?_, ?_⟩
        · exact f2.trans (decide_eq_true_iff).symm
        · have hck : ∀ rule, Checked m rule → Distinct rule := by
            rintro (⟨t, a⟩ | ⟨t, a, b⟩) hc
            · trivial
            · cases t <;> (obtain ⟨l, hl, hc⟩ := hc) <;>
                first | exact hd _ l hl _ hc | exact hd _ l hl _ hc.1
          simp only [decide_eq_true_eq]
          constructor
          · intro h rule hc
            by_contra hna
            have := C25_deviations m hm tr ds hds rule (hck rule hc)
            have h0 : ds = [] := List.length_eq_zero_iff.1 h
            rw [h0, if_pos ⟨hc, hna⟩] at this
            revert this
            simp only [List.count_nil]
            split <;> simp
          · intro h
            by_contra hne
            cases ds with
            | nil => simp at hne
            | cons rule ds =>
              have hc := mem_deviations_checked hds rule (by simp)
              have := C25_deviations m hm tr _ hds rule (hck rule hc)
              rw [if_neg (fun h' => h'.2 (h rule hc))] at this
              simp at this

end Verif
