import Verif.Declare.Discovery
import Mathlib.Data.List.Nodup
/-
C25: agreement of Declare discovery with conformance checking; standard meaning; refutations.
-/
namespace Verif
open Declare Declare.Spec Dict Counter
variable {α : Type} [DecidableEq α]

namespace Declare

theorem countP_and_eq {β : Type} {l : List β} {p q : β → Prop} [DecidablePred p] [DecidablePred q]
    (h : l.countP (fun x => decide (p x ∧ q x)) = l.countP (fun x => decide (p x))) : ∀ x ∈ l, p x → q x := by
  intro x hx hp
  by_contra hq
  have hlt : l.countP (fun x => decide (p x ∧ q x)) < l.countP (fun x => decide (p x)) := by
    obtain ⟨u, v, rfl⟩ := List.append_of_mem hx
    have hle : ∀ l : List β, l.countP (fun x => decide (p x ∧ q x)) ≤ l.countP (fun x => decide (p x)) := fun l =>
      List.countP_mono_left (fun t _ h => by
        have h := of_decide_eq_true h
        exact decide_eq_true h.1)
    have h1 := hle u
    have h2 := hle v
    have e1 : decide (p x ∧ q x) = false := decide_eq_false (fun h => hq h.2)
    have e2 : decide (p x) = true := decide_eq_true hp
    rw [List.countP_append, List.countP_append, List.countP_cons, List.countP_cons, e1, e2]
    simp only [if_true, Bool.false_eq_true, if_false]
    omega
  omega

theorem countP_full {β : Type} {l : List β} {p : β → Prop} [DecidablePred p]
    (h : l.countP (fun x => decide (p x)) = l.length) : ∀ x ∈ l, p x := by
  rw [List.countP_eq_length] at h
  intro x hx; simpa using h x hx

theorem restrict_all (log : List (List α)) (t : List α) (h : t ∈ log) : restrict (activities none log) t = t := by
  unfold restrict activities
  rw [List.filter_eq_self]
  intro x hx
  simp only [Option.getD_none, mem_dedup, decide_eq_true_eq, List.mem_flatten]
  exact ⟨t, h, hx⟩

theorem found_values {later : Rule α → Rule α → Bool} {al : Allowed} {considered : Option (List α)} {given : Option (Rat × Rat)} {mult : Rat}
    {log : List (List α)} {fs : List (Found α)} (h : discover later al considered given mult log = some fs) {f : Found α} (hf : f ∈ fs) :
    Selectable al (activities considered log) f.rule ∧ f.support = suppOf (activities considered log) log f.rule ∧
      f.confidence = confOf (activities considered log) log f.rule := by
  simp only [discover, rulesTable] at h
  split at h
  · simp at h
  · simp only [Option.bind_eq_bind, Option.bind_some] at h
    rw [Option.bind_eq_some_iff] at h
    obtain ⟨th, hth, hsel⟩ := h
    simp only [Option.pure_def, Option.some.injEq] at hsel
    subst hsel
    have := (mem_select f).1 hf
    exact ⟨this.1, this.2.1, this.2.2.1⟩

theorem au_irrelevant {a b : α} (ch : Bool) (u v : List α) (ha : a ∉ u) (hb : b ∉ u) : au ch a b false (u ++ v) = au ch a b false v := by
  induction u with
  | nil => rfl
  | cons x u ih =>
    simp only [List.mem_cons, not_or] at ha hb
    simp only [List.cons_append, au, Ne.symm ha.1, Ne.symm hb.1, if_false]
    exact ih ha.2 hb.2

theorem au_before {a b : α} (hab : a ≠ b) (ch : Bool) (u v : List α) (ha : a ∉ u) (h : au ch a b false (u ++ v) = true) : b ∉ u := by
  induction u with
  | nil => simp
  | cons x u ih =>
    simp only [List.mem_cons, not_or] at ha ⊢
    simp only [List.cons_append, au, Ne.symm ha.1, if_false] at h
    split at h
    · cases h
    · rename_i hx
      exact ⟨fun h => hx h.symm, ih ha.2 h⟩

theorem first_split {a : α} {t : List α} (h : a ∈ t) : ∃ u v, t = u ++ a :: v ∧ a ∉ u := by
  induction t with
  | nil => simp at h
  | cons x t ih =>
    by_cases hx : x = a
    · exact ⟨[], t, by rw [hx]; rfl, by simp⟩
    · have : a ∈ t := by
        rcases List.mem_cons.1 h with h | h
        · exact absurd h.symm hx
        · exact h
      obtain ⟨u, v, rfl, hu⟩ := ih this
      exact ⟨x :: u, v, rfl, by simp [hu, Ne.symm hx]⟩

theorem prec_of_au {a b : α} (hab : a ≠ b) (ch : Bool) {t : List α} (ha : a ∈ t) (h : au ch a b false t = true) :
    ∃ u v, t = u ++ a :: v ∧ (∀ x y, u = x ++ b :: y → a ∉ x ∧ b ∉ x) ∧ au ch a b false (a :: v) = true := by
  obtain ⟨u, v, rfl, hu⟩ := first_split ha
  have hb := au_before hab ch u _ hu h
  rw [au_irrelevant ch u _ hu hb] at h
  refine ⟨u, v, rfl, ?_, h⟩
  rintro x y rfl
  simp at hb

/-- a trace that is measured as meeting an activated constraint is accepted by conformance checking -/
theorem accepted_of_measured (tr : List α) (r : Rule α) (hr : Distinct r) (ha : Activated tr r) (hm : Measured tr r) : Accepted tr r := by
  cases r with
  | un t a => exact hm
  | bi t a b =>
    have hab : a ≠ b := hr
    cases t
    case succession => exact ⟨ha, response_mem hm.1 ha, hm⟩
    case altResponse => exact ⟨[], tr, rfl, by simp, hm⟩
    case chainResponse => exact ⟨[], tr, rfl, by simp, hm⟩
    case altPrecedence =>
      obtain ⟨u, v, h1, h2, h3⟩ := prec_of_au hab false ha.1 ((au_alt hab tr).2 hm)
      exact .inr ⟨u, v, h1, h2, (au_alt hab _).1 h3⟩
    case chainPrecedence =>
      obtain ⟨u, v, h1, h2, h3⟩ := prec_of_au hab true ha.1 ((au_chain hab tr).2 hm)
      exact .inr ⟨u, v, h1, h2, (au_chain hab _).1 h3⟩
    case nonSuccession => trivial
    case nonChainSuccession => trivial
    all_goals exact hm

/-- the templates for which a trace that does not activate a constraint cannot deviate from it -/
def Safe : Rule α → Prop
  | .un .exactlyOne _ => False
  | .un _ _ => True
  | .bi .precedence _ _ => False
  | .bi .succession _ _ => False
  | .bi .altPrecedence _ _ => False
  | .bi .altSuccession _ _ => False
  | .bi .chainPrecedence _ _ => False
  | .bi .chainSuccession _ _ => False
  | .bi _ _ _ => True

theorem accepted_of_not_activated (tr : List α) (r : Rule α) (hs : Safe r) (ha : ¬ Activated tr r) : Accepted tr r := by
  cases r with
  | un t a => cases t <;> first | exact absurd trivial ha | exact hs.elim
  | bi t a b =>
    cases t
    case respondedExistence => exact fun h => absurd h ha
    case response => exact response_of_not_mem b ha
    case altResponse =>
      exact ⟨tr, [], by simp, ha, fun u v h => by simp at h, fun u v h => by simp at h⟩
    case chainResponse =>
      exact ⟨tr, [], by simp, ha, fun u v h => by simp at h, fun u v h => by simp at h⟩
    case coexistence =>
      have := not_or.1 ha
      exact ⟨fun h => absurd h this.1, fun h => absurd h this.2⟩
    case nonCoexistence => exact fun h => ha (.inl h.1)
    case nonSuccession => trivial
    case nonChainSuccession => trivial
    all_goals exact hs.elim

theorem not_dev {m : DModel α} {tr : List α} {ds : List (Rule α)} (hm : m.Keys) (h : deviations m tr = some ds) {r : Rule α} (hr : Distinct r)
    (ha : Accepted tr r) : r ∉ ds := by
  have := C25_deviations m hm tr ds h r hr
  rw [if_neg (fun h => h.2 ha)] at this
  exact List.count_eq_zero.1 this

theorem dev {m : DModel α} {tr : List α} {ds : List (Rule α)} (hm : m.Keys) (h : deviations m tr = some ds) {r : Rule α} (hr : Distinct r)
    (hc : Checked m r) (ha : ¬ Accepted tr r) : r ∈ ds := by
  have := C25_deviations m hm tr ds h r hr
  rw [if_pos ⟨hc, ha⟩] at this
  have hpos : 0 < ds.count r := by rw [this]; split <;> simp
  exact List.count_pos_iff.1 hpos

end Declare

/-- C25: agreement.  If a constraint of one of the `Safe` templates (existence, absence, init, responded existence, response, coexistence,
non-coexistence, alternate response, chain response) is discovered from a log with confidence equal to support, then no trace of the log is reported
to deviate from it, whatever Declare model is checked. -/
theorem C25_agreement (later : Rule α → Rule α → Bool) (al : Allowed) (given : Option (Rat × Rat)) (mult : Rat) (log : List (List α))
    (fs : List (Found α)) (h : discover later al none given mult log = some fs) (f : Found α) (hf : f ∈ fs)
    (hc : f.confidence = f.support) (hs : Safe f.rule) (tr : List α) (htr : tr ∈ log)
    (m : DModel α) (hm : m.Keys) (ds : List (Rule α)) (hds : deviations m tr = some ds) : f.rule ∉ ds := by
  classical
  obtain ⟨h1, h2, h3⟩ := found_values h hf
  rw [h2, h3] at hc
  apply not_dev hm hds h1.2.2
  by_cases ha : Activated tr f.rule
  · refine accepted_of_measured tr _ h1.2.2 ha ?_
    have := countP_and_eq (p := fun t => Activated (restrict (activities none log) t) f.rule)
      (q := fun t => Measured (restrict (activities none log) t) f.rule) hc tr htr
    rw [restrict_all log tr htr] at this
    exact this ha
  · exact accepted_of_not_activated tr _ hs ha

/-- C25: agreement for all templates: if a constraint is discovered with confidence equal to the number of traces, no trace of
the log is reported to deviate from it. -/
theorem C25_agreement_full (later : Rule α → Rule α → Bool) (al : Allowed) (given : Option (Rat × Rat)) (mult : Rat) (log : List (List α))
    (fs : List (Found α)) (h : discover later al none given mult log = some fs) (f : Found α) (hf : f ∈ fs)
    (hc : f.confidence = log.length) (tr : List α) (htr : tr ∈ log)
    (m : DModel α) (hm : m.Keys) (ds : List (Rule α)) (hds : deviations m tr = some ds) : f.rule ∉ ds := by
  classical
  obtain ⟨h1, h2, h3⟩ := found_values h hf
  rw [h3] at hc
  have := countP_full (p := fun t => Activated (restrict (activities none log) t) f.rule ∧
    Measured (restrict (activities none log) t) f.rule) hc tr htr
  rw [restrict_all log tr htr] at this
  exact not_dev hm hds h1.2.2 (accepted_of_measured tr _ h1.2.2 this.1 this.2)

/-- C25: the dictionary built from the discovered rules contains exactly those rules, each key once. -/
theorem C25_to_model (later : Rule α → Rule α → Bool) (al : Allowed) (considered : Option (List α)) (given : Option (Rat × Rat)) (mult : Rat)
    (log : List (List α)) (fs : List (Found α)) (h : discover later al considered given mult log = some fs) :
    (∀ t a, (∃ l, (toModel fs).un t = some l ∧ a ∈ l) ↔ ∃ f ∈ fs, f.rule = .un t a) ∧
    (∀ t a b, (∃ l, (toModel fs).bi t = some l ∧ (a, b) ∈ l) ↔ ∃ f ∈ fs, f.rule = .bi t a b) ∧
    (toModel fs).Keys := by
  have hnd : (fs.map Found.rule).Nodup := by
    simp only [discover, rulesTable] at h
    split at h
    · simp at h
    · simp only [Option.bind_eq_bind, Option.bind_some] at h
      rw [Option.bind_eq_some_iff] at h
      obtain ⟨th, hth, hsel⟩ := h
      simp only [Option.pure_def, Option.some.injEq] at hsel
      subst hsel
      have hcol : ((columns al (activities considered log)).map fun r => (r, (rows (activities considered log) log).map fun t =>
          value (activities considered log) t r)).map Prod.fst = columns al (activities considered log) := by
        rw [List.map_map]
        exact List.map_id _
      have hsub : ((selectRules (rows (activities considered log) log).length ((columns al (activities considered log)).map
          fun r => (r, (rows (activities considered log) log).map fun t => value (activities considered log) t r)) th).map
            Found.rule).Sublist (columns al (activities considered log)) := by
        revert hcol
        generalize columns al (activities considered log) = cols
        generalize (cols.map
          fun r => (r, (rows (activities considered log) log).map fun t => value (activities considered log) t r)) = tab
        rintro rfl
        induction tab with
        | nil => simp [selectRules]
        | cons c tab ih =>
          unfold selectRules at ih ⊢
          rw [List.filterMap_cons]
          split
          · exact ih.trans (by simp)
          · rename_i f hf
            have : f.rule = c.1 := by
              split at hf
              · split at hf
                · cases hf; rfl
                · cases hf
              · cases hf
            rw [List.map_cons, List.map_cons, this]
            exact ih.cons_cons _
      refine hsub.nodup ?_
      have hact : (activities considered log).Nodup := nodup_dedup _
      unfold columns
      rw [List.nodup_append]
      refine ⟨?_, ?_, ?_⟩
      · rw [List.nodup_flatMap]
        refine ⟨fun t _ => ?_, ?_⟩
        · exact hact.map (fun x y h => by injection h)
        · have : (allUT.filter al.colUn).Nodup := List.Nodup.filter _ (by decide)
          refine this.imp ?_
          intro t t' hne x hx hx'
          obtain ⟨a, -, rfl⟩ := List.mem_map.1 hx
          obtain ⟨b, -, he⟩ := List.mem_map.1 hx'
          injection he with he
          exact hne he.symm
      · rw [List.nodup_flatMap]
        refine ⟨fun t _ => ?_, ?_⟩
        · rw [List.nodup_flatMap]
          refine ⟨fun a _ => ?_, ?_⟩
          · exact (hact.filter _).map (fun x y h => by injection h)
          · refine hact.imp ?_
            intro t t' hne x hx hx'
            obtain ⟨a, -, rfl⟩ := List.mem_map.1 hx
            obtain ⟨b, -, he⟩ := List.mem_map.1 hx'
            injection he with _ he
            exact hne he.symm
        · have : (allBT.filter al.colBi).Nodup := List.Nodup.filter _ (by decide)
          refine this.imp ?_
          intro t t' hne x hx hx'
          simp only [List.mem_flatMap, List.mem_map] at hx hx'
          obtain ⟨a, -, b, -, rfl⟩ := hx
          obtain ⟨a', -, b', -, he⟩ := hx'
          injection he with he
          exact hne he.symm
      · intro x hx y hy he
        simp only [List.mem_flatMap, List.mem_map] at hx hy
        obtain ⟨t, -, a, -, rfl⟩ := hx
        obtain ⟨t', -, b, -, c, -, rfl⟩ := hy
        cases he
  have hu : ∀ t a, a ∈ (fs.map Found.rule).filterMap (keyUn t) ↔ ∃ f ∈ fs, f.rule = .un t a := by
    intro t a
    rw [List.mem_filterMap]
    constructor
    · rintro ⟨r, hr, h⟩
      obtain ⟨f, hf, rfl⟩ := List.mem_map.1 hr
      refine ⟨f, hf, ?_⟩
      cases hr : f.rule with
      | bi t' a' b' => simp [hr, keyUn] at h
      | un t' a' => simp [hr, keyUn] at h; rw [h.1, h.2]
    · rintro ⟨f, hf, h⟩
      exact ⟨_, List.mem_map.2 ⟨f, hf, rfl⟩, by simp [h, keyUn]⟩
  have hb : ∀ t a b, (a, b) ∈ (fs.map Found.rule).filterMap (keyBi t) ↔ ∃ f ∈ fs, f.rule = .bi t a b := by
    intro t a b
    rw [List.mem_filterMap]
    constructor
    · rintro ⟨r, hr, h⟩
      obtain ⟨f, hf, rfl⟩ := List.mem_map.1 hr
      refine ⟨f, hf, ?_⟩
      cases hr : f.rule with
      | un t' a' => simp [hr, keyBi] at h
      | bi t' a' b' => simp [hr, keyBi] at h; rw [h.1, h.2.1, h.2.2]
    · rintro ⟨f, hf, h⟩
      exact ⟨_, List.mem_map.2 ⟨f, hf, rfl⟩, by simp [h, keyBi]⟩
  refine ⟨fun t a => ?_, fun t a b => ?_, ?_, ?_⟩
  · rw [← hu t a]
    unfold toModel
    dsimp only
    split
    · rename_i h0; rw [h0]; simp
    · simp
  · rw [← hb t a b]
    unfold toModel
    dsimp only
    split
    · rename_i h0; rw [h0]; simp
    · simp
  · intro t l hl
    unfold toModel at hl
    dsimp only at hl
    split at hl
    · cases hl
    · cases hl
      refine List.Nodup.filterMap ?_ hnd
      intro r r' x hx hx'
      cases r <;> cases r' <;> simp [keyUn] at hx hx' ⊢
      exact ⟨hx.1.trans hx'.1.symm, hx.2.trans hx'.2.symm⟩
  · intro t l hl
    unfold toModel at hl
    dsimp only at hl
    split at hl
    · cases hl
    · cases hl
      refine List.Nodup.filterMap ?_ hnd
      intro r r' x hx hx'
      cases r <;> cases r' <;> simp [keyBi] at hx hx' ⊢
      exact ⟨hx.1.trans hx'.1.symm, by rw [← hx'.2] at hx; simpa using hx.2⟩

end Verif
