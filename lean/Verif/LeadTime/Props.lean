import Verif.LeadTime.Model
import Mathlib.Tactic.NormNum
import Mathlib.Algebra.Order.Field.Rat
import Mathlib.Algebra.Order.Field.Basic
set_option linter.unusedSectionVars false
/-
C87: the lead time and the cycle time attributes of interval logs.
-/
namespace Verif
namespace LeadTime

/-! ### Specification -/

/-- the ticks in which at least one of the executions is running -/
def busy (l : List (Nat × Nat)) : Finset Nat := l.toFinset.biUnion fun ev => Finset.Ico ev.1 ev.2

/-- the latest end of the executions -/
def lastEnd (l : List (Nat × Nat)) : Nat := (l.map Prod.snd).foldr max 0

/-- an interval trace: ordered by start, no execution ends before it starts, times after the epoch -/
structure TraceWF (l : List (Nat × Nat)) : Prop where
  sorted : l.Pairwise fun a b => a.1 ≤ b.1
  le : ∀ ev ∈ l, ev.1 ≤ ev.2
  pos : ∀ ev ∈ l, 0 < ev.1

/-- no execution starts in the very moment in which an earlier one of the trace ends -/
def NoTouch (l : List (Nat × Nat)) : Prop := l.Pairwise fun a b => a.2 ≠ b.1

/-! ### Proofs -/

theorem annotate_getElem (w : Nat → Nat) (l : List (Nat × Nat)) : ∀ (σ : State) (i : Nat) (h : i < (annotate w σ l).length),
    (annotate w σ l)[i] = (l.take (i + 1)).foldl (step w) σ := by
  induction l with
  | nil => intro σ i h; exact absurd h (Nat.not_lt_zero i)
  | cons ev l ih =>
    intro σ i h
    cases i with
    | zero => rfl
    | succ i => exact ih _ i (Nat.lt_of_succ_lt_succ h)

theorem annotate_length (w : Nat → Nat) (l : List (Nat × Nat)) : ∀ (σ : State), (annotate w σ l).length = l.length := by
  induction l with
  | nil => intro σ; rfl
  | cons ev l ih => intro σ; exact congrArg (· + 1) (ih _)

theorem busy_append (l : List (Nat × Nat)) (ev : Nat × Nat) : busy (l ++ [ev]) = busy l ∪ Finset.Ico ev.1 ev.2 := by
  ext t; simp only [busy, Finset.mem_biUnion, List.mem_toFinset, List.mem_append, List.mem_singleton, Finset.mem_union]
  constructor
  · rintro ⟨e, he | rfl, ht⟩
    · exact .inl ⟨e, he, ht⟩
    · exact .inr ht
  · rintro (⟨e, he, ht⟩ | ht)
    · exact ⟨e, .inl he, ht⟩
    · exact ⟨ev, .inr rfl, ht⟩

theorem mem_busy {l : List (Nat × Nat)} {t : Nat} : t ∈ busy l ↔ ∃ ev ∈ l, ev.1 ≤ t ∧ t < ev.2 := by
  simp only [busy, Finset.mem_biUnion, List.mem_toFinset, Finset.mem_Ico]

theorem lastEnd_append (l : List (Nat × Nat)) (ev : Nat × Nat) : lastEnd (l ++ [ev]) = max (lastEnd l) ev.2 := by
  unfold lastEnd
  induction l with
  | nil => simp
  | cons a l ih => 
    rw [List.cons_append, List.map_cons, List.map_cons, List.foldr_cons, List.foldr_cons, ih, max_assoc]

theorem le_lastEnd {l : List (Nat × Nat)} {ev : Nat × Nat} (h : ev ∈ l) : ev.2 ≤ lastEnd l := by
  unfold lastEnd
  induction l with
  | nil => cases h
  | cons a l ih =>
    rw [List.map_cons, List.foldr_cons]
    rcases List.mem_cons.1 h with rfl | h
    · exact le_max_left _ _
    · exact (ih h).trans (le_max_right _ _)

theorem lastEnd_mem {l : List (Nat × Nat)} (h : l ≠ []) : ∃ ev ∈ l, ev.2 = lastEnd l := by
  induction l with
  | nil => exact absurd rfl h
  | cons a l ih =>
    have e : lastEnd (a :: l) = max a.2 (lastEnd l) := rfl
    rcases le_total (lastEnd l) a.2 with h1 | h1
    · exact ⟨a, by simp, by rw [e, max_eq_left h1]⟩
    · cases l with
      | nil => exact ⟨a, by simp, by rw [e, max_eq_left (by simp [lastEnd])]⟩
      | cons b l =>
        obtain ⟨ev, h2, h3⟩ := ih (by simp)
        exact ⟨ev, List.mem_cons_of_mem _ h2, by rw [e, max_eq_right h1, h3]⟩

/-- the values after a prefix of the trace -/
structure Inv (w : Nat → Nat) (l : List (Nat × Nat)) (σ : State) : Prop where
  maxEt : σ.maxEt = lastEnd l
  cycle : σ.cycle = ∑ t ∈ busy l, w t
  wasted : ∀ ev, l.head? = some ev → σ.wasted = ∑ t ∈ Finset.Ico ev.1 (lastEnd l) \ busy l, w t
  first : l = [] → σ.wasted = 0
  lead : σ.lead = σ.cycle + σ.wasted

theorem inv_step {w : Nat → Nat} {l : List (Nat × Nat)} {ev : Nat × Nat} {σ : State} (hw : TraceWF (l ++ [ev])) (ht : NoTouch (l ++ [ev]))
    (h : Inv w l σ) : Inv w (l ++ [ev]) (step w σ ev) ∧
      (l = [] → (step w σ ev).thisWasted = 0) ∧ (l ≠ [] → (step w σ ev).thisWasted = work w (lastEnd l) ev.1) := by
  have hle : ev.1 ≤ ev.2 := hw.le ev (by simp)
  have hpos : 0 < ev.1 := hw.pos ev (by simp)
  have hst : ∀ a ∈ l, a.1 ≤ ev.1 := fun a ha => (List.pairwise_append.1 hw.sorted).2.2 a ha ev (by simp)
  have htt : ∀ a ∈ l, a.2 ≠ ev.1 := fun a ha => (List.pairwise_append.1 ht).2.2 a ha ev (by simp)
  have hbl : ∀ t ∈ busy l, t < lastEnd l := fun t ht => by
    obtain ⟨a, ha, -, h2⟩ := mem_busy.1 ht
    exact h2.trans_le (le_lastEnd ha)
  have hM : lastEnd (l ++ [ev]) = max (lastEnd l) ev.2 := lastEnd_append l ev
  have hmax : (step w σ ev).maxEt = lastEnd (l ++ [ev]) := by
    rw [hM]
    change (if σ.maxEt < ev.2 then ev.2 else σ.maxEt) = _
    rw [h.maxEt]
    split <;> omega
  have hne : l ≠ [] → lastEnd l ≠ ev.1 := fun hl => by
    obtain ⟨a, ha, e⟩ := lastEnd_mem hl
    rw [← e]; exact htt a ha
  by_cases hl : l = []
  · subst hl
    have e0 : lastEnd [] = 0 := rfl
    have h0 : σ.maxEt = 0 := h.maxEt
    have hb : busy [ev] = Finset.Ico ev.1 ev.2 := by simp [busy]
    have hb0 : busy [] = ∅ := rfl
    have c0 : σ.cycle = 0 := by rw [h.cycle, hb0, Finset.sum_empty]
    have w0 : σ.wasted = 0 := h.first rfl
    have t0 : (step w σ ev).thisWasted = 0 := by
      change (if 0 < σ.maxEt ∧ σ.maxEt < ev.1 then work w σ.maxEt ev.1 else 0) = 0
      rw [h0, if_neg (by omega)]
    have d0 : (if σ.maxEt < ev.1 then work w ev.1 ev.2 else if ev.1 < σ.maxEt ∧ σ.maxEt < ev.2 then work w σ.maxEt ev.2 else 0) = work w ev.1 ev.2 := by
      rw [h0, if_pos hpos]
    refine ⟨⟨hmax, ?_, ?_, fun e => by simp at e, ?_⟩, fun _ => t0, fun e => absurd rfl e⟩
    · change σ.cycle + _ = _
      rw [d0, c0, List.nil_append, hb, Nat.zero_add]; rfl
    · intro a ha
      have : a = ev := by simpa using ha.symm
      subst this
      change σ.wasted + (step w σ a).thisWasted = _
      rw [w0, t0, List.nil_append, hb]
      have : lastEnd [a] = a.2 := by simp [lastEnd]
      rw [this, Finset.sdiff_self, Finset.sum_empty, Nat.add_zero]
    · change σ.lead + (step w σ ev).thisWasted + _ = σ.cycle + _ + (σ.wasted + (step w σ ev).thisWasted)
      rw [h.lead]; omega
  · have hne := hne hl
    obtain ⟨m, hm, hme⟩ := lastEnd_mem hl
    have hm0 : 0 < lastEnd l := by
      rw [← hme]; exact (hw.pos m (by simp [hm])).trans_le (hw.le m (by simp [hm]))
    have hcov : ∀ t, ev.1 ≤ t → t < lastEnd l → t ∈ busy l := fun t h1 h2 => mem_busy.2 ⟨m, hm, (hst m hm).trans h1, by rw [hme]; exact h2⟩
    have hT : (step w σ ev).thisWasted = work w (lastEnd l) ev.1 := by
      change (if 0 < σ.maxEt ∧ σ.maxEt < ev.1 then work w σ.maxEt ev.1 else 0) = _
      rw [h.maxEt]
      split
      · rfl
      · rw [work, Finset.Ico_eq_empty (by omega), Finset.sum_empty]
    have hD : (if σ.maxEt < ev.1 then work w ev.1 ev.2 else if ev.1 < σ.maxEt ∧ σ.maxEt < ev.2 then work w σ.maxEt ev.2 else 0) =
        ∑ t ∈ Finset.Ico ev.1 ev.2 \ busy l, w t := by
      rw [h.maxEt]
      by_cases h1 : lastEnd l < ev.1
      · rw [if_pos h1, work]
        congr 1
        ext t
        rw [Finset.mem_sdiff, Finset.mem_Ico]
        exact ⟨fun ⟨a, b⟩ => ⟨⟨a, b⟩, fun hb => by have := hbl t hb; omega⟩, fun h => h.1⟩
      · rw [if_neg h1]
        have h2 : ev.1 < lastEnd l := by omega
        by_cases h3 : lastEnd l < ev.2
        · rw [if_pos ⟨h2, h3⟩, work]
          congr 1
          ext t
          rw [Finset.mem_sdiff, Finset.mem_Ico, Finset.mem_Ico]
          constructor
          · rintro ⟨a, b⟩
            exact ⟨⟨by omega, b⟩, fun hb => by have := hbl t hb; omega⟩
          · rintro ⟨⟨a, b⟩, c⟩
            refine ⟨?_, b⟩
            by_contra hlt
            exact c (hcov t a (by omega))
        · rw [if_neg (by omega)]
          symm
          rw [Finset.sum_eq_zero]
          intro t ht
          rw [Finset.mem_sdiff, Finset.mem_Ico] at ht
          exact absurd (hcov t ht.1.1 (by omega)) ht.2
    refine ⟨⟨hmax, ?_, ?_, fun e => by simp at e, ?_⟩, fun e => absurd e hl, fun _ => hT⟩
    · change σ.cycle + _ = _
      rw [hD, h.cycle, busy_append, ← Finset.sum_union (Finset.disjoint_sdiff), Finset.union_sdiff_self_eq_union]
    · intro a ha
      have ha' : l.head? = some a := by
        cases l with
        | nil => exact absurd rfl hl
        | cons b l => simpa using ha
      have hal : a ∈ l := List.mem_of_mem_head? ha'
      have hale : ∀ b ∈ l, a.1 ≤ b.1 := by
        intro b hb
        cases l with
        | nil => cases hb
        | cons c l =>
          have : c = a := by simpa using ha'
          subst this
          rcases List.mem_cons.1 hb with rfl | hb
          · exact le_rfl
          · exact List.rel_of_pairwise_cons (List.pairwise_append.1 hw.sorted).1 hb
      have ham : a.1 ≤ lastEnd l := (hw.le a (by simp [hal])).trans (le_lastEnd hal)
      change σ.wasted + (step w σ ev).thisWasted = _
      rw [hT, h.wasted a ha', work, busy_append, hM, ← Finset.sum_union]
      · congr 1
        ext t
        simp only [Finset.mem_union, Finset.mem_sdiff, Finset.mem_Ico]
        constructor
        · rintro (⟨⟨h1, h2⟩, h3⟩ | ⟨h1, h2⟩)
          · refine ⟨⟨h1, by omega⟩, ?_⟩
            rintro (h4 | h4)
            · exact h3 h4
            · exact h3 (hcov t h4.1 h2)
          · refine ⟨⟨by omega, by omega⟩, ?_⟩
            rintro (h4 | h4)
            · have := hbl t h4; omega
            · omega
        · rintro ⟨⟨h1, h2⟩, h3⟩
          by_cases h4 : t < lastEnd l
          · exact .inl ⟨⟨h1, h4⟩, fun h5 => h3 (.inl h5)⟩
          · refine .inr ⟨by omega, ?_⟩
            by_contra h5
            exact h3 (.inr ⟨by omega, by omega⟩)
      · rw [Finset.disjoint_left]
        intro t h1 h2
        rw [Finset.mem_sdiff, Finset.mem_Ico] at h1
        rw [Finset.mem_Ico] at h2
        omega
    · change σ.lead + (step w σ ev).thisWasted + _ = σ.cycle + _ + (σ.wasted + (step w σ ev).thisWasted)
      rw [h.lead]; omega

theorem TraceWF.prefix {l m : List (Nat × Nat)} (h : TraceWF (l ++ m)) : TraceWF l :=
  ⟨(List.pairwise_append.1 h.sorted).1, fun ev he => h.le ev (by simp [he]), fun ev he => h.pos ev (by simp [he])⟩

theorem inv_foldl (w : Nat → Nat) (l : List (Nat × Nat)) : TraceWF l → NoTouch l → Inv w l (l.foldl (step w) init) := by
  induction l using List.reverseRecOn with
  | nil => exact fun _ _ => ⟨rfl, rfl, fun ev h => by simp at h, fun _ => rfl, rfl⟩
  | append_singleton l ev ih =>
    intro hw ht
    rw [List.foldl_append]
    exact (inv_step hw ht (ih hw.prefix (List.pairwise_append.1 ht).1)).1

theorem foldl_lead (w : Nat → Nat) (l : List (Nat × Nat)) (σ : State) (h : σ.lead = σ.cycle + σ.wasted) :
    (l.foldl (step w) σ).lead = (l.foldl (step w) σ).cycle + (l.foldl (step w) σ).wasted := by
  induction l generalizing σ with
  | nil => exact h
  | cons ev l ih =>
    refine ih _ ?_
    simp only [step]
    omega

theorem busy_first {l : List (Nat × Nat)} (hs : l.Pairwise fun a b => a.1 ≤ b.1) {a : Nat × Nat} (ha : l.head? = some a) : busy l ⊆ Finset.Ico a.1 (lastEnd l) := by
  intro t ht
  obtain ⟨b, hb, h1, h2⟩ := mem_busy.1 ht
  rw [Finset.mem_Ico]
  refine ⟨le_trans ?_ h1, h2.trans_le (le_lastEnd hb)⟩
  cases l with
  | nil => cases hb
  | cons c l =>
    have : c = a := by simpa using ha
    subst this
    rcases List.mem_cons.1 hb with rfl | hb
    · exact le_rfl
    · exact List.rel_of_pairwise_cons hs hb

end LeadTime

open LeadTime

/-- C87: every event gets attributes; the lead time is always the cycle time plus the wasted time, and the ratio is their share, between 0 and 1. -/
theorem C87_balance (w : Nat → Nat) (l : List (Nat × Nat)) : (leadCycle w l).length = l.length ∧ ∀ σ ∈ leadCycle w l,
    σ.lead = σ.cycle + σ.wasted ∧ (0 < σ.lead → σ.ratio = (σ.cycle : Rat) / (σ.lead : Rat)) ∧ (σ.lead = 0 → σ.ratio = 1) ∧ 0 ≤ σ.ratio ∧ σ.ratio ≤ 1 := by
  refine ⟨annotate_length w l init, fun σ hσ => ?_⟩
  obtain ⟨i, hi, rfl⟩ := List.getElem_of_mem hσ
  have hil : i < l.length := by rw [← annotate_length w l init]; exact hi
  have e := annotate_getElem w l init i hi
  have hlead := foldl_lead w (l.take (i + 1)) init rfl
  have hr : ((l.take (i + 1)).foldl (step w) init).ratio = if 0 < ((l.take (i + 1)).foldl (step w) init).lead then
      (((l.take (i + 1)).foldl (step w) init).cycle : Rat) / (((l.take (i + 1)).foldl (step w) init).lead : Rat) else 1 := by
    rw [List.take_succ_eq_append_getElem hil, List.foldl_append]; rfl
  rw [← e] at hlead hr
  have key : ∀ τ : State, τ.lead = τ.cycle + τ.wasted → τ.ratio = (if 0 < τ.lead then (τ.cycle : Rat) / (τ.lead : Rat) else 1) →
      τ.lead = τ.cycle + τ.wasted ∧ (0 < τ.lead → τ.ratio = (τ.cycle : Rat) / (τ.lead : Rat)) ∧ (τ.lead = 0 → τ.ratio = 1) ∧ 0 ≤ τ.ratio ∧ τ.ratio ≤ 1 := by
    intro τ h1 h2
    refine ⟨h1, fun h => by rw [h2, if_pos h], fun h => by rw [h2, if_neg (by omega)], ?_, ?_⟩
    · rw [h2]; split
      · positivity
      · norm_num
    · rw [h2]; split
      · rename_i h
        have hp : (0 : Rat) < (τ.lead : Rat) := by exact_mod_cast h
        rw [div_le_one hp]
        exact_mod_cast (by omega : τ.cycle ≤ τ.lead)
      · exact le_rfl
  exact key _ hlead hr

/-- C87: in a trace in which no execution starts in the moment another one ends, at every event the cycle time is the business time in which at least one
of the executions so far was running, the lead time is the business time from the start of the trace to the latest end so far, and the wasted time is
the rest. -/
theorem C87_exact (w : Nat → Nat) (l : List (Nat × Nat)) (hw : TraceWF l) (ht : NoTouch l) (first : Nat × Nat) (hf : l.head? = some first)
    (i : Nat) (hi : i < (leadCycle w l).length) :
    (leadCycle w l)[i].cycle = ∑ t ∈ busy (l.take (i + 1)), w t ∧
    (leadCycle w l)[i].lead = ∑ t ∈ Finset.Ico first.1 (lastEnd (l.take (i + 1))), w t ∧
    (leadCycle w l)[i].wasted = ∑ t ∈ Finset.Ico first.1 (lastEnd (l.take (i + 1))) \ busy (l.take (i + 1)), w t := by
  have hw' : TraceWF (l.take (i + 1)) := TraceWF.prefix (m := l.drop (i + 1)) (by rw [List.take_append_drop]; exact hw)
  have ht' : NoTouch (l.take (i + 1)) := ht.sublist (List.take_sublist _ _)
  have hv := inv_foldl w _ hw' ht'
  have hf' : (l.take (i + 1)).head? = some first := by
    cases l with
    | nil => cases hf
    | cons b l => simpa using hf
  have e : (leadCycle w l)[i] = _ := annotate_getElem w l init i hi
  rw [e]
  refine ⟨hv.cycle, ?_, hv.wasted first hf'⟩
  rw [hv.lead, hv.cycle, hv.wasted first hf', add_comm, Finset.sum_sdiff (busy_first hw'.sorted hf')]

/-- C87: the wasted time of an event is the business time between the latest end so far and its start. -/
theorem C87_wasted (w : Nat → Nat) (l : List (Nat × Nat)) (hw : TraceWF l) (ht : NoTouch l) (i : Nat) (hi : i < (leadCycle w l).length) (hl : i < l.length) :
    (i = 0 → (leadCycle w l)[i].thisWasted = 0) ∧
    (0 < i → (leadCycle w l)[i].thisWasted = ∑ t ∈ Finset.Ico (lastEnd (l.take i)) l[i].1, w t) := by
  have e : (leadCycle w l)[i] = _ := annotate_getElem w l init i hi
  have hsp := List.take_succ_eq_append_getElem hl
  have hw' : TraceWF (l.take i ++ [l[i]]) := by
    rw [← hsp]; exact TraceWF.prefix (m := l.drop (i + 1)) (by rw [List.take_append_drop]; exact hw)
  have ht' : NoTouch (l.take i ++ [l[i]]) := by rw [← hsp]; exact ht.sublist (List.take_sublist _ _)
  have hv := inv_step hw' ht' (inv_foldl w _ hw'.prefix (List.pairwise_append.1 ht').1)
  rw [e, hsp, List.foldl_append]
  refine ⟨fun h0 => hv.2.1 (by rw [h0]; rfl), fun h0 => hv.2.2 fun h => ?_⟩
  have := congrArg List.length h
  rw [List.length_take] at this
  simp only [List.length_nil] at this
  omega

/-- C87, refuted in general: an execution that starts when another one ends is not counted at all, neither in the cycle time nor in the lead time. -/
theorem C87_touch_refuted : TraceWF [(1, 3), (3, 5)] ∧ (leadCycle (fun _ => 1) [(1, 3), (3, 5)]).map (fun σ => (σ.lead, σ.cycle, σ.wasted)) = [(2, 2, 0), (2, 2, 0)] ∧
    (∑ _t ∈ busy [(1, 3), (3, 5)], 1) = 4 ∧ (∑ _t ∈ Finset.Ico 1 (lastEnd [(1, 3), (3, 5)]), 1) = 4 :=
  ⟨⟨by simp, by simp, by simp⟩, by decide, by decide, by decide⟩

/-- two overlapping executions and one after a pause -/
example : TraceWF [(1, 4), (2, 6), (9, 10)] ∧ NoTouch [(1, 4), (2, 6), (9, 10)] ∧
    (leadCycle (fun _ => 1) [(1, 4), (2, 6), (9, 10)]).map (fun σ => (σ.lead, σ.cycle, σ.wasted, σ.thisWasted)) = [(3, 3, 0, 0), (5, 5, 0, 0), (9, 6, 3, 3)] :=
  ⟨⟨by simp, by simp, by simp⟩, by simp [NoTouch], by decide⟩

end Verif
