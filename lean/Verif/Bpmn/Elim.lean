import Verif.Convert.ReduceSteps
/-
Elimination of a place between silent transitions: the consumers and producers of the place are merged (C65).
-/
set_option linter.unusedSectionVars false
namespace Verif.Sys
open Verif Lang
variable {α : Type}

/-- the transition backwards -/
def Tr.flip (t : Tr α) : Tr α := ⟨t.post, t.pre, t.lab⟩
@[simp] theorem Tr.flip_flip (t : Tr α) : t.flip.flip = t := rfl

theorem Tr.fires.flip {t : Tr α} {M M' : Mk} (h : t.fires M M') : t.flip.fires M' M := by
  refine ⟨fun p => ?_, fun p => ?_⟩
  · have := h.1 p; have := h.2 p; show t.post.count p ≤ _; omega
  · have := h.2 p; show _ + t.post.count p = _ + t.pre.count p; omega

theorem Run.flip {T : List (Tr α)} {M M' : Mk} {w : List α} (h : Run T M w M') : Run (T.map Tr.flip) M' w.reverse M := by
  induction h with
  | nil => exact .nil
  | @snoc w M1 M2 t _ ht hf ih =>
    have h1 : Run (T.map Tr.flip) M2 t.lab.toList M1 := Run.step (t := t.flip) (List.mem_map.2 ⟨t, ht, rfl⟩) hf.flip
    refine (h1.trans ih).cast ?_
    cases t.lab <;> simp

/-- `T'` is `T` without the place `p`: every transition that fills `p` is merged with every transition that empties it. -/
structure Elim (T T' R : List (Tr α)) (p : Nat) (A B : List (List Nat × Option α)) : Prop where
  mem : ∀ t, t ∈ T ↔ t ∈ R ∨ (∃ a ∈ A, t = ⟨a.1, [p], a.2⟩) ∨ ∃ b ∈ B, t = ⟨[p], b.1, b.2⟩
  mem' : ∀ t, t ∈ T' ↔ t ∈ R ∨ ∃ a ∈ A, ∃ b ∈ B, t = ⟨a.1, b.1, a.2.or b.2⟩
  free : ∀ t ∈ R, p ∉ t.pre ∧ p ∉ t.post
  freeA : ∀ a ∈ A, p ∉ a.1
  freeB : ∀ b ∈ B, p ∉ b.1
  silent : (∀ a ∈ A, a.2 = none) ∨ ∀ b ∈ B, b.2 = none

namespace Elim
variable {T T' R : List (Tr α)} {p : Nat} {A B : List (List Nat × Option α)}

theorem lab (h : Elim T T' R p A B) {a b : List Nat × Option α} (ha : a ∈ A) (hb : b ∈ B) :
    (a.2.or b.2).toList = a.2.toList ++ b.2.toList := by
  rcases h.silent with hs | hs
  · rw [hs a ha]; simp
  · rw [hs b hb]; cases a.2 <;> simp

theorem lab_comm (h : Elim T T' R p A B) {a b : List Nat × Option α} (ha : a ∈ A) (hb : b ∈ B) : a.2.or b.2 = b.2.or a.2 := by
  rcases h.silent with hs | hs
  · rw [hs a ha]; simp
  · rw [hs b hb]; simp

theorem step_back (h : Elim T T' R p A B) {t : Tr α} (ht : t ∈ T') {M M' : Mk} (hf : t.fires M M') : Run T M t.lab.toList M' := by
  rcases (h.mem' t).1 ht with ht | ⟨a, ha, b, hb, rfl⟩
  · exact Run.step ((h.mem t).2 (.inl ht)) hf
  · have h1 : (⟨a.1, [p], a.2⟩ : Tr α).fires M (fun q => M q - a.1.count q + [p].count q) := by
      refine ⟨hf.1, fun q => ?_⟩
      have h3 := hf.1 q
      simp only [] at h3 ⊢; omega
    have h2 : (⟨[p], b.1, b.2⟩ : Tr α).fires (fun q => M q - a.1.count q + [p].count q) M' := by
      refine ⟨fun q => by simp only []; omega, fun q => ?_⟩
      have h3 := hf.1 q
      have h4 := hf.2 q
      simp only [] at h3 h4 ⊢; omega
    have r := (Run.step ((h.mem _).2 (.inr (.inl ⟨a, ha, rfl⟩))) h1).trans (Run.step ((h.mem _).2 (.inr (.inr ⟨b, hb, rfl⟩))) h2)
    exact r.cast (h.lab ha hb).symm

theorem back (h : Elim T T' R p A B) {M M' : Mk} {w : List α} (hr : Run T' M w M') : Run T M w M' := by
  induction hr with
  | nil => exact .nil
  | snoc _ ht hf ih => exact ih.trans (h.step_back ht hf)

theorem sim (h : Elim T T' R p A B) (hs : ∀ a ∈ A, a.2 = none) {M N : Mk} {w : List α} (hr : Run T M w N) (h0 : M p = 0) :
    ∃ H : List (List Nat), (∀ I ∈ H, ∃ a ∈ A, a.1 = I) ∧ H.length = N p ∧
      Run T' M w (fun q => if q = p then 0 else N q + H.flatten.count q) := by
  induction hr with
  | nil => 
    refine ⟨[], by simp, by simp [h0], ?_⟩
    have : (fun q => if q = p then 0 else M q + ([] : List (List Nat)).flatten.count q) = M := by
      funext q; by_cases hq : q = p <;> simp [hq, h0]
    rw [this]; exact .nil
  | @snoc w M1 N t hr ht hf ih =>
    obtain ⟨H, hH, hl, r⟩ := ih
    rcases (h.mem t).1 ht with ht | ⟨a, ha, rfl⟩ | ⟨b, hb, rfl⟩
    · obtain ⟨f1, f2⟩ := h.free t ht
      have e0 : N p = M1 p := hf.untouched f1 f2
      refine ⟨H, hH, by rw [hl, e0], .snoc r ((h.mem' t).2 (.inl ht)) ⟨fun q => ?_, fun q => ?_⟩⟩
      · by_cases hq : q = p
        · rw [hq, List.count_eq_zero.2 f1]; omega
        · have := hf.1 q; simp only [if_neg hq]; omega
      · by_cases hq : q = p
        · rw [hq, List.count_eq_zero.2 f1, List.count_eq_zero.2 f2]; simp
        · have := hf.2 q; simp only [if_neg hq]; omega
    · refine ⟨a.1 :: H, ?_, ?_, ?_⟩
      · intro I hI
        rcases List.mem_cons.1 hI with rfl | hI
        · exact ⟨a, ha, rfl⟩
        · exact hH I hI
      · have := hf.2 p
        rw [List.count_eq_zero.2 (h.freeA a ha)] at this
        simp at this
        simp [hl]; omega
      · have e : (fun q => if q = p then 0 else N q + (a.1 :: H).flatten.count q) = fun q => if q = p then 0 else M1 q + H.flatten.count q := by
          funext q
          by_cases hq : q = p
          · simp [hq]
          · have := hf.2 q
            have hc : [p].count q = 0 := List.count_eq_zero.2 (by simpa using hq)
            simp only [hc] at this
            simp only [if_neg hq, List.flatten_cons, List.count_append]; omega
        rw [e]
        refine r.cast ?_
        simp [hs a ha]
    · have hp1 : 1 ≤ M1 p := hf.mem_pre (by simp)
      match H, hl with
      | [], hl => simp at hl; omega
      | I :: H, hl =>
        obtain ⟨a, ha, rfl⟩ := hH I (by simp)
        refine ⟨H, fun J hJ => hH J (by simp [hJ]), ?_, ?_⟩
        · have := hf.2 p
          rw [List.count_eq_zero.2 (h.freeB b hb)] at this
          simp at this hl
          omega
        · have hm : (⟨a.1, b.1, a.2.or b.2⟩ : Tr α) ∈ T' := (h.mem' _).2 (.inr ⟨a, ha, b, hb, rfl⟩)
          refine (Run.snoc r hm ⟨fun q => ?_, fun q => ?_⟩).cast ?_
          · by_cases hq : q = p
            · rw [hq]; show a.1.count p ≤ _; rw [List.count_eq_zero.2 (h.freeA a ha)]; omega
            · simp only [if_neg hq, List.flatten_cons, List.count_append]; omega
          · by_cases hq : q = p
            · rw [hq]; show _ + a.1.count p = _ + b.1.count p
              rw [List.count_eq_zero.2 (h.freeA a ha), List.count_eq_zero.2 (h.freeB b hb)]; simp
            · have := hf.2 q
              have hc : [p].count q = 0 := List.count_eq_zero.2 (by simpa using hq)
              simp only [hc] at this
              simp only [if_neg hq, List.flatten_cons, List.count_append]; omega
          · simp [hs a ha]

theorem flip (h : Elim T T' R p A B) : Elim (T.map Tr.flip) (T'.map Tr.flip) (R.map Tr.flip) p B A := by
  have mf : ∀ (L : List (Tr α)) t, t ∈ L.map Tr.flip ↔ t.flip ∈ L := by
    intro L t
    rw [List.mem_map]
    exact ⟨fun ⟨u, hu, e⟩ => by rw [← e]; exact hu, fun ht => ⟨_, ht, rfl⟩⟩
  refine ⟨fun t => ?_, fun t => ?_, fun t ht => ?_, h.freeB, h.freeA, h.silent.symm⟩
  · rw [mf, mf, h.mem]
    constructor
    · rintro (h1 | ⟨a, ha, e⟩ | ⟨b, hb, e⟩)
      · exact .inl h1
      · exact .inr (.inr ⟨a, ha, congrArg Tr.flip e⟩)
      · exact .inr (.inl ⟨b, hb, congrArg Tr.flip e⟩)
    · rintro (h1 | ⟨a, ha, e⟩ | ⟨b, hb, e⟩)
      · exact .inl h1
      · exact .inr (.inr ⟨a, ha, congrArg Tr.flip e⟩)
      · exact .inr (.inl ⟨b, hb, congrArg Tr.flip e⟩)
  · rw [mf, mf, h.mem']
    constructor
    · rintro (h1 | ⟨a, ha, b, hb, e⟩)
      · exact .inl h1
      · exact .inr ⟨b, hb, a, ha, by rw [← h.lab_comm ha hb]; exact congrArg Tr.flip e⟩
    · rintro (h1 | ⟨b, hb, a, ha, e⟩)
      · exact .inl h1
      · exact .inr ⟨a, ha, b, hb, by rw [h.lab_comm ha hb]; exact congrArg Tr.flip e⟩
  · rw [mf] at ht
    exact (h.free _ ht).symm

theorem fwd (h : Elim T T' R p A B) {M N : Mk} {w : List α} (hr : Run T M w N) (h0 : M p = 0) (h1 : N p = 0) : Run T' M w N := by
  have key : ∀ {T T' R : List (Tr α)} {A B : List (List Nat × Option α)}, Elim T T' R p A B → (∀ a ∈ A, a.2 = none) →
      ∀ {M N : Mk} {w : List α}, Run T M w N → M p = 0 → N p = 0 → Run T' M w N := by
    intro T T' R A B h hs M N w hr h0 h1
    obtain ⟨H, _, hl, r⟩ := h.sim hs hr h0
    have : H = [] := List.length_eq_zero_iff.1 (by rw [hl, h1])
    subst this
    have e : (fun q => if q = p then 0 else N q + ([] : List (List Nat)).flatten.count q) = N := by
      funext q; by_cases hq : q = p <;> simp [hq, h1]
    rwa [e] at r
  rcases h.silent with hs | hs
  · exact key h hs hr h0 h1
  · have := (key h.flip hs hr.flip h1 h0).flip
    rw [List.reverse_reverse, List.map_map] at this
    have e : T'.map (Tr.flip ∘ Tr.flip) = T' := by
      conv => rhs; rw [← List.map_id T']
      rfl
    rwa [e] at this

/-- the language does not change -/
theorem lang (h : Elim T T' R p A B) {M N : Mk} {w : List α} (h0 : M p = 0) (h1 : N p = 0) : Run T M w N ↔ Run T' M w N :=
  ⟨fun hr => h.fwd hr h0 h1, h.back⟩

/-- the tokens on `p` can be moved on -/
theorem drain (h : Elim T T' R p A B) {b : List Nat × Option α} (hb : b ∈ B) (k : Nat) : ∀ M : Mk, M p = k →
    ∃ v, Run T M v (fun q => if q = p then 0 else M q + k * b.1.count q) := by
  induction k with
  | zero =>
    intro M hM
    refine ⟨[], ?_⟩
    have e : (fun q => if q = p then 0 else M q + 0 * b.1.count q) = M := by
      funext q; by_cases hq : q = p <;> simp [hq, hM]
    rw [e]; exact .nil
  | succ k ih =>
    intro M hM
    have hnb := List.count_eq_zero.2 (h.freeB b hb)
    have hf : (⟨[p], b.1, b.2⟩ : Tr α).fires M (fun q => M q - [p].count q + b.1.count q) := by
      have hc : ∀ q, [p].count q ≤ M q := by
        intro q
        by_cases hq : q = p
        · subst hq; simp; omega
        · rw [List.count_eq_zero.2 (by simpa using hq)]; omega
      refine ⟨hc, fun q => ?_⟩
      have := hc q
      simp only []; omega
    obtain ⟨v, hv⟩ := ih (fun q => M q - [p].count q + b.1.count q) (by simp [hM, hnb])
    have r := (Run.step ((h.mem _).2 (.inr (.inr ⟨b, hb, rfl⟩))) hf).trans hv
    have e : (fun q => if q = p then 0 else (M q - [p].count q + b.1.count q) + k * b.1.count q) =
        fun q => if q = p then 0 else M q + (k + 1) * b.1.count q := by
      funext q
      by_cases hq : q = p
      · simp [hq]
      · simp only [if_neg hq, List.count_eq_zero.2 (show q ∉ [p] by simpa using hq)]
        rw [Nat.add_mul]; omega
    rw [e] at r
    exact ⟨_, r⟩

/-- soundness is kept when the place is put in -/
theorem sound (h : Elim T T' R p A B) {i o : Nat} (hS : Sound T' i o) (hi : p ≠ i) (ho : p ≠ o) (hA : A ≠ []) (hB : B ≠ [])
    (hne : ∀ b ∈ B, b.1 ≠ []) : Sound T i o := by
  obtain ⟨b, hb⟩ := List.exists_mem_of_ne_nil _ hB
  obtain ⟨a, ha⟩ := List.exists_mem_of_ne_nil _ hA
  have i0 : toks [i] p = 0 := toks_off hi
  have o0 : toks [o] p = 0 := toks_off ho
  have key : ∀ w M, Run T (toks [i]) w M → ∃ v, Run T M v (fun q => if q = p then 0 else M q + M p * b.1.count q) ∧
      Run T' (toks [i]) (w ++ v) (fun q => if q = p then 0 else M q + M p * b.1.count q) := by
    intro w M hr
    obtain ⟨v, hv⟩ := h.drain hb (M p) M rfl
    exact ⟨v, hv, h.fwd (hr.trans hv) i0 (by simp)⟩
  obtain ⟨q0, hq0⟩ := List.exists_mem_of_ne_nil _ (hne b hb)
  have hq0p : q0 ≠ p := fun e => h.freeB b hb (e ▸ hq0)
  have hc0 : 1 ≤ b.1.count q0 := List.count_pos_iff.2 hq0
  refine ⟨fun w M hr hM => ?_, fun w M hr q => ?_, fun w M hr => ?_, fun t ht => ?_⟩
  · obtain ⟨v, _, r⟩ := key w M hr
    have e := hS.proper _ _ r (by simp only [if_neg (Ne.symm ho)]; omega)
    have hp0 : M p = 0 := by
      refine Nat.eq_zero_of_not_pos fun hpos => ?_
      have e1 := congrFun e q0
      simp only [if_neg hq0p] at e1
      have hsafe := hS.safe _ _ r
      have e2 := congrFun e o
      have hge : 1 ≤ M p * b.1.count q0 := Nat.mul_pos hpos hc0
      rw [toks_single] at e1 e2
      simp only [if_neg (Ne.symm ho), if_true] at e2
      split at e1
      · next h1 => subst h1; omega
      · omega
    funext q
    have e1 := congrFun e q
    simp only [hp0] at e1
    by_cases hq : q = p
    · rw [hq, hp0, o0]
    · simpa [if_neg hq] using e1
  · obtain ⟨v, _, r⟩ := key w M hr
    have hs := hS.safe _ _ r
    by_cases hq : q = p
    · have := hs q0
      simp only [if_neg hq0p] at this
      rw [hq]
      have h2 : M p * 1 ≤ M p * b.1.count q0 := Nat.mul_le_mul_left _ hc0
      omega
    · have := hs q
      simp only [if_neg hq] at this; omega
  · obtain ⟨v, hv, r⟩ := key w M hr
    obtain ⟨u, hu⟩ := hS.complete _ _ r
    exact ⟨v ++ u, hv.trans (h.back hu)⟩
  · rcases (h.mem t).1 ht with ht | ⟨a', ha', rfl⟩ | ⟨b', hb', rfl⟩
    · obtain ⟨w, M, M', hr, hf⟩ := hS.live t ((h.mem' t).2 (.inl ht))
      exact ⟨w, M, M', h.back hr, hf⟩
    · obtain ⟨w, M, M', hr, hf⟩ := hS.live _ ((h.mem' _).2 (.inr ⟨a', ha', b, hb, rfl⟩))
      refine ⟨w, M, (fun q => M q - a'.1.count q + [p].count q), h.back hr, hf.1, fun q => ?_⟩
      have := hf.1 q
      simp only [] at this ⊢; omega
    · obtain ⟨w, M, M', hr, hf⟩ := hS.live _ ((h.mem' _).2 (.inr ⟨a, ha, b', hb', rfl⟩))
      have h1 : (⟨a.1, [p], a.2⟩ : Tr α).fires M (fun q => M q - a.1.count q + [p].count q) := by
        refine ⟨hf.1, fun q => ?_⟩
        have h3 := hf.1 q
        simp only [] at h3 ⊢; omega
      refine ⟨_, _, M', (h.back hr).snoc ((h.mem _).2 (.inr (.inl ⟨a, ha, rfl⟩))) h1, fun q => by simp only []; omega, fun q => ?_⟩
      have h3 := hf.1 q
      have h4 := hf.2 q
      simp only [] at h3 h4 ⊢; omega

end Elim
end Verif.Sys
