import Verif.Alpha.Model
import Mathlib.Data.Finset.Card
import Mathlib.Data.Finset.Max
import Mathlib.Data.Finset.Prod
import Mathlib.Tactic.Linarith
set_option linter.unusedSectionVars false
/-
C45: the loops build exactly the candidate pairs.
-/
namespace Verif.Alpha
variable {α : Type} [DecidableEq α]

/-- When the body of the inner loop adds the union. -/
def Merges (par causal : List (α × α)) (t1 t2 : PairOf α) : Prop :=
  t1 ≠ t2 ∧ (t1.1 ⊆ t2.1 ∨ t1.2 ⊆ t2.2) ∧
  (checkIsUnrelated par causal t1.1 t2.1 || checkIsUnrelated par causal t1.2 t2.2) = false ∧
  checkAllCausal causal (t1.1 ∪ t2.1) (t1.2 ∪ t2.2) = true

/-- the union of two pairs -/
def uni (t1 t2 : PairOf α) : PairOf α := (t1.1 ∪ t2.1, t1.2 ∪ t2.2)

theorem mergeStep_eq (par causal : List (α × α)) (t1 : PairOf α) (pairs : List (PairOf α)) (t2 : PairOf α) :
    (mergeStep par causal t1 pairs t2 = pairs ∧ (Merges par causal t1 t2 → uni t1 t2 ∈ pairs)) ∨
    (mergeStep par causal t1 pairs t2 = pairs ++ [uni t1 t2] ∧ Merges par causal t1 t2 ∧ uni t1 t2 ∉ pairs) := by
  unfold mergeStep Merges uni
  by_cases h1 : t1 ≠ t2 <;> by_cases h2 : t1.1 ⊆ t2.1 ∨ t1.2 ⊆ t2.2 <;>
    by_cases h3 : (checkIsUnrelated par causal t1.1 t2.1 || checkIsUnrelated par causal t1.2 t2.2) = false <;>
    by_cases h4 : (t1.1 ∪ t2.1, t1.2 ∪ t2.2) ∈ pairs <;>
    by_cases h5 : checkAllCausal causal (t1.1 ∪ t2.1) (t1.2 ∪ t2.2) = true <;>
    simp_all

theorem mem_inner (par causal : List (α × α)) (t1 : PairOf α) (l pairs : List (PairOf α)) (x : PairOf α) :
    x ∈ l.foldl (mergeStep par causal t1) pairs ↔ x ∈ pairs ∨ ∃ t2 ∈ l, Merges par causal t1 t2 ∧ x = uni t1 t2 := by
  induction l generalizing pairs with
  | nil => simp
  | cons y l ih =>
    rw [List.foldl_cons, ih]
    rcases mergeStep_eq par causal t1 pairs y with ⟨h1, h2⟩ | ⟨h1, h2, h3⟩ <;> rw [h1]
    · constructor
      · rintro (h | ⟨t, ht, h⟩)
        · exact .inl h
        · exact .inr ⟨t, by simp [ht], h⟩
      · rintro (h | ⟨t, ht, hm, rfl⟩)
        · exact .inl h
        · rcases List.mem_cons.1 ht with rfl | ht
          · exact .inl (h2 hm)
          · exact .inr ⟨t, ht, hm, rfl⟩
    · constructor
      · rintro (h | ⟨t, ht, h⟩)
        · rcases List.mem_append.1 h with h | h
          · exact .inl h
          · simp at h; exact .inr ⟨y, by simp, h2, h⟩
        · exact .inr ⟨t, by simp [ht], h⟩
      · rintro (h | ⟨t, ht, hm, rfl⟩)
        · exact .inl (by simp [h])
        · rcases List.mem_cons.1 ht with rfl | ht
          · exact .inl (by simp)
          · exact .inr ⟨t, ht, hm, rfl⟩

theorem inner_prefix (par causal : List (α × α)) (t1 : PairOf α) (l pairs : List (PairOf α)) :
    pairs <+: l.foldl (mergeStep par causal t1) pairs := by
  induction l generalizing pairs with
  | nil => simp
  | cons y l ih =>
    rw [List.foldl_cons]
    refine List.IsPrefix.trans ?_ (ih _)
    rcases mergeStep_eq par causal t1 pairs y with ⟨h1, _⟩ | ⟨h1, _⟩ <;> rw [h1]
    exact List.prefix_append _ _

theorem inner_nodup (par causal : List (α × α)) (t1 : PairOf α) (l pairs : List (PairOf α)) (h : pairs.Nodup) :
    (l.foldl (mergeStep par causal t1) pairs).Nodup := by
  induction l generalizing pairs with
  | nil => exact h
  | cons y l ih =>
    rw [List.foldl_cons]
    apply ih
    rcases mergeStep_eq par causal t1 pairs y with ⟨h1, _⟩ | ⟨h1, _, h3⟩ <;> rw [h1]
    · exact h
    · rw [List.nodup_append]
      refine ⟨h, by simp, ?_⟩
      intro a ha b hb
      simp at hb; subst hb
      rintro rfl; exact h3 ha

/-- The list after `r` rounds of the outer loop. -/
def run (par causal : List (α × α)) (r : Nat) : List (PairOf α) :=
  (List.range r).foldl (outerStep par causal) (initialPairs par causal)

theorem run_succ (par causal : List (α × α)) (r : Nat) : run par causal (r + 1) = outerStep par causal (run par causal r) r := by
  unfold run
  rw [List.range_succ, List.foldl_append]
  rfl

theorem outer_prefix (par causal : List (α × α)) (pairs : List (PairOf α)) (i : Nat) :
    pairs <+: outerStep par causal pairs i := by
  unfold outerStep
  cases pairs[i]? with
  | none => exact List.prefix_refl _
  | some t1 => exact inner_prefix _ _ _ _ _

theorem run_prefix (par causal : List (α × α)) (r s : Nat) (h : r ≤ s) : run par causal r <+: run par causal s := by
  induction s with
  | zero => cases Nat.le_zero.1 h; exact List.prefix_refl _
  | succ s ih =>
    by_cases hr : r = s + 1
    · subst hr; exact List.prefix_refl _
    · rw [run_succ]; exact (ih (by omega)).trans (outer_prefix _ _ _ _)

theorem run_nodup (par causal : List (α × α)) (h : causal.Nodup) (r : Nat) : (run par causal r).Nodup := by
  induction r with
  | zero =>
    show (initialPairs par causal).Nodup
    unfold initialPairs
    refine List.Nodup.map ?_ (h.filter _)
    rintro ⟨a, b⟩ ⟨c, d⟩ hh
    simpa using hh
  | succ r ih =>
    rw [run_succ]
    unfold outerStep
    cases (run par causal r)[r]? with
    | none => exact ih
    | some t1 => exact inner_nodup _ _ _ _ _ ih

/-- The relations of the miner are those of `follows`. -/
structure Rel (follows : α → α → Prop) (par causal : List (α × α)) : Prop where
  par : ∀ a b, (a, b) ∈ par ↔ follows a b ∧ follows b a
  causal : ∀ a b, (a, b) ∈ causal ↔ follows a b ∧ ¬ follows b a

theorem unrelated_iff {follows : α → α → Prop} {par causal : List (α × α)} (hr : Rel follows par causal) (s1 s2 : Finset α) :
    checkIsUnrelated par causal s1 s2 = false ↔ ∀ a ∈ s1, ∀ b ∈ s2, ¬ follows a b ∧ ¬ follows b a := by
  unfold checkIsUnrelated
  rw [decide_eq_false_iff_not]
  simp only [hr.par, hr.causal]
  constructor
  · intro h a ha b hb
    by_contra hn
    apply h
    refine ⟨a, ha, b, hb, ?_⟩
    by_cases h1 : follows a b <;> by_cases h2 : follows b a <;> simp_all
  · rintro h ⟨a, ha, b, hb, hn⟩
    have := h a ha b hb
    simp_all

theorem mem_initial {follows : α → α → Prop} {par causal : List (α × α)} (hr : Rel follows par causal) (p : PairOf α) :
    p ∈ initialPairs par causal ↔ ∃ a b, p = ({a}, {b}) ∧ follows a b ∧ ¬ follows b a ∧ ¬ follows a a ∧ ¬ follows b b := by
  unfold initialPairs initialFilter
  rw [List.mem_map]
  constructor
  · rintro ⟨⟨a, b⟩, h, rfl⟩
    rw [List.mem_filter] at h
    obtain ⟨h1, h2⟩ := h
    rw [hr.causal] at h1
    refine ⟨a, b, rfl, h1.1, h1.2, ?_, ?_⟩ <;> intro hh <;> simp [hr.par, hh] at h2
  · rintro ⟨a, b, rfl, h1, h2, h3, h4⟩
    refine ⟨(a, b), List.mem_filter.2 ⟨(hr.causal a b).2 ⟨h1, h2⟩, ?_⟩, rfl⟩
    simp [hr.par, h3, h4]

theorem candidate_initial {follows : α → α → Prop} {par causal : List (α × α)} (hr : Rel follows par causal) (p : PairOf α)
    (h : p ∈ initialPairs par causal) : Candidate follows p := by
  obtain ⟨a, b, rfl, h1, h2, h3, h4⟩ := (mem_initial hr p).1 h
  constructor <;> simp_all

theorem candidate_merge {follows : α → α → Prop} {par causal : List (α × α)} (hr : Rel follows par causal) (t1 t2 : PairOf α)
    (h1 : Candidate follows t1) (h2 : Candidate follows t2) (hm : Merges par causal t1 t2) : Candidate follows (uni t1 t2) := by
  obtain ⟨_, _, hu, hc⟩ := hm
  rw [Bool.or_eq_false_iff, unrelated_iff hr, unrelated_iff hr] at hu
  unfold checkAllCausal at hc
  rw [decide_eq_true_iff] at hc
  obtain ⟨hl, hrr⟩ := hu
  unfold uni
  refine ⟨?_, ?_, ?_, ?_, ?_⟩
  · exact h1.left.mono (Finset.subset_union_left)
  · exact h1.right.mono (Finset.subset_union_left)
  · intro a ha b hb
    exact (hr.causal a b).1 (hc a ha b hb)
  · intro a ha b hb
    rcases Finset.mem_union.1 ha with ha | ha <;> rcases Finset.mem_union.1 hb with hb | hb
    · exact h1.leftUnrelated a ha b hb
    · exact (hl a ha b hb).1
    · exact (hl b hb a ha).2
    · exact h2.leftUnrelated a ha b hb
  · intro a ha b hb
    rcases Finset.mem_union.1 ha with ha | ha <;> rcases Finset.mem_union.1 hb with hb | hb
    · exact h1.rightUnrelated a ha b hb
    · exact (hrr a ha b hb).1
    · exact (hrr b hb a ha).2
    · exact h2.rightUnrelated a ha b hb

theorem run_candidate {follows : α → α → Prop} {par causal : List (α × α)} (hr : Rel follows par causal) (r : Nat) (p : PairOf α)
    (h : p ∈ run par causal r) : Candidate follows p := by
  induction r generalizing p with
  | zero => exact candidate_initial hr p h
  | succ r ih =>
    rw [run_succ] at h
    unfold outerStep at h
    cases ht : (run par causal r)[r]? with
    | none => rw [ht] at h; exact ih p h
    | some t1 =>
      rw [ht] at h
      rcases (mem_inner _ _ _ _ _ _).1 h with h | ⟨t2, h2, hm, rfl⟩
      · exact ih p h
      · exact candidate_merge hr _ _ (ih _ (List.mem_of_getElem? ht)) (ih _ (List.mem_of_mem_drop h2)) hm

/-- A sub-pair of a candidate is a candidate. -/
theorem candidate_sub {follows : α → α → Prop} {p q : PairOf α} (h : Candidate follows p) (h1 : q.1 ⊆ p.1) (h2 : q.2 ⊆ p.2)
    (n1 : q.1.Nonempty) (n2 : q.2.Nonempty) : Candidate follows q :=
  ⟨n1, n2, fun a ha b hb => h.causal a (h1 ha) b (h2 hb), fun a ha b hb => h.leftUnrelated a (h1 ha) b (h1 hb),
    fun a ha b hb => h.rightUnrelated a (h2 ha) b (h2 hb)⟩

/-- The union of two sub-pairs of a candidate is added, if the first is not contained... -/
theorem merges_of_candidate {follows : α → α → Prop} {par causal : List (α × α)} (hr : Rel follows par causal) {p t1 t2 : PairOf α}
    (h : Candidate follows p) (hu : uni t1 t2 = p) (hne : t1 ≠ t2) (hs : t1.1 ⊆ t2.1 ∨ t1.2 ⊆ t2.2) : Merges par causal t1 t2 := by
  subst hu
  refine ⟨hne, hs, ?_, ?_⟩
  · rw [Bool.or_eq_false_iff, unrelated_iff hr, unrelated_iff hr]
    constructor
    · intro a ha b hb
      have ha : a ∈ (uni t1 t2).1 := Finset.mem_union_left _ ha
      have hb : b ∈ (uni t1 t2).1 := Finset.mem_union_right _ hb
      exact ⟨h.leftUnrelated a ha b hb, h.leftUnrelated b hb a ha⟩
    · intro a ha b hb
      have ha : a ∈ (uni t1 t2).2 := Finset.mem_union_left _ ha
      have hb : b ∈ (uni t1 t2).2 := Finset.mem_union_right _ hb
      exact ⟨h.rightUnrelated a ha b hb, h.rightUnrelated b hb a ha⟩
  · unfold checkAllCausal
    rw [decide_eq_true_iff]
    intro a ha b hb
    exact (hr.causal a b).2 (h.causal a ha b hb)

/-- Position of a pair of single activities. -/
def pos (par causal : List (α × α)) (a b : α) : Nat := (initialPairs par causal).idxOf ({a}, {b})

theorem pos_get {follows : α → α → Prop} {par causal : List (α × α)} (hr : Rel follows par causal) {p : PairOf α}
    (h : Candidate follows p) {a b : α} (ha : a ∈ p.1) (hb : b ∈ p.2) :
    (initialPairs par causal)[pos par causal a b]? = some ({a}, {b}) ∧ pos par causal a b < (initialPairs par causal).length := by
  have hm : (({a}, {b}) : PairOf α) ∈ initialPairs par causal :=
    (mem_initial hr _).2 ⟨a, b, rfl, (h.causal a ha b hb).1, (h.causal a ha b hb).2, h.leftUnrelated a ha a ha, h.rightUnrelated b hb b hb⟩
  have hl := List.idxOf_lt_length_of_mem hm
  exact ⟨by unfold pos; rw [List.getElem?_eq_getElem hl, List.getElem_idxOf], hl⟩

theorem run_get {par causal : List (α × α)} {i r : Nat} (h : i < (initialPairs par causal).length) :
    (run par causal r)[i]? = (initialPairs par causal)[i]? := by
  obtain ⟨s, hs⟩ := run_prefix par causal 0 r (Nat.zero_le _)
  rw [← hs]
  exact List.getElem?_append_left h

theorem run_complete {follows : α → α → Prop} {par causal : List (α × α)} (hr : Rel follows par causal) :
    ∀ (n r : Nat) (p : PairOf α), p.1.card + p.2.card = n → r ≤ (initialPairs par causal).length → Candidate follows p →
      (∀ a ∈ p.1, ∀ b ∈ p.2, pos par causal a b < r) → p ∈ run par causal r := by
  intro n
  induction n using Nat.strong_induction_on with
  | _ n ih =>
    intro r p hn hrl hc hpos
    have step : ∀ a ∈ p.1, ∀ b ∈ p.2, ∀ t2 : PairOf α, uni ({a}, {b}) t2 = p → (({a}, {b}) : PairOf α) ≠ t2 →
        (({a} : Finset α) ⊆ t2.1 ∨ ({b} : Finset α) ⊆ t2.2) → t2 ∈ (run par causal (pos par causal a b)).drop (pos par causal a b) →
        p ∈ run par causal r := by
      intro a ha b hb t2 hu hne hs hmem
      obtain ⟨hg, hlt⟩ := pos_get hr hc ha hb
      have h1 : p ∈ run par causal (pos par causal a b + 1) := by
        rw [run_succ]
        unfold outerStep
        rw [run_get hlt, hg]
        exact (mem_inner _ _ _ _ _ _).2 (.inr ⟨t2, hmem, merges_of_candidate hr hc hu hne hs, hu.symm⟩)
      exact (run_prefix par causal _ _ (hpos a ha b hb)).subset h1
    -- the last of the single pairs
    obtain ⟨⟨a, b⟩, hab, hmax⟩ := Finset.exists_max_image (p.1 ×ˢ p.2) (fun x => pos par causal x.1 x.2)
      (hc.left.product hc.right)
    rw [Finset.mem_product] at hab
    obtain ⟨ha, hb⟩ := hab
    simp only at ha hb hmax
    have hlast : ∀ c ∈ p.1, ∀ d ∈ p.2, (c, d) ≠ (a, b) → pos par causal c d < pos par causal a b := by
      intro c hcc d hd hne
      rcases Nat.lt_or_eq_of_le (hmax (c, d) (Finset.mem_product.2 ⟨hcc, hd⟩)) with h | h
      · exact h
      · have h1 := (pos_get hr hc hcc hd).1
        have h2 := (pos_get hr hc ha hb).1
        simp only at h
        rw [h, h2] at h1
        simp at h1
        exact absurd (by rw [h1.1, h1.2]) hne
    have hA : 0 < p.1.card := hc.left.card_pos
    have hB : 0 < p.2.card := hc.right.card_pos
    have hlt := (pos_get hr hc ha hb).2
    -- the pair without `a` or without `b` was built before
    have big : ∀ t2 : PairOf α, Candidate follows t2 → t2.1.card + t2.2.card < n → 3 ≤ t2.1.card + t2.2.card → t2.1 ⊆ p.1 →
        t2.2 ⊆ p.2 → (a, b) ∉ t2.1 ×ˢ t2.2 →
        t2 ∈ (run par causal (pos par causal a b)).drop (pos par causal a b) := by
      intro t2 hc2 hlt2 h3 hs1 hs2 hnot
      have hin : t2 ∈ run par causal (pos par causal a b) := by
        refine ih _ hlt2 _ t2 rfl (Nat.le_of_lt hlt) hc2 ?_
        intro c hcc d hd
        refine hlast c (hs1 hcc) d (hs2 hd) ?_
        intro h; rw [Prod.mk.injEq] at h; obtain ⟨rfl, rfl⟩ := h
        exact hnot (Finset.mem_product.2 ⟨hcc, hd⟩)
      rw [← List.take_append_drop (pos par causal a b) (run par causal (pos par causal a b))] at hin
      rcases List.mem_append.1 hin with hin | hin
      · exfalso
        obtain ⟨i, hi⟩ := List.mem_iff_getElem?.1 hin
        rw [List.getElem?_take] at hi
        split at hi
        · next hil =>
          rw [run_get (by omega)] at hi
          obtain ⟨c, d, rfl, _⟩ := (mem_initial hr _).1 (List.mem_of_getElem? hi)
          simp at h3
        · cases hi
      · exact hin
    by_cases hA2 : 2 ≤ p.1.card
    · by_cases h4 : 4 ≤ n
      · -- remove a
        have hcard : (p.1.erase a).card = p.1.card - 1 := Finset.card_erase_of_mem ha
        have hne1 : (p.1.erase a).Nonempty := Finset.card_pos.1 (by omega)
        refine step a ha b hb (p.1.erase a, p.2) ?_ ?_ (.inr (by simpa using hb)) ?_
        · unfold uni
          ext x
          · simp only [Finset.mem_union, Finset.mem_singleton, Finset.mem_erase]
            by_cases hx : x = a <;> simp [hx, ha]
          · simp only [Finset.mem_union, Finset.mem_singleton]
            constructor
            · rintro (rfl | h)
              · exact hb
              · exact h
            · exact .inr
        · intro h
          have h1 : ({a} : Finset α) = p.1.erase a := congrArg Prod.fst h
          have : a ∈ p.1.erase a := by rw [← h1]; simp
          simp at this
        · refine big (p.1.erase a, p.2) (candidate_sub hc (Finset.erase_subset _ _) (Finset.Subset.refl _) hne1 hc.right) ?_ ?_
            (Finset.erase_subset _ _) (Finset.Subset.refl _) (by simp)
          · simp only; omega
          · simp only; omega
      · -- two activities before, one after
        have hA' : p.1.card = 2 := by omega
        have hB' : p.2.card = 1 := by omega
        have hcard : (p.1.erase a).card = 1 := by rw [Finset.card_erase_of_mem ha]; omega
        obtain ⟨c, hcc⟩ := Finset.card_eq_one.1 hcard
        obtain ⟨d, hd⟩ := Finset.card_eq_one.1 hB'
        have hbd : b = d := by rw [hd] at hb; simpa using hb
        subst hbd
        have hc1 : c ∈ p.1.erase a := by rw [hcc]; simp
        have hca : c ≠ a := Finset.ne_of_mem_erase hc1
        have hcp : c ∈ p.1 := Finset.mem_of_mem_erase hc1
        have hlt2 := hlast c hcp b hb (by simp [hca])
        refine step c hcp b hb ({a}, {b}) ?_ ?_ (.inr (by simp)) ?_
        · unfold uni
          ext x
          · simp only [Finset.mem_union, Finset.mem_singleton]
            constructor
            · rintro (rfl | rfl)
              · exact hcp
              · exact ha
            · intro hx
              by_cases hxa : x = a
              · exact .inr hxa
              · have : x ∈ p.1.erase a := Finset.mem_erase.2 ⟨hxa, hx⟩
                rw [hcc] at this; simp at this; exact .inl this
          · rw [hd]; simp
        · simp [hca]
        · apply List.mem_of_getElem? (i := pos par causal a b - pos par causal c b)
          rw [List.getElem?_drop, show pos par causal c b + (pos par causal a b - pos par causal c b) = pos par causal a b by omega,
            run_get hlt]
          exact (pos_get hr hc ha hb).1
    · have hA1 : p.1.card = 1 := by omega
      by_cases hB1 : p.2.card = 1
      · -- a single pair
        obtain ⟨c, hcc⟩ := Finset.card_eq_one.1 hA1
        obtain ⟨d, hd⟩ := Finset.card_eq_one.1 hB1
        have h1 := (pos_get hr hc ha hb).1
        have hac : a = c := by rw [hcc] at ha; simpa using ha
        have hbd : b = d := by rw [hd] at hb; simpa using hb
        have : p = ({a}, {b}) := by rw [hac, hbd, ← hcc, ← hd]
        rw [this]
        exact (run_prefix par causal 0 r (Nat.zero_le _)).subset (List.mem_of_getElem? h1)
      · by_cases h4 : 4 ≤ n
        · -- remove b
          have hcard : (p.2.erase b).card = p.2.card - 1 := Finset.card_erase_of_mem hb
          have hne1 : (p.2.erase b).Nonempty := Finset.card_pos.1 (by omega)
          refine step a ha b hb (p.1, p.2.erase b) ?_ ?_ (.inl (by simpa using ha)) ?_
          · unfold uni
            ext x
            · simp only [Finset.mem_union, Finset.mem_singleton]
              constructor
              · rintro (rfl | h)
                · exact ha
                · exact h
              · exact .inr
            · simp only [Finset.mem_union, Finset.mem_singleton, Finset.mem_erase]
              by_cases hx : x = b <;> simp [hx, hb]
          · intro h
            have h1 : ({b} : Finset α) = p.2.erase b := congrArg Prod.snd h
            have : b ∈ p.2.erase b := by rw [← h1]; simp
            simp at this
          · refine big (p.1, p.2.erase b) (candidate_sub hc (Finset.Subset.refl _) (Finset.erase_subset _ _) hc.left hne1) ?_ ?_
              (Finset.Subset.refl _) (Finset.erase_subset _ _) (by simp)
            · simp only; omega
            · simp only; omega
        · have hB' : p.2.card = 2 := by omega
          have hcard : (p.2.erase b).card = 1 := by rw [Finset.card_erase_of_mem hb]; omega
          obtain ⟨c, hcc⟩ := Finset.card_eq_one.1 hcard
          obtain ⟨d, hd⟩ := Finset.card_eq_one.1 hA1
          have hbd : a = d := by rw [hd] at ha; simpa using ha
          subst hbd
          have hc1 : c ∈ p.2.erase b := by rw [hcc]; simp
          have hca : c ≠ b := Finset.ne_of_mem_erase hc1
          have hcp : c ∈ p.2 := Finset.mem_of_mem_erase hc1
          have hlt2 := hlast a ha c hcp (by simp [hca])
          refine step a ha c hcp ({a}, {b}) ?_ ?_ (.inl (by simp)) ?_
          · unfold uni
            ext x
            · rw [hd]; simp
            · simp only [Finset.mem_union, Finset.mem_singleton]
              constructor
              · rintro (rfl | rfl)
                · exact hcp
                · exact hb
              · intro hx
                by_cases hxa : x = b
                · exact .inr hxa
                · have : x ∈ p.2.erase b := Finset.mem_erase.2 ⟨hxa, hx⟩
                  rw [hcc] at this; simp at this; exact .inl this
          · simp [hca]
          · apply List.mem_of_getElem? (i := pos par causal a b - pos par causal a c)
            rw [List.getElem?_drop, show pos par causal a c + (pos par causal a b - pos par causal a c) = pos par causal a b by omega,
              run_get hlt]
            exact (pos_get hr hc ha hb).1

theorem mem_allPairs {follows : α → α → Prop} {par causal : List (α × α)} (hr : Rel follows par causal) (p : PairOf α) :
    p ∈ allPairs par causal ↔ Candidate follows p := by
  constructor
  · exact run_candidate hr _ p
  · intro h
    exact run_complete hr _ _ p rfl (Nat.le_refl _) h fun a ha b hb => (pos_get hr h ha hb).2

theorem mem_internal {follows : α → α → Prop} {par causal : List (α × α)} (hr : Rel follows par causal) (p : PairOf α) :
    p ∈ internalPlaces par causal ↔ Maximal' follows p := by
  unfold internalPlaces maximizer Maximal'
  rw [List.mem_filter, mem_allPairs hr, List.all_eq_true]
  simp only [mem_allPairs hr]
  refine and_congr_right fun _ => forall_congr' fun q => forall_congr' fun _ => ?_
  by_cases h : p = q <;> by_cases h1 : p.1 ⊆ q.1 <;> by_cases h2 : p.2 ⊆ q.2 <;> simp_all
  exact fun h' => h h'.symm

end Verif.Alpha
