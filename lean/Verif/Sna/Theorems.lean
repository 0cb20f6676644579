import Verif.Sna.Basic
import Mathlib.Algebra.Order.BigOperators.Group.Finset
import Mathlib.Algebra.Order.BigOperators.Group.List
import Mathlib.Algebra.Order.Field.Basic
/-
Property theorems C73: social network analysis.
-/
set_option linter.unusedSectionVars false
namespace Verif
open Sna Dict
namespace Sna
open Finset
variable {α : Type} [DecidableEq α]

/-! ### handover of work -/

/-- the pairs of positions whose resources satisfy `p` -/
def G (beta : ℚ) (p : Option α → Option α → Bool) (tr : List α) : ℚ :=
  ∑ i ∈ range tr.length, ∑ j ∈ range tr.length, if i < j ∧ p tr[i]? tr[j]? then beta ^ (j - i - 1) else 0

theorem G_cons (beta : ℚ) (p : Option α → Option α → Bool) (e : α) (rest : List α) :
    G beta p (e :: rest) = (∑ j ∈ range rest.length, if p (some e) rest[j]? then beta ^ j else 0) + G beta p rest := by
  unfold G
  rw [List.length_cons, sum_range_succ', add_comm]
  congr 1
  · rw [sum_range_succ']
    simp
  · apply sum_congr rfl
    intro i _
    rw [sum_range_succ']
    simp only [Nat.not_lt_zero, false_and, if_false, add_zero, Nat.add_lt_add_iff_right, List.getElem?_cons_succ]
    apply sum_congr rfl
    intro j _
    rw [show j + 1 - (i + 1) - 1 = j - i - 1 by omega]

theorem row_sum (beta : ℚ) (c : ℚ) (e : α) (q : α × α → Bool) (p : Option α → Option α → Bool) (hp : ∀ x y, p (some x) (some y) = q (x, y)) :
    ∀ (rest : List α) (k : Nat), S q ((rest.zipIdx k).map fun r => ((e, r.1), c * beta ^ r.2)) =
      c * ∑ j ∈ range rest.length, if p (some e) rest[j]? then beta ^ (j + k) else 0 := by
  intro rest
  induction rest with
  | nil => intro k; simp [S]
  | cons x rest ih =>
    intro k
    rw [List.zipIdx_cons, List.map_cons, S_cons, ih, List.length_cons, sum_range_succ']
    simp only [List.getElem?_cons_zero, List.getElem?_cons_succ, hp]
    rw [mul_add, add_comm]
    congr 1
    · congr 1
      apply sum_congr rfl
      intro j _
      rw [show j + (k + 1) = j + 1 + k by omega]
    · by_cases h : q (e, x) = true <;> simp [h]

theorem fromPos_sum (beta : ℚ) (occ : Int) (e : α) (q : α × α → Bool) (p : Option α → Option α → Bool) (hp : ∀ x y, p (some x) (some y) = q (x, y))
    (rest : List α) : S q (fromPos beta occ e rest) = (occ : ℚ) * ∑ j ∈ range rest.length, if p (some e) rest[j]? then beta ^ j else 0 := by
  unfold fromPos
  split
  · next hb =>
    subst hb
    cases rest with
    | nil => simp [S]
    | cons x rest =>
      rw [List.length_cons, sum_range_succ']
      have : ∑ j ∈ range rest.length, (if p (some e) (x :: rest)[j + 1]? = true then (0 : ℚ) ^ (j + 1) else 0) = 0 :=
        sum_eq_zero fun j _ => by split <;> simp
      rw [this]
      simp only [List.take_succ_cons, List.take_zero, List.map_cons, List.map_nil, S_cons, S_nil, List.getElem?_cons_zero, hp]
      by_cases h : q (e, x) = true <;> simp [h]
  · have := row_sum beta (occ : ℚ) e q p hp rest 0
    simpa using this

theorem updates_sum (beta : ℚ) (occ : Int) (q : α × α → Bool) (p : Option α → Option α → Bool) (hp : ∀ x y, p (some x) (some y) = q (x, y))
    (tr : List α) : S q (updates beta occ tr) = (occ : ℚ) * G beta p tr := by
  induction tr with
  | nil => simp [updates, S, G]
  | cons e rest ih => rw [updates, S_append, ih, fromPos_sum beta occ e q p hp, G_cons]; ring

theorem all_sum {vs : Dict (List α) Int} {log : List (List α)} (h : VariantsOf vs log) (beta : ℚ) (q : α × α → Bool)
    (p : Option α → Option α → Bool) (hp : ∀ x y, p (some x) (some y) = q (x, y)) :
    S q (allUpdates beta vs) = (log.map (G beta p)).sum := by
  unfold allUpdates
  rw [S_flatMap, ← sum_vs h]
  congr 1
  apply List.map_congr_left
  intro v _
  exact updates_sum beta v.2 q p hp v.1

theorem handed_eq (beta : ℚ) (a b : α) : handed beta a b = G beta fun x y => decide (x = some a) && decide (y = some b) := by
  funext tr
  simp [handed, G]

theorem handedAll_eq (beta : ℚ) : (handedAll beta : List α → ℚ) = G beta fun _ _ => true := by
  funext tr
  simp [handedAll, G]

theorem sum_handed {vs : Dict (List α) Int} {log : List (List α)} (h : VariantsOf vs log) (beta : ℚ) (a b : α) :
    S (fun x => x == (a, b)) (allUpdates beta vs) = (log.map (handed beta a b)).sum := by
  rw [handed_eq]
  refine all_sum h beta _ _ fun x y => ?_
  rw [Bool.eq_iff_iff]; simp

theorem sum_all {vs : Dict (List α) Int} {log : List (List α)} (h : VariantsOf vs log) (beta : ℚ) :
    ((allUpdates beta vs).map Prod.snd).sum = (log.map (handedAll beta)).sum := by
  rw [← S_true, handedAll_eq]
  exact all_sum h beta _ _ fun x y => rfl

theorem mem_fromPos (beta : ℚ) (occ : Int) (e : α) (rest : List α) (a b : α) :
    (a, b) ∈ (fromPos beta occ e rest).map Prod.fst ↔ a = e ∧ ∃ j, (beta = 0 → j = 0) ∧ rest[j]? = some b := by
  unfold fromPos
  split
  · next hb =>
    cases rest with
    | nil => simp
    | cons x rest =>
      simp only [List.take_succ_cons, List.take_zero, List.map_cons, List.map_nil, List.mem_singleton, Prod.mk.injEq, hb, forall_const,
        exists_eq_left, List.getElem?_cons_zero, Option.some.injEq]
      exact ⟨fun h => ⟨h.1, h.2.symm⟩, fun h => ⟨h.1, h.2.symm⟩⟩
  · next hb =>
    rw [List.map_map, List.mem_map]
    constructor
    · rintro ⟨⟨x, k⟩, hx, e'⟩
      simp only [Function.comp_apply, Prod.mk.injEq] at e'
      obtain ⟨rfl, rfl⟩ := e'
      exact ⟨rfl, k, fun h => absurd h hb, List.mem_zipIdx_iff_getElem?.1 hx⟩
    · rintro ⟨rfl, j, _, hj⟩
      exact ⟨(b, j), List.mem_zipIdx_iff_getElem?.2 hj, rfl⟩

theorem mem_updates (beta : ℚ) (occ : Int) (a b : α) (tr : List α) : (a, b) ∈ (updates beta occ tr).map Prod.fst ↔ Hands beta a b tr := by
  induction tr with
  | nil => simp [updates, Hands]
  | cons e rest ih =>
    rw [updates, List.map_append, List.mem_append, ih, mem_fromPos]
    constructor
    · rintro (⟨rfl, j, h1, h2⟩ | ⟨i, j, h1, h2, h3, h4⟩)
      · exact ⟨0, j + 1, by omega, fun h => by rw [h1 h], rfl, by simpa using h2⟩
      · exact ⟨i + 1, j + 1, by omega, fun h => by rw [h2 h], by simpa using h3, by simpa using h4⟩
    · rintro ⟨i, j, h1, h2, h3, h4⟩
      obtain ⟨j, rfl⟩ : ∃ k, j = k + 1 := ⟨j - 1, by omega⟩
      rw [List.getElem?_cons_succ] at h4
      cases i with
      | zero =>
        rw [List.getElem?_cons_zero, Option.some.injEq] at h3
        exact .inl ⟨h3.symm, j, fun h => by have := h2 h; omega, h4⟩
      | succ i =>
        rw [List.getElem?_cons_succ] at h3
        exact .inr ⟨i, j, by omega, fun h => by have := h2 h; omega, h3, h4⟩

theorem mem_all {vs : Dict (List α) Int} {log : List (List α)} (h : VariantsOf vs log) (beta : ℚ) (a b : α) :
    (a, b) ∈ (allUpdates beta vs).map Prod.fst ↔ ∃ tr ∈ log, Hands beta a b tr := by
  unfold allUpdates
  rw [List.map_flatMap, List.mem_flatMap]
  constructor
  · rintro ⟨⟨v, n⟩, hv, hm⟩
    exact ⟨v, ((mem_vs h v n).1 hv).1, (mem_updates beta n a b v).1 hm⟩
  · rintro ⟨tr, ht, hh⟩
    exact ⟨(tr, _), (mem_vs h tr _).2 ⟨ht, rfl⟩, (mem_updates beta _ a b tr).2 hh⟩

theorem all_nil {vs : Dict (List α) Int} {log : List (List α)} (h : VariantsOf vs log) (beta : ℚ) :
    allUpdates beta vs = [] ↔ ∀ tr ∈ log, tr.length ≤ 1 := by
  constructor
  · intro e tr ht
    refine Classical.byContradiction fun hl => ?_
    obtain ⟨a, ha⟩ : ∃ a, tr[0]? = some a := ⟨_, List.getElem?_eq_getElem (by omega)⟩
    obtain ⟨b, hb⟩ : ∃ a, tr[1]? = some a := ⟨_, List.getElem?_eq_getElem (by omega)⟩
    have := (mem_all h beta a b).2 ⟨tr, ht, 0, 1, by omega, fun _ => rfl, ha, hb⟩
    rw [e] at this
    simp at this
  · intro hl
    rw [List.eq_nil_iff_forall_not_mem]
    rintro ⟨⟨a, b⟩, x⟩ hx
    obtain ⟨tr, ht, i, j, h1, _, _, h4⟩ := (mem_all h beta a b).1 (List.mem_map.2 ⟨_, hx, rfl⟩)
    have := hl tr ht
    have : j < tr.length := by
      rw [List.getElem?_eq_some_iff] at h4
      exact h4.1
    omega

theorem handedAll_nonneg {beta : ℚ} (hb : 0 ≤ beta) (tr : List α) : 0 ≤ handedAll beta tr :=
  sum_nonneg fun i _ => sum_nonneg fun j _ => by split <;> positivity

theorem handedAll_pos {beta : ℚ} (hb : 0 ≤ beta) {tr : List α} (hl : 2 ≤ tr.length) : 1 ≤ handedAll beta tr := by
  unfold handedAll
  have h1 : (1 : ℚ) = if 0 < 1 then beta ^ (1 - 0 - 1) else 0 := by simp
  have h2 := single_le_sum (f := fun j => if 0 < j then beta ^ (j - 0 - 1) else 0) (fun j _ => by split <;> positivity) (mem_range.2 hl)
  have h3 := single_le_sum (f := fun i => ∑ j ∈ range tr.length, if i < j then beta ^ (j - i - 1) else 0)
    (fun i _ => sum_nonneg fun j _ => by split <;> positivity) (mem_range.2 (show 0 < tr.length by omega))
  calc (1 : ℚ) = if 0 < 1 then beta ^ (1 - 0 - 1) else 0 := h1
    _ ≤ _ := h2
    _ ≤ _ := h3

theorem dividend_pos {vs : Dict (List α) Int} {log : List (List α)} (h : VariantsOf vs log) {beta : ℚ} (hb : 0 ≤ beta)
    (hne : allUpdates beta vs ≠ []) : 0 < ((allUpdates beta vs).map Prod.snd).sum := by
  rw [sum_all h]
  rw [Ne, all_nil h] at hne
  push_neg at hne
  obtain ⟨tr, ht, hl⟩ := hne
  have h1 := List.single_le_sum (l := log.map (handedAll beta)) (by
    intro x hx
    obtain ⟨t, _, rfl⟩ := List.mem_map.1 hx
    exact handedAll_nonneg hb t) _ (List.mem_map.2 ⟨tr, ht, rfl⟩)
  have h2 := handedAll_pos hb (show 2 ≤ tr.length by omega)
  linarith

/-! ### the sum of the entries -/

theorem total_add (d : Dict α (Dict α ℚ)) (h1 : (keys d).Nodup) (h2 : ∀ e ∈ d, (keys e.2).Nodup) (r : (α × α) × ℚ) :
    ((add d r).map fun e => (e.2.map Prod.snd).sum).sum = (d.map fun e => (e.2.map Prod.snd).sum).sum + r.2 := by
  unfold add
  rw [sum_set (fun _ (m : Dict α ℚ) => (m.map Prod.snd).sum) d h1]
  have hm : (keys ((get? d r.1.1).getD [])).Nodup := by
    cases e : get? d r.1.1 with
    | none => simp
    | some m => exact h2 _ (mem_of_get? e)
  rw [sum_set (fun _ (x : ℚ) => x) _ hm]
  unfold val
  cases e : get? d r.1.1 with
  | none => simp
  | some m =>
    simp only [Option.getD_some, Option.map_some, Option.bind_some]
    cases e' : get? m r.1.2 <;> simp <;> ring

theorem inner_nodup_add {d : Dict α (Dict α ℚ)} (h2 : ∀ e ∈ d, (keys e.2).Nodup) (r : (α × α) × ℚ) : ∀ e ∈ add d r, (keys e.2).Nodup := by
  have hm : (keys ((get? d r.1.1).getD [])).Nodup := by
    cases e : get? d r.1.1 with
    | none => simp
    | some m => exact h2 _ (mem_of_get? e)
  unfold add
  have key : ∀ (d : Dict α (Dict α ℚ)) k v, (∀ e ∈ d, (keys e.2).Nodup) → (keys v).Nodup → ∀ e ∈ Dict.set d k v, (keys e.2).Nodup := by
    intro d k v
    induction d with
    | nil => intro _ hv e he; simp [Dict.set] at he; rw [he]; exact hv
    | cons x d ih =>
      intro hd hv e he
      simp only [Dict.set] at he
      split at he
      · rcases List.mem_cons.1 he with rfl | he
        · exact hv
        · exact hd e (by simp [he])
      · rcases List.mem_cons.1 he with rfl | he
        · exact hd _ (by simp)
        · exact ih (fun e he => hd e (by simp [he])) hv e he
  exact key d _ _ h2 (nodup_set hm _ _)

theorem total_fold (us : List ((α × α) × ℚ)) : ∀ (d : Dict α (Dict α ℚ)), (keys d).Nodup → (∀ e ∈ d, (keys e.2).Nodup) →
    ((us.foldl add d).map fun e => (e.2.map Prod.snd).sum).sum = (d.map fun e => (e.2.map Prod.snd).sum).sum + (us.map Prod.snd).sum := by
  induction us with
  | nil => intro d _ _; simp
  | cons r us ih =>
    intro d h1 h2
    rw [List.foldl_cons, ih _ (nodup_add h1 r) (inner_nodup_add h2 r), total_add d h1 h2 r, List.map_cons, List.sum_cons]
    ring

theorem sum_connections (d : Dict α (Dict α ℚ)) (q : ℚ) :
    ((connections d q).map Prod.snd).sum = (d.map fun e => (e.2.map Prod.snd).sum).sum / q := by
  induction d with
  | nil => simp [connections]
  | cons e d ih =>
    unfold connections at ih ⊢
    rw [List.flatMap_cons, List.map_append, List.sum_append, ih, List.map_cons, List.sum_cons, add_div]
    congr 1
    rw [List.map_map]
    have : ∀ m : Dict α ℚ, (m.map (Prod.snd ∘ fun f => ((e.1, f.1), f.2 / q))).sum = (m.map Prod.snd).sum / q := by
      intro m
      induction m with
      | nil => simp
      | cons f m ih => simp only [List.map_cons, List.sum_cons, ih, Function.comp_apply, add_div]
    exact this e.2

/-! ### working together -/

theorem mem_pairs (x : ℚ) (l : List α) (h : l.Nodup) (a b : α) : (a, b) ∈ (pairs x l).map Prod.fst ↔ a ∈ l ∧ b ∈ l ∧ a ≠ b := by
  induction l with
  | nil => simp [pairs]
  | cons c l ih =>
    rw [List.nodup_cons] at h
    rw [pairs, List.map_append, List.mem_append, ih h.2, List.map_flatMap, List.mem_flatMap]
    simp only [List.map_cons, List.map_nil, List.mem_cons, List.not_mem_nil, or_false, Prod.mk.injEq]
    constructor
    · rintro (⟨y, hy, ⟨rfl, rfl⟩ | ⟨rfl, rfl⟩⟩ | ⟨h1, h2, h3⟩)
      · exact ⟨.inl rfl, .inr hy, fun e => h.1 (e ▸ hy)⟩
      · exact ⟨.inr hy, .inl rfl, fun e => h.1 (e ▸ hy)⟩
      · exact ⟨.inr h1, .inr h2, h3⟩
    · rintro ⟨rfl | h1, rfl | h2, h3⟩
      · exact absurd rfl h3
      · exact .inl ⟨b, h2, .inl ⟨rfl, rfl⟩⟩
      · exact .inl ⟨a, h1, .inr ⟨rfl, rfl⟩⟩
      · exact .inr ⟨h1, h2, h3⟩

theorem S_pairs (x : ℚ) (l : List α) (h : l.Nodup) (a b : α) :
    S (fun k => k == (a, b)) (pairs x l) = if a ∈ l ∧ b ∈ l ∧ a ≠ b then x else 0 := by
  induction l with
  | nil => simp [pairs, S]
  | cons c l ih =>
    rw [List.nodup_cons] at h
    rw [pairs, S_append, ih h.2]
    have key : ∀ m : List α, m.Nodup → c ∉ m → S (fun k => k == (a, b)) (m.flatMap fun y => [((c, y), x), ((y, c), x)]) =
        if (a = c ∧ b ∈ m) ∨ (b = c ∧ a ∈ m) then x else 0 := by
      intro m
      induction m with
      | nil => intro _ _; simp [S]
      | cons y m ihm =>
        intro hm hc
        rw [List.nodup_cons] at hm
        simp only [List.mem_cons, not_or] at hc
        rw [List.flatMap_cons, S_append, ihm hm.2 hc.2, S_cons, S_cons, S_nil]
        simp only [beq_iff_eq, Prod.mk.injEq, add_zero, List.mem_cons]
        by_cases h1 : c = a
        · subst h1
          by_cases h2 : y = b
          · subst h2
            have h3 : ¬ (y = c) := fun e => hc.1 e.symm
            simp [h3, hm.1, hc.1]
          · have h2' : ¬ (b = y) := fun e => h2 e.symm
            by_cases h4 : c = b
            · subst h4
              have h3 : ¬ (y = c) := fun e => hc.1 e.symm
              simp [h3, hc.1, hc.2]
            · have h4' : ¬ (b = c) := fun e => h4 e.symm
              simp [h2, h2', h4, h4']
        · have h1' : ¬ (a = c) := fun e => h1 e.symm
          by_cases h4 : c = b
          · subst h4
            by_cases h2 : y = a
            · subst h2
              simp [h1, hm.1, hc.1, h1']
            · have h2' : ¬ (a = y) := fun e => h2 e.symm
              simp [h1, h1', h2, h2']
          · have h4' : ¬ (b = c) := fun e => h4 e.symm
            simp [h1, h1', h4, h4']
    rw [key l h.2 h.1]
    simp only [List.mem_cons]
    by_cases h1 : a = c
    · subst h1
      by_cases h2 : b = a
      · subst h2; simp [h.1]
      · have h2' : ¬ (a = b) := fun e => h2 e.symm
        simp [h.1, h2, h2']
    · by_cases h2 : b = c
      · subst h2; simp [h1, h.1]
      · simp [h1, h2]

theorem togetherWith_ok {sorted : List α → List α} (hs : ∀ l, (sorted l).Perm l) {log : List (List α)} {vs : Dict (List α) Int}
    (hv : VariantsOf vs log) (len : Nat) (a b : α) :
    get? (togetherWith sorted len vs) (a, b) =
      if a ≠ b ∧ ∃ tr ∈ log, a ∈ tr ∧ b ∈ tr then some ((log.countP fun tr => decide (a ∈ tr ∧ b ∈ tr) : ℚ) / len) else none := by
  have hnd : ∀ v, (sorted (dedup v)).Nodup := fun v => (hs _).nodup_iff.2 (nodup_dedup v)
  have hmem : ∀ v x, x ∈ sorted (dedup v) ↔ x ∈ v := fun v x => by rw [(hs _).mem_iff, mem_dedup]
  unfold togetherWith
  rw [get?_addC]
  have h1 : (a, b) ∈ (vs.flatMap fun v => pairs ((v.2 : ℚ) / (len : ℚ)) (sorted (dedup v.1))).map Prod.fst ↔
      a ≠ b ∧ ∃ tr ∈ log, a ∈ tr ∧ b ∈ tr := by
    rw [List.map_flatMap, List.mem_flatMap]
    constructor
    · rintro ⟨⟨v, n⟩, hvn, hm⟩
      rw [mem_pairs _ _ (hnd v), hmem, hmem] at hm
      exact ⟨hm.2.2, v, ((mem_vs hv v n).1 hvn).1, hm.1, hm.2.1⟩
    · rintro ⟨hab, tr, ht, h1, h2⟩
      exact ⟨(tr, _), (mem_vs hv tr _).2 ⟨ht, rfl⟩, (mem_pairs _ _ (hnd tr) a b).2 ⟨(hmem _ _).2 h1, (hmem _ _).2 h2, hab⟩⟩
  by_cases hc : a ≠ b ∧ ∃ tr ∈ log, a ∈ tr ∧ b ∈ tr
  · rw [if_pos (h1.2 hc), if_pos hc]
    congr 1
    rw [get?_nil, Option.getD_none, zero_add, S_flatMap]
    have : ∀ v ∈ vs, S (fun k => k == (a, b)) (pairs ((v.2 : ℚ) / (len : ℚ)) (sorted (dedup v.1))) =
        (v.2 : ℚ) * ((if a ∈ v.1 ∧ b ∈ v.1 then 1 else 0) / len) := by
      intro v _
      rw [S_pairs _ _ (hnd _)]
      simp only [hmem, hc.1, ne_eq, not_false_eq_true, and_true]
      split <;> ring
    rw [List.map_congr_left this, sum_vs hv fun v => (if a ∈ v ∧ b ∈ v then 1 else 0) / (len : ℚ)]
    clear this h1 hc hv
    induction log with
    | nil => simp
    | cons t log ih =>
      rw [List.map_cons, List.sum_cons, ih, List.countP_cons]
      by_cases h : a ∈ t ∧ b ∈ t
      · simp [h]; ring
      · simp [h]
  · rw [if_neg fun h => hc (h1.1 h), if_neg hc]; rfl

/-! ### subcontracting -/

theorem get?_inner_fold (bt : List α) (occ : Int) (b : α) : ∀ m : Dict α ℚ,
    get? (bt.foldl (fun m b => Dict.set m b ((get? m b).getD 0 + (occ : ℚ))) m) b =
      if b ∈ bt then some ((get? m b).getD 0 + (occ : ℚ) * (bt.count b : ℚ)) else get? m b := by
  induction bt with
  | nil => intro m; simp
  | cons x bt ih =>
    intro m
    rw [List.foldl_cons, ih, get?_set, List.count_cons]
    by_cases hx : x = b
    · subst hx
      by_cases hm : x ∈ bt
      · simp [hm]; ring
      · simp [hm, List.count_eq_zero.2 hm]
    · have hx' : ¬ b = x := fun e => hx e.symm
      simp [hx, hx']

theorem get?_subs (l : List (α × List α × Int)) (a : α) : ∀ d : Dict α (Dict α ℚ), get? (l.foldl subStep d) a =
    (get? d a).or ((l.find? fun s => s.1 == a).map fun s => inner s.2.1 s.2.2) := by
  induction l with
  | nil => intro d; simp
  | cons s l ih =>
    intro d
    rw [List.foldl_cons, ih, List.find?_cons]
    unfold subStep
    by_cases hs : s.1 = a
    · subst hs
      simp only [beq_self_eq_true, Option.map_some]
      split
      · next hh =>
        unfold has at hh
        rw [Option.isSome_iff_exists] at hh
        obtain ⟨m, hm⟩ := hh
        rw [hm]; rfl
      · next hh =>
        unfold has at hh
        simp only [Bool.not_eq_true, Option.isSome_eq_false_iff, Option.isNone_iff_eq_none] at hh
        rw [get?_set, if_pos rfl, hh]; rfl
    · have : (s.1 == a) = false := by simpa using hs
      rw [this]
      split
      · rfl
      · rw [get?_set, if_neg hs]

theorem nodup_subs (l : List (α × List α × Int)) : ∀ {d : Dict α (Dict α ℚ)}, (keys d).Nodup → (keys (l.foldl subStep d)).Nodup := by
  induction l with
  | nil => intro d h; exact h
  | cons s l ih =>
    intro d h
    rw [List.foldl_cons]
    apply ih
    unfold subStep
    split
    · exact h
    · exact nodup_set h _ _

instance (n : Nat) (a : α) (tr : List α) (i : Nat) : Decidable (SubAt n a tr i) := by unfold SubAt; infer_instance

/-- what a position contributes -/
def at' (n : Nat) (rv : List α) (occ : Int) (i : Nat) : Option (α × List α × Int) :=
  match rv[i]?, rv[i + n]? with
  | some a, some b => if a = b then some (a, (rv.drop (i + 1)).take (n - 1), occ) else none
  | _, _ => none

theorem at'_some {n : Nat} {rv : List α} {occ : Int} {i : Nat} {s : α × List α × Int} :
    at' n rv occ i = some s ↔ SubAt n s.1 rv i ∧ s.2 = (between n rv i, occ) := by
  unfold at' SubAt between
  obtain ⟨a, bt, o⟩ := s
  cases h1 : rv[i]? with
  | none => simp
  | some x =>
    cases h2 : rv[i + n]? with
    | none => simp
    | some y =>
      simp only [Option.some.injEq]
      constructor
      · intro h
        split at h
        · next e => subst e; cases h; exact ⟨⟨rfl, rfl⟩, rfl⟩
        · cases h
      · rintro ⟨⟨rfl, rfl⟩, e⟩
        cases e
        simp

theorem find?_filterMap_range (n : Nat) (rv : List α) (occ : Int) (a : α) : ∀ m : Nat,
    ((List.range m).filterMap (at' n rv occ)).find? (fun s => s.1 == a) =
      ((List.range m).find? fun i => decide (SubAt n a rv i)).map fun i => (a, between n rv i, occ) := by
  intro m
  generalize List.range m = l
  induction l with
  | nil => rfl
  | cons i l ih =>
    rw [List.filterMap_cons, List.find?_cons]
    cases h : at' n rv occ i with
    | none =>
      have : ¬ SubAt n a rv i := by
        intro hs
        have := (at'_some (s := (a, between n rv i, occ))).2 ⟨hs, rfl⟩
        rw [h] at this; cases this
      simp only [this, decide_false]
      exact ih
    | some s =>
      obtain ⟨h1, h2⟩ := at'_some.1 h
      simp only [List.find?_cons]
      by_cases hs : s.1 = a
      · subst hs
        simp only [beq_self_eq_true, h1, decide_true, Option.map_some]
        rw [← h2]
      · have e1 : (s.1 == a) = false := by simpa using hs
        have e2 : ¬ SubAt n a rv i := fun e => hs (Option.some.inj (h1.1.symm.trans e.1))
        simp only [e1, e2, decide_false]
        exact ih

end Sna

variable {α : Type} [DecidableEq α]

/-! ### C73 -/

/-- C73: the handover of work network has an entry for `(a, b)` exactly if `a` hands over to `b` in a trace of the log (directly if `beta` is 0);
its value is the weight of these handovers divided by the weight of all the handovers of the log.  (For all orders of the variants.) -/
theorem C73_handover (beta : ℚ) (log : List (List α)) (vs : Dict (List α) Int) (hv : VariantsOf vs log) (c : Dict (α × α) ℚ)
    (hc : handover beta vs = some c) (a b : α) :
    ((∃ tr ∈ log, Hands beta a b tr) → get? c (a, b) = some ((log.map (handed beta a b)).sum / (log.map (handedAll beta)).sum)) ∧
    ((¬ ∃ tr ∈ log, Hands beta a b tr) → get? c (a, b) = none) := by
  unfold handover at hc
  simp only at hc
  split at hc
  · cases hc
  · cases hc
    rw [get?_connections (nodup_fold _ (by simp)), val_fold, sum_all hv, sum_handed hv]
    constructor
    · intro h
      rw [if_pos ((mem_all hv beta a b).2 h)]
      simp [val]
    · intro h
      rw [if_neg fun h' => h ((mem_all hv beta a b).1 h')]
      simp [val]

/-- C73: with `beta = 0` the metric is the share of the directly-follows pairs of resources. -/
theorem C73_handover_direct (tr : List α) (a b : α) : handed 0 a b tr = ((tr.zip tr.tail).count (a, b) : ℚ) ∧
    handedAll 0 tr = ((tr.length - 1 : Nat) : ℚ) := by
  rw [handed_eq, handedAll_eq]
  induction tr with
  | nil => simp [G]
  | cons x rest ih =>
    rw [G_cons, G_cons]
    rw [ih.1, ih.2]
    cases rest with
    | nil => simp
    | cons y rest =>
      have h0 : ∀ p : Option α → Option α → Bool, (∑ j ∈ Finset.range (y :: rest).length, if p (some x) (y :: rest)[j]? then (0 : ℚ) ^ j else 0) =
          if p (some x) (some y) then 1 else 0 := by
        intro p
        rw [List.length_cons, Finset.sum_range_succ']
        rw [Finset.sum_eq_zero fun j _ => by split <;> simp]
        simp
      rw [h0 fun u v => decide (u = some a) && decide (v = some b), h0 fun _ _ => true]
      constructor
      · simp only [List.tail_cons, List.zip_cons_cons, List.count_cons]
        by_cases h1 : x = a <;> by_cases h2 : y = b <;> simp [h1, h2]
        ring
      · simp; ring

/-- C73: for `beta ≥ 0` the values of the handover of work network sum up to 1. -/
theorem C73_handover_sum (beta : ℚ) (hb : 0 ≤ beta) (log : List (List α)) (vs : Dict (List α) Int) (hv : VariantsOf vs log)
    (hl : ∃ tr ∈ log, 2 ≤ tr.length) : ∃ c, handover beta vs = some c ∧ (c.map Prod.snd).sum = 1 := by
  have hne : allUpdates beta vs ≠ [] := by
    rw [Ne, all_nil hv]
    obtain ⟨tr, ht, h2⟩ := hl
    exact fun h => by have := h tr ht; omega
  have hp := dividend_pos hv hb hne
  refine ⟨_, by unfold handover; simp only; rw [if_neg fun h => absurd h.2 (ne_of_gt hp)], ?_⟩
  rw [sum_connections, total_fold _ [] (by simp) (by simp)]
  simp only [List.map_nil, List.sum_nil, zero_add]
  exact div_self (ne_of_gt hp)

/-- C73: for `beta ≥ 0` discovering the handover of work network raises an exception exactly if no trace of the log has two events. -/
theorem C73_handover_raises (beta : ℚ) (hb : 0 ≤ beta) (normalize : Bool) (log : List (List α)) (vs : Dict (List α) Int)
    (hv : VariantsOf vs log) : (handover beta vs).bind (Sna.apply normalize) = none ↔ ∀ tr ∈ log, tr.length ≤ 1 := by
  rw [← all_nil hv beta]
  constructor
  · intro h
    refine Classical.byContradiction fun hne => ?_
    have hp := dividend_pos hv hb hne
    have hc : handover beta vs = some (connections ((allUpdates beta vs).foldl add []) (((allUpdates beta vs).map Prod.snd).sum)) := by
      unfold handover; simp only; rw [if_neg fun h => absurd h.2 (ne_of_gt hp)]
    rw [hc, Option.bind_some] at h
    unfold Sna.apply at h
    split at h
    · next e =>
      have : ((connections ((allUpdates beta vs).foldl add []) (((allUpdates beta vs).map Prod.snd).sum)).map Prod.snd).sum = 1 := by
        rw [sum_connections, total_fold _ [] (by simp) (by simp)]
        simp only [List.map_nil, List.sum_nil, zero_add]
        exact div_self (ne_of_gt hp)
      rw [e] at this
      simp at this
    · cases h
  · intro h
    unfold handover
    simp [h, connections, Sna.apply]

/-- C73: the working together network of an event log has an entry for `(a, b)` exactly if they are different and some trace has both; its value is
the share of the traces that have both. -/
theorem C73_together {sorted : List α → List α} (hs : ∀ l, (sorted l).Perm l) (log : List (List α)) (vs : Dict (List α) Int)
    (hv : VariantsOf vs log) (a b : α) :
    get? (together sorted log vs) (a, b) =
      if a ≠ b ∧ ∃ tr ∈ log, a ∈ tr ∧ b ∈ tr then
        some ((log.countP fun tr => decide (a ∈ tr ∧ b ∈ tr) : ℚ) / (log.length : ℚ)) else none :=
  togetherWith_ok hs hv _ a b

/-- C73: the data frame variant divides by the number of events instead of the number of traces. -/
theorem C73_together_df {sorted : List α → List α} (hs : ∀ l, (sorted l).Perm l) (log : List (List α)) (vs : Dict (List α) Int)
    (hv : VariantsOf vs log) (a b : α) :
    get? (togetherDf sorted log vs) (a, b) =
      if a ≠ b ∧ ∃ tr ∈ log, a ∈ tr ∧ b ∈ tr then
        some ((log.countP fun tr => decide (a ∈ tr ∧ b ∈ tr) : ℚ) / ((log.map List.length).sum : ℕ)) else none :=
  togetherWith_ok hs hv _ a b

/-- C73: the subcontracting network: if no trace has a subcontracting of `a`, there is no entry for `a`.  Otherwise all the entries of `a` come from
one single subcontracting, the first one found (in the order of the variants, then of the positions): `b` has an entry exactly if it works between,
with the share of the traces of that variant times its number of events between. -/
theorem C73_subcontracting (n : Nat) (log : List (List α)) (vs : Dict (List α) Int) (hv : VariantsOf vs log) (a : α) :
    ((∀ tr ∈ log, ∀ i, ¬ SubAt n a tr i) → ∀ b, get? (subcontracting n vs) (a, b) = none) ∧
    ((∃ tr ∈ log, ∃ i, SubAt n a tr i) → ∃ pre tr k suf i, vs = pre ++ (tr, k) :: suf ∧ (∀ v ∈ pre, ∀ i, ¬ SubAt n a v.1 i) ∧
      SubAt n a tr i ∧ (∀ i' < i, ¬ SubAt n a tr i') ∧
      ∀ b, get? (subcontracting n vs) (a, b) = if b ∈ between n tr i then
        some (((log.count tr : ℕ) : ℚ) * ((between n tr i).count b : ℚ) / (log.length : ℚ)) else none) := by
  have hval : ∀ b, get? (subcontracting n vs) (a, b) =
      (((vs.flatMap fun v => subsOf n v.1 v.2).find? fun s => s.1 == a).bind fun s => get? (inner s.2.1 s.2.2) b).map (· / (log.length : ℚ)) := by
    intro b
    unfold subcontracting
    rw [get?_connections (nodup_subs _ (by simp))]
    have hlen : (vs.map fun v => (v.2 : ℚ)).sum = (log.length : ℚ) := by
      have := sum_vs hv fun _ => 1
      simpa using this
    rw [hlen]
    unfold val
    rw [get?_subs, get?_nil, Option.none_or]
    cases (vs.flatMap fun v => subsOf n v.1 v.2).find? fun s => s.1 == a <;> rfl
  have hlt : ∀ {tr : List α} {i}, SubAt n a tr i → i < tr.length - n := by
    intro tr i h
    have := h.2
    rw [List.getElem?_eq_some_iff] at this
    obtain ⟨h1, _⟩ := this
    omega
  have hsub : ∀ v : List α × Int, (subsOf n v.1 v.2).find? (fun s => s.1 == a) =
      ((List.range (v.1.length - n)).find? fun i => decide (SubAt n a v.1 i)).map
        fun i => (a, between n v.1 i, v.2) := by
    intro v
    have := find?_filterMap_range n v.1 v.2 a (v.1.length - n)
    unfold subsOf
    exact this
  constructor
  · intro hno b
    have : (vs.flatMap fun v => subsOf n v.1 v.2).find? (fun s => s.1 == a) = none := by
      rw [List.find?_eq_none]
      intro s hs
      obtain ⟨v, hvm, hs⟩ := List.mem_flatMap.1 hs
      obtain ⟨i, _, hi⟩ := List.mem_filterMap.1 hs
      have := (at'_some.1 hi).1
      intro e
      have e : s.1 = a := by simpa using e
      exact hno v.1 ((mem_vs hv v.1 v.2).1 hvm).1 i (e ▸ this)
    rw [hval, this]; rfl
  · rintro ⟨tr0, ht0, i0, hi0⟩
    classical
    have hex : ∃ v ∈ vs, ∃ i, SubAt n a v.1 i := ⟨(tr0, _), (mem_vs hv tr0 _).2 ⟨ht0, rfl⟩, i0, hi0⟩
    -- the first variant
    have split : ∀ l : Dict (List α) Int, (∃ v ∈ l, ∃ i, SubAt n a v.1 i) → ∃ pre v suf, l = pre ++ v :: suf ∧ (∀ w ∈ pre, ∀ i, ¬ SubAt n a w.1 i) ∧
        ∃ i, SubAt n a v.1 i := by
      intro l
      induction l with
      | nil => rintro ⟨v, hv, _⟩; simp at hv
      | cons w l ih =>
        intro h
        by_cases hw : ∃ i, SubAt n a w.1 i
        · exact ⟨[], w, l, rfl, by simp, hw⟩
        · have : ∃ v ∈ l, ∃ i, SubAt n a v.1 i := by
            obtain ⟨v, hv, hi⟩ := h
            rcases List.mem_cons.1 hv with rfl | hv
            · exact absurd hi hw
            · exact ⟨v, hv, hi⟩
          obtain ⟨pre, v, suf, e, h1, h2⟩ := ih this
          refine ⟨w :: pre, v, suf, by rw [e]; rfl, ?_, h2⟩
          intro x hx i hi
          rcases List.mem_cons.1 hx with rfl | hx
          · exact hw ⟨i, hi⟩
          · exact h1 x hx i hi
    obtain ⟨pre, ⟨tr, k⟩, suf, e, hpre, hi⟩ := split vs hex
    have hmin := Nat.find_spec hi
    refine ⟨pre, tr, k, suf, Nat.find hi, e, hpre, hmin, fun i' h' => Nat.find_min hi h', fun b => ?_⟩
    have hk : k = (log.count tr : Int) := ((mem_vs hv tr k).1 (by rw [e]; simp)).2
    have hfind : (vs.flatMap fun v => subsOf n v.1 v.2).find? (fun s => s.1 == a) = some (a, between n tr (Nat.find hi), k) := by
      rw [e, List.flatMap_append, List.find?_append, List.flatMap_cons, List.find?_append]
      have h1 : (pre.flatMap fun v => subsOf n v.1 v.2).find? (fun s => s.1 == a) = none := by
        rw [List.find?_eq_none]
        intro s hs
        obtain ⟨v, hvm, hs⟩ := List.mem_flatMap.1 hs
        obtain ⟨i, _, hi⟩ := List.mem_filterMap.1 hs
        have := (at'_some.1 hi).1
        intro e
        have e : s.1 = a := by simpa using e
        exact hpre v hvm i (e ▸ this)
      rw [h1, Option.none_or, hsub]
      have h2 : (List.range (tr.length - n)).find? (fun i => decide (SubAt n a tr i)) = some (Nat.find hi) := by
        rw [List.find?_range_eq_some]
        refine ⟨by simpa using hmin, List.mem_range.2 (hlt hmin), fun j hj => ?_⟩
        simpa using Nat.find_min hi hj
      simp only [h2, Option.map_some, Option.some_or]
    rw [hval, hfind]
    simp only [Option.bind_some]
    unfold inner
    rw [get?_inner_fold, get?_nil, hk]
    split
    · simp
    · rfl

/-- C73: normalization divides all the values by the largest absolute value. -/
theorem C73_normalize (c c' : Dict (α × α) ℚ) (h : Sna.apply true c = some c') :
    (∀ e ∈ c', |e.2| ≤ 1) ∧ ((∃ e ∈ c, e.2 ≠ 0) → ∃ e ∈ c', |e.2| = 1) ∧ ∃ m, 0 < m ∧ c' = c.map fun e => (e.1, e.2 / m) := by
  have hmax : ∀ (l : List ℚ) (x : ℚ), (∀ y ∈ l, y ≤ l.foldl max x) ∧ x ≤ l.foldl max x ∧ (l.foldl max x = x ∨ l.foldl max x ∈ l) := by
    intro l
    induction l with
    | nil => intro x; simp
    | cons y l ih =>
      intro x
      obtain ⟨h1, h2, h3⟩ := ih (max x y)
      rw [List.foldl_cons]
      refine ⟨?_, le_trans (le_max_left _ _) h2, ?_⟩
      · intro z hz
        rcases List.mem_cons.1 hz with rfl | hz
        · exact le_trans (le_max_right _ _) h2
        · exact h1 z hz
      · rcases h3 with h3 | h3
        · rw [h3]
          rcases max_choice x y with h4 | h4
          · exact .inl h4
          · exact .inr (by rw [h4]; simp)
        · exact .inr (List.mem_cons_of_mem _ h3)
  obtain ⟨h1, h2, h3⟩ := hmax (c.map fun e => |e.2|) 0
  unfold Sna.apply at h
  split at h
  · cases h
  · simp only [Option.some.injEq, true_and] at h
    generalize (c.map fun e => |e.2|).foldl max 0 = m at h h1 h2 h3
    split at h
    · next hm =>
      subst h
      refine ⟨?_, ?_, m, hm, rfl⟩
      · intro e he
        obtain ⟨f, hf, rfl⟩ := List.mem_map.1 he
        simp only [abs_div, abs_of_pos hm]
        rw [div_le_one hm]
        exact h1 _ (List.mem_map.2 ⟨f, hf, rfl⟩)
      · intro _
        rcases h3 with h3 | h3
        · rw [h3] at hm; exact absurd hm (lt_irrefl _)
        · obtain ⟨f, hf, e⟩ := List.mem_map.1 h3
          refine ⟨_, List.mem_map.2 ⟨f, hf, rfl⟩, ?_⟩
          simp only [abs_div, abs_of_pos hm, e]
          exact div_self (ne_of_gt hm)
    · next hm =>
      subst h
      have hz : ∀ e ∈ c, e.2 = 0 := by
        intro e he
        have := h1 _ (List.mem_map.2 ⟨e, he, rfl⟩)
        have h4 : |e.2| ≤ 0 := le_trans this (not_lt.1 hm)
        exact abs_eq_zero.1 (le_antisymm h4 (abs_nonneg _))
      refine ⟨fun e he => by rw [hz e he]; simp, fun ⟨e, he, h⟩ => absurd (hz e he) h, 1, one_pos, ?_⟩
      simp

end Verif
