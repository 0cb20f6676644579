import Mathlib.Data.List.Forall2
import Verif.Common.ListX
import Verif.Ltl.Spec
/-
C51: proofs.
-/
set_option linter.unusedSectionVars false
namespace Verif.Ltl
variable {A R C : Type} [DecidableEq A] [DecidableEq R] [DecidableEq C]

/-- an ascending list of elements of an ascending list is a sublist of it -/
theorem sublist_of_sorted {β : Type} (S : β → β → Prop) (hirr : ∀ x, ¬ S x x) (hasym : ∀ x y, S x y → ¬ S y x) :
    ∀ (l c : List β), l.Pairwise S → c.Pairwise S → (∀ x ∈ c, x ∈ l) → c.Sublist l
  | [], c, _, _, hs => by
    cases c with
    | nil => exact List.Sublist.slnil
    | cons y c => exact absurd (hs y (by simp)) (by simp)
  | x :: l, [], _, _, _ => List.nil_sublist _
  | x :: l, y :: c, hl, hc, hs => by
    rw [List.pairwise_cons] at hl
    by_cases hy : y = x
    · subst hy
      rw [List.pairwise_cons] at hc
      refine List.Sublist.cons_cons _ (sublist_of_sorted S hirr hasym l c hl.2 hc.2 fun z hz => ?_)
      have := hs z (by simp [hz])
      rcases List.mem_cons.1 this with rfl | h
      · exact absurd (hc.1 z hz) (hirr z)
      · exact h
    · have hyl : y ∈ l := by
        rcases List.mem_cons.1 (hs y (by simp)) with h | h
        · exact absurd h hy
        · exact h
      refine List.Sublist.cons _ (sublist_of_sorted S hirr hasym l (y :: c) hl.2 hc fun z hz => ?_)
      rcases List.mem_cons.1 (hs z hz) with rfl | h
      · rcases List.mem_cons.1 hz with rfl | hz'
        · exact absurd rfl hy
        · rw [List.pairwise_cons] at hc
          exact absurd (hc.1 z hz') (hasym _ _ (hl.1 y hyl))
      · exact h

theorem mem_product {β : Type} (ls : List (List β)) (c : List β) : c ∈ product ls ↔ List.Forall₂ (fun x l => x ∈ l) c ls := by
  induction ls generalizing c with
  | nil => simp [product]
  | cons l ls ih =>
    simp only [product, List.mem_flatMap, List.mem_map]
    constructor
    · rintro ⟨b, hb, c, hc, rfl⟩
      exact .cons hb ((ih c).1 hc)
    · intro h
      cases h with
      | cons h1 h2 => exact ⟨_, h1, _, (ih _).2 h2, rfl⟩

theorem increasing_iff (c : List Nat) : increasing c = true ↔ c.Pairwise (· < ·) := by
  induction c with
  | nil => simp [increasing]
  | cons a c ih =>
    cases c with
    | nil => simp [increasing]
    | cons b c =>
      simp only [increasing, Bool.and_eq_true, decide_eq_true_eq, ih]
      constructor
      · rintro ⟨h1, h2⟩
        rw [List.pairwise_cons]
        refine ⟨fun x hx => ?_, h2⟩
        rcases List.mem_cons.1 hx with rfl | hx
        · exact h1
        · rw [List.pairwise_cons] at h2
          exact Nat.lt_trans h1 (h2.1 x hx)
      · intro h
        rw [List.pairwise_cons] at h
        exact ⟨h.1 b (by simp), h.2⟩

theorem mem_occ (tr : List (Ev A R)) (v : A) (i : Nat) : i ∈ occ tr v ↔ (tr[i]?).bind Ev.act = some v := by
  unfold occ
  simp only [List.mem_filter, List.mem_range, decide_eq_true_eq, and_iff_right_iff_imp]
  intro h
  cases h' : tr[i]? with
  | none => simp [h'] at h
  | some e => exact (List.getElem?_eq_some_iff.1 h').1

theorem map_range_act (tr : List (Ev A R)) : (List.range tr.length).map (fun i => (tr[i]?).bind Ev.act) = tr.map Ev.act := by
  apply List.ext_getElem?
  intro i
  rw [List.getElem?_map, List.getElem?_map]
  by_cases h : i < tr.length
  · rw [List.getElem?_range h, List.getElem?_eq_getElem h]; simp [List.getElem?_eq_getElem h]
  · rw [List.getElem?_eq_none (by simpa using h), List.getElem?_eq_none (by simpa using h)]; rfl

theorem forall2_map {β γ δ : Type} (f : β → δ) (g : γ → δ) (l : List β) (m : List γ) :
    List.Forall₂ (fun x y => f x = g y) l m ↔ l.map f = m.map g := by
  induction l generalizing m with
  | nil => cases m <;> simp
  | cons x l ih =>
    cases m with
    | nil => simp
    | cons y m => simp [ih]

theorem mem_product_occ (vals : List A) (tr : List (Ev A R)) (c : List Nat) :
    c ∈ product (vals.map (occ tr)) ↔ c.map (fun i => (tr[i]?).bind Ev.act) = vals.map some := by
  rw [mem_product, ← forall2_map, List.forall₂_map_right_iff]
  simp only [mem_occ]

theorem followsTrace_iff (vals : List A) (tr : List (Ev A R)) : followsTrace vals none tr = true ↔ InOrder vals tr := by
  unfold followsTrace InOrder
  simp only [List.any_eq_true, Bool.and_true, increasing_iff, mem_product_occ]
  rw [← map_range_act, List.sublist_map_iff]
  constructor
  · rintro ⟨c, h1, h2⟩
    refine ⟨c, ?_, h1.symm⟩
    refine sublist_of_sorted (· < ·) (fun x => Nat.lt_irrefl x) (fun x y h h' => absurd (Nat.lt_trans h h') (Nat.lt_irrefl _)) _ _
      List.pairwise_lt_range h2 fun x hx => ?_
    rw [List.mem_range]
    have : (tr[x]?).bind Ev.act ∈ vals.map some := by rw [← h1]; exact List.mem_map.2 ⟨x, hx, rfl⟩
    obtain ⟨v, _, hv⟩ := List.mem_map.1 this
    cases h' : tr[x]? with
    | none => simp [h'] at hv
    | some e => exact (List.getElem?_eq_some_iff.1 h').1
  · rintro ⟨c, h1, h2⟩
    exact ⟨c, h2.symm, List.pairwise_lt_range.sublist h1⟩

theorem nextTrace_iff (a b c : A) (tr : List (Ev A R)) : nextTrace a b c tr = true ↔ Directly a b c tr := by
  unfold nextTrace Directly
  simp only [List.any_eq_true, mem_occ, Bool.and_eq_true, decide_eq_true_eq]
  have hget : ∀ i : Nat, (tr.map Ev.act)[i]? = (tr[i]?).map Ev.act := fun i => List.getElem?_map ..
  constructor
  · rintro ⟨i, hi, j, hj, k, hk, h1, h2⟩
    have e1 : j = i + 1 := by omega
    have e2 : k = i + 2 := by omega
    subst e1 e2
    have key : ∀ (i : Nat) (v : A), (tr[i]?).bind Ev.act = some v → (tr.map Ev.act)[i]? = some (some v) := by
      intro i v h
      rw [hget]
      cases h' : tr[i]? with
      | none => simp [h'] at h
      | some e => simpa [h'] using h
    have k1 := key _ _ hi
    have k2 := key _ _ hj
    have k3 := key _ _ hk
    have d1 : (tr.map Ev.act).drop i = some a :: some b :: some c :: (tr.map Ev.act).drop (i + 3) := by
      rw [List.drop_eq_getElem?_toList_append, k1, List.drop_eq_getElem?_toList_append, k2, List.drop_eq_getElem?_toList_append, k3]
      rfl
    exact ⟨(tr.map Ev.act).take i, (tr.map Ev.act).drop (i + 3), by
      rw [List.append_assoc]
      have := List.take_append_drop i (tr.map Ev.act)
      rw [d1] at this
      exact this⟩
  · rintro ⟨s, t, h⟩
    have key : ∀ (i : Nat) (v : A), (tr.map Ev.act)[i]? = some (some v) → (tr[i]?).bind Ev.act = some v := by
      intro i v h
      rw [hget] at h
      cases h' : tr[i]? with
      | none => simp [h'] at h
      | some e => simpa [h'] using h
    refine ⟨s.length, key _ _ ?_, s.length + 1, key _ _ ?_, s.length + 2, key _ _ ?_, by omega, by omega⟩
    all_goals rw [← h]
    all_goals simp [List.append_assoc, List.getElem?_append_right]

theorem mem_resOf (tr : List (Ev A R)) (v : A) (r : R) : r ∈ resOf tr v ↔ Does tr r v := by
  unfold resOf Does
  simp only [List.mem_filterMap, Option.ite_none_right_eq_some]

/-! ### dataframes -/

theorem zipIdx_sorted {β : Type} (l : List β) (n : Nat) : (l.zipIdx n).Pairwise fun p q => p.2 < q.2 := by
  induction l generalizing n with
  | nil => simp
  | cons x l ih =>
    rw [List.zipIdx_cons, List.pairwise_cons]
    refine ⟨fun p hp => ?_, ih _⟩
    have := List.le_snd_of_mem_zipIdx hp
    show n < p.2
    omega

/-- joined rows in the order of the values -/
structure Chain (enable : Bool) (rows : List (Row C A R)) (vs : List A) (es : List (Row C A R × Nat)) : Prop where
  mem : ∀ p ∈ es, p ∈ rows.zipIdx
  act : es.map (fun p => p.1.act) = vs.map some
  sorted : es.Pairwise fun p q => p.2 < q.2
  same : es.Pairwise fun p q => p.1.cid = q.1.cid
  time : enable = true → 2 ≤ es.length → ∀ p ∈ es, p.1.time.isSome = true

theorem mem_dfA (rows : List (Row C A R)) (v : A) (p : Row C A R × Nat) : p ∈ dfA rows v ↔ p ∈ rows.zipIdx ∧ p.1.act = some v := by
  unfold dfA
  simp

theorem mem_joined (enable : Bool) (rows : List (Row C A R)) (v : A) (vs : List A) :
    ∀ j, j ∈ joined enable rows (v :: vs) ↔ Chain enable rows (v :: vs) j.reverse := by
  unfold joined
  induction vs using snocInduct with
  | nil =>
    intro j
    simp only [List.foldl_nil, List.mem_map, mem_dfA]
    constructor
    · rintro ⟨x, ⟨h1, h2⟩, rfl⟩
      exact ⟨by simpa using h1, by simp [h2], by simp, by simp, by simp⟩
    · intro h
      have hl := congrArg List.length h.act
      simp at hl
      match j, hl with
      | [x], _ => exact ⟨x, ⟨h.mem x (by simp), by simpa using h.act⟩, rfl⟩
  | snoc vs w ih =>
    intro j
    simp only [List.foldl_append, List.foldl_cons, List.foldl_nil]
    simp only [] at ih
    generalize vs.foldl _ _ = js at ih ⊢
    unfold joinStep
    simp only [List.mem_flatMap]
    constructor
    · rintro ⟨k, hk, hj⟩
      cases k with
      | nil => simp at hj
      | cons x k =>
        simp only [List.mem_map, List.mem_filter, mem_dfA, Bool.and_eq_true, decide_eq_true_eq, Bool.or_eq_true, Bool.not_eq_true'] at hj
        obtain ⟨y, ⟨⟨h1, h2⟩, ⟨h3, h4⟩, h5⟩, rfl⟩ := hj
        have hc := (ih _).1 hk
        have hrev : (y :: x :: k).reverse = (x :: k).reverse ++ [y] := by simp
        rw [hrev]
        have hlast : ∀ p ∈ (x :: k).reverse, p = x ∨ (p.2 < x.2 ∧ p.1.cid = x.1.cid) := by
          intro p hp
          have s1 := hc.sorted
          have s2 := hc.same
          rw [List.reverse_cons, List.pairwise_append] at s1 s2
          rw [List.reverse_cons, List.mem_append] at hp
          rcases hp with hp | hp
          · exact .inr ⟨s1.2.2 p hp x (by simp), s2.2.2 p hp x (by simp)⟩
          · exact .inl (by simpa using hp)
        refine ⟨?_, ?_, ?_, ?_, ?_⟩
        · intro p hp
          rcases List.mem_append.1 hp with hp | hp
          · exact hc.mem p hp
          · rw [List.mem_singleton.1 hp]; exact h1
        · rw [List.map_append, hc.act]; simp [h2]
        · rw [List.pairwise_append]
          refine ⟨hc.sorted, by simp, ?_⟩
          intro p hp q hq
          rw [List.mem_singleton.1 hq]
          rcases hlast p hp with rfl | h
          · exact h5
          · exact Nat.lt_trans h.1 h5
        · rw [List.pairwise_append]
          refine ⟨hc.same, by simp, ?_⟩
          intro p hp q hq
          rw [List.mem_singleton.1 hq]
          rcases hlast p hp with rfl | h
          · exact h3.symm
          · rw [h.2, h3]
        · intro he _ p hp
          rw [he] at h4
          have h4 : y.1.time.isSome = true ∧ x.1.time.isSome = true := by simpa using h4
          rcases List.mem_append.1 hp with hp | hp
          · cases k with
            | nil => simp at hp; rw [hp]; exact h4.2
            | cons z k => exact hc.time he (by simp) p hp
          · rw [List.mem_singleton.1 hp]; exact h4.1
    · intro hc
      have hl := congrArg List.length hc.act
      simp at hl
      match j, hl with
      | y :: x :: k, hl =>
        have hrev : (y :: x :: k).reverse = (x :: k).reverse ++ [y] := by simp
        rw [hrev] at hc
        obtain ⟨c1, c2, c3, c4, c5⟩ := hc
        rw [List.pairwise_append] at c3 c4
        rw [List.map_append, ← List.cons_append, List.map_append] at c2
        have c2' := List.append_inj c2 (by simpa using hl)
        refine ⟨x :: k, (ih _).2 ⟨fun p hp => c1 p (List.mem_append_left _ hp), c2'.1, c3.1, c4.1, fun he h2 p hp => c5 he (by simp) p (List.mem_append_left _ hp)⟩, ?_⟩
        simp only [List.mem_map, List.mem_filter, mem_dfA, Bool.and_eq_true, decide_eq_true_eq, Bool.or_eq_true, Bool.not_eq_true']
        refine ⟨y, ⟨⟨c1 y (by simp), by simpa using c2'.2⟩, ⟨(c4.2.2 x (by simp) y (by simp)).symm, ?_⟩, c3.2.2 x (by simp) y (by simp)⟩, rfl⟩
        cases he : enable with
        | false => exact .inl rfl
        | true => exact .inr ⟨c5 he (by simp) y (by simp), c5 he (by simp) x (by simp)⟩

end Verif.Ltl
