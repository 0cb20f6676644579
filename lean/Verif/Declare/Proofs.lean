import Verif.Declare.Model
/-
C25: lemmas about positions, the alternation automaton and the loops.
-/
namespace Verif.Declare
open Dict Counter Spec
variable {α : Type} [DecidableEq α]

/-! ### positions -/

theorem idxsFrom_mem (n : Nat) (t : List α) (a : α) (i : Nat) :
    i ∈ idxsFrom n t a ↔ n ≤ i ∧ t[i - n]? = some a := by
  induction t generalizing n with
  | nil => simp [idxsFrom]
  | cons x t ih =>
    simp only [idxsFrom]
    have key : (n + 1 ≤ i ∧ t[i - (n + 1)]? = some a) ↔ (n < i ∧ (x :: t)[i - n]? = some a) := by
      constructor
      · rintro ⟨h1, h2⟩
        have : i - n = (i - (n + 1)) + 1 := by omega
        exact ⟨by omega, by rw [this]; simpa using h2⟩
      · rintro ⟨h1, h2⟩
        have : i - n = (i - (n + 1)) + 1 := by omega
        rw [this] at h2
        exact ⟨by omega, by simpa using h2⟩
    split
    · rename_i hx
      rw [List.mem_cons, ih, key]
      constructor
      · rintro (rfl | ⟨h1, h2⟩)
        · simp [hx]
        · exact ⟨by omega, h2⟩
      · rintro ⟨h1, h2⟩
        by_cases h : i = n
        · exact .inl h
        · exact .inr ⟨by omega, h2⟩
    · rename_i hx
      rw [ih, key]
      constructor
      · rintro ⟨h1, h2⟩
        exact ⟨by omega, h2⟩
      · rintro ⟨h1, h2⟩
        by_cases h : i = n
        · subst h; simp at h2; exact absurd h2 hx
        · exact ⟨by omega, h2⟩

theorem mem_idxs (t : List α) (a : α) (i : Nat) : i ∈ idxs t a ↔ t[i]? = some a := by
  unfold idxs; rw [idxsFrom_mem]; simp

theorem idxsFrom_sorted (n : Nat) (t : List α) (a : α) : (idxsFrom n t a).Pairwise (· < ·) := by
  induction t generalizing n with
  | nil => simp [idxsFrom]
  | cons x t ih =>
    simp only [idxsFrom]
    split
    · refine List.pairwise_cons.2 ⟨fun j hj => ?_, ih _⟩
      have := ((idxsFrom_mem _ _ _ _).1 hj).1
      omega
    · exact ih _

theorem idxs_ne_nil {t : List α} {a : α} (h : a ∈ t) : idxs t a ≠ [] := by
  obtain ⟨i, hi⟩ := List.getElem?_of_mem h
  intro he
  have := (mem_idxs t a i).2 hi
  rw [he] at this
  simp at this

/-- `p` is the last position of `a` -/
def IsLast (t : List α) (a : α) (p : Nat) : Prop := t[p]? = some a ∧ ∀ i, t[i]? = some a → i ≤ p
/-- `p` is the first position of `a` -/
def IsFirst (t : List α) (a : α) (p : Nat) : Prop := t[p]? = some a ∧ ∀ i, t[i]? = some a → p ≤ i

theorem maxIdx_last {t : List α} {a : α} (h : a ∈ t) : IsLast t a (maxIdx (idxs t a)) := by
  cases hm : (idxs t a).max? with
  | none => exact absurd (List.max?_eq_none_iff.1 hm) (idxs_ne_nil h)
  | some p =>
    have := List.max?_eq_some_iff.1 hm
    simp only [maxIdx, hm, Option.getD_some]
    exact ⟨(mem_idxs _ _ _).1 this.1, fun i hi => this.2 i ((mem_idxs _ _ _).2 hi)⟩

theorem minIdx_first {t : List α} {a : α} (h : a ∈ t) : IsFirst t a (minIdx (idxs t a)) := by
  cases hm : (idxs t a).min? with
  | none => exact absurd (List.min?_eq_none_iff.1 hm) (idxs_ne_nil h)
  | some p =>
    have := List.min?_eq_some_iff.1 hm
    simp only [minIdx, hm, Option.getD_some]
    exact ⟨(mem_idxs _ _ _).1 this.1, fun i hi => this.2 i ((mem_idxs _ _ _).2 hi)⟩

theorem getLast_last {t : List α} {a : α} (h : a ∈ t) : IsLast t a ((idxs t a).getLast?.getD 0) := by
  have hne := idxs_ne_nil h
  obtain ⟨l, p, hlp⟩ : ∃ l p, idxs t a = l ++ [p] :=
    ⟨_, _, (List.dropLast_concat_getLast hne).symm⟩
  have hs : (idxs t a).Pairwise (· < ·) := idxsFrom_sorted 0 t a
  rw [hlp] at hs ⊢
  rw [List.pairwise_append] at hs
  simp only [List.getLast?_append, List.getLast?_singleton, Option.some_or, Option.getD_some]
  refine ⟨(mem_idxs _ _ _).1 (by rw [hlp]; simp), fun i hi => ?_⟩
  have := (mem_idxs _ _ _).2 hi
  rw [hlp, List.mem_append] at this
  rcases this with h' | h'
  · exact Nat.le_of_lt (hs.2.2 i h' p (by simp))
  · simp at h'; omega

theorem head_first {t : List α} {a : α} (h : a ∈ t) : IsFirst t a ((idxs t a)[0]?.getD 0) := by
  have hne := idxs_ne_nil h
  have hs : (idxs t a).Pairwise (· < ·) := idxsFrom_sorted 0 t a
  cases hl : idxs t a with
  | nil => exact absurd hl hne
  | cons p l =>
    rw [hl] at hs
    simp only [List.getElem?_cons_zero, Option.getD_some]
    refine ⟨(mem_idxs _ _ _).1 (by rw [hl]; simp), fun i hi => ?_⟩
    have := (mem_idxs _ _ _).2 hi
    rw [hl, List.mem_cons] at this
    rcases this with rfl | h'
    · exact Nat.le_refl _
    · exact Nat.le_of_lt ((List.pairwise_cons.1 hs).1 i h')

theorem split_index {t : List α} {a : α} {i : Nat} (h : t[i]? = some a) :
    t = t.take i ++ a :: t.drop (i + 1) := by
  obtain ⟨hi, h⟩ := List.getElem?_eq_some_iff.1 h
  conv_lhs => rw [← List.take_append_drop i t, List.drop_eq_getElem_cons hi, h]

theorem response_index (a b : α) (t : List α) :
    Response a b t ↔ ∀ i : Nat, t[i]? = some a → ∃ j : Nat, i < j ∧ t[j]? = some b := by
  constructor
  · intro h i hi
    have hb := h _ _ (split_index hi)
    obtain ⟨k, hk⟩ := List.getElem?_of_mem hb
    rw [List.getElem?_drop] at hk
    exact ⟨i + 1 + k, by omega, hk⟩
  · intro h u v he
    obtain ⟨j, hj, hb⟩ := h u.length (by rw [he]; simp)
    rw [he, List.getElem?_append_right (by omega)] at hb
    have : j - u.length = (j - u.length - 1) + 1 := by omega
    rw [this, List.getElem?_cons_succ] at hb
    exact List.mem_of_getElem? hb

theorem precedence_index (a b : α) (t : List α) :
    Precedence a b t ↔ ∀ j : Nat, t[j]? = some b → ∃ i : Nat, i < j ∧ t[i]? = some a := by
  constructor
  · intro h j hj
    have ha := h _ _ (split_index hj)
    obtain ⟨k, hk⟩ := List.getElem?_of_mem ha
    rw [List.getElem?_take] at hk
    split at hk
    · exact ⟨k, by assumption, hk⟩
    · cases hk
  · intro h u v he
    obtain ⟨i, hi, ha⟩ := h u.length (by rw [he]; simp)
    rw [he, List.getElem?_append_left (by omega)] at ha
    exact List.mem_of_getElem? ha

theorem response_last {a b : α} (hab : a ≠ b) {t : List α} {p q : Nat} (hp : IsLast t a p) (hq : IsLast t b q) :
    Response a b t ↔ p < q := by
  rw [response_index]
  have hne : p ≠ q := by
    rintro rfl
    have := hp.1.symm.trans hq.1
    exact hab (Option.some.inj this)
  constructor
  · intro h
    obtain ⟨j, hj, hb⟩ := h p hp.1
    have := hq.2 j hb
    omega
  · intro h i hi
    exact ⟨q, by have := hp.2 i hi; omega, hq.1⟩

theorem precedence_first {a b : α} (hab : a ≠ b) {t : List α} {p q : Nat} (hp : IsFirst t a p) (hq : IsFirst t b q) :
    Precedence a b t ↔ p < q := by
  rw [precedence_index]
  constructor
  · intro h
    obtain ⟨j, hj, hb⟩ := h q hq.1
    have := hp.2 j hb
    omega
  · intro h i hi
    exact ⟨p, by have := hq.2 i hi; omega, hp.1⟩

theorem last_ne {a b : α} (hab : a ≠ b) {t : List α} {p q : Nat} (hp : t[p]? = some a) (hq : t[q]? = some b) : p ≠ q := by
  rintro rfl
  exact hab (Option.some.inj (hp.symm.trans hq))

theorem response_of_not_mem {a : α} (b : α) {t : List α} (h : a ∉ t) : Response a b t := by
  rintro u v rfl; simp at h
theorem precedence_of_not_mem (a : α) {b : α} {t : List α} (h : b ∉ t) : Precedence a b t := by
  rintro u v rfl; simp at h
theorem response_mem {a b : α} {t : List α} (h : Response a b t) (ha : a ∈ t) : b ∈ t := by
  obtain ⟨u, v, rfl⟩ := List.append_of_mem ha
  have := h u v rfl
  simp [this]
theorem precedence_mem {a b : α} {t : List α} (h : Precedence a b t) (hb : b ∈ t) : a ∈ t := by
  obtain ⟨u, v, rfl⟩ := List.append_of_mem hb
  have := h u v rfl
  simp [this]

/-! ### the alternation automaton: `ch` requires the second activity right after the first; the state says whether
the second activity is awaited -/

def au (ch : Bool) (a b : α) : Bool → List α → Bool
  | false, [] => true
  | true, [] => false
  | false, x :: t => if x = a then au ch a b true t else if x = b then false else au ch a b false t
  | true, x :: t => if x = b then au ch a b false t else if x = a ∨ ch = true then false else au ch a b true t

theorem altResponse_cons (a b x : α) (t : List α) :
    AltResponse a b (x :: t) ↔ (x = a → ∃ p q, t = p ++ b :: q ∧ a ∉ p) ∧ AltResponse a b t := by
  constructor
  · intro h
    refine ⟨fun hx => h [] t (by rw [hx]; rfl), fun u v he => h (x :: u) v (by rw [he]; rfl)⟩
  · rintro ⟨h1, h2⟩ u v he
    cases u with
    | nil => simp at he; obtain ⟨rfl, rfl⟩ := he; exact h1 rfl
    | cons y u => simp at he; obtain ⟨rfl, rfl⟩ := he; exact h2 u v rfl

theorem chainResponse_cons (a b x : α) (t : List α) :
    ChainResponse a b (x :: t) ↔ (x = a → ∃ q, t = b :: q) ∧ ChainResponse a b t := by
  constructor
  · intro h
    refine ⟨fun hx => h [] t (by rw [hx]; rfl), fun u v he => h (x :: u) v (by rw [he]; rfl)⟩
  · rintro ⟨h1, h2⟩ u v he
    cases u with
    | nil => simp at he; obtain ⟨rfl, rfl⟩ := he; exact h1 rfl
    | cons y u => simp at he; obtain ⟨rfl, rfl⟩ := he; exact h2 u v rfl

/-- alternate precedence after a prefix whose last relevant event is `a` (`s`) or is not -/
def AltPrecFrom (a b : α) (s : Bool) (t : List α) : Prop :=
  ∀ u v, t = u ++ b :: v → (∃ x y, u = x ++ a :: y ∧ b ∉ y) ∨ (s = true ∧ b ∉ u)

theorem altPrecFrom_false (a b : α) (t : List α) : AltPrecFrom a b false t ↔ AltPrecedence a b t := by
  simp [AltPrecFrom, AltPrecedence]

theorem altPrecFrom_cons {a b : α} (hab : a ≠ b) (s : Bool) (x : α) (t : List α) :
    AltPrecFrom a b s (x :: t) ↔
      (if x = a then AltPrecFrom a b true t else if x = b then s = true ∧ AltPrecFrom a b false t
        else AltPrecFrom a b s t) := by
  split
  · rename_i hx
    subst hx
    constructor
    · intro h u v he
      rcases h (x :: u) v (by rw [he]; rfl) with ⟨p, q, hpq, hq⟩ | ⟨hs, hb⟩
      · cases p with
        | nil => simp at hpq; subst hpq; exact .inr ⟨rfl, hq⟩
        | cons y p => simp at hpq; exact .inl ⟨p, q, hpq.2, hq⟩
      · exact .inr ⟨rfl, fun h => hb (by simp [h])⟩
    · intro h u v he
      cases u with
      | nil => simp at he; exact absurd he.1 hab
      | cons y u =>
        simp at he
        obtain ⟨rfl, he⟩ := he
        rcases h u v he with ⟨p, q, hpq, hq⟩ | ⟨-, hb⟩
        · exact .inl ⟨x :: p, q, by rw [hpq]; rfl, hq⟩
        · exact .inl ⟨[], u, rfl, hb⟩
  · rename_i hxa
    split
    · rename_i hx
      subst hx
      constructor
      · intro h
        refine ⟨?_, fun u v he => ?_⟩
        · rcases h [] t rfl with ⟨p, q, hpq, -⟩ | ⟨hs, -⟩
          · simp at hpq
          · exact hs
        · rcases h (x :: u) v (by rw [he]; rfl) with ⟨p, q, hpq, hq⟩ | ⟨hs, hb⟩
          · cases p with
            | nil => simp at hpq; exact absurd hpq.1 hxa
            | cons y p => simp at hpq; exact .inl ⟨p, q, hpq.2, hq⟩
          · simp at hb
      · rintro ⟨hs, h⟩ u v he
        cases u with
        | nil => exact .inr ⟨hs, by simp⟩
        | cons y u =>
          simp at he
          obtain ⟨rfl, he⟩ := he
          rcases h u v he with ⟨p, q, hpq, hq⟩ | ⟨hs, -⟩
          · exact .inl ⟨x :: p, q, by rw [hpq]; rfl, hq⟩
          · cases hs
    · rename_i hxb
      constructor
      · intro h u v he
        rcases h (x :: u) v (by rw [he]; rfl) with ⟨p, q, hpq, hq⟩ | ⟨hs, hb⟩
        · cases p with
          | nil => simp at hpq; exact absurd hpq.1 hxa
          | cons y p => simp at hpq; exact .inl ⟨p, q, hpq.2, hq⟩
        · exact .inr ⟨hs, fun h => hb (by simp [h])⟩
      · intro h u v he
        cases u with
        | nil => simp at he; exact absurd he.1 hxb
        | cons y u =>
          simp at he
          obtain ⟨rfl, he⟩ := he
          rcases h u v he with ⟨p, q, hpq, hq⟩ | ⟨hs, hb⟩
          · exact .inl ⟨x :: p, q, by rw [hpq]; rfl, hq⟩
          · exact .inr ⟨hs, by simp [hb, Ne.symm hxb]⟩

theorem until_cons {a b x : α} (hab : a ≠ b) (t : List α) :
    (∃ p q, x :: t = p ++ b :: q ∧ a ∉ p) ↔ (if x = b then True else if x = a then False else ∃ p q, t = p ++ b :: q ∧ a ∉ p) := by
  split
  · rename_i hx
    simp only [iff_true]
    exact ⟨[], t, by rw [hx]; rfl, by simp⟩
  · rename_i hx
    split
    · rename_i hxa
      simp only [iff_false]
      rintro ⟨p, q, he, hp⟩
      cases p with
      | nil => simp at he; exact hx he.1
      | cons y p => simp at he; simp [← he.1, hxa] at hp
    · rename_i hxa
      constructor
      · rintro ⟨p, q, he, hp⟩
        cases p with
        | nil => simp at he; exact absurd he.1 hx
        | cons y p => simp at he; exact ⟨p, q, he.2, fun h => hp (by simp [h])⟩
      · rintro ⟨p, q, rfl, hp⟩
        exact ⟨x :: p, q, rfl, by simp [hp, Ne.symm hxa]⟩

theorem au_alt_gen {a b : α} (hab : a ≠ b) (s : Bool) (t : List α) :
    au false a b s t = true ↔
      (s = true → ∃ p q, t = p ++ b :: q ∧ a ∉ p) ∧ AltResponse a b t ∧ AltPrecFrom a b s t := by
  induction t generalizing s with
  | nil =>
    have h1 : AltResponse a b ([] : List α) := by intro u v he; simp at he
    have h2 : AltPrecFrom a b s ([] : List α) := by intro u v he; simp at he
    cases s <;> simp [au, h1, h2]
  | cons x t ih =>
    rw [altResponse_cons, altPrecFrom_cons hab, until_cons hab]
    cases s
    · simp only [au]
      by_cases hx : x = a
      · simp only [hx, if_true, ih]; simp [and_assoc]
      · by_cases hb : x = b
        · simp [hb, Ne.symm hab]
        · simp [hx, hb, ih]
    · simp only [au]
      by_cases hx : x = a
      · have hxb : x ≠ b := hx ▸ hab
        simp [hx, hab]
      · by_cases hb : x = b
        · simp [hx, hb, ih, Ne.symm hab]
        · simp [hx, hb, ih]

theorem au_alt {a b : α} (hab : a ≠ b) (t : List α) : au false a b false t = true ↔ AltSuccession a b t := by
  rw [au_alt_gen hab, altPrecFrom_false]; simp [AltSuccession]

/-- chain precedence after a prefix whose last event is `a` (`s`) or is not -/
def ChainPrecFrom (a b : α) (s : Bool) (t : List α) : Prop :=
  ∀ u v, t = u ++ b :: v → (∃ x, u = x ++ [a]) ∨ (s = true ∧ u = [])

theorem chainPrecFrom_cons {a b : α} (s : Bool) (x : α) (t : List α) :
    ChainPrecFrom a b s (x :: t) ↔ (x = b → s = true) ∧ ChainPrecFrom a b (decide (x = a)) t := by
  constructor
  · intro h
    refine ⟨fun hx => ?_, fun u v he => ?_⟩
    · rcases h [] t (by rw [hx]; rfl) with ⟨p, hp⟩ | ⟨hs, -⟩
      · simp at hp
      · exact hs
    · rcases h (x :: u) v (by rw [he]; rfl) with ⟨p, hp⟩ | ⟨-, h⟩
      · cases p with
        | nil => simp at hp; exact .inr ⟨by simp [hp.1], hp.2⟩
        | cons y p => simp at hp; exact .inl ⟨p, hp.2⟩
      · simp at h
  · rintro ⟨h1, h2⟩ u v he
    cases u with
    | nil => simp at he; exact .inr ⟨h1 he.1, rfl⟩
    | cons y u =>
      simp at he
      obtain ⟨rfl, he⟩ := he
      rcases h2 u v he with ⟨p, hp⟩ | ⟨hs, hu⟩
      · exact .inl ⟨x :: p, by rw [hp]; rfl⟩
      · exact .inl ⟨[], by simp [hu, of_decide_eq_true hs]⟩

theorem au_chain_gen {a b : α} (hab : a ≠ b) (s : Bool) (t : List α) :
    au true a b s t = true ↔
      (s = true → ∃ q, t = b :: q) ∧ ChainResponse a b t ∧ ChainPrecFrom a b s t := by
  induction t generalizing s with
  | nil =>
    have h1 : ChainResponse a b ([] : List α) := by intro u v he; simp at he
    have h2 : ChainPrecFrom a b s ([] : List α) := by intro u v he; simp at he
    cases s <;> simp [au, h1, h2]
  | cons x t ih =>
    rw [chainResponse_cons, chainPrecFrom_cons]
    cases s
    · simp only [au]
      by_cases hx : x = a
      · simp only [hx, if_true, ih]; simp [hab, and_assoc]
      · by_cases hb : x = b
        · simp [hb, Ne.symm hab]
        · simp [hx, hb, ih]
    · simp only [au]
      by_cases hb : x = b
      · simp [hb, ih, Ne.symm hab]
      · simp [hb]

theorem au_chain {a b : α} (hab : a ≠ b) (t : List α) : au true a b false t = true ↔ ChainSuccession a b t := by
  rw [au_chain_gen hab]; simp [ChainSuccession, ChainPrecedence, ChainPrecFrom]

/-! ### the labelled positions and the loops over them -/

def specFrom (a b : α) : Nat → List α → List (α × Nat)
  | _, [] => []
  | n, x :: t => if x = a ∨ x = b then (x, n) :: specFrom a b (n + 1) t else specFrom a b (n + 1) t

theorem specFrom_ge {a b : α} {n : Nat} {t : List α} {p : α × Nat} (h : p ∈ specFrom a b n t) : n ≤ p.2 := by
  induction t generalizing n with
  | nil => simp [specFrom] at h
  | cons x t ih =>
    simp only [specFrom] at h
    split at h
    · rcases List.mem_cons.1 h with rfl | h
      · exact Nat.le_refl _
      · have := ih h; omega
    · have := ih h; omega

theorem specFrom_sorted (a b : α) (n : Nat) (t : List α) : (specFrom a b n t).Pairwise (fun x y => x.2 < y.2) := by
  induction t generalizing n with
  | nil => simp [specFrom]
  | cons x t ih =>
    simp only [specFrom]
    split
    · exact List.pairwise_cons.2 ⟨fun p hp => by have := specFrom_ge hp; omega, ih _⟩
    · exact ih _

theorem specFrom_perm {a b : α} (hab : a ≠ b) (n : Nat) (t : List α) :
    (((idxsFrom n t a).map fun i => (a, i)) ++ ((idxsFrom n t b).map fun i => (b, i))).Perm (specFrom a b n t) := by
  induction t generalizing n with
  | nil => simp [specFrom, idxsFrom]
  | cons x t ih =>
    simp only [specFrom, idxsFrom]
    by_cases hx : x = a
    · subst hx
      simp only [hab, if_true, if_false, true_or, List.map_cons, List.cons_append]
      exact (ih _).cons _
    · by_cases hb : x = b
      · subst hb
        simp only [hx, if_true, if_false, or_true, List.map_cons]
        exact (List.perm_middle).trans ((ih _).cons _)
      · simp only [hx, hb, if_false, or_self]
        exact ih _

theorem idxs_nil_of_not_mem {t : List α} {a : α} (h : a ∉ t) : idxs t a = [] := by
  rw [List.eq_nil_iff_forall_not_mem]
  intro i hi
  exact h (List.mem_of_getElem? ((mem_idxs _ _ _).1 hi))

omit [DecidableEq α] in
theorem eq_of_snd {l : List (α × Nat)} (h : l.Pairwise (fun x y => x.2 < y.2)) {x y : α × Nat} (hx : x ∈ l) (hy : y ∈ l)
    (he : x.2 = y.2) : x = y := by
  induction l with
  | nil => simp at hx
  | cons z l ih =>
    obtain ⟨h1, h2⟩ := List.pairwise_cons.1 h
    rcases List.mem_cons.1 hx with hx1 | hx1 <;> rcases List.mem_cons.1 hy with hy1 | hy1
    · rw [hx1, hy1]
    · have := h1 y hy1; rw [hx1] at he; omega
    · have := h1 x hx1; rw [hy1] at he; omega
    · exact ih h2 hx1 hy1

theorem specIdxs_eq {a b : α} (hab : a ≠ b) (t : List α) : specIdxs t (a, b) = specFrom a b 0 t := by
  have h0 : specIdxs t (a, b) = ((((idxs t a).map fun i => (a, i)) ++ ((idxs t b).map fun i => (b, i))).mergeSort
      fun x y => decide (x.2 ≤ y.2)) := by
    simp only [specIdxs]
    by_cases ha : a ∈ t <;> by_cases hb : b ∈ t <;> simp [ha, hb, idxs_nil_of_not_mem]
  rw [h0]
  have hp := (List.mergeSort_perm (((idxs t a).map fun i => (a, i)) ++ ((idxs t b).map fun i => (b, i)))
    (fun x y : α × Nat => decide (x.2 ≤ y.2))).trans (specFrom_perm hab 0 t)
  have hs1 := List.pairwise_mergeSort (le := fun x y : α × Nat => decide (x.2 ≤ y.2))
    (by intro x y z; simp; omega) (by intro x y; simp; omega)
    (((idxs t a).map fun i => (a, i)) ++ ((idxs t b).map fun i => (b, i)))
  have hs2 := specFrom_sorted a b 0 t
  refine List.Perm.eq_of_pairwise (le := fun x y : α × Nat => x.2 ≤ y.2) ?_ ?_ ?_ hp
  · intro x y hx hy hxy hyx
    have hx' := hp.mem_iff.1 hx
    exact eq_of_snd hs2 hx' hy (by omega)
  · exact hs1.imp (by intro x y h; simpa using h)
  · exact hs2.imp (by intro x y h; omega)


/-- one step of the loops -/
def pairLoop (ch : Bool) (a b : α) : List (α × Nat) → Bool
  | [] => true
  | [_] => false
  | x :: y :: s => decide (x.1 = a) && decide (y.1 = b) && (!ch || decide (y.2 = x.2 + 1)) && pairLoop ch a b s

theorem all_range_two (n : Nat) (f : Nat → Bool) :
    (List.range (n + 2)).all f = (f 0 && f 1 && (List.range n).all fun i => f (i + 2)) := by
  rw [List.range_succ_eq_map, List.range_succ_eq_map]
  simp only [List.all_cons, List.map_cons, List.map_map, List.all_map, Bool.and_assoc]
  rfl

theorem all_congr_mem {β : Type} {l : List β} {f g : β → Bool} (h : ∀ x ∈ l, f x = g x) : l.all f = l.all g := by
  rw [Bool.eq_iff_iff, List.all_eq_true, List.all_eq_true]
  exact ⟨fun h' x hx => (h x hx) ▸ h' x hx, fun h' x hx => (h x hx).symm ▸ h' x hx⟩

theorem altLoop_eq (a b : α) (s : List (α × Nat)) : altLoop (a, b) s = pairLoop false a b s := by
  match s with
  | [] => simp [altLoop, pairLoop]
  | [x] => simp [altLoop, pairLoop]
  | x :: y :: s =>
    have ih := altLoop_eq a b s
    unfold altLoop at ih ⊢
    dsimp only at ih ⊢
    rw [List.length_cons, List.length_cons, all_range_two, pairLoop, ← ih]
    have h1 : (0 : Nat) ≠ s.length + 1 + 1 - 1 := by omega
    have hf : ∀ i ∈ List.range s.length,
        (!(decide ((i + 2) % 2 = 0) && (decide ((x :: y :: s)[i + 2]?.map Prod.fst ≠ some a) ||
          decide (i + 2 = s.length + 1 + 1 - 1) || decide ((x :: y :: s)[i + 2 + 1]?.map Prod.fst ≠ some b)))) =
        (!(decide (i % 2 = 0) && (decide (s[i]?.map Prod.fst ≠ some a) ||
          decide (i = s.length - 1) || decide (s[i + 1]?.map Prod.fst ≠ some b)))) := by
      intro i hi
      have hi := List.mem_range.1 hi
      have e1 : (i + 1 = s.length) ↔ (i = s.length - 1) := by omega
      have e2 : (i + 2) % 2 = i % 2 := by omega
      simp [e2, e1]
    rw [all_congr_mem hf]
    simp [h1]

theorem chainLoop_eq (a b : α) (s : List (α × Nat)) : chainLoop (a, b) s = pairLoop true a b s := by
  match s with
  | [] => simp [chainLoop, pairLoop]
  | [x] => simp [chainLoop, pairLoop]
  | x :: y :: s =>
    have ih := chainLoop_eq a b s
    unfold chainLoop at ih ⊢
    dsimp only at ih ⊢
    rw [List.length_cons, List.length_cons, all_range_two, pairLoop, ← ih]
    have h1 : (0 : Nat) ≠ s.length + 1 + 1 - 1 := by omega
    have hf : ∀ i ∈ List.range s.length,
        (!(decide ((i + 2) % 2 = 0) && (decide ((x :: y :: s)[i + 2]?.map Prod.fst ≠ some a) ||
          decide (i + 2 = s.length + 1 + 1 - 1) || decide ((x :: y :: s)[i + 2 + 1]?.map Prod.fst ≠ some b) ||
          decide ((x :: y :: s)[i + 2 + 1]?.map Prod.snd ≠ (x :: y :: s)[i + 2]?.map (fun p => p.2 + 1))))) =
        (!(decide (i % 2 = 0) && (decide (s[i]?.map Prod.fst ≠ some a) ||
          decide (i = s.length - 1) || decide (s[i + 1]?.map Prod.fst ≠ some b) ||
          decide (s[i + 1]?.map Prod.snd ≠ s[i]?.map (fun p => p.2 + 1))))) := by
      intro i hi
      have hi := List.mem_range.1 hi
      have e1 : (i + 1 = s.length) ↔ (i = s.length - 1) := by omega
      have e2 : (i + 2) % 2 = i % 2 := by omega
      simp [e2, e1]
    rw [all_congr_mem hf]
    simp [h1]

/-- the loop over the labelled positions is the automaton on the trace -/
theorem pairLoop_au {a b : α} (hab : a ≠ b) (ch : Bool) (t : List α) (n : Nat) :
    pairLoop ch a b (specFrom a b n t) = au ch a b false t ∧
    (∀ k, k < n → (ch = true → k + 1 = n) → pairLoop ch a b ((a, k) :: specFrom a b n t) = au ch a b true t) ∧
    (∀ k, k + 1 < n → ch = true → pairLoop ch a b ((a, k) :: specFrom a b n t) = false) ∧
    (∀ k, pairLoop ch a b ((b, k) :: specFrom a b n t) = false) := by
  induction t generalizing n with
  | nil => simp [specFrom, pairLoop, au]
  | cons x t ih =>
    obtain ⟨i1, i2, i3, i4⟩ := ih (n + 1)
    refine ⟨?_, ?_, ?_, ?_⟩
    · simp only [specFrom, au]
      by_cases hx : x = a
      · simp only [hx, true_or, if_true]
        exact i2 n (by omega) (fun _ => rfl)
      · by_cases hb : x = b
        · simp only [hb, or_true, if_true, Ne.symm hab, if_false]
          exact i4 n
        · simp only [hx, hb, or_self, if_false]; exact i1
    · intro k hk hc
      simp only [specFrom, au]
      by_cases hb : x = b
      · simp only [hb, or_true, if_true, pairLoop, i1]
        cases ch
        · simp
        · have := hc rfl; simp [this]
      · by_cases hx : x = a
        · simp [hx, pairLoop, hab]
        · simp only [hx, hb, or_self, if_false, false_or]
          cases ch
          · exact i2 k (by omega) (by simp)
          · simp only [if_true]
            exact i3 k (by have := hc rfl; omega) rfl
    · intro k hk hc
      subst hc
      simp only [specFrom]
      by_cases hb : x = b
      · simp only [hb, or_true, if_true, pairLoop]
        have : n ≠ k + 1 := by omega
        simp [this]
      · by_cases hx : x = a
        · simp [hx, pairLoop, hab]
        · simp only [hx, hb, or_self, if_false]
          exact i3 k (by omega) rfl
    · intro k
      simp only [specFrom]
      by_cases hx : x = a ∨ x = b
      · simp [hx, pairLoop, Ne.symm hab]
      · simp only [hx, if_false]; exact i4 k

/-! ### response: leading deletions -/

def auResp (ch : Bool) (a b : α) : List α → Bool
  | [] => true
  | x :: t => if x = a then au ch a b true t else auResp ch a b t

theorem auResp_loop {a b : α} (hab : a ≠ b) (ch : Bool) (t : List α) (n : Nat) :
    pairLoop ch a b (dropLeading a (specFrom a b n t)) = auResp ch a b t := by
  induction t generalizing n with
  | nil => rfl
  | cons x t ih =>
    simp only [specFrom, auResp]
    by_cases hx : x = a
    · simp only [hx, true_or, if_true, dropLeading, ne_eq, not_true_eq_false, if_false]
      exact (pairLoop_au hab ch t (n + 1)).2.1 n (by omega) (fun _ => rfl)
    · by_cases hb : x = b
      · simp only [hb, or_true, if_true, dropLeading, ne_eq, Ne.symm hab, not_false_eq_true, if_false]
        exact ih _
      · simp only [hx, hb, or_self, if_false]; exact ih _

theorem auResp_iff {a b : α} (ch : Bool) (t : List α) :
    auResp ch a b t = true ↔ ∃ u v, t = u ++ v ∧ a ∉ u ∧ au ch a b false v = true := by
  induction t with
  | nil => simp [auResp, au]
  | cons x t ih =>
    simp only [auResp]
    by_cases hx : x = a
    · subst hx
      simp only [if_true]
      constructor
      · intro h
        exact ⟨[], x :: t, rfl, by simp, by simpa [au] using h⟩
      · rintro ⟨u, v, he, hu, hv⟩
        cases u with
        | nil => simp at he; subst he; simpa [au] using hv
        | cons y u => simp at he; simp [he.1] at hu
    · simp only [hx, if_false, ih]
      constructor
      · rintro ⟨u, v, rfl, hu, hv⟩
        exact ⟨x :: u, v, rfl, by simp [hu, Ne.symm hx], hv⟩
      · rintro ⟨u, v, he, hu, hv⟩
        cases u with
        | nil =>
          simp at he
          subst he
          simp only [au, hx, if_false] at hv
          split at hv
          · cases hv
          · exact ⟨[], t, rfl, by simp, hv⟩
        | cons y u =>
          simp at he
          exact ⟨u, v, he.2, fun h => hu (by simp [h]), hv⟩

/-! ### precedence: deletions up to the first target -/

/-- `y` is the last relevant event seen; `adj` says it was the last event -/
def auSeen (ch : Bool) (a b : α) : Bool → Bool → List α → Bool
  | _, _, [] => false
  | isA, adj, x :: t =>
    if x = b then isA && (!ch || adj) && au ch a b false t
    else if x = a then auSeen ch a b true true t else auSeen ch a b isA false t

def auPrec (ch : Bool) (a b : α) : List α → Bool
  | [] => true
  | x :: t => if x = a then auSeen ch a b true true t else if x = b then auSeen ch a b false true t else auPrec ch a b t

theorem auSeen_loop {a b : α} (hab : a ≠ b) (ch : Bool) (t : List α) (n : Nat) (isA : Bool) (k : Nat) (hk : k < n) :
    pairLoop ch a b (dropToTarget b ((if isA then a else b, k) :: specFrom a b n t)) = auSeen ch a b isA (decide (k + 1 = n)) t := by
  induction t generalizing n isA k with
  | nil => simp [specFrom, dropToTarget, pairLoop, auSeen]
  | cons x t ih =>
    simp only [specFrom, auSeen]
    by_cases hb : x = b
    · simp only [hb, or_true, if_true, dropToTarget, ne_eq, not_true_eq_false, if_false, pairLoop,
        (pairLoop_au hab ch t (n + 1)).1]
      have e : (n = k + 1) ↔ (k + 1 = n) := eq_comm
      cases isA <;> simp [Ne.symm hab, e]
    · by_cases hx : x = a
      · simp only [hx, true_or, if_true, dropToTarget, ne_eq, hab, not_false_eq_true, if_false]
        have := ih (n + 1) true n (by omega)
        simpa using this
      · simp only [hx, hb, or_self, if_false]
        have := ih (n + 1) isA k (by omega)
        have e : decide (k + 1 = n + 1) = false := by simp; omega
        rw [e] at this
        exact this

theorem auPrec_loop {a b : α} (hab : a ≠ b) (ch : Bool) (t : List α) (n : Nat) :
    pairLoop ch a b (dropToTarget b (specFrom a b n t)) = auPrec ch a b t := by
  induction t generalizing n with
  | nil => rfl
  | cons x t ih =>
    simp only [specFrom, auPrec]
    by_cases hx : x = a
    · simp only [hx, true_or, if_true]
      simpa using auSeen_loop hab ch t (n + 1) true n (by omega)
    · by_cases hb : x = b
      · simp only [hb, or_true, if_true, Ne.symm hab, if_false]
        simpa using auSeen_loop hab ch t (n + 1) false n (by omega)
      · simp only [hx, hb, or_self, if_false]; exact ih _

theorem split_cons {a b : α} (hab : a ≠ b) (x : α) (t : List α) (P : List α → Prop) :
    (∃ u v, x :: t = u ++ a :: v ∧ b ∉ u ∧ P v) ↔
      (x = a ∧ P t) ∨ (x ≠ b ∧ ∃ u v, t = u ++ a :: v ∧ b ∉ u ∧ P v) := by
  constructor
  · rintro ⟨u, v, he, hu, hp⟩
    cases u with
    | nil => simp at he; exact .inl ⟨he.1, he.2 ▸ hp⟩
    | cons y u =>
      simp at he
      refine .inr ⟨?_, u, v, he.2, fun h => hu (by simp [h]), hp⟩
      rintro rfl
      simp [he.1] at hu
  · rintro (⟨rfl, hp⟩ | ⟨hx, u, v, rfl, hu, hp⟩)
    · exact ⟨[], t, rfl, by simp, hp⟩
    · exact ⟨x :: u, v, rfl, by simp [hu, Ne.symm hx], hp⟩

theorem auSeen_iff {a b : α} (hab : a ≠ b) (ch : Bool) (t : List α) (isA adj : Bool) :
    auSeen ch a b isA adj t = true ↔
      (∃ u v, t = u ++ a :: v ∧ b ∉ u ∧ au ch a b true v = true) ∨
        (isA = true ∧ (ch = true → adj = true) ∧ au ch a b true t = true) := by
  induction t generalizing isA adj with
  | nil => simp [auSeen, au]
  | cons x t ih =>
    rw [split_cons hab]
    simp only [auSeen, au]
    by_cases hb : x = b
    · subst hb
      cases ch <;> cases isA <;> cases adj <;> simp [Ne.symm hab]
    · by_cases hx : x = a
      · subst hx
        simp only [hb, if_false, if_true, ih]
        cases ch <;> simp [or_comm, hb]
      · simp only [hb, hx, if_false, ih, false_or]
        cases ch <;> simp [hb]

theorem auPrec_iff {a b : α} (hab : a ≠ b) (ch : Bool) (t : List α) :
    auPrec ch a b t = true ↔ (a ∉ t ∧ b ∉ t) ∨
      ∃ u v, t = u ++ a :: v ∧ (∀ x y, u = x ++ b :: y → a ∉ x ∧ b ∉ x) ∧ au ch a b false (a :: v) = true := by
  induction t with
  | nil => simp [auPrec]
  | cons x t ih =>
    simp only [auPrec]
    have hau : ∀ v, au ch a b false (a :: v) = au ch a b true v := by intro v; simp [au]
    simp only [hau] at ih ⊢
    by_cases hx : x = a
    · subst hx
      simp only [if_true, auSeen_iff hab]
      constructor
      · rintro (⟨u, v, rfl, hu, hv⟩ | ⟨-, -, hv⟩)
        · refine .inr ⟨x :: u, v, rfl, ?_, hv⟩
          intro p q he
          cases p with
          | nil => simp at he; exact absurd he.1 hab
          | cons y p =>
            simp at he
            exact absurd (by rw [he.2]; simp) hu
        · exact .inr ⟨[], t, rfl, by simp, hv⟩
      · rintro (⟨h, -⟩ | ⟨u, v, he, hu, hv⟩)
        · simp at h
        · cases u with
          | nil => simp at he; subst he; exact .inr ⟨trivial, fun _ => trivial, hv⟩
          | cons y u =>
            simp at he
            obtain ⟨rfl, rfl⟩ := he
            refine .inl ⟨u, v, rfl, fun hb => ?_, hv⟩
            obtain ⟨p, q, rfl⟩ := List.append_of_mem hb
            have := (hu (x :: p) q rfl).1
            simp at this
    · by_cases hb : x = b
      · subst hb
        simp only [hx, if_false, if_true, auSeen_iff hab]
        constructor
        · rintro (⟨u, v, rfl, hu, hv⟩ | ⟨h, -⟩)
          · refine .inr ⟨x :: u, v, rfl, ?_, hv⟩
            intro p q he
            cases p with
            | nil => simp
            | cons y p =>
              simp at he
              exact absurd (by rw [he.2]; simp) hu
          · cases h
        · rintro (⟨-, h⟩ | ⟨u, v, he, hu, hv⟩)
          · simp at h
          · cases u with
            | nil => simp at he; exact absurd he.1 hx
            | cons y u =>
              simp at he
              obtain ⟨rfl, rfl⟩ := he
              refine .inl ⟨u, v, rfl, fun hb => ?_, hv⟩
              obtain ⟨p, q, rfl⟩ := List.append_of_mem hb
              have := (hu (x :: p) q rfl).2
              simp at this
      · simp only [hx, hb, if_false, ih]
        constructor
        · rintro (⟨h1, h2⟩ | ⟨u, v, rfl, hu, hv⟩)
          · exact .inl ⟨by simp [h1, Ne.symm hx], by simp [h2, Ne.symm hb]⟩
          · refine .inr ⟨x :: u, v, rfl, ?_, hv⟩
            intro p q he
            cases p with
            | nil => simp
            | cons y p =>
              simp at he
              have := hu p q he.2
              rw [← he.1]
              simp [this, Ne.symm hx, Ne.symm hb]
        · rintro (⟨h1, h2⟩ | ⟨u, v, he, hu, hv⟩)
          · exact .inl ⟨fun h => h1 (by simp [h]), fun h => h2 (by simp [h])⟩
          · cases u with
            | nil => simp at he; exact absurd he.1 hx
            | cons y u =>
              simp at he
              obtain ⟨rfl, rfl⟩ := he
              refine .inr ⟨u, v, rfl, ?_, hv⟩
              intro p q he
              have := hu (x :: p) q (by rw [he]; rfl)
              exact ⟨fun h => this.1 (by simp [h]), fun h => this.2 (by simp [h])⟩

/-! ### discovery: the comparison of position lists is the automaton -/

theorem altOk_cons (i j : Nat) (A B : List Nat) :
    altOk (i :: A) (j :: B) = (!decide (i > j) && !(A.head?.any fun i' => decide (i' < j)) && altOk A B) := by
  unfold altOk
  simp only [List.length_cons, List.range_succ_eq_map, List.all_cons, List.all_map]
  have hf : ∀ k ∈ List.range A.length,
      ((fun i_1 => !(decide ((i :: A)[i_1]?.getD 0 > (j :: B)[i_1]?.getD 0) ||
        (decide (i_1 < A.length + 1 - 1) && decide ((i :: A)[i_1 + 1]?.getD 0 < (j :: B)[i_1]?.getD 0)))) ∘ Nat.succ) k =
      !(decide (A[k]?.getD 0 > B[k]?.getD 0) || (decide (k < A.length - 1) && decide (A[k + 1]?.getD 0 < B[k]?.getD 0))) := by
    intro k hk
    have : (k + 1 < A.length) ↔ (k < A.length - 1) := by omega
    simp [this]
  rw [all_congr_mem hf]
  cases A with
  | nil => cases B <;> simp
  | cons i' A =>
    simp only [List.length_cons]
    by_cases h : A.length = B.length - 1 <;> simp <;> grind

theorem chainOk_cons (i j : Nat) (A B : List Nat) :
    chainOk (i :: A) (j :: B) =
      (!decide (i > j) && !(A.head?.any fun i' => decide (i' < j)) && decide (i + 1 = j) && chainOk A B) := by
  unfold chainOk
  simp only [List.length_cons, List.range_succ_eq_map, List.all_cons, List.all_map]
  have hf : ∀ k ∈ List.range A.length,
      ((fun i_1 => !(decide ((i :: A)[i_1]?.getD 0 > (j :: B)[i_1]?.getD 0) ||
        (decide (i_1 < A.length + 1 - 1) && decide ((i :: A)[i_1 + 1]?.getD 0 < (j :: B)[i_1]?.getD 0))) &&
        !(decide ((i :: A)[i_1]?.getD 0 + 1 ≠ (j :: B)[i_1]?.getD 0))) ∘ Nat.succ) k =
      (!(decide (A[k]?.getD 0 > B[k]?.getD 0) || (decide (k < A.length - 1) && decide (A[k + 1]?.getD 0 < B[k]?.getD 0)))
        && !(decide (A[k]?.getD 0 + 1 ≠ B[k]?.getD 0))) := by
    intro k hk
    have : (k + 1 < A.length) ↔ (k < A.length - 1) := by omega
    simp [this]
  rw [all_congr_mem hf]
  cases A with
  | nil => cases B <;> simp
  | cons i' A =>
    simp only [List.length_cons]
    by_cases h : A.length = B.length - 1 <;> simp <;> grind

/-- both comparisons at once -/
def ok (ch : Bool) (A B : List Nat) : Bool := if ch then chainOk A B else altOk A B

theorem ok_nil (ch : Bool) : ok ch [] [] = true := by cases ch <;> simp [ok, altOk, chainOk]
theorem ok_nil_cons (ch : Bool) (j : Nat) (B : List Nat) : ok ch [] (j :: B) = false := by
  cases ch <;> simp [ok, altOk, chainOk]
theorem ok_cons_nil (ch : Bool) (j : Nat) (B : List Nat) : ok ch (j :: B) [] = false := by
  cases ch <;> simp [ok, altOk, chainOk]
theorem ok_cons (ch : Bool) (i j : Nat) (A B : List Nat) :
    ok ch (i :: A) (j :: B) =
      (!decide (i > j) && !(A.head?.any fun i' => decide (i' < j)) && (!ch || decide (i + 1 = j)) && ok ch A B) := by
  cases ch <;> simp [ok, altOk_cons, chainOk_cons]

theorem ok_au {a b : α} (hab : a ≠ b) (ch : Bool) (t : List α) (n : Nat) :
    ok ch (idxsFrom n t a) (idxsFrom n t b) = au ch a b false t ∧
    (∀ k, k < n → (ch = true → k + 1 = n) → ok ch (k :: idxsFrom n t a) (idxsFrom n t b) = au ch a b true t) ∧
    (∀ k, k + 1 < n → ch = true → ok ch (k :: idxsFrom n t a) (idxsFrom n t b) = false) := by
  induction t generalizing n with
  | nil => simp [idxsFrom, ok_nil, ok_cons_nil, au]
  | cons x t ih =>
    obtain ⟨i1, i2, i3⟩ := ih (n + 1)
    have hA : ∀ i ∈ idxsFrom (n + 1) t a, n + 1 ≤ i := fun i h => ((idxsFrom_mem _ _ _ _).1 h).1
    have hB : ∀ i ∈ idxsFrom (n + 1) t b, n + 1 ≤ i := fun i h => ((idxsFrom_mem _ _ _ _).1 h).1
    have hAh : ((idxsFrom (n + 1) t a).head?.any fun i' => decide (i' < n)) = false := by
      cases hc : idxsFrom (n + 1) t a with
      | nil => rfl
      | cons i A => have := hA i (by simp [hc]); simp; omega
    refine ⟨?_, ?_, ?_⟩
    · simp only [idxsFrom, au]
      by_cases hx : x = a
      · simp only [hx, if_true, hab, if_false]
        exact i2 n (by omega) (fun _ => rfl)
      · by_cases hb : x = b
        · simp only [hb, if_true, Ne.symm hab, if_false]
          cases hc : idxsFrom (n + 1) t a with
          | nil => exact ok_nil_cons _ _ _
          | cons i A =>
            have : i > n := by have := hA i (by simp [hc]); omega
            simp [ok_cons, this]
        · simp only [hx, hb, if_false]; exact i1
    · intro k hk hc
      simp only [idxsFrom, au]
      by_cases hb : x = b
      · simp only [hb, if_true, Ne.symm hab, if_false, ok_cons, hAh, i1]
        have : ¬ k > n := by omega
        cases ch
        · simp [this]
        · have := hc rfl; simp [this]; omega
      · by_cases hx : x = a
        · simp only [hx, if_true, hab, if_false, true_or]
          cases hcB : idxsFrom (n + 1) t b with
          | nil => exact ok_cons_nil _ _ _
          | cons j B =>
            have : n < j := by have := hB j (by simp [hcB]); omega
            simp [ok_cons, this]
        · simp only [hx, hb, if_false, false_or]
          cases ch
          · exact i2 k (by omega) (by simp)
          · simp only [if_true]
            exact i3 k (by have := hc rfl; omega) rfl
    · intro k hk hc
      subst hc
      simp only [idxsFrom]
      by_cases hb : x = b
      · simp only [hb, if_true, Ne.symm hab, if_false, ok_cons]
        have : ¬ k + 1 = n := by omega
        simp [this]
      · by_cases hx : x = a
        · simp only [hx, if_true, hab, if_false]
          cases hcB : idxsFrom (n + 1) t b with
          | nil => exact ok_cons_nil _ _ _
          | cons j B =>
            have : n < j := by have := hB j (by simp [hcB]); omega
            simp [ok_cons, this]
        · simp only [hx, hb, if_false]
          exact i3 k (by omega) rfl

end Verif.Declare
