import Verif.TraceFilter.Log
import Verif.TraceFilter.Spec
import Verif.Common.ListX
set_option linter.unusedSectionVars false
namespace Verif.TraceFilter
variable {ε α σ : Type} [DecidableEq α] [DecidableEq σ]

theorem keeps_of {β : Type} {P : β → Prop} {g : β → Bool} {log : List β} (h : ∀ t ∈ log, (g t = true ↔ P t)) :
    Keeps P log (log.filter g) := by
  refine ⟨fun _ => Classical.propDecidable _, List.filter_congr fun t ht => ?_⟩
  have := h t ht
  cases hg : g t
  · have hn : ¬ P t := by rw [← this, hg]; simp
    simp [hn]
  · have hp : P t := by rw [← this, hg]
    simp [hp]

theorem keeps_iff {β : Type} {P : β → Prop} {g : β → Bool} {log : List β} :
    Keeps P log (log.filter g) ↔ ∀ t ∈ log, (g t = true ↔ P t) := by
  refine ⟨?_, keeps_of⟩
  rintro ⟨d, hd⟩ t ht
  have h1 : g t = true ↔ t ∈ log.filter g := by simp [ht]
  rw [h1, hd]
  simp [ht]

theorem keeps_partition {β : Type} {P : β → Prop} {log a b : List β} (ha : Keeps P log a)
    (hb : Keeps (fun t => ¬ P t) log b) : (a ++ b).Perm log := by
  obtain ⟨d, rfl⟩ := ha
  obtain ⟨d', rfl⟩ := hb
  have : (log.filter fun t => @decide (¬ P t) (d' t)) = log.filter fun t => ! @decide (P t) (d t) := by
    apply List.filter_congr
    intro t _
    by_cases h : P t <;> simp [h]
  rw [this]
  exact List.filter_append_perm _ _

theorem foldl_keep {β γ : Type} (f : β → List γ) (l : List β) (init : List γ) :
    l.foldl (fun new t => new ++ f t) init = init ++ l.flatMap f := by
  induction l generalizing init with
  | nil => simp
  | cons a l ih => simp [ih]

theorem foldl_filter {β : Type} (g : β → Bool) (step : List β → β → List β)
    (hstep : ∀ new t, step new t = if g t then new ++ [t] else new) (l : List β) :
    l.foldl step [] = l.filter g := by
  have : ∀ init, l.foldl step init = init ++ l.filter g := by
    induction l with
    | nil => simp
    | cons a l ih =>
      intro init
      rw [List.foldl_cons, ih, hstep, List.filter_cons]
      cases g a <;> simp
  simpa using this []

theorem keepLoop_eq (good : List ε → Bool) (positive : Bool) (log : List (List ε)) :
    keepLoop good positive log = log.filter fun t => good t == positive := by
  apply foldl_filter
  intro new t
  cases good t <;> cases positive <;> rfl

theorem mem_occ (act : ε → Option α) (t : List ε) (v : α) (i : Nat) :
    i ∈ occ act t v ↔ (t.map act)[i]? = some (some v) := by
  unfold occ
  rw [List.mem_filter, List.mem_range, decide_eq_true_eq, List.getElem?_map]
  constructor
  · rintro ⟨h, hv⟩
    rw [List.getElem?_eq_getElem h] at hv ⊢
    simpa using hv
  · intro h
    cases he : t[i]? with
    | none => simp [he] at h
    | some e =>
      obtain ⟨hi, _⟩ := List.getElem?_eq_some_iff.1 he
      refine ⟨hi, ?_⟩
      simpa [he] using h

theorem cons_sublist_get {β : Type} (v : β) (vs M : List β) :
    (v :: vs).Sublist M ↔ ∃ y, M[y]? = some v ∧ vs.Sublist (M.drop (y + 1)) := by
  induction M with
  | nil => simp
  | cons m M ih =>
    constructor
    · intro h
      rcases List.sublist_cons_iff.1 h with h | ⟨r, hr, h⟩
      · obtain ⟨y, hy, hs⟩ := ih.1 h
        exact ⟨y + 1, by simpa using hy, by simpa using hs⟩
      · simp only [List.cons.injEq] at hr
        refine ⟨0, ?_, ?_⟩
        · simp [hr.1]
        · simpa [hr.2] using h
    · rintro ⟨y, hy, hs⟩
      cases y with
      | zero =>
        simp only [List.getElem?_cons_zero, Option.some.injEq] at hy
        subst hy
        exact (by simpa using hs : vs.Sublist M).cons_cons m
      | succ y =>
        exact (ih.2 ⟨y, by simpa using hy, by simpa using hs⟩).cons m

theorem mem_product_cons {l : List Nat} {xs : List (List Nat)} {c : List Nat} :
    c ∈ product (l :: xs) ↔ ∃ x c', c = x :: c' ∧ x ∈ l ∧ c' ∈ product xs := by
  rw [product]
  simp only [List.mem_flatMap, List.mem_map]
  constructor
  · rintro ⟨x, hx, c', hc', rfl⟩; exact ⟨x, c', rfl, hx, hc'⟩
  · rintro ⟨x, c', rfl, hx, hc'⟩; exact ⟨x, hx, c', hc', rfl⟩

theorem increasing_cons (x : Nat) (c : List Nat) :
    increasing (x :: c) = true ↔ (∀ y ∈ c.head?, x + 1 ≤ y) ∧ increasing c = true := by
  cases c with
  | nil => simp [increasing]
  | cons y c =>
    simp only [increasing, List.head?_cons, Option.mem_def, Option.some.injEq, forall_eq']
    by_cases h : x ≥ y
    · simp [h]; omega
    · simp [h]; omega

theorem product_increasing (act : ε → Option α) (t : List ε) (values : List α) (k : Nat) :
    (∃ c ∈ product (values.map (occ act t)), increasing c = true ∧ ∀ y ∈ c.head?, k ≤ y) ↔
      (values.map some).Sublist ((t.map act).drop k) := by
  induction values generalizing k with
  | nil => simp [product, increasing]
  | cons v vs ih =>
    rw [List.map_cons (f := some), cons_sublist_get]
    constructor
    · rintro ⟨c, hc, hi, hk⟩
      rw [List.map_cons, mem_product_cons] at hc
      obtain ⟨x, c', rfl, hx, hc'⟩ := hc
      rw [increasing_cons] at hi
      have hkx : k ≤ x := hk x (by simp)
      have := (ih (x + 1)).1 ⟨c', hc', hi.2, hi.1⟩
      refine ⟨x - k, ?_, ?_⟩
      · rw [List.getElem?_drop, Nat.add_sub_cancel' hkx]
        exact (mem_occ act t v x).1 hx
      · rw [List.drop_drop]
        have : k + (x - k + 1) = x + 1 := by omega
        rwa [this]
    · rintro ⟨y, hy, hs⟩
      rw [List.getElem?_drop] at hy
      rw [List.drop_drop] at hs
      obtain ⟨c, hc, hi, hk⟩ := (ih (k + (y + 1))).2 hs
      refine ⟨(k + y) :: c, by rw [List.map_cons, mem_product_cons]; exact ⟨_, _, rfl, (mem_occ act t v _).2 hy, hc⟩, ?_, by simp⟩
      rw [increasing_cons]
      exact ⟨fun z hz => by have := hk z hz; omega, hi⟩

theorem efGood_iff (act : ε → Option α) (time : ε → Int) (enable : Bool) (bounds : List (Int × Int)) (values : List α)
    (t : List ε) (h : enable = false ∨ bounds = []) :
    efGood act time enable bounds values t = true ↔ FollowsInOrder act values t := by
  unfold efGood FollowsInOrder
  have hh : (enable && !bounds.isEmpty) = false := by rcases h with h | h <;> simp [h]
  have := product_increasing act t values 0
  simp only [List.drop_zero] at this
  rw [← this, List.any_eq_true]
  simp [hh]

theorem foldl_or {β : Type} (P : β → Prop) [DecidablePred P] (l : List β) (b : Bool) :
    l.foldl (fun found c => if P c then true else found) b = (b || l.any fun c => decide (P c)) := by
  induction l generalizing b with
  | nil => simp
  | cons a l ih => rw [List.foldl_cons, ih]; by_cases h : P a <;> simp [h]

theorem foldl_bor {β : Type} (g : β → Bool) (l : List β) (b : Bool) :
    l.foldl (fun found c => found || g c) b = (b || l.any g) := by
  induction l generalizing b with
  | nil => simp
  | cons a l ih => rw [List.foldl_cons, ih]; simp [Bool.or_assoc]

theorem infix3_iff {β : Type} (a b c : β) (l : List β) :
    [a, b, c] <:+: l ↔ ∃ i, l[i]? = some a ∧ l[i + 1]? = some b ∧ l[i + 2]? = some c := by
  induction l with
  | nil => simp
  | cons x l ih =>
    rw [List.infix_cons_iff, ih]
    constructor
    · rintro (h | ⟨i, h⟩)
      · refine ⟨0, ?_⟩
        rw [List.prefix_iff_eq_take] at h
        match l, h with
        | [], h => simp at h
        | [y], h => simp at h
        | y :: z :: l, h => simpa [eq_comm] using h
      · exact ⟨i + 1, by simpa using h.1, by simpa using h.2.1, by simpa using h.2.2⟩
    · rintro ⟨i, h1, h2, h3⟩
      cases i with
      | zero =>
        left
        match l, h2, h3 with
        | [], h2, _ => simp at h2
        | [y], _, h3 => simp at h3
        | y :: z :: l, h2, h3 =>
          simp only [List.getElem?_cons_zero, Option.some.injEq, List.getElem?_cons_succ, Nat.zero_add] at h1 h2 h3
          subst h1; subst h2; subst h3
          exact ⟨l, rfl⟩
      | succ i => exact Or.inr ⟨i, by simpa using h1, by simpa using h2, by simpa using h3⟩

theorem nextGood_iff (act : ε → Option α) (A B C : α) (t : List ε) :
    nextGood act A B C t = true ↔ Consecutive3 act A B C t := by
  unfold nextGood Consecutive3
  simp only [foldl_or, foldl_bor, Bool.false_or, List.any_eq_true, decide_eq_true_eq]
  rw [infix3_iff]
  constructor
  · rintro ⟨a, ha, b, hb, c, hc, h1, h2⟩
    rw [mem_occ] at ha hb hc
    have e1 : b = a + 1 := by omega
    have e2 : c = a + 2 := by omega
    subst e1; subst e2
    exact ⟨a, ha, hb, hc⟩
  · rintro ⟨i, ha, hb, hc⟩
    exact ⟨i, (mem_occ ..).2 ha, i + 1, (mem_occ ..).2 hb, i + 2, (mem_occ ..).2 hc, by omega, by omega⟩

theorem mem_resOf (act : ε → Option α) (res : ε → Option σ) (t : List ε) (v : α) (r : σ) :
    r ∈ resOf act res t v ↔ Did act res t v r := by
  unfold resOf Did
  rw [List.mem_filterMap]
  constructor
  · rintro ⟨e, he, h⟩
    split at h
    · exact ⟨e, he, by assumption, h⟩
    · exact absurd h (by simp)
  · rintro ⟨e, he, ha, hr⟩; exact ⟨e, he, by simp [ha, hr]⟩

theorem mem_toSet (a : σ) (l : List σ) : a ∈ toSet l ↔ a ∈ l := by
  induction l with
  | nil => simp [toSet]
  | cons b l ih => unfold toSet; split <;> grind

theorem toSet_length (l : List σ) : 1 < (toSet l).length ↔ ∃ a ∈ l, ∃ b ∈ l, a ≠ b := by
  have hn : (toSet l).Nodup := by
    induction l with
    | nil => exact List.nodup_nil
    | cons b l ih =>
      unfold toSet
      split
      · exact ih
      · exact List.nodup_cons.2 ⟨by rwa [mem_toSet], ih⟩
  constructor
  · intro h
    match hs : toSet l with
    | [] => simp [hs] at h
    | [_] => simp [hs] at h
    | a :: b :: r =>
      refine ⟨a, (mem_toSet a l).1 (by simp [hs]), b, (mem_toSet b l).1 (by simp [hs]), ?_⟩
      rw [hs] at hn
      have := (List.nodup_cons.1 hn).1
      intro hab; exact this (by simp [hab])
  · rintro ⟨a, ha, b, hb, hab⟩
    rw [← mem_toSet] at ha hb
    match hs : toSet l with
    | [] => rw [hs] at ha; simp at ha
    | [c] =>
      rw [hs] at ha hb
      simp at ha hb
      exact absurd (ha.trans hb.symm) hab
    | _ :: _ :: _ => simp

end Verif.TraceFilter
