import Verif.EvFollow.Spec
import Mathlib.Algebra.BigOperators.Group.List.Basic
/-
Property theorems C76: eventually-follows graphs and concurrent activities.
-/
set_option linter.unusedSectionVars false
namespace Verif
open EvFollow Dict
namespace EvFollow
variable {α : Type} [LinearOrder α]

/-- the sum of `f` over all pairs of an element and a later one -/
def psum (f : Ev α → Ev α → Nat) : List (Ev α) → Nat
  | [] => 0
  | x :: l => (l.map (f x)).sum + psum f l

theorem sum_perm (g : Ev α → Nat) {l m : List (Ev α)} (h : l.Perm m) : (l.map g).sum = (m.map g).sum := (h.map g).sum_eq

/-- inserting into a sorted list -/
theorem psum_insert (r : Ev α → Ev α → Prop) [DecidableRel r] (htr : ∀ x y z, r x y → r y z → r x z) (f : Ev α → Ev α → Nat) (a : Ev α) :
    ∀ l : List (Ev α), l.Pairwise r →
      psum f (l.orderedInsert r a) = psum f l + (l.map fun y => if r a y then f a y else f y a).sum := by
  intro l
  induction l with
  | nil => simp [psum]
  | cons b l ih =>
    intro h
    obtain ⟨h1, h2⟩ := List.pairwise_cons.1 h
    rw [List.orderedInsert_cons]
    by_cases hab : r a b
    · have hall : (b :: l).map (fun y => if r a y then f a y else f y a) = (b :: l).map (f a) := by
        apply List.map_congr_left
        intro y hy
        rcases List.mem_cons.1 hy with rfl | hy
        · rw [if_pos hab]
        · rw [if_pos (htr _ _ _ hab (h1 y hy))]
      rw [if_pos hab, hall]
      simp only [psum]
      omega
    · rw [if_neg hab]
      simp only [psum, List.map_cons, List.sum_cons]
      rw [ih h2, sum_perm (f b) (List.perm_orderedInsert r a l), if_neg hab]
      simp only [List.map_cons, List.sum_cons]
      omega

/-- a sum over the pairs of a sorted list, as a sum over the pairs of the list -/
theorem psum_sort (r : Ev α → Ev α → Prop) [DecidableRel r] (htr : ∀ x y z, r x y → r y z → r x z) (hto : ∀ x y, r x y ∨ r y x)
    (f : Ev α → Ev α → Nat) (l : List (Ev α)) : psum f (l.insertionSort r) = psum (fun x y => if r x y then f x y else f y x) l := by
  haveI : IsTrans (Ev α) r := ⟨htr⟩
  haveI : Std.Total r := ⟨hto⟩
  induction l with
  | nil => rfl
  | cons a l ih =>
    rw [List.insertionSort_cons, psum_insert r htr f a _ (List.pairwise_insertionSort r l), ih,
      sum_perm (fun y => if r a y then f a y else f y a) (List.perm_insertionSort r l)]
    simp only [psum]
    omega

theorem psum_congr {f g : Ev α → Ev α → Nat} : ∀ l : List (Ev α), (∀ x ∈ l, ∀ y ∈ l, f x y = g x y) → psum f l = psum g l := by
  intro l
  induction l with
  | nil => intro _; rfl
  | cons a l ih =>
    intro h
    simp only [psum]
    rw [ih fun x hx y hy => h x (by simp [hx]) y (by simp [hy]),
      List.map_congr_left (g := g a) fun y hy => h a (by simp) y (by simp [hy])]

theorem psum_add (f g : Ev α → Ev α → Nat) (l : List (Ev α)) : psum (fun x y => f x y + g x y) l = psum f l + psum g l := by
  induction l with
  | nil => rfl
  | cons a l ih =>
    simp only [psum]
    rw [ih, List.sum_map_add]
    omega

theorem sum_ite {δ : Type} (p : δ → Prop) [DecidablePred p] (l : List δ) : (l.map fun x => if p x then 1 else 0).sum = (l.filter fun x => decide (p x)).length := by
  induction l with
  | nil => rfl
  | cons a l ih =>
    rw [List.map_cons, List.sum_cons, ih, List.filter_cons]
    by_cases h : p a
    · simp [h]; omega
    · simp [h]

theorem psum_pairCount (P : Ev α → Ev α → Prop) [∀ x y, Decidable (P x y)] (l : List (Ev α)) :
    psum (fun x y => if P x y then 1 else 0) l = pairCount P l := by
  induction l with
  | nil => rfl
  | cons a l ih =>
    simp only [psum, pairCount]
    rw [ih, sum_ite]

theorem cnt_map_filter {δ : Type} (p : δ → Prop) [DecidablePred p] (g : δ → α × α) (k : α × α) (l : List δ) :
    Counter.cnt k ((l.filter fun x => decide (p x)).map g) = (l.filter fun x => decide (p x ∧ g x = k)).length := by
  unfold Counter.cnt
  rw [List.countP_map, List.countP_filter, List.countP_eq_length_filter]
  congr 1
  apply List.filter_congr
  intro x _
  simp [Bool.and_comm]

theorem cnt_laterPairs (p : Ev α × Ev α → Prop) [DecidablePred p] (k : α × α) (l : List (Ev α)) :
    Counter.cnt k (((laterPairs l).filter fun x => decide (p x)).map fun x => (x.1.act, x.2.act)) =
      psum (fun x y => if p (x, y) ∧ (x.act, y.act) = k then 1 else 0) l := by
  induction l with
  | nil => rfl
  | cons a l ih =>
    simp only [laterPairs, psum]
    rw [List.filter_append, List.map_append, Counter.cnt_append, ih]
    congr 1
    rw [cnt_map_filter, List.filter_map, List.length_map, sum_ite]
    rfl

theorem cnt_followLoop (k : α × α) (l : List (Ev α)) :
    Counter.cnt k (followLoop l) = psum (fun x y => if Follows k.1 k.2 x y then 1 else 0) l := by
  induction l with
  | nil => rfl
  | cons a l ih =>
    simp only [followLoop, psum]
    rw [Counter.cnt_append, ih, cnt_map_filter, sum_ite]
    congr 2
    apply List.filter_congr
    intro x _
    obtain ⟨k1, k2⟩ := k
    rw [decide_eq_decide, Prod.mk.injEq]
    unfold Follows
    tauto

theorem byStart_trans (x y z : Ev α) : byStart x y → byStart y z → byStart x z := fun h1 h2 => le_trans h1 h2
theorem byStart_total (x y : Ev α) : byStart x y ∨ byStart y x := le_total _ _
theorem byBoth_trans (x y z : Ev α) : byBoth x y → byBoth y z → byBoth x z := by unfold byBoth; omega
theorem byBoth_total (x y : Ev α) : byBoth x y ∨ byBoth y x := by unfold byBoth; omega

theorem ofList_get {δ : Type} [DecidableEq δ] (l : List δ) (a : δ) (n : Int) :
    get? (Counter.ofList l) a = some n ↔ n = Counter.cnt a l ∧ n > 0 := by
  have h1 := Counter.count_ofList l a
  have h2 := Counter.keys_ofList l a
  have h3 := Counter.cnt_pos a l
  rw [mem_keys_iff] at h2
  unfold Dict.count at h1
  cases h : get? (Counter.ofList l) a with
  | none =>
    rw [h] at h1 h2
    simp at h1 h2
    constructor
    · intro h'; exact absurd h' (by simp)
    · rintro ⟨rfl, h'⟩
      exact absurd (h3.1 (by omega)) h2
  | some m =>
    rw [h] at h1 h2
    simp at h1 h2
    have := h3.2 h2
    rw [Option.some_inj]
    constructor
    · rintro rfl; exact ⟨h1, by omega⟩
    · rintro ⟨h', _⟩; omega

/-- the pairs found in the order `r`, by the order of the list -/
theorem split_order (r : Ev α → Ev α → Prop) [DecidableRel r] (htr : ∀ x y z, r x y → r y z → r x z) (hto : ∀ x y, r x y ∨ r y x)
    (P : Ev α → Ev α → Prop) [∀ x y, Decidable (P x y)] (t : List (Ev α)) :
    psum (fun x y => if P x y then 1 else 0) (t.insertionSort r) =
      pairCount (fun x y => P x y ∧ r x y) t + pairCount (fun y x => P x y ∧ ¬ r y x) t := by
  rw [psum_sort r htr hto, ← psum_pairCount, ← psum_pairCount, ← psum_add]
  apply psum_congr
  intro x _ y _
  by_cases h : r x y <;> simp [h]

/-! ### concurrency -/

theorem overlap_iff (s : Bool) (x y : Ev α) : overlap s x y = true ↔ Concurrent s x y := by
  unfold overlap Concurrent
  cases s
  · simp only [Bool.false_eq_true, if_false, decide_eq_true_eq, false_implies, and_true]
    constructor
    · intro h
      exact ⟨max x.st y.st, by omega, by omega, by omega, by omega⟩
    · rintro ⟨z, h1, h2, h3, h4⟩
      omega
  · simp only [if_true, decide_eq_true_eq, true_implies]
    constructor
    · intro h
      exact ⟨max x.st y.st, by omega, by omega, by omega, by omega, by omega, by omega, by omega, by omega⟩
    · rintro ⟨z, h1, h2, h3, h4, h5, h6, h7, h8⟩
      omega

theorem overlap_comm (s : Bool) (x y : Ev α) : overlap s x y = overlap s y x := by
  unfold overlap
  rw [max_comm, min_comm]

theorem overlap_strict {x y : Ev α} (h : overlap true x y = true) : overlap false x y = true := by
  unfold overlap at h ⊢
  simp only [Bool.false_eq_true, if_false, if_true, decide_eq_true_eq] at h ⊢
  omega

theorem takeWhile_eq (e : Ev α) (he : e.st ≤ e.et) : ∀ l : List (Ev α), l.Pairwise byStart → (∀ f ∈ l, byStart e f) → Proper l →
    l.takeWhile (overlap false e) = l.filter (overlap false e) := by
  intro l
  induction l with
  | nil => intros; rfl
  | cons f l ih =>
    intro h1 h2 h3
    obtain ⟨h4, h5⟩ := List.pairwise_cons.1 h1
    by_cases ho : overlap false e f = true
    · rw [List.takeWhile_cons_of_pos ho, List.filter_cons_of_pos ho, ih h5 (fun g hg => h2 g (by simp [hg])) fun g hg => h3 g (by simp [hg])]
    · rw [List.takeWhile_cons_of_neg ho, List.filter_cons_of_neg ho]
      symm
      rw [List.filter_eq_nil_iff]
      intro g hg
      have a1 : byStart e f := h2 f (by simp)
      have a2 : byStart f g := h4 g hg
      have a3 := h3 f (by simp)
      have a4 := h3 g (by simp [hg])
      unfold byStart at a1 a2
      unfold overlap at ho ⊢
      simp only [Bool.false_eq_true, if_false, decide_eq_true_eq] at ho ⊢
      omega

theorem sortedPair_eq (a b x y : α) (h : a ≤ b) : sortedPair (x, y) = (a, b) ↔ (x = a ∧ y = b) ∨ (x = b ∧ y = a) := by
  unfold sortedPair
  by_cases hxy : x ≤ y
  · simp only [hxy, if_true, Prod.mk.injEq]
    constructor
    · exact .inl
    · rintro (h' | ⟨rfl, rfl⟩)
      · exact h'
      · exact ⟨le_antisymm hxy h, le_antisymm h hxy⟩
  · simp only [hxy, if_false, Prod.mk.injEq]
    constructor
    · rintro ⟨rfl, rfl⟩; exact .inr ⟨rfl, rfl⟩
    · rintro (⟨rfl, rfl⟩ | ⟨rfl, rfl⟩)
      · exact absurd h hxy
      · exact ⟨rfl, rfl⟩

theorem sortedPair_le (p : α × α) : (sortedPair p).1 ≤ (sortedPair p).2 := by
  unfold sortedPair
  split
  · assumption
  · exact le_of_lt (not_le.1 (by assumption))

theorem cnt_concLoop (s : Bool) (a b : α) (hab : a ≤ b) : ∀ l : List (Ev α), l.Pairwise byStart → Proper l →
    Counter.cnt (a, b) (concLoop s l) = psum (fun x y => if overlap s x y = true ∧ HaveActs a b x y then 1 else 0) l := by
  intro l
  induction l with
  | nil => intros; rfl
  | cons e l ih =>
    intro h1 h2
    obtain ⟨h3, h4⟩ := List.pairwise_cons.1 h1
    have h5 : Proper l := fun g hg => h2 g (by simp [hg])
    simp only [concLoop, psum]
    rw [Counter.cnt_append, ih h4 h5, takeWhile_eq e (h2 e (by simp)) l h4 h3 h5, sum_ite]
    congr 1
    unfold Counter.cnt
    rw [List.countP_map, List.countP_filter, List.countP_filter, List.countP_eq_length_filter]
    congr 1
    apply List.filter_congr
    intro f _
    have hk : (sortedPair (e.act, f.act) = (a, b)) = HaveActs a b e f := propext (sortedPair_eq a b e.act f.act hab)
    simp only [Function.comp_def, hk]
    cases s
    · cases overlap false e f <;> simp
    · cases ho : overlap true e f
      · simp
      · rw [overlap_strict ho]
        simp

theorem haveActs_comm (a b : α) (x y : Ev α) : HaveActs a b x y ↔ HaveActs a b y x := by
  unfold HaveActs
  tauto

theorem fold_sorted (d : Dict (α × α) Int) (k : α × α) (l : List (α × α)) : ∀ (r : Dict (α × α) Int),
    get? (l.foldl (fun r q => Dict.set r (sortedPair q) (Dict.count d q)) r) k =
      match (l.filter fun q => decide (sortedPair q = k)).getLast? with
      | some q => some (Dict.count d q)
      | none => get? r k := by
  induction l with
  | nil => intro r; rfl
  | cons q l ih =>
    intro r
    rw [List.foldl_cons, ih, List.filter_cons]
    by_cases h : sortedPair q = k
    · simp only [h, decide_true, if_true]
      rw [List.getLast?_cons]
      cases hl : (l.filter fun q => decide (sortedPair q = k)).getLast? with
      | none => simp [get?_set]
      | some q' => simp
    · simp only [h, decide_false, Bool.false_eq_true, if_false]
      cases hl : (l.filter fun q => decide (sortedPair q = k)).getLast? with
      | none => simp [get?_set, h]
      | some q' => simp

theorem last_rel {δ : Type} (r : δ → δ → Prop) {l : List δ} {x q : δ} (h : l.Pairwise r) (hx : x ∈ l) (hq : l.getLast? = some q) : x = q ∨ r x q := by
  obtain ⟨m, rfl⟩ : ∃ m, l = m ++ [q] := by
    have := List.dropLast_append_getLast? q (by rw [hq]; rfl)
    exact ⟨_, this.symm⟩
  rcases List.mem_append.1 hx with hx | hx
  · exact .inr ((List.pairwise_append.1 h).2.2 x hx q (by simp))
  · exact .inl (by simpa using hx)

theorem keyLe_trans (x y z : α × α) : keyLe x y → keyLe y z → keyLe x z := by
  unfold keyLe
  rintro (h1 | ⟨h1, h2⟩) (h3 | ⟨h3, h4⟩)
  · exact .inl (h1.trans h3)
  · exact .inl (h3 ▸ h1)
  · exact .inl (h1 ▸ h3)
  · exact .inr ⟨h1.trans h3, h2.trans h4⟩

theorem keyLe_total (x y : α × α) : keyLe x y ∨ keyLe y x := by
  unfold keyLe
  rcases lt_trichotomy x.1 y.1 with h | h | h
  · exact .inl (.inl h)
  · rcases le_total x.2 y.2 with h' | h'
    · exact .inl (.inr ⟨h, h'⟩)
    · exact .inr (.inr ⟨h.symm, h'⟩)
  · exact .inr (.inl h)

theorem get_concDf (s : Bool) (cases : List (List (Ev α))) (a b : α) (hab : a ≤ b) :
    get? (concDf s cases) (a, b) =
      if 0 < Dict.count (concDf0 s cases) (b, a) then some (Dict.count (concDf0 s cases) (b, a))
      else if 0 < Dict.count (concDf0 s cases) (a, b) then some (Dict.count (concDf0 s cases) (a, b)) else none := by
  unfold concDf
  simp only
  rw [fold_sorted]
  set d := concDf0 s cases with hd
  have hk : ∀ q, q ∈ keys d ↔ 0 < Dict.count d q := by
    intro q
    rw [hd]
    unfold concDf0
    rw [Counter.keys_ofList, Counter.count_ofList, ← Counter.cnt_pos]
    omega
  have hm : ∀ q, q ∈ ((keys d).insertionSort keyLe).filter (fun q => decide (sortedPair q = (a, b))) ↔ 0 < Dict.count d q ∧ (q = (a, b) ∨ q = (b, a)) := by
    intro q
    rw [List.mem_filter, List.mem_insertionSort, hk, decide_eq_true_eq]
    obtain ⟨x, y⟩ := q
    rw [sortedPair_eq a b x y hab]
    simp only [Prod.mk.injEq]
  haveI : IsTrans (α × α) keyLe := ⟨keyLe_trans⟩
  haveI : Std.Total (keyLe (α := α)) := ⟨keyLe_total⟩
  have hs : (((keys d).insertionSort keyLe).filter (fun q => decide (sortedPair q = (a, b)))).Pairwise keyLe :=
    (List.pairwise_insertionSort keyLe _).filter _
  generalize ((keys d).insertionSort keyLe).filter (fun q => decide (sortedPair q = (a, b))) = L at hm hs
  cases hl : L.getLast? with
  | none =>
    rw [List.getLast?_eq_none_iff] at hl
    subst hl
    have h1 := hm (a, b)
    have h2 := hm (b, a)
    simp only [List.not_mem_nil, true_or, or_true, and_true, false_iff] at h1 h2
    rw [if_neg h2, if_neg h1]
    rfl
  | some q =>
    have hq := List.mem_of_getLast? hl
    simp only
    obtain ⟨h0, h1⟩ := (hm q).1 hq
    by_cases hba : 0 < Dict.count d (b, a)
    · rw [if_pos hba]
      rcases h1 with rfl | rfl
      · have : (b, a) ∈ L := (hm _).2 ⟨hba, .inr rfl⟩
        rcases last_rel keyLe hs this hl with e | e
        · rw [e]
        · have hba' : b = a := by
            rcases e with e | e
            · exact absurd hab (not_le.2 e)
            · exact e.1
          rw [hba']
      · rfl
    · rw [if_neg hba]
      rcases h1 with rfl | rfl
      · rw [if_pos h0]
      · exact absurd h0 hba

end EvFollow

variable {α : Type} [LinearOrder α]

/-- C76: the eventually-follows graph of an event log counts the pairs of events where the second one starts when the first one has ended; of two
events that start at the same time, the one that is first in the trace counts as the first one.  Zero counts have no entry. -/
theorem C76_efg (log : List (List (Ev α))) (a b : α) (n : Int) :
    get? (efg log) (a, b) = some n ↔
      n = (log.map fun t => pairCount (fun x y => Follows a b x y ∧ x.st ≤ y.st) t + pairCount (fun y x => Follows a b x y ∧ x.st < y.st) t).sum ∧ n > 0 := by
  unfold efg
  rw [ofList_get, Counter.cnt_flatMap]
  have : ∀ t : List (Ev α), Counter.cnt (a, b) (followLoop (t.insertionSort byStart)) =
      pairCount (fun x y => Follows a b x y ∧ x.st ≤ y.st) t + pairCount (fun y x => Follows a b x y ∧ x.st < y.st) t := by
    intro t
    rw [cnt_followLoop, split_order byStart byStart_trans byStart_total]
    congr 1
    simp only [← psum_pairCount]
    apply psum_congr
    intro x _ y _
    simp only [byStart, not_le]
  simp only [this]

/-- C76: if the events have one time stamp and the traces are in its order, every pair of an event and a later one counts. -/
theorem C76_efg_all (log : List (List (Ev α))) (h : ∀ t ∈ log, t.Pairwise fun x y => x.st ≤ y.st) (hz : ∀ t ∈ log, ∀ e ∈ t, e.st = e.et)
    (a b : α) (n : Int) :
    get? (efg log) (a, b) = some n ↔ n = (log.map fun t => pairCount (fun x y => x.act = a ∧ y.act = b) t).sum ∧ n > 0 := by
  rw [C76_efg]
  have : log.map (fun t => pairCount (fun x y => Follows a b x y ∧ x.st ≤ y.st) t + pairCount (fun y x => Follows a b x y ∧ x.st < y.st) t) =
      log.map fun t => pairCount (fun x y => x.act = a ∧ y.act = b) t := by
    apply List.map_congr_left
    intro t ht
    have h1 := h t ht
    have h2 := hz t ht
    clear ht
    induction t with
    | nil => rfl
    | cons x t ih =>
      obtain ⟨h3, h4⟩ := List.pairwise_cons.1 h1
      have ih := ih h4 fun e he => h2 e (by simp [he])
      simp only [pairCount]
      have e1 : (t.filter fun y => decide (Follows a b x y ∧ x.st ≤ y.st)) = t.filter fun y => decide (x.act = a ∧ y.act = b) := by
        apply List.filter_congr
        intro y hy
        have := h3 y hy
        have := h2 x (by simp)
        rw [decide_eq_decide]
        unfold Follows
        constructor
        · rintro ⟨⟨c1, c2, _⟩, _⟩; exact ⟨c1, c2⟩
        · rintro ⟨c1, c2⟩; exact ⟨⟨c1, c2, by omega⟩, by omega⟩
      have e2 : (t.filter fun y => decide (Follows a b y x ∧ y.st < x.st)) = [] := by
        rw [List.filter_eq_nil_iff]
        intro y hy
        have := h3 y hy
        simp only [decide_eq_true_eq]
        omega
      rw [e1, e2]
      simp only [List.length_nil]
      omega
  rw [this]

/-- C76: the eventually-follows graph of a data frame counts the same pairs, but of two events that start at the same time the one that ends first
counts as the first one. -/
theorem C76_efg_df (cases : List (List (Ev α))) (a b : α) (n : Int) :
    get? (efgDf cases) (a, b) = some n ↔
      n = (cases.map fun t => pairCount (fun x y => Follows a b x y ∧ (x.st < y.st ∨ (x.st = y.st ∧ x.et ≤ y.et))) t +
        pairCount (fun y x => Follows a b x y ∧ (x.st < y.st ∨ (x.st = y.st ∧ x.et < y.et))) t).sum ∧ n > 0 := by
  unfold efgDf
  rw [ofList_get, Counter.cnt_flatMap]
  have : ∀ t : List (Ev α), Counter.cnt (a, b)
      (((laterPairs (t.insertionSort byBoth)).filter fun p => decide (p.1.et ≤ p.2.st)).map fun p => (p.1.act, p.2.act)) =
      pairCount (fun x y => Follows a b x y ∧ (x.st < y.st ∨ (x.st = y.st ∧ x.et ≤ y.et))) t +
        pairCount (fun y x => Follows a b x y ∧ (x.st < y.st ∨ (x.st = y.st ∧ x.et < y.et))) t := by
    intro t
    rw [cnt_laterPairs (fun p => p.1.et ≤ p.2.st)]
    have e : psum (fun x y : Ev α => if x.et ≤ y.st ∧ (x.act, y.act) = (a, b) then 1 else 0) (t.insertionSort byBoth) =
        psum (fun x y => if Follows a b x y then 1 else 0) (t.insertionSort byBoth) := by
      apply psum_congr
      intro x _ y _
      congr 1
      simp only [Follows, Prod.mk.injEq, eq_iff_iff]
      tauto
    rw [e, split_order byBoth byBoth_trans byBoth_total]
    congr 1
    simp only [← psum_pairCount]
    apply psum_congr
    intro x _ y _
    congr 1
    simp only [byBoth, eq_iff_iff]
    constructor
    · rintro ⟨h1, h2⟩; exact ⟨h1, by omega⟩
    · rintro ⟨h1, h2⟩; exact ⟨h1, by omega⟩
  simp only [this]

/-- C76: event log and data frame agree if the events have one time stamp. -/
theorem C76_efg_agree (cases : List (List (Ev α))) (hz : ∀ t ∈ cases, ∀ e ∈ t, e.st = e.et) (k : α × α) : get? (efgDf cases) k = get? (efg cases) k := by
  obtain ⟨a, b⟩ := k
  apply Option.ext
  intro n
  rw [C76_efg, C76_efg_df]
  have : cases.map (fun t => pairCount (fun x y => Follows a b x y ∧ (x.st < y.st ∨ (x.st = y.st ∧ x.et ≤ y.et))) t +
        pairCount (fun y x => Follows a b x y ∧ (x.st < y.st ∨ (x.st = y.st ∧ x.et < y.et))) t) =
      cases.map fun t => pairCount (fun x y => Follows a b x y ∧ x.st ≤ y.st) t + pairCount (fun y x => Follows a b x y ∧ x.st < y.st) t := by
    apply List.map_congr_left
    intro t ht
    have h2 := hz t ht
    simp only [← psum_pairCount]
    congr 1
    · apply psum_congr
      intro x hx y hy
      have := h2 x hx
      have := h2 y hy
      congr 1
      rw [eq_iff_iff]
      constructor
      · rintro ⟨h1, h2⟩; exact ⟨h1, by omega⟩
      · rintro ⟨h1, h2⟩; exact ⟨h1, by omega⟩
    · apply psum_congr
      intro x hx y hy
      have := h2 x hx
      have := h2 y hy
      congr 1
      rw [eq_iff_iff]
      constructor
      · rintro ⟨h1, h2⟩; exact ⟨h1, by omega⟩
      · rintro ⟨h1, h2⟩; exact ⟨h1, by omega⟩
  rw [this]

/-- C76: if no event ends before it starts, the concurrent activities of an event log count exactly the pairs of events of a trace that are active
at the same time, although the search stops at the first event that is not; keys are sorted pairs. -/
theorem C76_conc (strict : Bool) (log : List (List (Ev α))) (hp : ∀ t ∈ log, Proper t) (a b : α) (n : Int) (hab : a ≤ b)
    [∀ x y : Ev α, Decidable (Concurrent strict x y ∧ HaveActs a b x y)] :
    get? (conc strict log) (a, b) = some n ↔
      n = (log.map fun t => pairCount (fun x y => Concurrent strict x y ∧ HaveActs a b x y) t).sum ∧ n > 0 := by
  unfold conc
  rw [ofList_get, Counter.cnt_flatMap]
  have : log.map (fun t => Counter.cnt (a, b) (concLoop strict (t.insertionSort byStart))) =
      log.map fun t => pairCount (fun x y => Concurrent strict x y ∧ HaveActs a b x y) t := by
    apply List.map_congr_left
    intro t ht
    haveI : IsTrans (Ev α) byStart := ⟨byStart_trans⟩
    haveI : Std.Total (byStart (α := α)) := ⟨byStart_total⟩
    rw [cnt_concLoop strict a b hab _ (List.pairwise_insertionSort byStart t)
      (fun e he => hp t ht e ((List.mem_insertionSort byStart).1 he)), psum_sort byStart byStart_trans byStart_total, ← psum_pairCount]
    apply psum_congr
    intro x _ y _
    have e1 : (overlap strict y x = true ∧ HaveActs a b y x) = (overlap strict x y = true ∧ HaveActs a b x y) := by
      rw [overlap_comm, haveActs_comm]
    have e2 : (overlap strict x y = true ∧ HaveActs a b x y) = (Concurrent strict x y ∧ HaveActs a b x y) := by rw [overlap_iff]
    simp only [e1, e2, ite_self]
  rw [this]

/-- C76: all keys of the concurrent activities are sorted pairs. -/
theorem C76_conc_keys (strict : Bool) (log : List (List (Ev α))) (a b : α) (h : (a, b) ∈ keys (conc strict log)) : a ≤ b := by
  unfold conc at h
  rw [Counter.keys_ofList] at h
  obtain ⟨t, _, ht⟩ := List.mem_flatMap.1 h
  generalize t.insertionSort byStart = l at ht
  induction l with
  | nil => simp [concLoop] at ht
  | cons e l ih =>
    simp only [concLoop, List.mem_append] at ht
    rcases ht with ht | ht
    · obtain ⟨f, _, hf⟩ := List.mem_map.1 ht
      have := sortedPair_le (e.act, f.act)
      rw [hf] at this
      exact this
    · exact ih ht

/-- C76: in a data frame, a pair of concurrent activities gets only the count of one of the two orders in which they start (the one that starts with
the larger activity, if there is one): counts are overwritten, not added. -/
theorem C76_conc_df (strict : Bool) (cases : List (List (Ev α))) (a b : α) (hab : a ≤ b) [∀ x y : Ev α, Decidable (Concurrent strict x y)] :
    get? (concDf strict cases) (a, b) =
      if 0 < startedBy strict cases b a then some (startedBy strict cases b a : Int)
      else if 0 < startedBy strict cases a b then some (startedBy strict cases a b : Int) else none := by
  have : ∀ a b, Dict.count (concDf0 strict cases) (a, b) = (startedBy strict cases a b : Int) := by
    intro a b
    unfold concDf0 startedBy
    rw [Counter.count_ofList, Counter.cnt_flatMap]
    congr 2
    apply List.map_congr_left
    intro t _
    have e0 : ((laterPairs (t.insertionSort byBoth)).filter fun p => overlap strict p.1 p.2) =
        (laterPairs (t.insertionSort byBoth)).filter fun p => decide (overlap strict p.1 p.2 = true) := by simp
    rw [e0, cnt_laterPairs (fun p => overlap strict p.1 p.2 = true)]
    have e : psum (fun x y : Ev α => if overlap strict x y = true ∧ (x.act, y.act) = (a, b) then 1 else 0) (t.insertionSort byBoth) =
        psum (fun x y => if Concurrent strict x y ∧ x.act = a ∧ y.act = b then 1 else 0) (t.insertionSort byBoth) := by
      apply psum_congr
      intro x _ y _
      congr 1
      simp only [Prod.mk.injEq, eq_iff_iff, overlap_iff]
    rw [e, split_order byBoth byBoth_trans byBoth_total]
    congr 1
    · simp only [← psum_pairCount]
      apply psum_congr
      intro x _ y _
      congr 1
      simp only [byBoth, eq_iff_iff]
      tauto
    · simp only [← psum_pairCount]
      apply psum_congr
      intro x _ y _
      congr 1
      simp only [byBoth, eq_iff_iff]
      constructor
      · rintro ⟨⟨h1, h2, h3⟩, h4⟩; exact ⟨h1, h2, h3, by omega⟩
      · rintro ⟨h1, h2, h3, h4⟩; exact ⟨⟨h1, h2, h3⟩, by omega⟩
  rw [get_concDf strict cases a b hab, this, this]
  simp only [Int.natCast_pos]

end Verif
