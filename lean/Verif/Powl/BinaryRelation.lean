import Verif.Common.Dict
import Verif.Common.ListX
/-
C23: `BinaryRelation` of POWL models.  /repo/pm4py/objects/powl/BinaryRelation.py
-/
namespace Verif.BinRel
open Dict

/-! ### Model -/

/-- The Boolean matrix `_edges` (BinaryRelation.py:32), as a function of the two indices; entries outside
`0 … n-1` are never read or written. -/
abbrev Edges := Nat → Nat → Bool

/-- `self._edges[i][j] = b` -/
def Edges.put (E : Edges) (i j : Nat) (b : Bool) : Edges := fun x y => if x = i ∧ y = j then b else E x y

/-- `product(range(n), range(n), range(n))` -/
def triples (n : Nat) : List (Nat × Nat × Nat) :=
  (List.range n).flatMap fun i => (List.range n).flatMap fun j => (List.range n).map fun k => (i, j, k)

/-- The body of the loop of `add_transitive_edges` (BinaryRelation.py:127-131); the second component is `changed`. -/
def addStep (s : Edges × Bool) (t : Nat × Nat × Nat) : Edges × Bool :=
  let (i, j, k) := t
  if i ≠ j ∧ j ≠ k ∧ s.1 i j = true ∧ s.1 j k = true ∧ ¬ s.1 i k = true then (s.1.put i k true, true) else s

/-- The body of the loop of `remove_edge_without_violating_transitivity` (BinaryRelation.py:81-84). -/
def removeStep (s : Edges × Bool) (t : Nat × Nat × Nat) : Edges × Bool :=
  let (i, j, k) := t
  if i ≠ j ∧ j ≠ k ∧ s.1 i j = true ∧ s.1 j k = true ∧ ¬ s.1 i k = true then (s.1.put j k false, true) else s

/-- `while changed: changed = False; for …` ; `none` if the number of rounds exceeds the fuel -/
def whileChanged (step : Edges × Bool → Nat × Nat × Nat → Edges × Bool) (n : Nat) : Nat → Edges → Option Edges
  | 0, _ => none
  | fuel + 1, E =>
    let r := (triples n).foldl step (E, false)
    if r.2 then whileChanged step n fuel r.1 else some r.1

/-- `add_transitive_edges` (BinaryRelation.py:122-131) -/
def addTransitiveEdges (n fuel : Nat) (E : Edges) : Option Edges := whileChanged addStep n fuel E

/-- `remove_edge_without_violating_transitivity`, on indices (BinaryRelation.py:67-84) -/
def removeEdgeTrans (n fuel : Nat) (E : Edges) (i j : Nat) : Option Edges :=
  whileChanged removeStep n fuel (E.put i j false)

/-- `is_irreflexive` (BinaryRelation.py:152-157) -/
def isIrreflexive (n : Nat) (E : Edges) : Bool := !(List.range n).any fun i => E i i

/-- `is_transitive` (BinaryRelation.py:159-164) -/
def isTransitive (n : Nat) (E : Edges) : Bool :=
  !(triples n).any fun t => E t.1 t.2.1 && E t.2.1 t.2.2 && !E t.1 t.2.2

/-- `is_strict_partial_order` (BinaryRelation.py:133-134) -/
def isStrictPartialOrder (n : Nat) (E : Edges) : Bool := isIrreflexive n E && isTransitive n E

/-- `get_transitive_reduction` (BinaryRelation.py:111-120); `none` models the `ValueError`. -/
def transitiveReduction (n : Nat) (E : Edges) : Option Edges :=
  if !isIrreflexive n E then none
  else some ((triples n).foldl (fun res t =>
    let (i, j, k) := t
    if i ≠ j ∧ j ≠ k ∧ E i j = true ∧ E j k = true ∧ res i k = true then res.put i k false else res) E)

/-- `get_start_nodes` on indices (BinaryRelation.py:136-142): the loop discards every target of an edge -/
def startNodes (n : Nat) (E : Edges) : List Nat :=
  ((List.range n).flatMap fun i => (List.range n).map fun j => (i, j)).foldl
    (fun res p => if E p.1 p.2 then res.filter (fun x => decide (x ≠ p.2)) else res) (List.range n)

/-- `get_end_nodes` on indices (BinaryRelation.py:144-150) -/
def endNodes (n : Nat) (E : Edges) : List Nat :=
  ((List.range n).flatMap fun i => (List.range n).map fun j => (i, j)).foldl
    (fun res p => if E p.1 p.2 then res.filter (fun x => decide (x ≠ p.1)) else res) (List.range n)

/-! ### Specification -/

/-- the relation a matrix denotes -/
def Rel (n : Nat) (E : Edges) (i j : Nat) : Prop := i < n ∧ j < n ∧ E i j = true

/-- `R` relates only elements of `0 … n-1` -/
def On (n : Nat) (R : Nat → Nat → Prop) : Prop := ∀ i j, R i j → i < n ∧ j < n

def Irrefl (R : Nat → Nat → Prop) : Prop := ∀ i, ¬ R i i
def Trans (R : Nat → Nat → Prop) : Prop := ∀ i j k, R i j → R j k → R i k

/-! ### Proofs -/

theorem mem_triples (n i j k : Nat) : (i, j, k) ∈ triples n ↔ i < n ∧ j < n ∧ k < n := by
  unfold triples
  simp only [List.mem_flatMap, List.mem_map, List.mem_range, Prod.mk.injEq]
  constructor
  · rintro ⟨a, ha, b, hb, c, hc, rfl, rfl, rfl⟩; exact ⟨ha, hb, hc⟩
  · rintro ⟨ha, hb, hc⟩; exact ⟨i, ha, j, hb, k, hc, rfl, rfl, rfl⟩

/-- number of pairs below `n` with a property -/
def npairs (n : Nat) (E : Edges) : Nat :=
  ((List.range n).flatMap fun i => (List.range n).map fun j => (i, j)).countP fun p => E p.1 p.2

theorem mem_pairs (n i j : Nat) : (i, j) ∈ ((List.range n).flatMap fun i => (List.range n).map fun j => (i, j)) ↔ i < n ∧ j < n := by
  simp only [List.mem_flatMap, List.mem_map, List.mem_range, Prod.mk.injEq]
  constructor
  · rintro ⟨a, ha, b, hb, rfl, rfl⟩; exact ⟨ha, hb⟩
  · rintro ⟨ha, hb⟩; exact ⟨i, ha, j, hb, rfl, rfl⟩

theorem npairs_le (n : Nat) (E : Edges) : npairs n E ≤ n * n := by
  unfold npairs
  refine Nat.le_trans (List.countP_le_length) ?_
  have : ∀ l : List Nat, (l.flatMap fun i => (List.range n).map fun j => (i, j)).length = l.length * n := by
    intro l
    induction l with
    | nil => simp
    | cons x l ih => rw [List.flatMap_cons, List.length_append, ih]; simp [Nat.add_mul]; omega
  rw [this]; simp

theorem countP_lt {β : Type} (l : List β) (p q : β → Bool) (h : ∀ x ∈ l, p x = true → q x = true) (x : β) (hx : x ∈ l)
    (hq : q x = true) (hp : p x = false) : l.countP p < l.countP q := by
  induction l with
  | nil => simp at hx
  | cons y l ih =>
    rw [List.countP_cons, List.countP_cons]
    have hle : l.countP p ≤ l.countP q := List.countP_mono_left (fun z hz => h z (by simp [hz]))
    rcases List.mem_cons.1 hx with rfl | hx
    · rw [hq, hp]; simp; omega
    · have := ih (fun z hz => h z (by simp [hz])) hx
      have h1 := h y (by simp)
      cases hpy : p y with
      | false => simp; split <;> omega
      | true => simp [h1 hpy]; omega

theorem npairs_lt (n : Nat) (E E' : Edges) (h : ∀ i j, i < n → j < n → E i j = true → E' i j = true) (i j : Nat) (hi : i < n)
    (hj : j < n) (h0 : E i j = false) (h1 : E' i j = true) : npairs n E < npairs n E' := by
  refine countP_lt _ _ _ ?_ (i, j) ((mem_pairs n i j).2 ⟨hi, hj⟩) h1 h0
  rintro ⟨a, b⟩ hab he
  have := (mem_pairs n a b).1 hab
  exact h a b this.1 this.2 he

/-- What a round of `add_transitive_edges` does. -/
theorem add_round (n : Nat) (E0 : Edges) (l : List (Nat × Nat × Nat)) (hl : ∀ t ∈ l, t ∈ triples n) (s : Edges × Bool)
    (h1 : ∀ i j, E0 i j = true → s.1 i j = true) (h2 : ∀ i j, Rel n s.1 i j → Relation.TransGen (Rel n E0) i j)
    (h3 : s.2 = false → s.1 = E0) (h4 : s.2 = true → ∃ i j, i < n ∧ j < n ∧ E0 i j = false ∧ s.1 i j = true) :
    let r := l.foldl addStep s
    (∀ i j, E0 i j = true → r.1 i j = true) ∧ (∀ i j, Rel n r.1 i j → Relation.TransGen (Rel n E0) i j) ∧
    (r.2 = false → r.1 = E0 ∧ s.2 = false ∧
      ∀ i j k, (i, j, k) ∈ l → i ≠ j → j ≠ k → E0 i j = true → E0 j k = true → E0 i k = true) ∧
    (r.2 = true → ∃ i j, i < n ∧ j < n ∧ E0 i j = false ∧ r.1 i j = true) := by
  induction l generalizing s with
  | nil => exact ⟨h1, h2, fun h => ⟨h3 h, h, by simp⟩, h4⟩
  | cons t l ih =>
    obtain ⟨i, j, k⟩ := t
    have ht := (mem_triples n i j k).1 (hl (i, j, k) (by simp))
    rw [List.foldl_cons]
    by_cases hc : i ≠ j ∧ j ≠ k ∧ s.1 i j = true ∧ s.1 j k = true ∧ ¬ s.1 i k = true
    · have he : addStep s (i, j, k) = (s.1.put i k true, true) := by
        unfold addStep; simp only; rw [if_pos hc]
      rw [he]
      have hmono : ∀ x y, s.1 x y = true → s.1.put i k true x y = true := by
        intro x y hxy; unfold Edges.put; split
        · rfl
        · exact hxy
      obtain ⟨a, b, c, d⟩ := ih (fun t h => hl t (by simp [h])) (s.1.put i k true, true)
        (fun x y h => hmono x y (h1 x y h))
        (by
          rintro x y ⟨hx, hy, hxy⟩
          by_cases hp : x = i ∧ y = k
          · obtain ⟨rfl, rfl⟩ := hp
            exact Relation.TransGen.trans (h2 _ _ ⟨ht.1, ht.2.1, hc.2.2.1⟩) (h2 _ _ ⟨ht.2.1, ht.2.2, hc.2.2.2.1⟩)
          · apply h2
            have hxy' : Edges.put s.1 i k true x y = true := hxy
            unfold Edges.put at hxy'
            rw [if_neg hp] at hxy'
            exact ⟨hx, hy, hxy'⟩)
        (by simp)
        (fun _ => ⟨i, k, ht.1, ht.2.2, by
            cases hE : E0 i k with
            | false => rfl
            | true => exact absurd (h1 i k hE) hc.2.2.2.2, by unfold Edges.put; simp⟩)
      refine ⟨a, b, fun h => ?_, d⟩
      have := (c h).2.1
      simp at this
    · have he : addStep s (i, j, k) = s := by unfold addStep; simp only; rw [if_neg hc]
      rw [he]
      obtain ⟨a, b, c, d⟩ := ih (fun t h => hl t (by simp [h])) s h1 h2 h3 h4
      refine ⟨a, b, fun h => ?_, d⟩
      obtain ⟨c1, c2, c3⟩ := c h
      refine ⟨c1, c2, ?_⟩
      intro x y z hm hxy hyz e1 e2
      rcases List.mem_cons.1 hm with hm | hm
      · simp only [Prod.mk.injEq] at hm
        obtain ⟨rfl, rfl, rfl⟩ := hm
        rw [h3 c2] at hc
        apply Classical.byContradiction
        intro hno
        exact hc ⟨hxy, hyz, e1, e2, hno⟩
      · exact c3 x y z hm hxy hyz e1 e2

theorem closed_of_pass {n : Nat} {E : Edges}
    (h : ∀ i j k, (i, j, k) ∈ triples n → i ≠ j → j ≠ k → E i j = true → E j k = true → E i k = true) :
    Trans (Rel n E) := by
  rintro i j k ⟨hi, hj, hij⟩ ⟨_, hk, hjk⟩
  refine ⟨hi, hk, ?_⟩
  by_cases h1 : i = j
  · subst h1; exact hjk
  · by_cases h2 : j = k
    · subst h2; exact hij
    · exact h i j k ((mem_triples n i j k).2 ⟨hi, hj, hk⟩) h1 h2 hij hjk

theorem transGen_mono {R S : Nat → Nat → Prop} (h : ∀ i j, R i j → Relation.TransGen S i j) {i j : Nat}
    (hij : Relation.TransGen R i j) : Relation.TransGen S i j := by
  induction hij with
  | single h1 => exact h _ _ h1
  | tail _ h1 ih => exact Relation.TransGen.trans ih (h _ _ h1)

theorem transGen_of_trans {R : Nat → Nat → Prop} (h : Trans R) {i j : Nat} (hij : Relation.TransGen R i j) : R i j := by
  induction hij with
  | single h1 => exact h1
  | tail _ h1 ih => exact h _ _ _ ih h1

theorem add_spec (n : Nat) : ∀ fuel (E r : Edges), addTransitiveEdges n fuel E = some r →
    ∀ i j, Rel n r i j ↔ Relation.TransGen (Rel n E) i j := by
  intro fuel
  induction fuel with
  | zero => intro E r h; simp [addTransitiveEdges, whileChanged] at h
  | succ fuel ih =>
    intro E r h
    unfold addTransitiveEdges whileChanged at h
    obtain ⟨a, b, c, d⟩ := add_round n E (triples n) (fun _ h => h) (E, false) (fun _ _ h => h)
      (fun _ _ h => .single h) (fun _ => rfl) (by simp)
    simp only at h
    generalize hr : (triples n).foldl addStep (E, false) = q at h a b c d
    cases hq : q.2 with
    | true =>
      rw [hq, if_pos rfl] at h
      intro i j
      rw [ih _ _ h]
      constructor
      · exact transGen_mono b
      · exact transGen_mono (fun i j hij => .single ⟨hij.1, hij.2.1, a i j hij.2.2⟩)
    | false =>
      rw [hq] at h
      simp at h
      subst h
      obtain ⟨c1, -, c3⟩ := c hq
      rw [c1]
      intro i j
      exact ⟨fun h => .single h, transGen_of_trans (closed_of_pass c3)⟩

theorem add_terminates (n : Nat) : ∀ fuel (E : Edges), n * n < npairs n E + fuel → ∃ r, addTransitiveEdges n fuel E = some r := by
  intro fuel
  induction fuel with
  | zero => intro E h; have := npairs_le n E; omega
  | succ fuel ih =>
    intro E h
    unfold addTransitiveEdges whileChanged
    obtain ⟨a, b, c, d⟩ := add_round n E (triples n) (fun _ h => h) (E, false) (fun _ _ h => h)
      (fun _ _ h => .single h) (fun _ => rfl) (by simp)
    simp only
    generalize hr : (triples n).foldl addStep (E, false) = q at a b c d ⊢
    cases hq : q.2 with
    | true =>
      simp only [if_true]
      obtain ⟨i, j, hi, hj, e0, e1⟩ := d hq
      have := npairs_lt n E q.1 (fun i j _ _ => a i j) i j hi hj e0 e1
      exact ih q.1 (by omega)
    | false => exact ⟨q.1, by simp⟩

/-- What a round of `remove_edge_without_violating_transitivity` does. -/
theorem remove_round (n : Nat) (E0 : Edges) (l : List (Nat × Nat × Nat)) (hl : ∀ t ∈ l, t ∈ triples n) (s : Edges × Bool)
    (h1 : ∀ i j, s.1 i j = true → E0 i j = true)
    (h3 : s.2 = false → s.1 = E0) (h4 : s.2 = true → ∃ i j, i < n ∧ j < n ∧ E0 i j = true ∧ s.1 i j = false) :
    let r := l.foldl removeStep s
    (∀ i j, r.1 i j = true → E0 i j = true) ∧
    (r.2 = false → r.1 = E0 ∧ s.2 = false ∧
      ∀ i j k, (i, j, k) ∈ l → i ≠ j → j ≠ k → E0 i j = true → E0 j k = true → E0 i k = true) ∧
    (r.2 = true → ∃ i j, i < n ∧ j < n ∧ E0 i j = true ∧ r.1 i j = false) := by
  induction l generalizing s with
  | nil => exact ⟨h1, fun h => ⟨h3 h, h, by simp⟩, h4⟩
  | cons t l ih =>
    obtain ⟨i, j, k⟩ := t
    have ht := (mem_triples n i j k).1 (hl (i, j, k) (by simp))
    rw [List.foldl_cons]
    by_cases hc : i ≠ j ∧ j ≠ k ∧ s.1 i j = true ∧ s.1 j k = true ∧ ¬ s.1 i k = true
    · have he : removeStep s (i, j, k) = (s.1.put j k false, true) := by
        unfold removeStep; simp only; rw [if_pos hc]
      rw [he]
      have hmono : ∀ x y, s.1.put j k false x y = true → s.1 x y = true := by
        intro x y hxy; unfold Edges.put at hxy; split at hxy
        · cases hxy
        · exact hxy
      obtain ⟨a, c, d⟩ := ih (fun t h => hl t (by simp [h])) (s.1.put j k false, true)
        (fun x y h => h1 x y (hmono x y h))
        (by simp)
        (fun _ => ⟨j, k, ht.2.1, ht.2.2, h1 _ _ hc.2.2.2.1, by unfold Edges.put; simp⟩)
      refine ⟨a, fun h => ?_, d⟩
      have := (c h).2.1
      simp at this
    · have he : removeStep s (i, j, k) = s := by unfold removeStep; simp only; rw [if_neg hc]
      rw [he]
      obtain ⟨a, c, d⟩ := ih (fun t h => hl t (by simp [h])) s h1 h3 h4
      refine ⟨a, fun h => ?_, d⟩
      obtain ⟨c1, c2, c3⟩ := c h
      refine ⟨c1, c2, ?_⟩
      intro x y z hm hxy hyz e1 e2
      rcases List.mem_cons.1 hm with hm | hm
      · simp only [Prod.mk.injEq] at hm
        obtain ⟨rfl, rfl, rfl⟩ := hm
        rw [h3 c2] at hc
        apply Classical.byContradiction
        intro hno
        exact hc ⟨hxy, hyz, e1, e2, hno⟩
      · exact c3 x y z hm hxy hyz e1 e2

theorem remove_spec (n : Nat) : ∀ fuel (E r : Edges), whileChanged removeStep n fuel E = some r →
    (∀ i j, r i j = true → E i j = true) ∧ Trans (Rel n r) := by
  intro fuel
  induction fuel with
  | zero => intro E r h; simp [whileChanged] at h
  | succ fuel ih =>
    intro E r h
    unfold whileChanged at h
    obtain ⟨a, c, d⟩ := remove_round n E (triples n) (fun _ h => h) (E, false) (fun _ _ h => h) (fun _ => rfl) (by simp)
    simp only at h
    generalize hr : (triples n).foldl removeStep (E, false) = q at h a c d
    cases hq : q.2 with
    | true =>
      rw [hq, if_pos rfl] at h
      obtain ⟨h1, h2⟩ := ih _ _ h
      exact ⟨fun i j hij => a i j (h1 i j hij), h2⟩
    | false =>
      rw [hq] at h
      simp at h
      subst h
      obtain ⟨c1, -, c3⟩ := c hq
      exact ⟨a, by rw [c1]; exact closed_of_pass c3⟩

theorem remove_terminates (n : Nat) : ∀ fuel (E : Edges), npairs n E < fuel → ∃ r, whileChanged removeStep n fuel E = some r := by
  intro fuel
  induction fuel with
  | zero => intro E h; omega
  | succ fuel ih =>
    intro E h
    unfold whileChanged
    obtain ⟨a, c, d⟩ := remove_round n E (triples n) (fun _ h => h) (E, false) (fun _ _ h => h) (fun _ => rfl) (by simp)
    simp only
    generalize hr : (triples n).foldl removeStep (E, false) = q at a c d ⊢
    cases hq : q.2 with
    | true =>
      simp only [if_true]
      obtain ⟨i, j, hi, hj, e0, e1⟩ := d hq
      have := npairs_lt n q.1 E (fun i j _ _ => a i j) i j hi hj e1 e0
      exact ih q.1 (by omega)
    | false => exact ⟨q.1, by simp⟩

theorem isIrreflexive_iff (n : Nat) (E : Edges) : isIrreflexive n E = true ↔ Irrefl (Rel n E) := by
  unfold isIrreflexive Irrefl Rel
  rw [Bool.not_eq_true', List.any_eq_false]
  constructor
  · rintro h i ⟨h1, _, h2⟩; exact h i (by simpa using h1) h2
  · intro h i hi h2; exact h i ⟨by simpa using hi, by simpa using hi, h2⟩

theorem isTransitive_iff (n : Nat) (E : Edges) : isTransitive n E = true ↔ Trans (Rel n E) := by
  unfold isTransitive Trans Rel
  rw [Bool.not_eq_true', List.any_eq_false]
  constructor
  · rintro h i j k ⟨h1, h2, h3⟩ ⟨_, h4, h5⟩
    have := h (i, j, k) ((mem_triples n i j k).2 ⟨h1, h2, h4⟩)
    simp [h3, h5] at this
    exact ⟨h1, h4, this⟩
  · rintro h ⟨i, j, k⟩ ht h2
    obtain ⟨a, b, c⟩ := (mem_triples n i j k).1 ht
    simp at h2
    have := h i j k ⟨a, b, h2.1.1⟩ ⟨b, c, h2.1.2⟩
    rw [this.2.2] at h2
    simp at h2

theorem reduction_fold (n : Nat) (E : Edges) (l : List (Nat × Nat × Nat)) (res : Edges) (x z : Nat) :
    (l.foldl (fun res t =>
      let (i, j, k) := t
      if i ≠ j ∧ j ≠ k ∧ E i j = true ∧ E j k = true ∧ res i k = true then res.put i k false else res) res) x z = true ↔
    res x z = true ∧ ¬ ∃ y, (x, y, z) ∈ l ∧ x ≠ y ∧ y ≠ z ∧ E x y = true ∧ E y z = true := by
  induction l generalizing res with
  | nil => simp
  | cons t l ih =>
    obtain ⟨i, j, k⟩ := t
    rw [List.foldl_cons, ih]
    simp only
    by_cases hc : i ≠ j ∧ j ≠ k ∧ E i j = true ∧ E j k = true ∧ res i k = true
    · rw [if_pos hc]
      by_cases hx : x = i ∧ z = k
      · obtain ⟨rfl, rfl⟩ := hx
        have : Edges.put res x z false x z = false := by unfold Edges.put; simp
        simp only [this]
        constructor
        · rintro ⟨h, _⟩; cases h
        · rintro ⟨_, h⟩; exact absurd ⟨j, by simp, hc.1, hc.2.1, hc.2.2.1, hc.2.2.2.1⟩ h
      · have : Edges.put res i k false x z = res x z := by unfold Edges.put; rw [if_neg hx]
        rw [this]
        have e : ∀ y, (x, y, z) ∈ (i, j, k) :: l ↔ (x, y, z) ∈ l := by
          intro y
          simp only [List.mem_cons, Prod.mk.injEq]
          constructor
          · rintro (⟨h1, _, h2⟩ | h)
            · exact absurd ⟨h1, h2⟩ hx
            · exact h
          · exact Or.inr
        simp only [e]
    · rw [if_neg hc]
      constructor
      · rintro ⟨h1, h2⟩
        refine ⟨h1, ?_⟩
        rintro ⟨y, hm, r⟩
        rcases List.mem_cons.1 hm with hm | hm
        · simp only [Prod.mk.injEq] at hm
          obtain ⟨rfl, rfl, rfl⟩ := hm
          exact hc ⟨r.1, r.2.1, r.2.2.1, r.2.2.2, h1⟩
        · exact h2 ⟨y, hm, r⟩
      · rintro ⟨h1, h2⟩
        exact ⟨h1, fun ⟨y, hm, r⟩ => h2 ⟨y, by simp [hm], r⟩⟩

theorem reduction_rel (n : Nat) (E r : Edges) (h : transitiveReduction n E = some r) (hI : Irrefl (Rel n E)) (i k : Nat) :
    Rel n r i k ↔ Rel n E i k ∧ ¬ ∃ j, Rel n E i j ∧ Rel n E j k := by
  unfold transitiveReduction at h
  split at h
  · cases h
  · simp only [Option.some.injEq] at h
    subst h
    unfold Rel
    rw [reduction_fold n]
    constructor
    · rintro ⟨h1, h2, h3, h4⟩
      refine ⟨⟨h1, h2, h3⟩, ?_⟩
      rintro ⟨j, ⟨a, b, c⟩, d, e, f⟩
      exact h4 ⟨j, (mem_triples n _ _ _).2 ⟨h1, b, h2⟩, fun e => hI i ⟨h1, h1, by rw [← e] at c; exact c⟩,
        fun e => hI k ⟨h2, h2, by rw [e] at f; exact f⟩, c, f⟩
    · rintro ⟨⟨h1, h2, h3⟩, h4⟩
      refine ⟨h1, h2, h3, ?_⟩
      rintro ⟨j, hm, _, _, c, f⟩
      obtain ⟨a, b, c'⟩ := (mem_triples n _ _ _).1 hm
      exact h4 ⟨j, ⟨a, b, c⟩, ⟨b, c', f⟩⟩

theorem reduction_generates (n : Nat) (E r : Edges) (hI : Irrefl (Rel n E)) (hT : Trans (Rel n E))
    (hr : ∀ i k, Rel n r i k ↔ Rel n E i k ∧ ¬ ∃ j, Rel n E i j ∧ Rel n E j k) :
    ∀ m i k, (List.range n).countP (fun j => E i j && E j k) ≤ m → Rel n E i k → Relation.TransGen (Rel n r) i k := by
  intro m
  induction m with
  | zero =>
    intro i k hm hik
    apply Relation.TransGen.single
    rw [hr]
    refine ⟨hik, ?_⟩
    rintro ⟨j, h1, h2⟩
    have : 0 < (List.range n).countP (fun j => E i j && E j k) := by
      rw [List.countP_pos_iff]
      exact ⟨j, by simpa using h1.2.1, by simp [h1.2.2, h2.2.2]⟩
    omega
  | succ m ih =>
    intro i k hm hik
    by_cases hj : ∃ j, Rel n E i j ∧ Rel n E j k
    · obtain ⟨j, h1, h2⟩ := hj
      have lt1 : (List.range n).countP (fun x => E i x && E x j) < (List.range n).countP (fun x => E i x && E x k) := by
        apply countP_lt _ _ _ _ j (by simpa using h1.2.1) (by simp [h1.2.2, h2.2.2])
        · cases hjj : E j j with
          | false => simp
          | true => exact absurd ⟨h1.2.1, h1.2.1, hjj⟩ (hI j)
        · intro x hx hxx
          simp at hx hxx
          have := hT x j k ⟨hx, h1.2.1, hxx.2⟩ h2
          simp [hxx.1, this.2.2]
      have lt2 : (List.range n).countP (fun x => E j x && E x k) < (List.range n).countP (fun x => E i x && E x k) := by
        apply countP_lt _ _ _ _ j (by simpa using h1.2.1) (by simp [h1.2.2, h2.2.2])
        · cases hjj : E j j with
          | false => simp
          | true => exact absurd ⟨h1.2.1, h1.2.1, hjj⟩ (hI j)
        · intro x hx hxx
          simp at hx hxx
          have := hT i j x h1 ⟨h1.2.1, hx, hxx.1⟩
          simp [hxx.2, this.2.2]
      exact Relation.TransGen.trans (ih i j (by omega) h1) (ih j k (by omega) h2)
    · exact .single ((hr i k).2 ⟨hik, hj⟩)

theorem discard_fold (E : Edges) (f : Nat × Nat → Nat) (l : List (Nat × Nat)) (res : List Nat) (x : Nat) :
    x ∈ l.foldl (fun res p => if E p.1 p.2 then res.filter (fun y => decide (y ≠ f p)) else res) res ↔
      x ∈ res ∧ ∀ p ∈ l, E p.1 p.2 = true → x ≠ f p := by
  induction l generalizing res with
  | nil => simp
  | cons p l ih =>
    rw [List.foldl_cons, ih]
    by_cases hp : E p.1 p.2 = true
    · simp [hp, and_assoc]
    · simp [hp]

end BinRel
open BinRel
section

/-- C23: `add_transitive_edges` finishes on every relation, after at most `n² + 1` rounds. -/
theorem C23_closure_terminates (n : Nat) (E : Edges) : ∃ r, addTransitiveEdges n (n * n + 1) E = some r :=
  add_terminates n _ E (by omega)

/-- C23: whenever it finishes, the relation is the transitive closure of the relation it started from. -/
theorem C23_closure (n fuel : Nat) (E r : Edges) (h : addTransitiveEdges n fuel E = some r) (i j : Nat) :
    Rel n r i j ↔ Relation.TransGen (Rel n E) i j := add_spec n fuel E r h i j

/-- C23: `is_strict_partial_order` returns True exactly for irreflexive and transitive relations. -/
theorem C23_is_strict_partial_order (n : Nat) (E : Edges) :
    isStrictPartialOrder n E = true ↔ Irrefl (Rel n E) ∧ Trans (Rel n E) := by
  unfold isStrictPartialOrder
  rw [Bool.and_eq_true, isIrreflexive_iff, isTransitive_iff]

/-- C23: on a reflexive pair `get_transitive_reduction` raises, otherwise it returns. -/
theorem C23_reduction_raises (n : Nat) (E : Edges) : transitiveReduction n E = none ↔ ¬ Irrefl (Rel n E) := by
  rw [← isIrreflexive_iff]
  unfold transitiveReduction
  cases isIrreflexive n E <;> simp

/-- C23: the transitive reduction of a strict partial order is a relation inside it that generates it, and it is
contained in every relation that generates it. -/
theorem C23_reduction (n : Nat) (E r : Edges) (h : isStrictPartialOrder n E = true)
    (hr : transitiveReduction n E = some r) :
    (∀ i j, Rel n r i j → Rel n E i j) ∧ (∀ i j, Relation.TransGen (Rel n r) i j ↔ Rel n E i j) ∧
    (∀ R : Nat → Nat → Prop, (∀ i j, Relation.TransGen R i j ↔ Rel n E i j) → ∀ i j, Rel n r i j → R i j) := by
  obtain ⟨hI, hT⟩ := (C23_is_strict_partial_order n E).1 h
  have hrel := reduction_rel n E r hr hI
  refine ⟨fun i j h => ((hrel i j).1 h).1, fun i j => ⟨?_, ?_⟩, ?_⟩
  · intro hij
    exact transGen_of_trans hT (transGen_mono (fun i j h => .single ((hrel i j).1 h).1) hij)
  · intro hij; exact reduction_generates n E r hI hT hrel _ i j (Nat.le_refl _) hij
  · intro R hR i j hij
    obtain ⟨h1, h2⟩ := (hrel i j).1 hij
    have := (hR i j).2 h1
    cases this with
    | single h => exact h
    | tail h3 h4 => exact absurd ⟨_, (hR _ _).1 h3, (hR _ _).1 (.single h4)⟩ h2

/-- C23: `remove_edge_without_violating_transitivity` finishes, removes the edge, only removes edges, leaves a
transitive relation; a strict partial order stays one. -/
theorem C23_remove_edge (n : Nat) (E : Edges) (i j : Nat) :
    ∃ r, removeEdgeTrans n (n * n + 1) E i j = some r ∧ r i j = false ∧ (∀ x y, Rel n r x y → Rel n E x y) ∧
      Trans (Rel n r) ∧ (isStrictPartialOrder n E = true → isStrictPartialOrder n r = true) := by
  obtain ⟨r, hr⟩ := remove_terminates n (n * n + 1) (E.put i j false) (by have := npairs_le n (E.put i j false); omega)
  obtain ⟨h1, h2⟩ := remove_spec n _ _ _ hr
  have hput : ∀ x y, Edges.put E i j false x y = true → E x y = true := by
    intro x y hxy
    unfold Edges.put at hxy
    split at hxy
    · cases hxy
    · exact hxy
  have hsub : ∀ x y, Rel n r x y → Rel n E x y := fun x y h => ⟨h.1, h.2.1, hput x y (h1 x y h.2.2)⟩
  refine ⟨r, hr, ?_, hsub, h2, ?_⟩
  · cases h : r i j with
    | false => rfl
    | true => have := h1 i j h; unfold Edges.put at this; simp at this
  · intro h
    obtain ⟨hI, _⟩ := (C23_is_strict_partial_order n E).1 h
    exact (C23_is_strict_partial_order n r).2 ⟨fun x hx => hI x (hsub x x hx), h2⟩

/-- C23: start nodes are the nodes without an incoming edge, end nodes those without an outgoing edge. -/
theorem C23_start_end_nodes (n : Nat) (E : Edges) (x : Nat) :
    (x ∈ startNodes n E ↔ x < n ∧ ∀ y, ¬ Rel n E y x) ∧ (x ∈ endNodes n E ↔ x < n ∧ ∀ y, ¬ Rel n E x y) := by
  constructor
  · unfold startNodes
    rw [discard_fold E Prod.snd]
    simp only [List.mem_range]
    constructor
    · rintro ⟨h1, h2⟩
      exact ⟨h1, fun y hy => h2 (y, x) ((mem_pairs n y x).2 ⟨hy.1, h1⟩) hy.2.2 rfl⟩
    · rintro ⟨h1, h2⟩
      refine ⟨h1, ?_⟩
      rintro ⟨a, b⟩ hab he rfl
      have := (mem_pairs n a x).1 hab
      exact h2 a ⟨this.1, this.2, he⟩
  · unfold endNodes
    rw [discard_fold E Prod.fst]
    simp only [List.mem_range]
    constructor
    · rintro ⟨h1, h2⟩
      exact ⟨h1, fun y hy => h2 (x, y) ((mem_pairs n x y).2 ⟨h1, hy.2.1⟩) hy.2.2 rfl⟩
    · rintro ⟨h1, h2⟩
      refine ⟨h1, ?_⟩
      rintro ⟨a, b⟩ hab he rfl
      have := (mem_pairs n x b).1 hab
      exact h2 b ⟨this.1, this.2, he⟩

/-- a strict partial order with a redundant edge: 0 → 1 → 2 and 0 → 2 -/
example : let E : Edges := fun i j => decide (i < j ∧ j < 3)
    isStrictPartialOrder 3 E = true ∧ (transitiveReduction 3 E).isSome = true ∧ startNodes 3 E = [0] ∧ endNodes 3 E = [2] := by
  decide
end
end Verif
