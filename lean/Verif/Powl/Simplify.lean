import Verif.Powl.PoG
import Verif.Powl.Order
/-
Model of `POWL.simplify` (/repo/pm4py/objects/powl/obj.py:35-36, 234-283, 363-397).
-/
set_option linter.unusedSectionVars false
namespace Verif
namespace Powl
open BinRel
variable {α : Type}

/-- the inner function `connected` (obj.py:240-244) -/
def connected (n : Nat) (E : Edges) (i : Nat) : Bool := (List.range n).any fun j => E i j || E j i

/-- the decision whether the simplified child `s` at position `i` goes to `sub_nodes` (with its children and its order) or to
`simplified_nodes` (obj.py:247-263) -/
def mergeable (n : Nat) (E : Edges) (i : Nat) : Powl α → Option (List (Powl α) × Edges)
  | .po ds F =>
    if !connected n E i || ((startNodes ds.length F).length == 1 && (endNodes ds.length F).length == 1) then some (ds, F) else none
  | _ => none

/-- `sub_nodes`, by position -/
def subNodes (E : Edges) (ss : List (Powl α)) (i : Nat) : Option (List (Powl α) × Edges) := ss[i]?.bind (mergeable ss.length E i)

/-- position of a node of the result: `(i, none)` is the simplified child `i`, `(i, some a)` the child `a` of the simplified child `i` -/
abbrev Key := Nat × Option Nat

/-- the keys of a merged child -/
def innerKeys (i : Nat) : Option (List (Powl α) × Edges) → List Key
  | none => []
  | some d => (List.range d.1.length).map fun a => (i, some a)

/-- `new_nodes` (obj.py:264-266): the simplified children that are kept, then the children of the others -/
def keyList (E : Edges) (ss : List (Powl α)) : List Key :=
  ((List.range ss.length).filter fun i => (subNodes E ss i).isNone).map (fun i => (i, none)) ++
    (List.range ss.length).flatMap fun i => innerKeys i (subNodes E ss i)

/-- the node with a key -/
def nodeAt (E : Edges) (ss : List (Powl α)) : Key → Powl α
  | (i, none) => ss[i]?.getD (.leaf none)
  | (i, some a) => ((subNodes E ss i).bind fun d => d.1[a]?).getD (.leaf none)

/-- `end_nodes[node]`, or the simplified node (obj.py:268-278) -/
def outOf : Option (List (Powl α) × Edges) → Option Nat
  | none => none
  | some d => (endNodes d.1.length d.2).head?

/-- `start_nodes[node]`, or the simplified node (obj.py:268-278) -/
def intoOf : Option (List (Powl α) × Edges) → Option Nat
  | none => none
  | some d => (startNodes d.1.length d.2).head?

/-- an edge copied from a merged child (obj.py:279-283) -/
def innerEdge (E : Edges) (ss : List (Powl α)) (p q : Key) : Bool :=
  match p.2, q.2 with
  | some a, some b => p.1 == q.1 && ((subNodes E ss p.1).elim false fun d => d.2 a b)
  | _, _ => false

/-- the edges added to the result: obj.py:268-278 (edges between the children) and obj.py:279-283 (edges of the merged children) -/
def edgeK (E : Edges) (ss : List (Powl α)) (p q : Key) : Bool :=
  (E p.1 q.1 && p.2 == outOf (subNodes E ss p.1) && q.2 == intoOf (subNodes E ss q.1)) || innerEdge E ss p q

/-- `StrictPartialOrder.simplify` (obj.py:234-284), given the simplified children `ss`.  Simplification: nodes are positions. -/
def mergePo (E : Edges) (ss : List (Powl α)) : Powl α :=
  let ks := keyList E ss
  .po (ks.map (nodeAt E ss)) fun p q => edgeK E ss (ks.getD p (0, none)) (ks.getD q (0, none))

/-- `merge_with_children` (obj.py:368-376), before the children are simplified; simplification: a `Transition` without label is treated
like a `SilentTransition` -/
def mergeWith : Powl α → Powl α → Option (Powl α × Powl α)
  | .leaf none, .loop (.leaf none) r => some (.leaf none, r)
  | .leaf none, .loop b (.leaf none) => some (.leaf none, b)
  | _, _ => none

/-- the first rule of `OperatorPOWL.simplify` (obj.py:364-384): a choice of two children -/
def mergeLoop : List (Powl α) → Option (Powl α × Powl α)
  | [c, d] => (mergeWith c d).or (mergeWith d c)
  | _ => none

/-- what a simplified child contributes to a choice (obj.py:390-395); `g` is `simplify` -/
def expandXor (g : Powl α → Option (Powl α)) : Powl α → Option (List (Powl α))
  | .xor ds => ds.mapM g
  | s => some [s]

/-- `simplify` (obj.py:35-36 for transitions, 234-284 for partial orders, 363-397 for choices and loops).  The simplified children of a
choice are simplified once more (obj.py:390-392), so the recursion is not structural: `none` if the depth exceeds the fuel. -/
def simplify : Nat → Powl α → Option (Powl α)
  | 0, _ => none
  | _ + 1, .leaf l => some (.leaf l)
  | n + 1, .loop b r => (simplify n b).bind fun b' => (simplify n r).map fun r' => .loop b' r'
  | n + 1, .xor cs =>
    match mergeLoop cs with
    | some (b, r) => (simplify n b).bind fun b' => (simplify n r).map fun r' => .loop b' r'
    | none =>
      (cs.mapM fun c => (simplify n c).bind (expandXor (simplify n))).map fun css => .xor css.flatten
  | n + 1, .po cs E => (cs.mapM (simplify n)).map (mergePo E)

mutual
/-- number of nodes of a model -/
def size : Powl α → Nat
  | .leaf _ => 1
  | .xor cs => 1 + sizeL cs
  | .loop b r => 1 + (size b + size r)
  | .po cs _ => 1 + sizeL cs
def sizeL : List (Powl α) → Nat
  | [] => 0
  | c :: cs => size c + sizeL cs
end

/-! ### the merged partial order -/

/-- the keys of the nodes of child `i` -/
def keysOf (E : Edges) (ss : List (Powl α)) (i : Nat) : List Key :=
  match subNodes E ss i with
  | none => [(i, none)]
  | some d => (List.range d.1.length).map fun a => (i, some a)

theorem mem_keysOf {E : Edges} {ss : List (Powl α)} {i : Nat} {k : Key} (h : k ∈ keysOf E ss i) : k.1 = i := by
  unfold keysOf at h
  split at h
  · simp at h; simp [h]
  · obtain ⟨a, _, rfl⟩ := List.mem_map.1 h; rfl

theorem flatMap_partition {β γ : Type} (l : List β) (p : β → Bool) (f : β → List γ) :
    (l.flatMap f).Perm ((l.filter p).flatMap f ++ (l.filter fun x => !p x).flatMap f) := by
  induction l with
  | nil => simp
  | cons x l ih =>
    cases h : p x with
    | true =>
      simp only [List.flatMap_cons, List.filter_cons, h, if_true, Bool.not_true, List.append_assoc]
      exact List.Perm.append_left _ ih
    | false =>
      simp only [List.flatMap_cons, List.filter_cons, h, Bool.not_false, if_true]
      refine (List.Perm.append_left _ ih).trans ?_
      simp only [Bool.false_eq_true, if_false, List.flatMap_cons]
      rw [← List.append_assoc, ← List.append_assoc]
      exact List.Perm.append_right _ List.perm_append_comm

theorem keyList_perm (E : Edges) (ss : List (Powl α)) : (keyList E ss).Perm ((List.range ss.length).flatMap (keysOf E ss)) := by
  refine List.Perm.trans ?_ (flatMap_partition _ (fun i => (subNodes E ss i).isNone) _).symm
  unfold keyList
  have e1 : ∀ l : List Nat, (l.filter fun i => (subNodes E ss i).isNone).map (fun i => ((i, none) : Key)) =
      (l.filter fun i => (subNodes E ss i).isNone).flatMap (keysOf E ss) := by
    intro l
    induction l with
    | nil => rfl
    | cons x l ih =>
      simp only [List.filter_cons]
      split
      next h =>
        rw [List.map_cons, List.flatMap_cons, ih]
        rw [Option.isNone_iff_eq_none] at h
        simp [keysOf, h]
      next h => exact ih
  have e2 : ∀ l : List Nat, (l.flatMap fun i => innerKeys i (subNodes E ss i)) =
      (l.filter fun i => !(subNodes E ss i).isNone).flatMap (keysOf E ss) := by
    intro l
    induction l with
    | nil => rfl
    | cons x l ih =>
      simp only [List.filter_cons, List.flatMap_cons]
      rw [ih]
      cases h : subNodes E ss x with
      | none => rfl
      | some d =>
        simp only [Option.isNone_some, Bool.not_false, if_true, List.flatMap_cons]
        rw [keysOf, h]; rfl
  rw [e1, e2]

theorem nodup_flatMap_of_fst (l : List Nat) (hl : l.Nodup) (f : Nat → List Key) (h1 : ∀ i, (f i).Nodup) (h2 : ∀ i, ∀ k ∈ f i, k.1 = i) :
    (l.flatMap f).Nodup := by
  induction l with
  | nil => exact List.nodup_nil
  | cons x l ih =>
    rw [List.flatMap_cons, List.nodup_append]
    have hx := List.nodup_cons.1 hl
    refine ⟨h1 x, ih hx.2, ?_⟩
    rintro a ha b hb rfl
    obtain ⟨y, hy, hb⟩ := List.mem_flatMap.1 hb
    have := h2 x a ha; have := h2 y a hb
    exact hx.1 (by simp_all)

theorem keysOf_nodup (E : Edges) (ss : List (Powl α)) (i : Nat) : (keysOf E ss i).Nodup := by
  unfold keysOf
  split
  · simp
  · refine List.Pairwise.map _ ?_ List.nodup_range
    intro a b h e
    simp at e; exact h e

theorem keyList_nodup (E : Edges) (ss : List (Powl α)) : (keyList E ss).Nodup :=
  (keyList_perm E ss).nodup_iff.2 (nodup_flatMap_of_fst _ List.nodup_range _ (keysOf_nodup E ss) fun _ _ h => mem_keysOf h)

/-- the inner keys of child `i` -/
def InKey (E : Edges) (ss : List (Powl α)) (i : Nat) (x : Option Nat) : Prop :=
  match subNodes E ss i with
  | none => x = none
  | some d => ∃ a, a < d.1.length ∧ x = some a

theorem mem_keyList (E : Edges) (ss : List (Powl α)) (k : Key) : k ∈ keyList E ss ↔ k.1 < ss.length ∧ InKey E ss k.1 k.2 := by
  rw [(keyList_perm E ss).mem_iff, List.mem_flatMap]
  have : ∀ i, k ∈ keysOf E ss i ↔ k.1 = i ∧ InKey E ss i k.2 := by
    intro i
    obtain ⟨j, x⟩ := k
    unfold keysOf InKey
    cases subNodes E ss i with
    | none => simp
    | some d =>
      simp only [List.mem_map, List.mem_range, Prod.mk.injEq]
      constructor
      · rintro ⟨a, h, rfl, rfl⟩; exact ⟨rfl, a, h, rfl⟩
      · rintro ⟨rfl, a, h, rfl⟩; exact ⟨a, h, rfl, rfl⟩
  constructor
  · rintro ⟨i, hi, h⟩
    obtain ⟨rfl, h⟩ := (this i).1 h
    exact ⟨by simpa using hi, h⟩
  · rintro ⟨h1, h2⟩
    exact ⟨k.1, by simpa using h1, (this _).2 ⟨rfl, h2⟩⟩

/-- the order inside child `i` -/
def InOrd (E : Edges) (ss : List (Powl α)) (i : Nat) (x y : Option Nat) : Prop :=
  ∃ d a b, subNodes E ss i = some d ∧ x = some a ∧ y = some b ∧ Before d.1.length d.2 a b

theorem subNodes_eq {E : Edges} {ss : List (Powl α)} {i : Nat} {d : List (Powl α) × Edges} (h : subNodes E ss i = some d) :
    ss[i]? = some (.po d.1 d.2) ∧
    ((∃ j, j < ss.length ∧ (E i j = true ∨ E j i = true)) → (startNodes d.1.length d.2).length = 1 ∧ (endNodes d.1.length d.2).length = 1) := by
  unfold subNodes at h
  obtain ⟨s, hs, h⟩ := Option.bind_eq_some_iff.1 h
  unfold mergeable at h
  split at h
  · rename_i ds F
    split at h
    next hc =>
      cases h
      refine ⟨hs, ?_⟩
      rintro ⟨j, hj, h1⟩
      simp only [Bool.or_eq_true, Bool.not_eq_true', Bool.and_eq_true, beq_iff_eq] at hc
      rcases hc with hc | hc
      · exfalso
        unfold connected at hc
        rw [List.any_eq_false] at hc
        refine hc j (by simpa using hj) ?_
        simpa using h1
      · exact hc
    next => cases h
  · cases h

/-- the only end node comes after all others -/
theorem reach_end {n : Nat} {F : Edges} (hA : ∀ i, ¬ Before n F i i) {e : Nat} (he : ∀ x, x < n → (∀ y, ¬ Rel n F x y) → x = e) :
    ∀ m a, n - rank n F a ≤ m → a < n → a = e ∨ Before n F a e := by
  intro m
  induction m with
  | zero =>
    intro a hm ha
    by_cases h : ∃ y, Rel n F a y
    · obtain ⟨y, hy⟩ := h
      have := rank_lt hA (.single hy); have := rank_le n F y; omega
    · exact .inl (he a ha fun y hy => h ⟨y, hy⟩)
  | succ m ih =>
    intro a hm ha
    by_cases h : ∃ y, Rel n F a y
    · obtain ⟨y, hy⟩ := h
      have := rank_lt hA (.single hy); have := rank_le n F y
      rcases ih y (by omega) hy.2.1 with rfl | h
      · exact .inr (.single hy)
      · exact .inr (.trans (.single hy) h)
    · exact .inl (he a ha fun y hy => h ⟨y, hy⟩)

/-- the only start node comes before all others -/
theorem reach_start {n : Nat} {F : Edges} (hA : ∀ i, ¬ Before n F i i) {e : Nat} (he : ∀ x, x < n → (∀ y, ¬ Rel n F y x) → x = e) :
    ∀ m a, rank n F a ≤ m → a < n → a = e ∨ Before n F e a := by
  intro m
  induction m with
  | zero =>
    intro a hm ha
    by_cases h : ∃ y, Rel n F y a
    · obtain ⟨y, hy⟩ := h
      have := rank_lt hA (.single hy); omega
    · exact .inl (he a ha fun y hy => h ⟨y, hy⟩)
  | succ m ih =>
    intro a hm ha
    by_cases h : ∃ y, Rel n F y a
    · obtain ⟨y, hy⟩ := h
      have := rank_lt hA (.single hy)
      rcases ih y (by omega) hy.1 with rfl | h
      · exact .inr (.single hy)
      · exact .inr (.trans h (.single hy))
    · exact .inl (he a ha fun y hy => h ⟨y, hy⟩)

/-- acyclic inner orders -/
def InnerOk (E : Edges) (ss : List (Powl α)) : Prop := ∀ i d, subNodes E ss i = some d → ∀ a, ¬ Before d.1.length d.2 a a

/-- edge between keys of the result -/
def StepK (E : Edges) (ss : List (Powl α)) (p q : Key) : Prop := p ∈ keyList E ss ∧ q ∈ keyList E ss ∧ edgeK E ss p q = true

theorem head_of_length_one {β : Type} {l : List β} (h : l.length = 1) : ∃ x, l = [x] := List.length_eq_one_iff.1 h

/-- the exit of a connected child -/
theorem out_ok {E : Edges} {ss : List (Powl α)} (hI : InnerOk E ss) {i j : Nat} (h : Rel ss.length E i j) :
    InKey E ss i (outOf (subNodes E ss i)) ∧
    ∀ x, InKey E ss i x → x = outOf (subNodes E ss i) ∨ InOrd E ss i x (outOf (subNodes E ss i)) := by
  cases hs : subNodes E ss i with
  | none =>
    unfold InKey; rw [hs]; simp only [outOf]
    exact ⟨trivial, fun x hx => .inl hx⟩
  | some d =>
    obtain ⟨_, h2⟩ := (subNodes_eq hs).2 ⟨j, h.2.1, .inl h.2.2⟩
    obtain ⟨e, he⟩ := head_of_length_one h2
    have hm : ∀ x, x ∈ endNodes d.1.length d.2 ↔ x = e := by rw [he]; simp
    have h0 := ((C23_start_end_nodes d.1.length d.2 e).2).1 ((hm e).2 rfl)
    have ho : outOf (some d) = some e := by simp [outOf, he]
    refine ⟨?_, ?_⟩
    · unfold InKey; rw [hs]; exact ⟨e, h0.1, ho⟩
    · intro x hx
      unfold InKey at hx; rw [hs] at hx
      obtain ⟨a, ha, rfl⟩ := hx
      rw [ho]
      rcases reach_end (hI i d hs) (e := e) (fun x hx hy => (hm x).1 (((C23_start_end_nodes _ _ x).2).2 ⟨hx, hy⟩)) _ a (Nat.le_refl _) ha with rfl | hb
      · exact .inl rfl
      · exact .inr ⟨d, a, e, hs, rfl, rfl, hb⟩

/-- the entry of a connected child -/
theorem in_ok {E : Edges} {ss : List (Powl α)} (hI : InnerOk E ss) {i j : Nat} (h : Rel ss.length E i j) :
    InKey E ss j (intoOf (subNodes E ss j)) ∧
    ∀ x, InKey E ss j x → x = intoOf (subNodes E ss j) ∨ InOrd E ss j (intoOf (subNodes E ss j)) x := by
  cases hs : subNodes E ss j with
  | none =>
    unfold InKey; rw [hs]; simp only [intoOf]
    exact ⟨trivial, fun x hx => .inl hx⟩
  | some d =>
    obtain ⟨h2, _⟩ := (subNodes_eq hs).2 ⟨i, h.1, .inr h.2.2⟩
    obtain ⟨e, he⟩ := head_of_length_one h2
    have hm : ∀ x, x ∈ startNodes d.1.length d.2 ↔ x = e := by rw [he]; simp
    have h0 := ((C23_start_end_nodes d.1.length d.2 e).1).1 ((hm e).2 rfl)
    have ho : intoOf (some d) = some e := by simp [intoOf, he]
    refine ⟨?_, ?_⟩
    · unfold InKey; rw [hs]; exact ⟨e, h0.1, ho⟩
    · intro x hx
      unfold InKey at hx; rw [hs] at hx
      obtain ⟨a, ha, rfl⟩ := hx
      rw [ho]
      rcases reach_start (hI j d hs) (e := e) (fun x hx hy => (hm x).1 (((C23_start_end_nodes _ _ x).1).2 ⟨hx, hy⟩)) _ a (Nat.le_refl _) ha with rfl | hb
      · exact .inl rfl
      · exact .inr ⟨d, e, a, hs, rfl, rfl, hb⟩

theorem inOrd_step {E : Edges} {ss : List (Powl α)} {i : Nat} {x y : Option Nat} (hi : i < ss.length) (h : InOrd E ss i x y) :
    Relation.TransGen (StepK E ss) (i, x) (i, y) := by
  obtain ⟨d, a, b, hs, rfl, rfl, hb⟩ := h
  induction hb with
  | single h =>
    refine .single ⟨(mem_keyList ..).2 ⟨hi, ?_⟩, (mem_keyList ..).2 ⟨hi, ?_⟩, ?_⟩
    · unfold InKey; simp only [hs]; exact ⟨_, h.1, rfl⟩
    · unfold InKey; simp only [hs]; exact ⟨_, h.2.1, rfl⟩
    · simp [edgeK, innerEdge, hs, h.2.2]
  | tail _ h ih =>
    refine .tail ih ⟨(mem_keyList ..).2 ⟨hi, ?_⟩, (mem_keyList ..).2 ⟨hi, ?_⟩, ?_⟩
    · unfold InKey; simp only [hs]; exact ⟨_, h.1, rfl⟩
    · unfold InKey; simp only [hs]; exact ⟨_, h.2.1, rfl⟩
    · simp [edgeK, innerEdge, hs, h.2.2]

/-- one edge of the outer order -/
theorem outer_step {E : Edges} {ss : List (Powl α)} (hI : InnerOk E ss) {i j : Nat} (h : Rel ss.length E i j) {x y : Option Nat}
    (hx : InKey E ss i x) (hy : InKey E ss j y) : Relation.TransGen (StepK E ss) (i, x) (j, y) := by
  obtain ⟨o1, o2⟩ := out_ok hI h
  obtain ⟨i1, i2⟩ := in_ok hI h
  have hs : Relation.TransGen (StepK E ss) (i, outOf (subNodes E ss i)) (j, intoOf (subNodes E ss j)) := by
    refine .single ⟨(mem_keyList ..).2 ⟨h.1, o1⟩, (mem_keyList ..).2 ⟨h.2.1, i1⟩, ?_⟩
    simp [edgeK, h.2.2]
  have h1 : Relation.TransGen (StepK E ss) (i, x) (j, intoOf (subNodes E ss j)) := by
    rcases o2 x hx with rfl | h'
    · exact hs
    · exact (inOrd_step h.1 h').trans hs
  rcases i2 y hy with rfl | h'
  · exact h1
  · exact h1.trans (inOrd_step h.2.1 h')

theorem stepK_iff {E : Edges} {ss : List (Powl α)} (hI : InnerOk E ss) (hE : ∀ i, ¬ Before ss.length E i i) {p q : Key}
    (hp : p ∈ keyList E ss) (hq : q ∈ keyList E ss) :
    Relation.TransGen (StepK E ss) p q ↔ Lang.Lex (Before ss.length E) (InOrd E ss) p q := by
  constructor
  · have one : ∀ {p q : Key}, StepK E ss p q → Lang.Lex (Before ss.length E) (InOrd E ss) p q := by
      rintro ⟨i, x⟩ ⟨j, y⟩ ⟨h1, h2, h3⟩
      have hi := ((mem_keyList ..).1 h1).1; have hj := ((mem_keyList ..).1 h2).1
      have k1 := ((mem_keyList ..).1 h1).2; have k2 := ((mem_keyList ..).1 h2).2
      simp only at hi hj k1 k2
      unfold edgeK at h3
      rw [Bool.or_eq_true] at h3
      rcases h3 with h3 | h3
      · simp only [Bool.and_eq_true, beq_iff_eq] at h3
        have hr : Rel ss.length E i j := ⟨hi, hj, h3.1.1⟩
        refine .inl ⟨?_, .single hr⟩
        rintro rfl
        exact hE _ (.single hr)
      · unfold innerEdge at h3
        cases x with
        | none => simp at h3
        | some a =>
        cases y with
        | none => simp at h3
        | some b =>
          simp only [Bool.and_eq_true, beq_iff_eq] at h3
          obtain ⟨rfl, h3⟩ := h3
          cases hs : subNodes E ss i with
          | none => rw [hs] at h3; simp at h3
          | some d =>
            rw [hs] at h3
            simp at h3
            unfold InKey at k1 k2
            rw [hs] at k1 k2
            obtain ⟨a', ha, ea⟩ := k1; obtain ⟨b', hb, eb⟩ := k2
            cases ea; cases eb
            exact .inr ⟨rfl, d, _, _, hs, rfl, rfl, .single ⟨ha, hb, h3⟩⟩
    have tr : ∀ {p q r : Key}, Lang.Lex (Before ss.length E) (InOrd E ss) p q → Lang.Lex (Before ss.length E) (InOrd E ss) q r →
        Lang.Lex (Before ss.length E) (InOrd E ss) p r := by
      rintro ⟨i, x⟩ ⟨j, y⟩ ⟨k, z⟩ (⟨h1, h2⟩ | ⟨h1, h2⟩) (⟨h3, h4⟩ | ⟨h3, h4⟩)
      · refine .inl ⟨?_, h2.trans h4⟩
        rintro e
        simp only at e h2 h4
        subst e
        exact hE _ (h2.trans h4)
      · simp only at h3 h4; subst h3; exact .inl ⟨h1, h2⟩
      · simp only at h1 h2; subst h1; exact .inl ⟨h3, h4⟩
      · simp only at h1 h2 h3 h4; subst h1; subst h3
        obtain ⟨d, a, b, hs, rfl, rfl, hb⟩ := h2
        obtain ⟨d', b', c, hs', e1, rfl, hc⟩ := h4
        rw [hs] at hs'; cases hs'; cases e1
        exact .inr ⟨rfl, d, a, c, hs, rfl, rfl, hb.trans hc⟩
    intro h
    clear hp hq
    induction h with
    | single h => exact one h
    | tail _ h ih => exact tr ih (one h)
  · obtain ⟨i, x⟩ := p
    obtain ⟨j, y⟩ := q
    have hi := (mem_keyList ..).1 hp; have hj := (mem_keyList ..).1 hq
    simp only at hi hj
    rintro (⟨_, h⟩ | ⟨h1, h2⟩)
    · simp only at h
      have key : ∀ {i j : Nat}, Before ss.length E i j → ∀ x y, InKey E ss i x → InKey E ss j y → Relation.TransGen (StepK E ss) (i, x) (j, y) := by
        intro i j h
        induction h with
        | single h => intro x y hx hy; exact outer_step hI h hx hy
        | tail _ h ih =>
          intro x y hx hy
          exact (ih x _ hx (out_ok hI h).1).trans (outer_step hI h (out_ok hI h).1 hy)
      exact key h x y hi.2 hj.2
    · simp only at h1 h2; subst h1; exact inOrd_step hi.1 h2

/-- the keys and their positions -/
theorem getD_key {E : Edges} {ss : List (Powl α)} {p : Nat} (h : p < (keyList E ss).length) : (keyList E ss).getD p (0, none) ∈ keyList E ss := by
  rw [List.getD_eq_getElem?_getD, List.getElem?_eq_getElem h]; exact List.getElem_mem h

theorem before_pos {E : Edges} {ss : List (Powl α)} {p q : Nat} (hp : p < (keyList E ss).length) (hq : q < (keyList E ss).length) :
    Before (keyList E ss).length (fun p q => edgeK E ss ((keyList E ss).getD p (0, none)) ((keyList E ss).getD q (0, none))) p q ↔
      Relation.TransGen (StepK E ss) ((keyList E ss).getD p (0, none)) ((keyList E ss).getD q (0, none)) := by
  constructor
  · intro h
    induction h with
    | single h => exact .single ⟨getD_key h.1, getD_key h.2.1, h.2.2⟩
    | tail _ h ih => exact .tail (ih h.1) ⟨getD_key h.1, getD_key h.2.1, h.2.2⟩
  · have nd := keyList_nodup E ss
    have inj : ∀ {a b : Nat}, a < (keyList E ss).length → b < (keyList E ss).length → (keyList E ss).getD a (0, none) = (keyList E ss).getD b (0, none) → a = b := by
      intro a b ha hb e
      rw [List.getD_eq_getElem?_getD, List.getD_eq_getElem?_getD, List.getElem?_eq_getElem ha, List.getElem?_eq_getElem hb] at e
      exact (List.getElem_inj nd).1 e
    have pos : ∀ k ∈ keyList E ss, ∃ a, a < (keyList E ss).length ∧ (keyList E ss).getD a (0, none) = k := by
      intro k hk
      obtain ⟨a, ha, e⟩ := List.getElem_of_mem hk
      exact ⟨a, ha, by rw [List.getD_eq_getElem?_getD, List.getElem?_eq_getElem ha]; exact e⟩
    intro h
    generalize hu : (keyList E ss).getD p (0, none) = u at h
    generalize hv : (keyList E ss).getD q (0, none) = v at h
    induction h generalizing q with
    | single h => subst hu; subst hv; exact .single ⟨hp, hq, h.2.2⟩
    | @tail b c _ h ih =>
      obtain ⟨r, hr, e⟩ := pos _ h.1
      subst hv
      refine .tail (ih hr e) ⟨hr, hq, ?_⟩
      show edgeK E ss _ _ = true
      rw [e]; exact h.2.2

theorem nodeAt_lang (E : Edges) (ss : List (Powl α)) {i : Nat} (hi : i < ss.length) (w : List α) :
    lang (nodeAt E ss (i, none)) w ↔ Lang.poG (InKey E ss i) (fun x => lang (nodeAt E ss (i, x))) (InOrd E ss i) w := by
  cases hs : subNodes E ss i with
  | none =>
    rw [Lang.poG_congr (R' := InOrd E ss i) (L' := fun x => lang (nodeAt E ss (i, x))) (fun _ _ _ => Iff.rfl) (fun _ _ _ _ => Iff.rfl)]
    have e : InKey E ss i = (· = none) := by funext x; unfold InKey; rw [hs]
    rw [e, Lang.poG_single none (fun x => lang (nodeAt E ss (i, x)))]
    rintro ⟨d, a, b, h, -⟩
    rw [hs] at h; cases h
  | some d =>
    have e0 : nodeAt E ss (i, none) = .po d.1 d.2 := by
      simp [nodeAt, (subNodes_eq hs).1]
    rw [e0, lang, langs_eq_map, Lang.poL_poG _ _ (fun k => lang (nodeAt E ss (i, some k)))]
    · rw [List.length_map]
      rw [Lang.poG_rename (I := (· < d.1.length)) (J := InKey E ss i) (fun a => some a) (fun x => x.getD 0)]
      · refine Lang.poG_congr ?_ ?_ w
        · intro x hx w
          unfold InKey at hx; rw [hs] at hx
          obtain ⟨a, _, rfl⟩ := hx
          exact Iff.rfl
        · intro x y hx hy
          unfold InKey at hx hy; rw [hs] at hx hy
          obtain ⟨a, _, rfl⟩ := hx; obtain ⟨b, _, rfl⟩ := hy
          constructor
          · intro h; exact ⟨d, a, b, hs, rfl, rfl, h⟩
          · rintro ⟨d', a', b', h1, h2, h3, h4⟩
            rw [hs] at h1; cases h1; cases h2; cases h3; exact h4
      · intro a ha
        refine ⟨?_, rfl⟩
        unfold InKey; rw [hs]; exact ⟨a, ha, rfl⟩
      · intro x hx
        unfold InKey at hx; rw [hs] at hx
        obtain ⟨a, ha, rfl⟩ := hx
        exact ⟨ha, rfl⟩
    · intro k l hl
      rw [List.getElem?_map] at hl
      obtain ⟨c, hc, rfl⟩ := Option.map_eq_some_iff.1 hl
      simp [nodeAt, hs, hc]

theorem innerOk_of_valid {E : Edges} {ss : List (Powl α)} (h : ∀ s ∈ ss, s.Valid) : InnerOk E ss := by
  intro i d hs
  have := h _ (List.mem_of_getElem? (subNodes_eq hs).1)
  cases this with
  | po _ _ _ h _ => exact h

theorem mergePo_acyclic {E : Edges} {ss : List (Powl α)} (hI : InnerOk E ss) (hE : ∀ i, ¬ Before ss.length E i i) (p : Nat) :
    ¬ Before (keyList E ss).length (fun p q => edgeK E ss ((keyList E ss).getD p (0, none)) ((keyList E ss).getD q (0, none))) p p := by
  intro h
  have hp := (before_lt h).1
  rcases (stepK_iff hI hE (getD_key hp) (getD_key hp)).1 ((before_pos hp hp).1 h) with ⟨h, _⟩ | ⟨_, d, a, b, hs, e1, e2, hb⟩
  · exact h rfl
  · rw [e1] at e2; cases e2; exact hI _ d hs a hb

/-- The merged partial order has the language of the nested one. -/
theorem mergePo_lang {E : Edges} {ss : List (Powl α)} (hI : InnerOk E ss) (hE : ∀ i, ¬ Before ss.length E i i) (w : List α) :
    (mergePo E ss).lang w ↔ (Powl.po ss E).lang w := by
  have hE' : ∀ k l, (ss.map lang)[k]? = some l → lang (nodeAt E ss (k, none)) = l := by
    intro k l hl
    rw [List.getElem?_map] at hl
    obtain ⟨c, hc, rfl⟩ := Option.map_eq_some_iff.1 hl
    simp [nodeAt, hc]
  have hM : ∀ k l, ((keyList E ss).map fun k => lang (nodeAt E ss k))[k]? = some l → lang (nodeAt E ss ((keyList E ss).getD k (0, none))) = l := by
    intro k l hl
    rw [List.getElem?_map] at hl
    obtain ⟨c, hc, rfl⟩ := Option.map_eq_some_iff.1 hl
    rw [List.getD_eq_getElem?_getD, hc]; rfl
  rw [show (Powl.po ss E).lang = Lang.poL (Before ss.length E) (ss.map lang) by rw [lang, langs_eq_map], Lang.poL_poG _ _ _ hE', List.length_map]
  rw [Lang.poG_congr (R' := Before ss.length E)
    (L' := fun i => Lang.poG (InKey E ss i) (fun x => lang (nodeAt E ss (i, x))) (InOrd E ss i)) (fun i hi w => nodeAt_lang E ss hi w) (fun _ _ _ _ => Iff.rfl)]
  rw [Lang.poG_nested (· < ss.length) (InKey E ss) (fun k => lang (nodeAt E ss k)) (Before ss.length E) (InOrd E ss) hE]
  rw [show (mergePo E ss).lang = Lang.poL (Before (keyList E ss).length fun p q => edgeK E ss ((keyList E ss).getD p (0, none)) ((keyList E ss).getD q (0, none)))
      ((keyList E ss).map fun k => lang (nodeAt E ss k)) by
    unfold mergePo
    simp only
    rw [lang, langs_eq_map, List.map_map, List.length_map]; rfl]
  rw [Lang.poL_poG _ _ _ hM, List.length_map]
  rw [Lang.poG_rename (I := fun k : Key => k.1 < ss.length ∧ InKey E ss k.1 k.2) (J := (· < (keyList E ss).length)) (fun k => (keyList E ss).idxOf k)
    (fun p => (keyList E ss).getD p (0, none))]
  · refine Lang.poG_congr (fun _ _ _ => Iff.rfl) ?_ w
    intro p q hp hq
    rw [before_pos hp hq, stepK_iff hI hE (getD_key hp) (getD_key hq)]
  · intro k hk
    have hm := (mem_keyList E ss k).2 hk
    refine ⟨List.idxOf_lt_length_of_mem hm, ?_⟩
    rw [List.getD_eq_getElem?_getD, List.getElem?_eq_getElem (List.idxOf_lt_length_of_mem hm)]
    simp
  · intro p hp
    refine ⟨(mem_keyList ..).1 (getD_key hp), ?_⟩
    rw [List.getD_eq_getElem?_getD, List.getElem?_eq_getElem hp]
    exact List.Nodup.idxOf_getElem (keyList_nodup E ss) p hp

end Powl
end Verif
