import Verif.Common.ListX
/-
C21: /repo/pm4py/util/string_distance.py.
Strings are lists over any type of characters with decidable equality.
-/
namespace Verif.Lev
variable {α : Type} [DecidableEq α]

/-! ### Model -/

/-- One iteration of the inner loop (string_distance.py:33-37): appends an entry to `current_row`.
All indices are in range whenever the code runs (`row_eq` below shows the rows have the expected lengths), so
the default of `getD` is never used. -/
def cell (c1 : α) (prev : List Nat) (cur : List Nat) (jc : Nat × α) : List Nat :=
  let insertions := prev.getD (jc.1 + 1) 0 + 1
  let deletions := cur.getD jc.1 0 + 1
  let substitutions := prev.getD jc.1 0 + (if c1 ≠ jc.2 then 1 else 0)
  cur ++ [min (min insertions deletions) substitutions]

/-- `enumerate(s)` -/
def enum (s : List α) : List (Nat × α) := s.zipIdx.map fun p => (p.2, p.1)

/-- One iteration of the outer loop (string_distance.py:31-38). -/
def row (s2 : List α) (prev : List Nat) (ic : Nat × α) : List Nat :=
  (enum s2).foldl (cell ic.2 prev) [ic.1 + 1]

/-- `levenshtein_distance` behind the swap (string_distance.py:26-40). -/
def core (s1 s2 : List α) : Nat :=
  if s2.length = 0 then s1.length
  else ((enum s1).foldl (row s2) (List.range (s2.length + 1))).getLast?.getD 0

/-- `levenshtein_distance` (string_distance.py:22-40). -/
def levenshtein (s1 s2 : List α) : Nat :=
  if s1.length < s2.length then core s2 s1 else core s1 s2

/-- `sys.maxsize` on a 64 bit machine -/
def maxsize : Nat := 2 ^ 63 - 1

/-- The loop of `argmin_levenshtein` (string_distance.py:76-88); state `(argmin_dist, min_edit_dist)`. -/
def argminLoop (stru : List α) : List (List α) → Option (List α) × Nat → Option (List α) × Nat
  | [], st => st
  | comp :: rest, (best, m) =>
    if (comp.length - stru.length) + (stru.length - comp.length) ≥ m then (best, m)
    else
      let d := levenshtein stru comp
      argminLoop stru rest (if d < m then (some comp, d) else (best, m))

/-- `argmin_levenshtein` (string_distance.py:50-90).  `sorted` is a stable merge sort by the key
`abs(len(x) - len_stru)`. -/
def argmin (stru : List α) (l : List (List α)) : Option (List α) :=
  if l.isEmpty then none
  else (argminLoop stru (l.mergeSort fun x y =>
    decide ((x.length - stru.length) + (stru.length - x.length) ≤ (y.length - stru.length) + (stru.length - y.length)))
    (none, maxsize)).1

/-- The loop of `argmax_levenshtein` (string_distance.py:118-127). -/
def argmaxLoop (stru : List α) : List (List α) → Option (List α) × Nat → Option (List α) × Nat
  | [], st => st
  | comp :: rest, (best, m) =>
    if comp.length + stru.length ≤ m then (best, m)
    else
      let d := levenshtein stru comp
      argmaxLoop stru rest (if d > m then (some comp, d) else (best, m))

/-- `argmax_levenshtein` (string_distance.py:93-129). -/
def argmax (stru : List α) (l : List (List α)) : Option (List α) :=
  if l.isEmpty then none
  else (argmaxLoop stru (l.mergeSort fun x y => decide (y.length ≤ x.length)) (none, 0)).1

/-! ### Specification -/

/-- One edit: insert, delete or replace one character anywhere. -/
inductive Edit : List α → List α → Prop
  | insert (p s : List α) (a : α) : Edit (p ++ s) (p ++ a :: s)
  | delete (p s : List α) (a : α) : Edit (p ++ a :: s) (p ++ s)
  | replace (p s : List α) (a b : α) : Edit (p ++ a :: s) (p ++ b :: s)

/-- `n` edits turn `u` into `v`. -/
inductive Edits : Nat → List α → List α → Prop
  | refl (u : List α) : Edits 0 u u
  | step {n u v w} : Edits n u v → Edit v w → Edits (n + 1) u w

/-! ### Proofs -/

/-- textbook recursion -/
def ed : List α → List α → Nat
  | [], v => v.length
  | u, [] => u.length
  | a :: u, b :: v => min (min (ed u (b :: v) + 1) (ed (a :: u) v + 1)) (ed u v + if a ≠ b then 1 else 0)

@[simp] theorem ed_nil_left (v : List α) : ed [] v = v.length := by cases v <;> simp [ed]
@[simp] theorem ed_nil_right (v : List α) : ed v [] = v.length := by cases v <;> simp [ed]
theorem ed_cons (a b : α) (u v : List α) : ed (a :: u) (b :: v) =
    min (min (ed u (b :: v) + 1) (ed (a :: u) v + 1)) (ed u v + if a ≠ b then 1 else 0) := by simp [ed]

theorem ed_symm (u v : List α) : ed u v = ed v u := by
  induction u generalizing v with
  | nil => simp
  | cons a u ih =>
    induction v with
    | nil => simp
    | cons b v ih2 =>
      rw [ed_cons, ed_cons, ih, ih, ih2]
      have : (if a ≠ b then 1 else 0) = (if b ≠ a then 1 else 0) := by
        by_cases h : a = b <;> simp [h, eq_comm]
      rw [this]; omega

theorem ed_self (u : List α) : ed u u = 0 := by
  induction u with
  | nil => simp
  | cons a u ih => rw [ed_cons, ih]; simp

theorem ed_cons_le (a : α) (u v : List α) : ed (a :: u) v ≤ ed u v + 1 := by
  cases v with
  | nil => simp
  | cons b v => rw [ed_cons]; omega

theorem ed_le_cons (a : α) (u v : List α) : ed u v ≤ ed (a :: u) v + 1 := by
  induction v with
  | nil => simp; omega
  | cons b v ih =>
    have h1 : ed u (b :: v) ≤ ed u v + 1 := by rw [ed_symm u, ed_symm u]; exact ed_cons_le b v u
    rw [ed_cons]; omega

theorem ed_subst (a b : α) (u v : List α) : ed (b :: u) v ≤ ed (a :: u) v + 1 := by
  induction v with
  | nil => simp
  | cons c v ih => rw [ed_cons, ed_cons]; split <;> split <;> omega

theorem ed_edit {u u' : List α} (h : Edit u u') (v : List α) : ed u' v ≤ ed u v + 1 := by
  have cong : ∀ (p s s' : List α), (∀ v, ed s' v ≤ ed s v + 1) → ∀ v, ed (p ++ s') v ≤ ed (p ++ s) v + 1 := by
    intro p
    induction p with
    | nil => intro s s' h; exact h
    | cons c p ih =>
      intro s s' h v
      have hp := ih s s' h
      induction v with
      | nil => have := hp []; simp at this ⊢; omega
      | cons d v ih2 =>
        have h1 := hp v
        have h2 := hp (d :: v)
        simp only [List.cons_append] at *
        rw [ed_cons, ed_cons]
        omega
  cases h with
  | insert p s a => exact cong p _ _ (ed_cons_le a s) v
  | delete p s a => exact cong p _ _ (ed_le_cons a s) v
  | replace p s a b => exact cong p _ _ (ed_subst a b s) v

theorem ed_le_edits {n : Nat} {u v : List α} (h : Edits n u v) : ed u v ≤ n := by
  induction h with
  | refl u => rw [ed_self]; omega
  | step _ hs ih =>
    have := ed_edit hs
    rename_i n u v w _
    have h1 := this u
    rw [ed_symm w, ed_symm v] at h1
    omega

theorem Edits.trans {n m : Nat} {u v w : List α} (h1 : Edits n u v) (h2 : Edits m v w) : Edits (n + m) u w := by
  induction h2 with
  | refl => exact h1
  | step _ hs ih => exact .step (ih h1) hs

theorem Edit.cons {u v : List α} (c : α) (h : Edit u v) : Edit (c :: u) (c :: v) := by
  cases h with
  | insert p s a => exact .insert (c :: p) s a
  | delete p s a => exact .delete (c :: p) s a
  | replace p s a b => exact .replace (c :: p) s a b

theorem Edits.cons {n : Nat} {u v : List α} (c : α) (h : Edits n u v) : Edits n (c :: u) (c :: v) := by
  induction h with
  | refl => exact .refl _
  | step _ hs ih => exact .step ih (hs.cons c)

theorem Edit.reverse {u v : List α} (h : Edit u v) : Edit u.reverse v.reverse := by
  cases h with
  | insert p s a => simpa using Edit.insert s.reverse p.reverse a
  | delete p s a => simpa using Edit.delete s.reverse p.reverse a
  | replace p s a b => simpa using Edit.replace s.reverse p.reverse a b

theorem Edits.reverse {n : Nat} {u v : List α} (h : Edits n u v) : Edits n u.reverse v.reverse := by
  induction h with
  | refl => exact .refl _
  | step _ hs ih => exact .step ih hs.reverse

theorem edits_delete_all (u : List α) : Edits u.length u [] := by
  induction u with
  | nil => exact .refl _
  | cons a u ih =>
    have h1 : Edits 1 (a :: u) u := .step (.refl _) (.delete [] u a)
    have := h1.trans ih
    simpa [Nat.add_comm] using this

theorem edits_insert_all (u : List α) : Edits u.length [] u := by
  induction u with
  | nil => exact .refl _
  | cons a u ih => exact .step ih (.insert [] u a)

theorem edits_ed (u v : List α) : Edits (ed u v) u v := by
  induction u generalizing v with
  | nil => simpa using edits_insert_all v
  | cons a u ih =>
    induction v with
    | nil => simpa using edits_delete_all (a :: u)
    | cons b v ih2 =>
      rw [ed_cons]
      have h1 : Edits (ed u (b :: v) + 1) (a :: u) (b :: v) := by
        have : Edits 1 (a :: u) u := .step (.refl _) (.delete [] u a)
        have := this.trans (ih (b :: v))
        rwa [Nat.add_comm] at this
      have h2 : Edits (ed (a :: u) v + 1) (a :: u) (b :: v) := .step ih2 (.insert [] v b)
      have h3 : Edits (ed u v + if a ≠ b then 1 else 0) (a :: u) (b :: v) := by
        by_cases hab : a = b
        · subst hab; simpa using (ih v).cons a
        · simp only [ne_eq, hab, not_false_eq_true, if_true]
          exact .step ((ih v).cons a) (.replace [] v a b)
      have : ∀ x y : Nat, min x y = x ∨ min x y = y := by intro x y; omega
      rcases this (min (ed u (b :: v) + 1) (ed (a :: u) v + 1)) (ed u v + if a ≠ b then 1 else 0) with h | h <;> rw [h]
      · rcases this (ed u (b :: v) + 1) (ed (a :: u) v + 1) with h | h <;> rw [h]
        · exact h1
        · exact h2
      · exact h3

/-- the row of the dynamic programme for the prefix `p` (reversed) of `s1` -/
def target (p : List α) (s2 : List α) : List Nat :=
  (List.range (s2.length + 1)).map fun j => ed p (s2.take j).reverse

theorem enum_append (s : List α) (c : α) : enum (s ++ [c]) = enum s ++ [(s.length, c)] := by
  simp [enum, List.zipIdx_append]

theorem target_getD (p s2 : List α) (j : Nat) (h : j ≤ s2.length) : (target p s2).getD j 0 = ed p (s2.take j).reverse := by
  unfold target
  rw [List.getD_eq_getElem?_getD, List.getElem?_map, List.getElem?_range (by omega)]
  rfl

theorem row_fold (c1 : α) (p s2 : List α) (t : List α) (h : t <+: s2) :
    (enum t).foldl (cell c1 (target p s2)) [p.length + 1] = target (c1 :: p) t := by
  induction t using snocInduct with
  | nil => simp [enum, target]
  | snoc t b ih =>
    have ht : t <+: s2 := by obtain ⟨r, rfl⟩ := h; exact ⟨[b] ++ r, by simp⟩
    rw [enum_append, List.foldl_append, ih ht]
    obtain ⟨r, rfl⟩ := h
    simp only [List.foldl_cons, List.foldl_nil, cell]
    rw [target_getD _ _ _ (by simp), target_getD _ _ _ (by simp), target_getD _ _ _ (by simp)]
    have e1 : (t ++ [b] ++ r).take (t.length + 1) = t ++ [b] := by
      rw [List.take_append_of_le_length (by simp), List.take_of_length_le (by simp)]
    have e2 : (t ++ [b] ++ r).take t.length = t := by
      rw [List.append_assoc, List.take_append_of_le_length (by simp)]; simp
    rw [e1, e2]
    unfold target
    simp only [List.length_append, List.length_singleton]
    rw [List.range_succ (n := t.length + 1), List.map_append]
    congr 1
    · apply List.map_congr_left
      intro j hj
      have : j ≤ t.length := by simp at hj; omega
      rw [List.take_append_of_le_length this]
    · simp only [List.map_cons, List.map_nil, List.take_length, List.reverse_append, List.reverse_cons,
        List.reverse_nil, List.nil_append, List.singleton_append]
      rw [List.take_of_length_le (by simp)]
      simp only [List.reverse_append, List.reverse_cons, List.reverse_nil, List.nil_append, List.singleton_append]
      rw [ed_cons]

theorem row_eq (s1 s2 : List α) : (enum s1).foldl (row s2) (List.range (s2.length + 1)) = target s1.reverse s2 := by
  induction s1 using snocInduct with
  | nil =>
    simp only [enum, List.zipIdx_nil, List.map_nil, List.foldl_nil, target, List.reverse_nil]
    conv => lhs; rw [← List.map_id (List.range (s2.length + 1))]
    apply List.map_congr_left
    intro j hj
    simp at hj ⊢; omega
  | snoc s1 c ih =>
    rw [enum_append, List.foldl_append, ih]
    simp only [List.foldl_cons, List.foldl_nil, row, List.reverse_append, List.reverse_cons, List.reverse_nil,
      List.nil_append, List.singleton_append]
    have := row_fold c s1.reverse s2 s2 (List.prefix_refl _)
    simpa using this

theorem core_eq (s1 s2 : List α) : core s1 s2 = ed s1.reverse s2.reverse := by
  unfold core
  split
  · rename_i h
    have : s2 = [] := List.eq_nil_of_length_eq_zero h
    subst this; simp
  · rw [row_eq, target, List.range_succ, List.map_append, List.getLast?_append]
    simp

theorem lev_eq (s1 s2 : List α) : levenshtein s1 s2 = ed s1.reverse s2.reverse := by
  unfold levenshtein
  split
  · rw [core_eq, ed_symm]
  · rw [core_eq]

end Lev

open Lev
section
variable {α : Type} [DecidableEq α]

/-- C21: `levenshtein_distance` is attained by a sequence of edits and no shorter sequence of edits exists. -/
theorem C21_levenshtein_minimal (s1 s2 : List α) :
    Edits (levenshtein s1 s2) s1 s2 ∧ ∀ n, Edits n s1 s2 → levenshtein s1 s2 ≤ n := by
  rw [lev_eq]
  constructor
  · have := (edits_ed s1.reverse s2.reverse).reverse
    simpa using this
  · intro n h
    exact ed_le_edits h.reverse

/-- C21: the distance is 0 exactly for equal strings. -/
theorem C21_zero (s1 s2 : List α) : levenshtein s1 s2 = 0 ↔ s1 = s2 := by
  constructor
  · intro h
    have := (C21_levenshtein_minimal s1 s2).1
    rw [h] at this
    cases this; rfl
  · rintro rfl; rw [lev_eq, ed_self]

/-- C21: symmetry. -/
theorem C21_symm (s1 s2 : List α) : levenshtein s1 s2 = levenshtein s2 s1 := by
  rw [lev_eq, lev_eq, ed_symm]

/-- C21: triangle inequality. -/
theorem C21_triangle (s1 s2 s3 : List α) : levenshtein s1 s3 ≤ levenshtein s1 s2 + levenshtein s2 s3 :=
  (C21_levenshtein_minimal s1 s3).2 _ ((C21_levenshtein_minimal s1 s2).1.trans (C21_levenshtein_minimal s2 s3).1)

/-- C21: the distance is at least the difference of the lengths … -/
theorem C21_length_diff (s1 s2 : List α) :
    (s1.length - s2.length) + (s2.length - s1.length) ≤ levenshtein s1 s2 := by
  have key : ∀ {n : Nat} {u v : List α}, Edits n u v → u.length ≤ v.length + n ∧ v.length ≤ u.length + n := by
    intro n u v h
    induction h with
    | refl => simp
    | step _ hs ih => cases hs <;> simp at * <;> omega
  have := key (C21_levenshtein_minimal s1 s2).1
  omega

/-- … and at most the sum of the lengths. -/
theorem C21_length_sum (s1 s2 : List α) : levenshtein s1 s2 ≤ s1.length + s2.length :=
  (C21_levenshtein_minimal s1 s2).2 _ ((edits_delete_all s1).trans (edits_insert_all s2))

theorem Lev.argminLoop_spec (stru : List α) (l : List (List α)) (best : Option (List α)) (m : Nat)
    (hs : l.Pairwise fun x y => (x.length - stru.length) + (stru.length - x.length) ≤
      (y.length - stru.length) + (stru.length - y.length)) :
    let r := argminLoop stru l (best, m)
    r.2 ≤ m ∧ (∀ x ∈ l, r.2 ≤ levenshtein stru x) ∧
      ((r = (best, m)) ∨ ∃ x ∈ l, r.1 = some x ∧ r.2 = levenshtein stru x) := by
  induction l generalizing best m with
  | nil => simp [argminLoop]
  | cons c l ih =>
    rw [List.pairwise_cons] at hs
    simp only [argminLoop]
    split
    · rename_i h
      refine ⟨Nat.le_refl _, ?_, .inl rfl⟩
      intro x hx
      have h1 := C21_length_diff stru x
      rcases List.mem_cons.1 hx with rfl | hx
      · simp only; omega
      · have := hs.1 x hx; simp only; omega
    · by_cases hd : levenshtein stru c < m
      · simp only [hd, if_true]
        obtain ⟨h1, h2, h3⟩ := ih (some c) (levenshtein stru c) hs.2
        refine ⟨by omega, ?_, ?_⟩
        · intro x hx
          rcases List.mem_cons.1 hx with rfl | hx
          · exact h1
          · exact h2 x hx
        · rcases h3 with h3 | ⟨x, hx, h3⟩
          · exact .inr ⟨c, by simp, by rw [h3], by rw [h3]⟩
          · exact .inr ⟨x, by simp [hx], h3⟩
      · simp only [hd, if_false]
        obtain ⟨h1, h2, h3⟩ := ih best m hs.2
        refine ⟨h1, ?_, ?_⟩
        · intro x hx
          rcases List.mem_cons.1 hx with rfl | hx
          · omega
          · exact h2 x hx
        · rcases h3 with h3 | ⟨x, hx, h3⟩
          · exact .inl h3
          · exact .inr ⟨x, by simp [hx], h3⟩

/-- C21: `argmin_levenshtein` returns an element of the list at minimal distance, despite sorting and leaving
the loop early (for strings shorter than `sys.maxsize` together). -/
theorem C21_argmin (stru : List α) (l : List (List α)) (hne : l ≠ [])
    (hlen : ∀ x ∈ l, stru.length + x.length < maxsize) :
    ∃ x ∈ l, argmin stru l = some x ∧ ∀ y ∈ l, levenshtein stru x ≤ levenshtein stru y := by
  have hs : (l.mergeSort fun x y => decide ((x.length - stru.length) + (stru.length - x.length) ≤
      (y.length - stru.length) + (stru.length - y.length))).Pairwise fun x y =>
      (x.length - stru.length) + (stru.length - x.length) ≤ (y.length - stru.length) + (stru.length - y.length) := by
    have := List.pairwise_mergeSort (le := fun (x y : List α) => decide ((x.length - stru.length) + (stru.length - x.length) ≤
      (y.length - stru.length) + (stru.length - y.length))) (by intro a b c; simp; omega) (by intro a b; simp; omega) l
    simpa using this
  unfold argmin
  rw [if_neg (by simpa using hne)]
  have hmem : ∀ x, x ∈ (l.mergeSort fun x y => decide ((x.length - stru.length) + (stru.length - x.length) ≤
      (y.length - stru.length) + (stru.length - y.length))) ↔ x ∈ l := fun x => List.mem_mergeSort
  generalize (l.mergeSort fun x y => decide ((x.length - stru.length) + (stru.length - x.length) ≤
      (y.length - stru.length) + (stru.length - y.length))) = l' at hs hmem
  obtain ⟨h1, h2, h3⟩ := argminLoop_spec stru l' none maxsize hs
  rcases h3 with h3 | ⟨x, hx, h4, h5⟩
  · exfalso
    obtain ⟨x, hx⟩ := List.exists_mem_of_ne_nil l hne
    have := h2 x ((hmem x).2 hx)
    rw [h3] at this
    have := hlen x hx
    have := C21_length_sum stru x
    simp only at *; omega
  · exact ⟨x, (hmem x).1 hx, h4, fun y hy => h5 ▸ h2 y ((hmem y).2 hy)⟩

theorem Lev.argmaxLoop_spec (stru : List α) (l : List (List α)) (best : Option (List α)) (m : Nat)
    (hs : l.Pairwise fun x y => y.length ≤ x.length) :
    let r := argmaxLoop stru l (best, m)
    m ≤ r.2 ∧ (∀ x ∈ l, levenshtein stru x ≤ r.2) ∧
      ((r = (best, m)) ∨ ∃ x ∈ l, r.1 = some x ∧ r.2 = levenshtein stru x) := by
  induction l generalizing best m with
  | nil => simp [argmaxLoop]
  | cons c l ih =>
    rw [List.pairwise_cons] at hs
    simp only [argmaxLoop]
    split
    · rename_i h
      refine ⟨Nat.le_refl _, ?_, .inl rfl⟩
      intro x hx
      have h1 := C21_length_sum stru x
      rcases List.mem_cons.1 hx with rfl | hx
      · simp only; omega
      · have := hs.1 x hx; simp only; omega
    · by_cases hd : levenshtein stru c > m
      · simp only [hd, if_true]
        obtain ⟨h1, h2, h3⟩ := ih (some c) (levenshtein stru c) hs.2
        refine ⟨by omega, ?_, ?_⟩
        · intro x hx
          rcases List.mem_cons.1 hx with rfl | hx
          · exact h1
          · exact h2 x hx
        · rcases h3 with h3 | ⟨x, hx, h3⟩
          · exact .inr ⟨c, by simp, by rw [h3], by rw [h3]⟩
          · exact .inr ⟨x, by simp [hx], h3⟩
      · simp only [hd, if_false]
        obtain ⟨h1, h2, h3⟩ := ih best m hs.2
        refine ⟨h1, ?_, ?_⟩
        · intro x hx
          rcases List.mem_cons.1 hx with rfl | hx
          · omega
          · exact h2 x hx
        · rcases h3 with h3 | ⟨x, hx, h3⟩
          · exact .inl h3
          · exact .inr ⟨x, by simp [hx], h3⟩

/-- C21: `argmax_levenshtein` returns an element at maximal distance, if some candidate differs from the string. -/
theorem C21_argmax (stru : List α) (l : List (List α)) (hne : ∃ y ∈ l, y ≠ stru) :
    ∃ x ∈ l, argmax stru l = some x ∧ ∀ y ∈ l, levenshtein stru y ≤ levenshtein stru x := by
  have hs : (l.mergeSort fun x y => decide (y.length ≤ x.length)).Pairwise fun x y => y.length ≤ x.length := by
    have := List.pairwise_mergeSort (le := fun (x y : List α) => decide (y.length ≤ x.length))
      (by intro a b c; simp; omega) (by intro a b; simp; omega) l
    simpa using this
  obtain ⟨y0, hy0, hd⟩ := hne
  unfold argmax
  rw [if_neg (by cases l <;> simp at *)]
  have hmem : ∀ x, x ∈ (l.mergeSort fun x y => decide (y.length ≤ x.length)) ↔ x ∈ l := fun x => List.mem_mergeSort
  generalize (l.mergeSort fun x y => decide (y.length ≤ x.length)) = l' at hs hmem
  obtain ⟨h1, h2, h3⟩ := argmaxLoop_spec stru l' none 0 hs
  rcases h3 with h3 | ⟨x, hx, h4, h5⟩
  · exfalso
    have h6 := h2 y0 ((hmem y0).2 hy0)
    rw [h3] at h6
    have h7 : levenshtein stru y0 = 0 := by simp only at h6; omega
    exact hd ((C21_zero _ _).1 h7).symm
  · exact ⟨x, (hmem x).1 hx, h4, fun y hy => h5 ▸ h2 y ((hmem y).2 hy)⟩

/-- C21, refuted without that condition: `argmax_levenshtein` returns `None` for a non-empty list. -/
theorem C21_argmax_refuted (stru : List α) (n : Nat) : argmax stru (List.replicate (n + 1) stru) = none := by
  unfold argmax
  rw [if_neg (by simp [List.replicate_succ])]
  have key : ∀ l : List (List α), (∀ x ∈ l, x = stru) → (argmaxLoop stru l (none, 0)).1 = none := by
    intro l
    induction l with
    | nil => intro _; rfl
    | cons c l ih =>
      intro h
      have hc := h c (by simp)
      subst hc
      simp only [argmaxLoop, (C21_zero c c).2 rfl]
      split
      · rfl
      · exact ih fun x hx => h x (by simp [hx])
  exact key _ fun x hx => by
    rw [List.mem_mergeSort] at hx
    exact List.eq_of_mem_replicate hx

example : levenshtein "kitten".toList "sitting".toList = 3 := by decide
example : ∃ l : List (List Char), l ≠ [] ∧ ∀ x ∈ l, "ab".toList.length + x.length < maxsize :=
  ⟨["a".toList, "abcd".toList, "b".toList], by simp, by decide⟩
example : ∃ y ∈ (["ab".toList, "b".toList] : List (List Char)), y ≠ "ab".toList := ⟨"b".toList, by decide, by decide⟩
end
end Verif
