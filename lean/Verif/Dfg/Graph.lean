/-
Finite directed graphs given by edge lists: reachable sets (`networkx.descendants` / `ancestors`).
-/
namespace Verif
namespace Dfg

variable {N : Type} [DecidableEq N]

/-- there is a (possibly empty) path from `a` to the second argument using edges of `E` -/
inductive Path (E : List (N × N)) (a : N) : N → Prop
  | refl : Path E a a
  | step {b c} : Path E a b → (b, c) ∈ E → Path E a c

/-- saturate the set `S` under the edges of `E`, one new node at a time -/
def sat (E : List (N × N)) : Nat → List N → List N
  | 0, S => S
  | n + 1, S =>
    match E.find? (fun e => decide (e.1 ∈ S) && !decide (e.2 ∈ S)) with
    | none => S
    | some e => sat E n (e.2 :: S)

/-- the nodes reachable from `s` (including `s`) -/
def reach (E : List (N × N)) (s : N) : List N := sat E E.length [s]

/-- `networkx.descendants(G, s)`: the nodes reachable from `s`, without `s` itself
(third-party code, /repo/pm4py/util/nx_utils.py re-exports it). -/
def descendants (E : List (N × N)) (s : N) : List N := (reach E s).filter fun x => decide (x ≠ s)

/-- `networkx.ancestors(G, s)`: the nodes from which `s` can be reached, without `s` itself. -/
def ancestors (E : List (N × N)) (s : N) : List N :=
  (reach (E.map fun e => (e.2, e.1)) s).filter fun x => decide (x ≠ s)

/-! ### the computed sets are the reachable sets -/

theorem Path.trans {E : List (N × N)} {a b c : N} (h1 : Path E a b) (h2 : Path E b c) : Path E a c := by
  induction h2 with
  | refl => exact h1
  | step _ h3 ih => exact ih.step h3

theorem Path.edge {E : List (N × N)} {a b : N} (h : (a, b) ∈ E) : Path E a b := Path.refl.step h

theorem Path.mono {E F : List (N × N)} (h : ∀ e ∈ E, e ∈ F) {a b : N} (hp : Path E a b) : Path F a b := by
  induction hp with
  | refl => exact .refl
  | step _ h3 ih => exact ih.step (h _ h3)

theorem Path.swap {E : List (N × N)} {a b : N} (hp : Path E a b) : Path (E.map fun e => (e.2, e.1)) b a := by
  induction hp with
  | refl => exact .refl
  | @step b c _ h3 ih =>
    have h4 : (c, b) ∈ E.map fun e => (e.2, e.1) := List.mem_map.2 ⟨(b, c), h3, rfl⟩
    exact (Path.edge h4).trans ih

theorem Path.swap_iff {E : List (N × N)} {a b : N} : Path (E.map fun e => (e.2, e.1)) b a ↔ Path E a b := by
  constructor
  · intro h
    have := h.swap
    rw [List.map_map] at this
    have he : ((fun e : N × N => (e.2, e.1)) ∘ fun e : N × N => (e.2, e.1)) = id := by funext e; rfl
    rwa [he, List.map_id] at this
  · exact Path.swap

theorem sat_sound (E : List (N × N)) (a : N) (n : Nat) (S : List N) (h : ∀ x ∈ S, Path E a x) :
    ∀ x ∈ sat E n S, Path E a x := by
  induction n generalizing S with
  | zero => exact h
  | succ n ih =>
    rw [sat]
    split
    · exact h
    · rename_i e he
      apply ih
      intro x hx
      rcases List.mem_cons.1 hx with rfl | hx
      · have h1 := List.find?_some he
        simp only [Bool.and_eq_true, decide_eq_true_eq] at h1
        exact (h _ h1.1).step (List.mem_of_find?_eq_some he)
      · exact h x hx

theorem sat_sub (E : List (N × N)) (n : Nat) (S : List N) : ∀ x ∈ S, x ∈ sat E n S := by
  induction n generalizing S with
  | zero => exact fun _ h => h
  | succ n ih =>
    rw [sat]
    split
    · exact fun _ h => h
    · exact fun x hx => ih _ x (by simp [hx])

theorem sat_closed (E : List (N × N)) (n : Nat) (S : List N)
    (hn : (E.filter fun e => !decide (e.2 ∈ S)).length ≤ n) :
    ∀ e ∈ E, e.1 ∈ sat E n S → e.2 ∈ sat E n S := by
  induction n generalizing S with
  | zero =>
    intro e he _
    have h0 : E.filter (fun e => !decide (e.2 ∈ S)) = [] := List.length_eq_zero_iff.1 (by omega)
    have := (List.filter_eq_nil_iff.1 h0) e he
    simpa [sat] using this
  | succ n ih =>
    rw [sat]
    split
    · rename_i h
      intro e he h1
      have := List.find?_eq_none.1 h e he
      simp only [Bool.and_eq_true, decide_eq_true_eq] at this
      simp only [h1, true_and] at this
      simpa using this
    · rename_i e' he'
      apply ih
      have h1 := List.find?_some he'
      simp only [Bool.and_eq_true, decide_eq_true_eq, Bool.not_eq_true', decide_eq_false_iff_not] at h1
      have hm := List.mem_of_find?_eq_some he'
      have hlt : (E.filter fun e => !decide (e.2 ∈ e'.2 :: S)).length
          < (E.filter fun e => !decide (e.2 ∈ S)).length := by
        have hq : E.filter (fun e => !decide (e.2 ∈ e'.2 :: S)) =
            (E.filter fun e => !decide (e.2 ∈ S)).filter fun e => decide (e.2 ≠ e'.2) := by
          rw [List.filter_filter]
          apply List.filter_congr
          intro x _
          rw [Bool.eq_iff_iff]
          simp
        rw [hq]
        rcases Nat.lt_or_ge ((E.filter fun e : N × N => !decide (e.2 ∈ S)).filter fun e : N × N => decide (e.2 ≠ e'.2)).length
          (E.filter fun e : N × N => !decide (e.2 ∈ S)).length with h | h
        · exact h
        · exfalso
          have heq := List.filter_sublist.eq_of_length_le h
          have hmem : e' ∈ (E.filter fun e => !decide (e.2 ∈ S)) := List.mem_filter.2 ⟨hm, by simpa using h1.2⟩
          rw [← heq, List.mem_filter] at hmem
          simp at hmem
      omega

theorem mem_reach (E : List (N × N)) (s x : N) : x ∈ reach E s ↔ Path E s x := by
  constructor
  · apply sat_sound
    intro y hy
    rw [List.mem_singleton.1 hy]; exact .refl
  · intro h
    induction h with
    | refl => exact sat_sub _ _ _ _ (by simp)
    | step _ h3 ih => exact sat_closed E _ _ (List.length_filter_le _ _) _ h3 ih

theorem mem_descendants (E : List (N × N)) (s x : N) : x ∈ descendants E s ↔ x ≠ s ∧ Path E s x := by
  unfold descendants
  rw [List.mem_filter, mem_reach]
  simp [and_comm]

theorem mem_ancestors (E : List (N × N)) (s x : N) : x ∈ ancestors E s ↔ x ≠ s ∧ Path E x s := by
  unfold ancestors
  rw [List.mem_filter, mem_reach, Path.swap_iff]
  simp [and_comm]

end Dfg
end Verif
