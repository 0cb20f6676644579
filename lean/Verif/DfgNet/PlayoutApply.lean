import Verif.DfgNet.PlayoutTheorems
import Mathlib.Data.List.MinMax
set_option linter.unusedSectionVars false
/-
C44: what `apply` of the DFG playout keeps, and where the documentation of it fails.
-/
namespace Verif.DfgNet
variable {α : Type} [DecidableEq α]

theorem pick_nil {pick : List (Rat × List α) → Option ((Rat × List α) × List (Rat × List α))} (hp : Picks pick) :
    pick [] = none := by
  cases h : pick [] with
  | none => rfl
  | some y => exact absurd (hp.1 _ _ _ h).symm.eq_nil (by simp)

theorem pick_single {pick : List (Rat × List α) → Option ((Rat × List α) × List (Rat × List α))} (hp : Picks pick)
    (x : Rat × List α) : pick [x] = some (x, []) := by
  cases h : pick [x] with
  | none => exact absurd (hp.2 _ h) (by simp)
  | some y =>
    have := (hp.1 _ _ _ h).symm
    rw [List.perm_singleton] at this
    obtain ⟨a, b⟩ := y
    simp at this
    simp [this]

theorem prun_final (g : Graph α) (maxOcc : Nat) {pick : List (Rat × List α) → Option ((Rat × List α) × List (Rat × List α))}
    (hp : Picks pick) (n : Nat) (st : PState α) (h : prun g maxOcc pick n = some st) (he : st.partials = []) (k : Nat) :
    prun g maxOcc pick (n + k) = some st := by
  induction k with
  | zero => exact h
  | succ k ih =>
    show (prun g maxOcc pick (n + k)).bind (pstep g maxOcc pick) = some st
    rw [ih]
    show pstep g maxOcc pick st = some st
    unfold pstep
    rw [he, pick_nil hp]

theorem collect_take (N : Nat) (hN : 1 ≤ N) (l : List (List α × Rat)) (hl : ∀ x ∈ l, 0 < x.2) (m : Nat) (f : List (List α × Rat)) :
    collect N 1 l m f = f ++ l.take (N - f.length) := by
  induction l generalizing m f with
  | nil => simp [collect]
  | cons x l ih =>
    obtain ⟨w, p⟩ := x
    rw [collect]
    by_cases h : f.length ≥ N
    · rw [if_pos h]
      have : N - f.length = 0 := by omega
      simp [this]
    · rw [if_neg h]
      have hp : 0 < p := hl (w, p) (by simp)
      have hc : 1 ≤ (p * N).ceil.toNat := by
        have h1 : (0 : Rat) < p * N := mul_pos hp (by exact_mod_cast hN)
        have h2 := Rat.le_ceil (x := p * N)
        have h3 : (0 : Rat) < ((p * N).ceil : Rat) := lt_of_lt_of_le h1 h2
        have h4 : 0 < (p * N).ceil := by exact_mod_cast h3
        omega
      rw [if_neg (by intro hh; omega), ih fun y hy => hl y (by simp [hy])]
      have : N - f.length = (N - (f ++ [(w, p)]).length) + 1 := by simp; omega
      rw [this, List.take_succ_cons]
      simp

/-- **C44.** With the default options, `apply` keeps the first `N` (`max_no_variants`) traces yielded; so whenever the graph has
at most `N` traces with at most `maxOcc` occurrences of each activity, all of them are returned. -/
theorem _root_.Verif.C44_playout_kept (g : Graph α) (hc : Complete g) (maxOcc : Nat) (hm : 1 ≤ maxOcc) (N : Nat) (hN : 1 ≤ N)
    (pick : List (Rat × List α) → Option ((Rat × List α) × List (Rat × List α))) (hp : Picks pick) (n : Nat) (st : PState α)
    (h : prun g maxOcc pick n = some st) (he : st.partials = []) :
    collect N 1 st.yielded 0 [] = st.yielded.take N ∧
    (st.yielded.length ≤ N → ∀ w, w ∈ (collect N 1 st.yielded 0 []).map Prod.fst ↔
      DfgTrace (g.arcs.map Prod.fst) (g.starts.map Prod.fst) (g.ends.map Prod.fst) w ∧ ∀ a, w.count a ≤ maxOcc) := by
  obtain ⟨n', st', h1, h2, _, h4⟩ := C44_playout g hc maxOcc hm pick hp
  have hst : st = st' := by
    have e1 := prun_final g maxOcc hp n st h he n'
    have e2 := prun_final g maxOcc hp n' st' h1 h2 n
    rw [Nat.add_comm, e1] at e2
    exact Option.some.inj e2
  subst hst
  have hpos : ∀ x ∈ st.yielded, 0 < x.2 := by
    rintro ⟨w, p⟩ hx
    obtain ⟨a, b, c⟩ := (h4 w p).1 hx
    show 0 < p
    rw [c, ← (C44_trace_probability g hc w).1]
    exact (C44_trace_probability g hc w).2.1 a
  have hk : collect N 1 st.yielded 0 [] = st.yielded.take N := by
    rw [collect_take N hN _ hpos]; simp
  refine ⟨hk, fun hle w => ?_⟩
  rw [hk, List.take_of_length_le hle, List.mem_map]
  constructor
  · rintro ⟨⟨w, p⟩, hx, rfl⟩
    exact ⟨((h4 w p).1 hx).1, ((h4 w p).1 hx).2.1⟩
  · intro hw
    exact ⟨(w, Prob g w), (h4 _ _).2 ⟨hw.1, hw.2, rfl⟩, rfl⟩

/-- One start `0`; 1 of 10 ends there, 9 of 10 go on to `1` and end. -/
def gOrder : Graph Nat := { arcs := [((0, 1), 9)], starts := [(0, 10)], ends := [(0, 1), (1, 9)] }

theorem gOrder_complete : Complete gOrder := by
  refine ⟨by decide, by decide, ?_⟩
  intro a ha
  rcases ha with ha | ⟨e, he, rfl⟩
  · revert a; decide
  · revert e; decide

theorem gOrder_run (pick : List (Rat × List Nat) → Option ((Rat × List Nat) × List (Rat × List Nat))) (hp : Picks pick) :
    prun gOrder 2 pick 2 = some { partials := [], yielded := [([0], 1 / 10), ([0, 1], 9 / 10)] } := by
  have h0 : prun gOrder 2 pick 0 = some { partials := [(1, [0])], yielded := [] } := by
    show some _ = some _
    congr 2
    decide +kernel
  have h1 : prun gOrder 2 pick 1 = some { partials := [(9 / 10, [0, 1])], yielded := [([0], 1 / 10)] } := by
    show (prun gOrder 2 pick 0).bind _ = _
    rw [h0]
    show pstep gOrder 2 pick _ = _
    unfold pstep
    simp only [pick_single hp]
    have : shares gOrder 0 = some [(some 1, 9 / 10), (none, 1 / 10)] := by decide +kernel
    simp only [List.getLast?_singleton, this]
    simp [extend]
  show (prun gOrder 2 pick 1).bind _ = _
  rw [h1]
  show pstep gOrder 2 pick _ = _
  unfold pstep
  simp only [pick_single hp]
  have : shares gOrder 1 = some [(none, 1)] := by decide +kernel
  have hl : ([0, 1] : List Nat).getLast? = some 1 := rfl
  simp only [hl, this]
  simp [extend]

/-- **C44, refuted.** "The playout returns the most likely traces first" fails, for every heap: here `[0]` (probability 1/10)
is yielded before `[0, 1]` (9/10), and with `max_no_variants = 1` only the less likely trace is returned. -/
theorem _root_.Verif.C44_playout_order_refuted :
    ¬ ∀ (g : Graph Nat) (pick : List (Rat × List Nat) → Option ((Rat × List Nat) × List (Rat × List Nat))),
      Complete g → Picks pick → (∀ l x rest, pick l = some (x, rest) → ∀ y ∈ l, y.1 ≤ x.1) →
      ∀ n st, prun g 2 pick n = some st → st.partials = [] →
      ∀ x ∈ collect 1 1 st.yielded 0 [], ∀ w, DfgTrace (g.arcs.map Prod.fst) (g.starts.map Prod.fst) (g.ends.map Prod.fst) w →
        (∀ a, w.count a ≤ 2) → Prob g w ≤ x.2 := by
  intro H
  -- a heap that returns the largest probability
  let pick : List (Rat × List Nat) → Option ((Rat × List Nat) × List (Rat × List Nat)) := fun l =>
    match l.argmax (fun x => x.1) with
    | none => none
    | some x => some (x, l.erase x)
  have hp : Picks pick := by
    constructor
    · intro l x rest h
      simp only [pick] at h
      cases hm : l.argmax (fun x => x.1) with
      | none => rw [hm] at h; cases h
      | some y =>
        rw [hm] at h
        cases h
        exact List.perm_cons_erase (List.argmax_mem hm)
    · intro l h
      simp only [pick] at h
      cases hm : l.argmax (fun x => x.1) with
      | none => exact List.argmax_eq_none.1 hm
      | some y => rw [hm] at h; cases h
  have hmax : ∀ l x rest, pick l = some (x, rest) → ∀ y ∈ l, y.1 ≤ x.1 := by
    intro l x rest h y hy
    simp only [pick] at h
    cases hm : l.argmax (fun x => x.1) with
    | none => rw [hm] at h; cases h
    | some z =>
      rw [hm] at h
      cases h
      exact List.le_of_mem_argmax hy hm
  have h := H gOrder pick gOrder_complete hp hmax 2 _ (gOrder_run pick hp) rfl
  have hc : collect 1 1 [([0], (1 : Rat) / 10), ([0, 1], 9 / 10)] 0 [] = [(([0] : List Nat), (1 : Rat) / 10)] := by decide +kernel
  rw [hc] at h
  have h2 := h ([0], 1 / 10) (by simp) [0, 1]
    (by rw [dfgTrace_iff]; exact ⟨0, by decide, [1], rfl, by simp [Tail, gOrder]⟩)
    (by intro a; simp [List.count_cons]; split <;> split <;> omega)
  have h3 : Prob gOrder [0, 1] = 9 / 10 := by decide +kernel
  rw [h3] at h2
  revert h2
  decide +kernel

/-- **C44, refuted.** Without completeness the playout raises: an activity that is reached but neither left nor an end activity
is a missing key, for every heap. -/
theorem _root_.Verif.C44_playout_dead_end_refuted :
    ¬ ∀ (g : Graph Nat), (g.arcs.map Prod.fst).Nodup → (∀ e ∈ g.arcs, 0 < e.2) →
      (∀ e ∈ g.starts, 0 < e.2) → (∀ e ∈ g.ends, 0 < e.2) →
      ∃ pick, Picks pick ∧ ∀ n, (prun g 2 pick n).isSome := by
  intro H
  obtain ⟨pick, hp, h⟩ := H { arcs := [], starts := [(0, 1)], ends := [(1, 1)] } (by decide) (by decide) (by decide) (by decide)
  have h1 := h 1
  have h0 : prun ({ arcs := [], starts := [(0, 1)], ends := [(1, 1)] } : Graph Nat) 2 pick 0 =
      some { partials := [(1, [0])], yielded := [] } := by
    show some _ = some _
    congr 2
    decide +kernel
  have : prun ({ arcs := [], starts := [(0, 1)], ends := [(1, 1)] } : Graph Nat) 2 pick 1 = none := by
    show (prun _ 2 pick 0).bind _ = _
    rw [h0]
    show pstep _ 2 pick _ = _
    unfold pstep
    simp only [pick_single hp]
    rfl
  rw [this] at h1
  cases h1

end Verif.DfgNet
