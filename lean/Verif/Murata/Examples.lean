import Verif.Murata.Theorems
import Mathlib.Data.Fintype.Pi
import Mathlib.Data.Fin.VecNotation
set_option linter.unusedSectionVars false
/-
C64: examples and counterexamples.
-/
namespace Verif.Murata

/-- The net with the given arcs (rows: transitions, columns: places). -/
def tab (n k : Nat) (pre post : Fin k → Fin n → Nat) : MNet (Fin n) (Fin k) := ⟨List.finRange n, List.finRange k, pre, post⟩

theorem tab_listed (n k : Nat) (pre post : Fin k → Fin n → Nat) : Listed (tab n k pre post) :=
  ⟨fun p => List.mem_finRange p, List.nodup_finRange n, fun t => List.mem_finRange t⟩

theorem run_snoc {P T : Type} {N : MNet P T} {m m1 m2 : P → Nat} {s : List T} {t : T} (h : Run N m s m1) (hf : Fires N m1 t m2) :
    Run N m (s ++ [t]) m2 := by
  induction h with
  | nil => exact .cons hf .nil
  | cons h1 _ ih => exact .cons h1 (ih hf)

/-- The markings of a closed list stay in it. -/
theorem run_closed {n k : Nat} {pre post : Fin k → Fin n → Nat} (L : List (Fin n → Nat))
    (hc : ∀ m ∈ L, ∀ t, (∀ p, pre t p ≤ m p) → (fun p => m p - pre t p + post t p) ∈ L) {m m' : Fin n → Nat} {s : List (Fin k)}
    (hm : m ∈ L) (h : Run (tab n k pre post) m s m') : m' ∈ L := by
  induction h with
  | nil => exact hm
  | @cons m t m1 s m2 hf _ ih =>
    refine ih ?_
    rw [show m1 = fun p => m p - pre t p + post t p from funext hf.2]
    exact hc m hm t fun p => hf.1 p (List.mem_finRange p)

theorem first_red {P T : Type} {N : MNet P T} {im : P → Nat} {p : P} {l : List P} (h : N.places = p :: l)
    (hs : Success N.places [imRow im [] p] (ubRows N [] p)) : p ∈ redundant N im := by
  have mono : ∀ (todo : List P) (s : St P), p ∈ s.red → p ∈ (todo.foldl (step N im) s).red := by
    intro todo
    induction todo with
    | nil => exact fun s h => h
    | cons q todo ih =>
      intro s h
      refine ih _ ?_
      simp only [step]
      split
      · exact List.mem_append_left _ h
      · exact h
  unfold redundant
  rw [h, List.foldl_cons]
  refine mono _ _ ?_
  have : Success N.places ([] ++ [imRow im [] p]) ([] ++ ubRows N [] p) := hs
  simp only [step, this, if_true]
  simp

/-! ### Two parallel places, one is removed -/

/-- Places p1, p2, i, o; A: i → p1, p2; B: p1, p2 → o. -/
def twin : MNet (Fin 4) (Fin 2) := tab 4 2 ![![0,0,1,0], ![1,1,0,0]] ![![1,1,0,0], ![0,0,0,1]]
def twinIm : Fin 4 → Nat := ![0,0,1,0]
def twinFm : Fin 4 → Nat := ![0,0,0,1]

theorem twin_removed : Removed twin twinIm twinFm 0 := by
  refine ⟨first_red (l := [1, 2, 3]) (by decide) ⟨![1,1,0,0], 0, by decide, by decide, ?_, ?_⟩, rfl⟩
  · intro r hr
    simp only [List.mem_singleton] at hr
    subst hr
    have : twin.places = [0, 1, 2, 3] := by decide
    simp [Row.val, imRow, this, twinIm]
  · intro r hr
    have h1 : twin.places = [0, 1, 2, 3] := by decide
    have h2 : twin.trans = [0, 1] := by decide
    simp only [ubRows, h1, h2, List.map_cons, List.map_nil, List.cons_append, List.nil_append, List.mem_cons, List.mem_append,
      List.mem_map, List.mem_filter, List.not_mem_nil, or_false] at hr
    rcases hr with rfl | rfl | rfl | rfl | ⟨q, _, rfl⟩ | rfl
    · rw [Row.val, h1]; simp [inRow, twin, tab]
    · rw [Row.val, h1]; simp [inRow, twin, tab]
    · rw [Row.val, h1]; simp [outRow, twin, tab]
    · rw [Row.val, h1]; simp [outRow, twin, tab]
    · match q with
      | 0 => simp [Row.val, signRow, h1]
      | 1 => simp [Row.val, signRow, h1]
      | 2 => simp [Row.val, signRow, h1]
      | 3 => simp [Row.val, signRow, h1]
    · simp [Row.val, lastRow, h1]

theorem twin_second : (1 : Fin 4) ∉ redundant twin twinIm := by
  intro h
  obtain ⟨k, hk⟩ := redundant_take twin twinIm
  have h1 : twin.places = [0, 1, 2, 3] := by decide
  rw [h1] at hk
  match k with
  | 0 => rw [hk] at h; simp at h
  | 1 => rw [hk] at h; simp at h
  | k + 2 =>
    obtain ⟨x, c, hx, hc, h3, h4, h5, _⟩ := redundant_own (tab_listed _ _ _ _) twinIm (R := [0]) (p := 1) (rest := [2, 3].take k) hk
    have h5' := h5 1
    have hx2 := hx 2
    have h1' : (tab 4 2 ![![0,0,1,0], ![1,1,0,0]] ![![1,1,0,0], ![0,0,0,1]]).places = [0, 1, 2, 3] := h1
    rw [h1'] at h4 h5'
    simp [S, tab, twinIm] at h4 h5'
    omega

/-- The hypotheses of `C64_language` can be met by a net from which a place is removed. -/
example : (0 : Fin 4) ∉ (reduceNet twin twinIm twinFm).places ∧
    ∀ s, Lang (reduceNet twin twinIm twinFm) (reduceIm twin twinIm twinFm) twinFm s ↔ Lang twin twinIm twinFm s := by
  have hN : Listed twin := tab_listed _ _ _ _
  have hkeep1 : (1 : Fin 4) ∈ (reduceNet twin twinIm twinFm).places := (mem_reduce hN).2 fun h => twin_second h.1
  refine ⟨fun h => (mem_reduce hN).1 h twin_removed, Verif.C64_language hN _ _ ?_ ?_⟩
  · intro p hp
    match p, hp with
    | 0, _ => rfl
    | 1, _ => rfl
    | 3, _ => rfl
    | 2, hp => exact absurd (Verif.C64_prefix hN twinIm twinFm (a := [0]) (p := 1) (b := [2, 3]) (by decide) hkeep1 rfl 2
        (by simp)) hp
  · intro s m hm ha
    have hL := run_closed [![0,0,1,0], ![1,1,0,0], ![0,0,0,1]] (by decide) (by decide) hm
    simp only [List.mem_cons, List.not_mem_nil, or_false] at hL
    have h1 := ha 1 hkeep1
    have h3 := ha 3 ((mem_reduce hN).2 fun h => by have := h.2; revert this; decide)
    rcases hL with rfl | rfl | rfl
    · exact absurd h3 (by decide)
    · exact absurd h3 (by decide)
    · rfl

/-! ### A marked place is removed -/

/-- Places i, o, p; a: i → p; b: p → i; c: p → o. -/
def back : MNet (Fin 3) (Fin 3) := tab 3 3 ![![1,0,0], ![0,0,1], ![0,0,1]] ![![0,0,1], ![1,0,0], ![0,1,0]]
def backIm : Fin 3 → Nat := ![1,0,0]
def backFm : Fin 3 → Nat := ![0,1,0]

theorem back_removed : Removed back backIm backFm 0 := by
  refine ⟨first_red (l := [1, 2]) (by decide) ⟨![1,0,0], 1, by decide, by decide, ?_, ?_⟩, rfl⟩
  · intro r hr
    simp only [List.mem_singleton] at hr
    subst hr
    have : back.places = [0, 1, 2] := by decide
    simp [Row.val, imRow, this, backIm]
  · intro r hr
    have h1 : back.places = [0, 1, 2] := by decide
    have h2 : back.trans = [0, 1, 2] := by decide
    simp only [ubRows, h1, h2, List.map_cons, List.map_nil, List.cons_append, List.nil_append, List.mem_cons, List.mem_append,
      List.mem_map, List.mem_filter, List.not_mem_nil, or_false] at hr
    rcases hr with rfl | rfl | rfl | rfl | rfl | rfl | ⟨q, _, rfl⟩ | rfl
    · rw [Row.val, h1]; simp [inRow, back, tab]
    · rw [Row.val, h1]; simp [inRow, back, tab]
    · rw [Row.val, h1]; simp [inRow, back, tab]
    · rw [Row.val, h1]; simp [outRow, back, tab]
    · rw [Row.val, h1]; simp [outRow, back, tab]
    · rw [Row.val, h1]; simp [outRow, back, tab]
    · match q with
      | 0 => simp [Row.val, signRow, h1]
      | 1 => simp [Row.val, signRow, h1]
      | 2 => simp [Row.val, signRow, h1]
    · simp [Row.val, lastRow, h1]

/-- A net with one token that moves (a, then any number of b a, then c), of which the function removes the initial place; the
    result has the firing sequence a a b c, which the net does not have. -/
theorem _root_.Verif.C64_marked_refuted : ∃ (N : MNet (Fin 3) (Fin 3)) (im fm : Fin 3 → Nat) (s : List (Fin 3)), Listed N ∧
    Lang (reduceNet N im fm) (reduceIm N im fm) fm s ∧ ¬ Lang N im fm s := by
  have hN : Listed back := tab_listed _ _ _ _
  refine ⟨back, backIm, backFm, [0, 0, 1, 2], hN, ?_, ?_⟩
  · have hr := back_removed
    have h1 : ¬ Removed back backIm backFm 1 := fun h => by have := h.2; revert this; decide
    have ei : reduceIm back backIm backFm = ![0,0,0] := by
      funext p
      match p with
      | 0 => simp only [reduceIm, hr, if_true]; rfl
      | 1 => simp only [reduceIm, h1, if_false]; rfl
      | 2 => simp only [reduceIm]; split <;> rfl
    rw [ei]
    by_cases h2 : Removed back backIm backFm 2
    · have e1 : (reduceNet back backIm backFm).pre = ![![0,0,0], ![0,0,0], ![0,0,0]] := by
        funext t p
        match p with
        | 0 => simp only [reduceNet, hr, if_true]; revert t; decide
        | 1 => simp only [reduceNet, h1, if_false]; revert t; decide
        | 2 => simp only [reduceNet, h2, if_true]; revert t; decide
      have e2 : (reduceNet back backIm backFm).post = ![![0,0,0], ![0,0,0], ![0,1,0]] := by
        funext t p
        match p with
        | 0 => simp only [reduceNet, hr, if_true]; revert t; decide
        | 1 => simp only [reduceNet, h1, if_false]; revert t; decide
        | 2 => simp only [reduceNet, h2, if_true]; revert t; decide
      refine .cons (m' := ![0,0,0]) ⟨?_, ?_⟩ (.cons (m' := ![0,0,0]) ⟨?_, ?_⟩ (.cons (m' := ![0,0,0]) ⟨?_, ?_⟩
        (.cons (m' := ![0,1,0]) ⟨?_, ?_⟩ .nil)))
      all_goals
        simp only [e1, e2]
        first
        | (intro p hp; clear hp; revert p; decide)
        | decide
    · have e1 : (reduceNet back backIm backFm).pre = ![![0,0,0], ![0,0,1], ![0,0,1]] := by
        funext t p
        match p with
        | 0 => simp only [reduceNet, hr, if_true]; revert t; decide
        | 1 => simp only [reduceNet, h1, if_false]; revert t; decide
        | 2 => simp only [reduceNet, h2, if_false]; revert t; decide
      have e2 : (reduceNet back backIm backFm).post = ![![0,0,1], ![0,0,0], ![0,1,0]] := by
        funext t p
        match p with
        | 0 => simp only [reduceNet, hr, if_true]; revert t; decide
        | 1 => simp only [reduceNet, h1, if_false]; revert t; decide
        | 2 => simp only [reduceNet, h2, if_false]; revert t; decide
      refine .cons (m' := ![0,0,1]) ⟨?_, ?_⟩ (.cons (m' := ![0,0,2]) ⟨?_, ?_⟩ (.cons (m' := ![0,0,1]) ⟨?_, ?_⟩
        (.cons (m' := ![0,1,0]) ⟨?_, ?_⟩ .nil)))
      all_goals
        simp only [e1, e2]
        first
        | (intro p hp; clear hp; revert p; decide)
        | decide
  · intro h
    cases h with
    | cons f1 h =>
      cases h with
      | cons f2 h =>
        have a := f1.2 0
        have b := f2.1 0 (hN.places 0)
        rw [a] at b
        revert b
        decide

/-! ### A place that is filled but not emptied -/

/-- Places p, i, o; t: i → p, o. -/
def fill : MNet (Fin 3) (Fin 1) := tab 3 1 ![![0,1,0]] ![![1,0,1]]
def fillIm : Fin 3 → Nat := ![0,1,0]
def fillFm : Fin 3 → Nat := ![0,0,1]

theorem fill_removed : Removed fill fillIm fillFm 0 := by
  refine ⟨first_red (l := [1, 2]) (by decide) ⟨![1,0,0], 0, by decide, by decide, ?_, ?_⟩, rfl⟩
  · intro r hr
    simp only [List.mem_singleton] at hr
    subst hr
    have : fill.places = [0, 1, 2] := by decide
    simp [Row.val, imRow, this, fillIm]
  · intro r hr
    have h1 : fill.places = [0, 1, 2] := by decide
    have h2 : fill.trans = [0] := by decide
    simp only [ubRows, h1, h2, List.map_cons, List.map_nil, List.cons_append, List.nil_append, List.mem_cons, List.mem_append,
      List.mem_map, List.mem_filter, List.not_mem_nil, or_false] at hr
    rcases hr with rfl | rfl | ⟨q, _, rfl⟩ | rfl
    · rw [Row.val, h1]; simp [inRow, fill, tab]
    · rw [Row.val, h1]; simp [outRow, fill, tab]
    · match q with
      | 0 => simp [Row.val, signRow, h1]
      | 1 => simp [Row.val, signRow, h1]
      | 2 => simp [Row.val, signRow, h1]
    · simp [Row.val, lastRow, h1]

/-- Without marked places being removed the language can still grow: the tokens left on a removed place are no longer
    counted in the final marking. -/
theorem _root_.Verif.C64_leftover_refuted : ∃ (N : MNet (Fin 3) (Fin 1)) (im fm : Fin 3 → Nat) (s : List (Fin 1)), Listed N ∧
    (∀ p, Removed N im fm p → im p = 0) ∧ Lang (reduceNet N im fm) (reduceIm N im fm) fm s ∧ ∀ s, ¬ Lang N im fm s := by
  have hN : Listed fill := tab_listed _ _ _ _
  have h2 : ¬ Removed fill fillIm fillFm 2 := fun h => by have := h.2; revert this; decide
  have h1 : ¬ Removed fill fillIm fillFm 1 := by
    rintro ⟨h, _⟩
    obtain ⟨k, hk⟩ := redundant_take fill fillIm
    have hp : fill.places = [0, 1, 2] := by decide
    rw [hp] at hk
    -- the second place is redundant, so the rows of the first and second place have a common solution
    have hno : ¬ Success fill.places ([imRow fillIm [] 0] ++ [imRow fillIm [0] 1]) (ubRows fill [] 0 ++ ubRows fill [0] 1) := by
      rintro ⟨x, c, hx, hc, he, hu⟩
      have e1 := he (imRow fillIm [] 0) (by simp)
      have u1 := hu (signRow 1 1) (by
        refine List.mem_append_right _ ?_
        unfold ubRows
        refine List.mem_append_left _ (List.mem_append_right _ (List.mem_map.2 ⟨1, ?_, rfl⟩))
        simp [hp])
      simp [Row.val, imRow, signRow, hp, fillIm] at e1 u1
      omega
    have hs0 : Success fill.places ([] ++ [imRow fillIm [] 0]) ([] ++ ubRows fill [] 0) := by
      have := fill_removed.1
      match k with
      | 0 => rw [hk] at this; simp at this
      | k + 1 =>
        apply Classical.byContradiction
        intro hc
        have key : ∀ (todo : List (Fin 3)) (s : St (Fin 3)), ¬ Success fill.places s.eqs s.ubs →
            (todo.foldl (step fill fillIm) s).red = s.red := by
          intro todo
          induction todo with
          | nil => exact fun s _ => rfl
          | cons q todo ih =>
            intro s hs
            have hs' : ¬ Success fill.places (s.eqs ++ [imRow fillIm s.red q]) (s.ubs ++ ubRows fill s.red q) :=
              fun h => hs (success_mono h)
            rw [List.foldl_cons, ih]
            · simp only [step, hs', if_false]
            · simpa only [step] using hs'
        unfold redundant at this
        rw [hp, List.foldl_cons, key] at this
        · simp only [step] at this
          rw [if_neg (by simpa only [hp] using hc)] at this
          cases this
        · simpa only [step] using hc
    have key : ∀ (todo : List (Fin 3)) (s : St (Fin 3)), ¬ Success fill.places s.eqs s.ubs →
        (todo.foldl (step fill fillIm) s).red = s.red := by
      intro todo
      induction todo with
      | nil => exact fun s _ => rfl
      | cons q todo ih =>
        intro s hs
        have hs' : ¬ Success fill.places (s.eqs ++ [imRow fillIm s.red q]) (s.ubs ++ ubRows fill s.red q) :=
          fun h => hs (success_mono h)
        rw [List.foldl_cons, ih]
        · simp only [step, hs', if_false]
        · simpa only [step] using hs'
    unfold redundant at h
    rw [hp, List.foldl_cons] at h
    have e0 : step fill fillIm ⟨[], [], []⟩ 0 = ⟨[imRow fillIm [] 0], ubRows fill [] 0, [0]⟩ := by
      simp only [step, hs0, if_true]
      rfl
    rw [e0, List.foldl_cons] at h
    have e1 : step fill fillIm ⟨[imRow fillIm [] 0], ubRows fill [] 0, [0]⟩ 1 =
        ⟨[imRow fillIm [] 0] ++ [imRow fillIm [0] 1], ubRows fill [] 0 ++ ubRows fill [0] 1, [0]⟩ := by
      simp only [step, hno, if_false]
    rw [e1, key _ _ hno] at h
    simp at h
  have hr := fill_removed
  refine ⟨fill, fillIm, fillFm, [0], hN, ?_, ?_, ?_⟩
  · intro p hp
    match p, hp with
    | 0, _ => rfl
    | 1, hp => exact absurd hp h1
    | 2, hp => exact absurd hp h2
  · have ei : reduceIm fill fillIm fillFm = ![0,1,0] := by
      funext p
      match p with
      | 0 => simp only [reduceIm, hr, if_true]; rfl
      | 1 => simp only [reduceIm, h1, if_false]; rfl
      | 2 => simp only [reduceIm, h2, if_false]; rfl
    have e1 : (reduceNet fill fillIm fillFm).pre = ![![0,1,0]] := by
      funext t p
      match p with
      | 0 => simp only [reduceNet, hr, if_true]; revert t; decide
      | 1 => simp only [reduceNet, h1, if_false]; revert t; decide
      | 2 => simp only [reduceNet, h2, if_false]; revert t; decide
    have e2 : (reduceNet fill fillIm fillFm).post = ![![0,0,1]] := by
      funext t p
      match p with
      | 0 => simp only [reduceNet, hr, if_true]; revert t; decide
      | 1 => simp only [reduceNet, h1, if_false]; revert t; decide
      | 2 => simp only [reduceNet, h2, if_false]; revert t; decide
    rw [ei]
    refine .cons (m' := ![0,0,1]) ⟨?_, ?_⟩ .nil
    all_goals
      simp only [e1, e2]
      first
      | (intro p hp; clear hp; revert p; decide)
      | decide
  · intro s h
    have hL := run_closed [![0,1,0], ![1,0,1]] (by decide) (by decide) h
    revert hL
    decide

end Verif.Murata
