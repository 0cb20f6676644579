/-
Model of `get_successors` / `get_predecessors` (pm4py/objects/dfg/utils/dfg_utils.py:819-902) and proof that they
compute the transitive closure.
-/
import Verif.Dfg.Graph
set_option linter.unusedSectionVars false
namespace Verif
namespace Dfg

variable {A : Type} [DecidableEq A]

/-- the three dictionaries of the loop (dfg_utils.py:837-839); dictionaries over the activities are modelled as
functions, the sets in them as lists -/
structure CState (A : Type) where
  prev : A → List A
  curr : A → List A
  changed : A → Bool

/-- `s.union(t)` -/
def union (s t : List A) : List A := s ++ t.filter fun x => !decide (x ∈ s)

/-- `curr[x] = v` -/
def upd (f : A → List A) (x : A) (v : List A) : A → List A := fun z => if z = x then v else f z

/-- the state before the loop (dfg_utils.py:837-841) -/
def initClosure (E : List (A × A)) : CState A :=
  { prev := fun _ => []
    curr := E.foldl (fun c e => upd c e.1 (union (c e.1) [e.2])) fun _ => []
    changed := fun _ => true }

/-- one iteration of the loop (dfg_utils.py:844-858) and the flag `sthing_diff` -/
def closureRound (acts : List A) (s : CState A) : CState A × Bool :=
  let diff := fun x => (s.curr x).filter fun y => !decide (y ∈ s.prev x)
  let changed' := fun x => s.changed x && !(diff x).isEmpty
  let curr' := (acts.filter changed').foldl
    (fun c x => (diff x).foldl (fun c y => upd c x (union (c x) (c y))) c) s.curr
  ({ prev := s.curr, curr := curr', changed := changed' }, acts.any changed')

/-- the loop, with at most `n` iterations (dfg_utils.py:842-859) -/
def closureLoop (acts : List A) : Nat → CState A → Option (A → List A)
  | 0, _ => none
  | n + 1, s =>
    let r := closureRound acts s
    if r.2 then closureLoop acts n r.1 else some r.1.curr

/-- `get_successors(dfg, activities_model)` (dfg_utils.py:819-859). Simplification: the activities at the ends of the
edges are assumed to be in `acts` (else the code raises a `KeyError`). -/
def getSuccessors (E : List (A × A)) (acts : List A) (n : Nat) : Option (A → List A) :=
  closureLoop acts n (initClosure E)

/-- `get_predecessors(dfg, activities_model)` (dfg_utils.py:862-902): the same loop with the edges reversed -/
def getPredecessors (E : List (A × A)) (acts : List A) (n : Nat) : Option (A → List A) :=
  closureLoop acts n (initClosure (E.map fun e => (e.2, e.1)))

/-! ### proofs -/

/-- there is a non-empty path -/
def Plus (E : List (A × A)) (x y : A) : Prop := ∃ z, (x, z) ∈ E ∧ Path E z y

theorem Plus.step {E : List (A × A)} {x y z : A} (h : Plus E x y) (h' : Plus E y z) : Plus E x z := by
  obtain ⟨u, hu, hp⟩ := h
  obtain ⟨v, hv, hq⟩ := h'
  exact ⟨u, hu, hp.trans ((Path.edge hv).trans hq)⟩

theorem plus_of_path {E : List (A × A)} {x y : A} (h : Path E x y) (hne : x ≠ y) : Plus E x y := by
  induction h with
  | refl => exact absurd rfl hne
  | @step b c hb h3 ih =>
    by_cases hxb : x = b
    · subst hxb; exact ⟨c, h3, .refl⟩
    · exact (ih hxb).step ⟨c, h3, .refl⟩

theorem Plus.path {E : List (A × A)} {x y : A} (h : Plus E x y) : Path E x y :=
  (Path.edge h.choose_spec.1).trans h.choose_spec.2

theorem mem_union (s t : List A) (x : A) : x ∈ union s t ↔ x ∈ s ∨ x ∈ t := by
  unfold union
  rw [List.mem_append, List.mem_filter]
  by_cases h : x ∈ s <;> simp [h]

theorem init_mem (E : List (A × A)) (x y : A) : y ∈ (initClosure E).curr x ↔ (x, y) ∈ E := by
  unfold initClosure
  suffices h : ∀ (c : A → List A), y ∈ (E.foldl (fun c e => upd c e.1 (union (c e.1) [e.2])) c) x ↔
      y ∈ c x ∨ (x, y) ∈ E by simpa using h fun _ => []
  induction E with
  | nil => intro c; simp
  | cons e E ih =>
    intro c
    rw [List.foldl_cons, ih]
    unfold upd
    by_cases hx : x = e.1
    · subst hx
      rw [if_pos rfl, mem_union, List.mem_singleton, List.mem_cons]
      constructor
      · rintro ((h | rfl) | h)
        · exact .inl h
        · exact .inr (.inl rfl)
        · exact .inr (.inr h)
      · rintro (h | h | h)
        · exact .inl (.inl h)
        · exact .inl (.inr (by rw [← h]))
        · exact .inr h
    · rw [if_neg hx, List.mem_cons]
      constructor
      · rintro (h | h)
        · exact .inl h
        · exact .inr (.inr h)
      · rintro (h | h | h)
        · exact .inl h
        · exact absurd (by rw [← h]) hx
        · exact .inr h

/-- invariant of the loop -/
structure CInv (E : List (A × A)) (acts : List A) (s : CState A) : Prop where
  sound : ∀ x y, y ∈ s.curr x → Plus E x y
  edges : ∀ x y, (x, y) ∈ E → y ∈ s.curr x
  prevSub : ∀ x y, y ∈ s.prev x → y ∈ s.curr x
  closed : ∀ x ∈ acts, ∀ y, y ∈ s.prev x → ∀ z, (y, z) ∈ E → z ∈ s.curr x
  stable : ∀ x, s.changed x = false → ∀ y ∈ s.curr x, y ∈ s.prev x

/-- the inner loop over `diff[x]` -/
theorem inner_spec (x : A) (l : List A) (c : A → List A) :
    (∀ z, z ≠ x → (l.foldl (fun c y => upd c x (union (c x) (c y))) c) z = c z) ∧
    (∀ w, w ∈ c x → w ∈ (l.foldl (fun c y => upd c x (union (c x) (c y))) c) x) ∧
    (∀ y ∈ l, ∀ w ∈ c y, w ∈ (l.foldl (fun c y => upd c x (union (c x) (c y))) c) x) ∧
    (∀ P : A → Prop, (∀ w ∈ c x, P w) → (∀ y ∈ l, y ≠ x → ∀ w ∈ c y, P w) →
      ∀ w ∈ (l.foldl (fun c y => upd c x (union (c x) (c y))) c) x, P w) := by
  induction l generalizing c with
  | nil => exact ⟨fun _ _ => rfl, fun _ h => h, by simp, fun _ h _ => h⟩
  | cons y l ih =>
    rw [List.foldl_cons]
    obtain ⟨h1, h2, h3, h4⟩ := ih (upd c x (union (c x) (c y)))
    have hx : (upd c x (union (c x) (c y))) x = union (c x) (c y) := by simp [upd]
    have hz : ∀ z, z ≠ x → (upd c x (union (c x) (c y))) z = c z := fun z hz => by simp [upd, hz]
    refine ⟨fun z h => (h1 z h).trans (hz z h), fun w hw => h2 w (by rw [hx, mem_union]; exact .inl hw), ?_, ?_⟩
    · intro y' hy' w hw
      rcases List.mem_cons.1 hy' with rfl | hy'
      · exact h2 w (by rw [hx, mem_union]; exact .inr hw)
      · by_cases hyx : y' = x
        · subst hyx; exact h2 w (by rw [hx, mem_union]; exact .inl hw)
        · exact h3 y' hy' w (by rw [hz y' hyx]; exact hw)
    · intro P hP hl
      apply h4 P
      · intro w hw
        rw [hx, mem_union] at hw
        rcases hw with hw | hw
        · exact hP w hw
        · by_cases hyx : y = x
          · subst hyx; exact hP w hw
          · exact hl y (by simp) hyx w hw
      · intro y' hy' hne w hw
        rw [hz y' hne] at hw
        exact hl y' (by simp [hy']) hne w hw

/-- the outer loop over the activities -/
theorem outer_spec (E : List (A × A)) (diff : A → List A) (l : List A) (c : A → List A)
    (hs : ∀ x y, y ∈ c x → Plus E x y) (hd : ∀ x y, y ∈ diff x → y ∈ c x) :
    (∀ x y, y ∈ c x → y ∈ (l.foldl (fun c x => (diff x).foldl (fun c y => upd c x (union (c x) (c y))) c) c) x) ∧
    (∀ x y, y ∈ (l.foldl (fun c x => (diff x).foldl (fun c y => upd c x (union (c x) (c y))) c) c) x → Plus E x y) ∧
    (∀ x ∈ l, ∀ y ∈ diff x, ∀ w ∈ c y,
      w ∈ (l.foldl (fun c x => (diff x).foldl (fun c y => upd c x (union (c x) (c y))) c) c) x) ∧
    (∀ x, x ∉ l → (l.foldl (fun c x => (diff x).foldl (fun c y => upd c x (union (c x) (c y))) c) c) x = c x) := by
  induction l generalizing c with
  | nil => exact ⟨fun _ _ h => h, hs, by simp, fun _ _ => rfl⟩
  | cons x l ih =>
    rw [List.foldl_cons]
    obtain ⟨i1, i2, i3, i4⟩ := inner_spec x (diff x) c
    have hmono : ∀ z w, w ∈ c z → w ∈ ((diff x).foldl (fun c y => upd c x (union (c x) (c y))) c) z := by
      intro z w hw
      by_cases hz : z = x
      · subst hz; exact i2 w hw
      · rw [i1 z hz]; exact hw
    have hsound : ∀ z w, w ∈ ((diff x).foldl (fun c y => upd c x (union (c x) (c y))) c) z → Plus E z w := by
      intro z w hw
      by_cases hz : z = x
      · subst hz
        refine i4 (Plus E z) (fun w hw => hs z w hw) ?_ w hw
        intro y hy _ w hw
        exact (hs z y (hd z y hy)).step (hs y w hw)
      · rw [i1 z hz] at hw; exact hs z w hw
    obtain ⟨h1, h2, h3, h4⟩ := ih _ hsound (fun z y hy => hmono z y (hd z y hy))
    refine ⟨fun z w hw => h1 z w (hmono z w hw), h2, ?_, ?_⟩
    · intro z hz y hy w hw
      rcases List.mem_cons.1 hz with rfl | hz
      · exact h1 z w (i3 y hy w hw)
      · exact h3 z hz y hy w (hmono y w hw)
    · intro z hz
      rw [List.mem_cons, not_or] at hz
      rw [h4 z hz.2, i1 z hz.1]

theorem init_inv (E : List (A × A)) (acts : List A) : CInv E acts (initClosure E) where
  sound x y h := ⟨y, (init_mem E x y).1 h, .refl⟩
  edges x y h := (init_mem E x y).2 h
  prevSub x y h := by simp [initClosure] at h
  closed x _ y h := by simp [initClosure] at h
  stable x h := by simp [initClosure] at h

theorem round_inv {E : List (A × A)} {acts : List A} {s : CState A} (h : CInv E acts s) :
    CInv E acts (closureRound acts s).1 := by
  unfold closureRound
  simp only []
  obtain ⟨o1, o2, o3, o4⟩ := outer_spec E (fun x => (s.curr x).filter fun y => !decide (y ∈ s.prev x))
    (acts.filter fun x => s.changed x && !((s.curr x).filter fun y => !decide (y ∈ s.prev x)).isEmpty) s.curr h.sound
    (fun x y hy => (List.mem_filter.1 hy).1)
  constructor
  · exact o2
  · exact fun x y hxy => o1 x y (h.edges x y hxy)
  · exact fun x y hy => o1 x y hy
  · intro x hx y hy z hz
    by_cases hp : y ∈ s.prev x
    · exact o1 x z (h.closed x hx y hp z hz)
    · have hch : s.changed x = true := by
        cases hc : s.changed x
        · exact absurd (h.stable x hc y hy) hp
        · rfl
      have hdiff : y ∈ (s.curr x).filter fun y => !decide (y ∈ s.prev x) := List.mem_filter.2 ⟨hy, by simp [hp]⟩
      refine o3 x ?_ y hdiff z (h.edges y z hz)
      rw [List.mem_filter, Bool.and_eq_true]
      refine ⟨hx, hch, ?_⟩
      cases hl : (s.curr x).filter fun y => !decide (y ∈ s.prev x)
      · rw [hl] at hdiff; simp at hdiff
      · rfl
  · intro x hx y hy
    have hx' : (s.changed x && !((s.curr x).filter fun y => !decide (y ∈ s.prev x)).isEmpty) = false := hx
    have h4 := o4 x (by rw [List.mem_filter, hx']; simp)
    show y ∈ s.curr x
    rw [← h4]; exact hy

theorem round_final {E : List (A × A)} {acts : List A} {s : CState A} (h : CInv E acts s)
    (hf : (closureRound acts s).2 = false) (hE : ∀ e ∈ E, e.1 ∈ acts ∧ e.2 ∈ acts) (x : A) (hx : x ∈ acts) (y : A) :
    y ∈ (closureRound acts s).1.curr x ↔ Plus E x y := by
  have hi := round_inv h
  constructor
  · exact hi.sound x y
  · rintro ⟨z, hz, hp⟩
    have hcl : ∀ u, u ∈ (closureRound acts s).1.curr x → u ∈ (closureRound acts s).1.prev x := by
      apply hi.stable x
      unfold closureRound at hf ⊢
      simp only [List.any_eq_false, Bool.not_eq_true] at hf ⊢
      exact hf x hx
    induction hp with
    | refl => exact hi.edges x z hz
    | step _ h3 ih => exact hi.closed x hx _ (hcl _ ih) _ h3

theorem filter_length_lt {α : Type} (l : List α) (p q : α → Bool) (h : ∀ x ∈ l, q x = true → p x = true)
    (hx : ∃ x ∈ l, p x = true ∧ q x = false) : (l.filter q).length < (l.filter p).length := by
  have hq : l.filter q = (l.filter p).filter q := by
    rw [List.filter_filter]
    apply List.filter_congr
    intro x hx
    cases hq : q x
    · simp
    · simp [h x hx hq]
  rw [hq]
  rcases Nat.lt_or_ge ((l.filter p).filter q).length (l.filter p).length with hlt | hge
  · exact hlt
  · exfalso
    have heq := List.filter_sublist.eq_of_length_le hge
    obtain ⟨x, hx1, hx2, hx3⟩ := hx
    have : x ∈ l.filter p := List.mem_filter.2 ⟨hx1, hx2⟩
    rw [← heq] at this
    rw [List.mem_filter] at this
    simp [hx3] at this

/-- pairs that are not yet in `prev` -/
def openPairs (acts : List A) (s : CState A) : Nat :=
  ((acts.flatMap fun x => acts.map fun y => (x, y)).filter fun p => !decide (p.2 ∈ s.prev p.1)).length

theorem open_lt {E : List (A × A)} {acts : List A} {s : CState A} (h : CInv E acts s)
    (hf : (closureRound acts s).2 = true) (hE : ∀ e ∈ E, e.1 ∈ acts ∧ e.2 ∈ acts) :
    openPairs acts (closureRound acts s).1 < openPairs acts s := by
  unfold openPairs
  apply filter_length_lt
  · intro p _ hp
    simp only [Bool.not_eq_true', decide_eq_false_iff_not] at hp ⊢
    exact fun h' => hp (h.prevSub _ _ h')
  · unfold closureRound at hf
    simp only [List.any_eq_true, Bool.and_eq_true] at hf
    obtain ⟨x, hx, _, hne⟩ := hf
    obtain ⟨y, hy⟩ := List.exists_mem_of_ne_nil _ (fun h0 => by rw [h0] at hne; simp at hne :
      ((s.curr x).filter fun y => !decide (y ∈ s.prev x)) ≠ [])
    rw [List.mem_filter] at hy
    have hya : y ∈ acts := by
      obtain ⟨z, hz, hp⟩ := h.sound x y hy.1
      cases hp with
      | refl => exact (hE _ hz).2
      | step _ h3 => exact (hE _ h3).2
    refine ⟨(x, y), List.mem_flatMap.2 ⟨x, hx, List.mem_map.2 ⟨y, hya, rfl⟩⟩, hy.2, ?_⟩
    unfold closureRound
    simpa using hy.1

theorem closureLoop_spec {E : List (A × A)} {acts : List A} (hE : ∀ e ∈ E, e.1 ∈ acts ∧ e.2 ∈ acts) (n : Nat)
    (s : CState A) (h : CInv E acts s) (hn : openPairs acts s < n) :
    ∃ f, closureLoop acts n s = some f ∧ ∀ x ∈ acts, ∀ y, y ∈ f x ↔ Plus E x y := by
  induction n generalizing s with
  | zero => omega
  | succ n ih =>
    rw [closureLoop]
    by_cases hr : (closureRound acts s).2 = true
    · rw [if_pos hr]
      have := open_lt h hr hE
      exact ih _ (round_inv h) (by omega)
    · rw [if_neg hr]
      rw [Bool.not_eq_true] at hr
      exact ⟨_, rfl, fun x hx y => round_final h hr hE x hx y⟩

theorem openPairs_le (acts : List A) (s : CState A) : openPairs acts s ≤ acts.length * acts.length := by
  unfold openPairs
  refine Nat.le_trans (List.length_filter_le _ _) ?_
  have : ∀ l : List A, (l.flatMap fun x => acts.map fun y => (x, y)).length = l.length * acts.length := by
    intro l
    induction l with
    | nil => simp
    | cons x l ih => rw [List.flatMap_cons, List.length_append, ih, List.length_map, List.length_cons, Nat.succ_mul, Nat.add_comm]
  rw [this]; exact Nat.le_refl _

/-- **C40.** `get_successors` terminates (within `n² + 1` rounds for `n` activities) and maps every activity to exactly
the activities reachable from it along at least one edge. -/
theorem _root_.Verif.C40_successors (E : List (A × A)) (acts : List A) (hE : ∀ e ∈ E, e.1 ∈ acts ∧ e.2 ∈ acts) (n : Nat)
    (hn : acts.length * acts.length < n) :
    ∃ f, getSuccessors E acts n = some f ∧ ∀ x ∈ acts, ∀ y, y ∈ f x ↔ ∃ z, (x, z) ∈ E ∧ Path E z y :=
  closureLoop_spec hE n _ (init_inv E acts) (Nat.lt_of_le_of_lt (openPairs_le _ _) hn)

/-- **C40.** `get_predecessors` terminates and maps every activity to exactly the activities from which it can be
reached along at least one edge. -/
theorem _root_.Verif.C40_predecessors (E : List (A × A)) (acts : List A) (hE : ∀ e ∈ E, e.1 ∈ acts ∧ e.2 ∈ acts) (n : Nat)
    (hn : acts.length * acts.length < n) :
    ∃ f, getPredecessors E acts n = some f ∧ ∀ x ∈ acts, ∀ y, y ∈ f x ↔ ∃ z, (z, x) ∈ E ∧ Path E y z := by
  have hE' : ∀ e ∈ E.map fun e => (e.2, e.1), e.1 ∈ acts ∧ e.2 ∈ acts := by
    intro e he
    obtain ⟨u, hu, rfl⟩ := List.mem_map.1 he
    exact ⟨(hE u hu).2, (hE u hu).1⟩
  obtain ⟨f, h1, h2⟩ := closureLoop_spec hE' n _ (init_inv _ acts) (Nat.lt_of_le_of_lt (openPairs_le _ _) hn)
  refine ⟨f, h1, fun x hx y => (h2 x hx y).trans ?_⟩
  unfold Plus
  constructor
  · rintro ⟨z, hz, hp⟩
    obtain ⟨u, hu, h⟩ := List.mem_map.1 hz
    simp only [Prod.mk.injEq] at h
    refine ⟨z, by rw [← h.1, ← h.2]; exact hu, Path.swap_iff.1 hp⟩
  · rintro ⟨z, hz, hp⟩
    exact ⟨z, List.mem_map.2 ⟨_, hz, rfl⟩, Path.swap_iff.2 hp⟩

end Dfg
end Verif
