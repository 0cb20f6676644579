import Verif.Woflan.Theorems
import Mathlib.Data.Fintype.Pi
import Mathlib.Data.Fin.VecNotation
set_option linter.unusedSectionVars false
/-
C63: examples and counterexamples.
-/
namespace Verif.Woflan
open Classical (propDecidable)

/-- The net with `n` places `0, …` (named by letters) and the given transitions (label, places before, places after). -/
def mkNet (n : Nat) (ts : List (Option String × List (Fin n) × List (Fin n))) : WNet (Fin n) (Fin ts.length) where
  places := List.finRange n
  trans := List.finRange ts.length
  label := fun t => ts[t].1
  pname := fun p => "p" ++ String.ofList (List.replicate p.val 'x')
  tname := fun t => "t" ++ String.ofList (List.replicate t.val 'x')
  inArcs := fun t => ts[t].2.1.map fun p => (p, 1)
  outArcs := fun t => ts[t].2.2.map fun p => (p, 1)

section
variable {n : Nat} {ts : List (Option String × List (Fin n) × List (Fin n))}

theorem mkNet_listed : Listed (mkNet n ts) :=
  ⟨fun p => List.mem_finRange p, List.nodup_finRange n, fun t => List.mem_finRange t⟩

theorem toList_ofList_append (a : String) (l : List Char) : (a ++ String.ofList l).toList = a.toList ++ l := by
  simp

theorem mkNet_names : DistinctNames (mkNet n ts) := by
  constructor
  · intro x y h
    have h' := congrArg String.toList h
    cases x <;> cases y <;> simp only [nodeName, mkNet, toList_ofList_append] at h' <;> simp at h'
    · rw [Fin.ext h']
    · rw [Fin.ext h']
  · intro x h
    have h' := congrArg String.toList h
    cases x <;> simp only [nodeName, mkNet, toList_ofList_append] at h' <;> simp at h'

/-- The number of arcs, computably. -/
def cnt (l : List (Fin n)) (p : Fin n) : Nat := (l.filter fun q => decide (q = p)).length

theorem sum_map_cnt (l : List (Fin n)) (p : Fin n) :
    ((((l.map fun p => (p, 1)).filter fun a : Fin n × Nat => @decide (a.1 = p) (propDecidable _)).map (·.2)).sum) = cnt l p := by
  unfold cnt
  induction l with
  | nil => rfl
  | cons q l ih =>
    simp only [List.map_cons, List.filter_cons]
    by_cases e : q = p
    · simp only [e, decide_true, if_true, List.map_cons, List.sum_cons, List.length_cons]
      rw [ih]; omega
    · simp only [e, decide_false, Bool.false_eq_true, if_false]
      exact ih

theorem pre_mk (t : Fin ts.length) (p : Fin n) : pre (mkNet n ts) t p = cnt ts[t].2.1 p := sum_map_cnt _ p
theorem post_mk (t : Fin ts.length) (p : Fin n) : post (mkNet n ts) t p = cnt ts[t].2.2 p := sum_map_cnt _ p

/-- Whether a transition can fire, computably. -/
def enB (ts : List (Option String × List (Fin n) × List (Fin n))) (m : Fin n → Nat) (t : Fin ts.length) : Bool :=
  (List.finRange n).all fun p => decide (cnt ts[t].2.1 p ≤ m p)

def fireB (ts : List (Option String × List (Fin n) × List (Fin n))) (m : Fin n → Nat) (t : Fin ts.length) : Fin n → Nat :=
  fun p => m p - cnt ts[t].2.1 p + cnt ts[t].2.2 p

def eqB (m m' : Fin n → Nat) : Bool := (List.finRange n).all fun p => decide (m p = m' p)

theorem eqB_iff {m m' : Fin n → Nat} : eqB m m' = true ↔ m = m' := by
  simp only [eqB, List.all_eq_true, List.mem_finRange, true_implies, decide_eq_true_eq, funext_iff]

theorem enB_iff {m : Fin n → Nat} {t : Fin ts.length} : enB ts m t = true ↔ Enabled (mkNet n ts) m t := by
  simp only [enB, List.all_eq_true, List.mem_finRange, true_implies, decide_eq_true_eq, Enabled, pre_mk]

theorem fires_mk {m m' : Fin n → Nat} {t : Fin ts.length} : Fires (mkNet n ts) m t m' ↔ enB ts m t = true ∧ m' = fireB ts m t := by
  rw [enB_iff]
  refine and_congr Iff.rfl ?_
  simp only [pre_mk, post_mk, fireB, funext_iff]

def one (i : Fin n) : Fin n → Nat := fun p => if p = i then 1 else 0

theorem one_eq (i : Fin n) : one i = single i := by
  funext p
  unfold one single
  by_cases h : p = i <;> simp [h]

/-- The list contains the successors of its markings. -/
def closedB (ts : List (Option String × List (Fin n) × List (Fin n))) (L : List (Fin n → Nat)) : Bool :=
  L.all fun m => (List.finRange ts.length).all fun t => !enB ts m t || L.any (eqB (fireB ts m t))

/-- From each marking of the list, the next ones lead to the last. -/
def leadsB (ts : List (Option String × List (Fin n) × List (Fin n))) (o : Fin n) : List (Fin n → Nat) → Bool
  | [] => true
  | m :: L => (eqB m (one o) || (List.finRange ts.length).any fun t => enB ts m t && L.any (eqB (fireB ts m t))) && leadsB ts o L

theorem closedB_spec {L : List (Fin n → Nat)} (h : closedB ts L = true) {m m' : Fin n → Nat} (hm : m ∈ L)
    (hr : Reaches (mkNet n ts) m m') : m' ∈ L := by
  induction hr with
  | refl => exact hm
  | tail _ e ih =>
    obtain ⟨t, ht⟩ := e
    obtain ⟨h1, rfl⟩ := fires_mk.1 ht
    simp only [closedB, List.all_eq_true, List.mem_finRange, true_implies, Bool.or_eq_true, Bool.not_eq_true', List.any_eq_true] at h
    rcases h _ ih t with h2 | ⟨x, hx, he⟩
    · rw [h1] at h2; cases h2
    · exact eqB_iff.1 he ▸ hx

theorem leadsB_spec {o : Fin n} {L : List (Fin n → Nat)} (h : leadsB ts o L = true) : ∀ m ∈ L, Reaches (mkNet n ts) m (single o) := by
  induction L with
  | nil => intro m hm; cases hm
  | cons x L ih =>
    simp only [leadsB, Bool.and_eq_true, Bool.or_eq_true, List.any_eq_true] at h
    intro m hm
    rcases List.mem_cons.1 hm with rfl | hm
    · rcases h.1 with h1 | ⟨t, _, h2, y, hy, he⟩
      · rw [eqB_iff.1 h1, one_eq]; exact .refl
      · refine Relation.ReflTransGen.head ⟨t, fires_mk.2 ⟨h2, rfl⟩⟩ ?_
        rw [eqB_iff.1 he]
        exact ih h.2 y hy
    · exact ih h.2 m hm

/-- All that is needed for soundness. -/
def soundB (ts : List (Option String × List (Fin n) × List (Fin n))) (i o : Fin n) (L : List (Fin n → Nat)) : Bool :=
  L.any (eqB (one i)) && closedB ts L && leadsB ts o L && (L.all fun m => decide (m o = 0) || eqB m (one o)) &&
  (List.finRange ts.length).all fun t => ts[t].1.isNone || L.any fun m => enB ts m t

/-- Every marking of the list can be reached. -/
def reachB (ts : List (Option String × List (Fin n) × List (Fin n))) (i : Fin n) : List (Fin n → Nat) → Bool
  | [] => true
  | m :: L => (eqB m (one i) || L.any fun m' => (List.finRange ts.length).any fun t => enB ts m' t && eqB (fireB ts m' t) m) && reachB ts i L

theorem reachB_spec {i : Fin n} {L : List (Fin n → Nat)} (h : reachB ts i L = true) : ∀ m ∈ L, Reaches (mkNet n ts) (single i) m := by
  induction L with
  | nil => intro m hm; cases hm
  | cons x L ih =>
    simp only [reachB, Bool.and_eq_true, Bool.or_eq_true, List.any_eq_true] at h
    intro m hm
    rcases List.mem_cons.1 hm with rfl | hm
    · rcases h.1 with h1 | ⟨y, hy, t, _, h2, he⟩
      · rw [eqB_iff.1 h1, one_eq]; exact .refl
      · exact .tail (ih h.2 y hy) ⟨t, fires_mk.2 ⟨h2, (eqB_iff.1 he).symm⟩⟩
    · exact ih h.2 m hm

theorem soundB_spec {i o : Fin n} {L : List (Fin n → Nat)} (h : soundB ts i o L = true) (hr : reachB ts i L.reverse = true) :
    Sound (mkNet n ts) i o := by
  simp only [soundB, Bool.and_eq_true] at h
  obtain ⟨⟨⟨⟨h1, h2⟩, h3⟩, h4⟩, h5⟩ := h
  have hi : single i ∈ L := by
    obtain ⟨x, hx, he⟩ := List.any_eq_true.1 h1
    rw [← one_eq, eqB_iff.1 he]; exact hx
  refine ⟨fun m hm => leadsB_spec h3 m (closedB_spec h2 hi hm), fun m hm ho => ?_, fun t ht => ?_⟩
  · have := List.all_eq_true.1 h4 m (closedB_spec h2 hi hm)
    simp only [Bool.or_eq_true, decide_eq_true_eq] at this
    rcases this with h | h
    · omega
    · rw [eqB_iff.1 h, one_eq]
  · have := List.all_eq_true.1 h5 t (List.mem_finRange t)
    simp only [Bool.or_eq_true] at this
    rcases this with h | h
    · exact absurd (Option.isNone_iff_eq_none.1 h) ht
    · obtain ⟨m, hm, he⟩ := List.any_eq_true.1 h
      exact ⟨m, reachB_spec hr m (by simpa using hm), enB_iff.1 he⟩

/-! Workflow nets -/

/-- The places and transitions that can be reached in so many steps, computably. -/
def arcB (ts : List (Option String × List (Fin n) × List (Fin n))) : Fin n ⊕ Fin ts.length → Fin n ⊕ Fin ts.length → Bool
  | .inl p, .inr t => ts[t].2.1.contains p
  | .inr t, .inl p => ts[t].2.2.contains p
  | _, _ => false

theorem arcB_iff {x y : Fin n ⊕ Fin ts.length} : arcB ts x y = true ↔ Arc (mkNet n ts) x y := by
  constructor
  · intro h
    match x, y with
    | .inl p, .inr t =>
      simp only [arcB, List.contains_iff_mem] at h
      exact Arc.inp (N := mkNet n ts) (t := t) (a := (p, 1)) (List.mem_map.2 ⟨p, h, rfl⟩)
    | .inr t, .inl p =>
      simp only [arcB, List.contains_iff_mem] at h
      exact Arc.out (N := mkNet n ts) (t := t) (a := (p, 1)) (List.mem_map.2 ⟨p, h, rfl⟩)
    | .inl _, .inl _ => simp [arcB] at h
    | .inr _, .inr _ => simp [arcB] at h
  · intro h
    cases h with
    | inp ha =>
      obtain ⟨p, hp, rfl⟩ := List.mem_map.1 ha
      simpa [arcB] using hp
    | out ha =>
      obtain ⟨p, hp, rfl⟩ := List.mem_map.1 ha
      simpa [arcB] using hp

def nodes (n k : Nat) : List (Fin n ⊕ Fin k) := (List.finRange n).map .inl ++ (List.finRange k).map .inr

theorem mem_nodes {k : Nat} (x : Fin n ⊕ Fin k) : x ∈ nodes n k := by
  cases x <;> simp [nodes]

def pathB (ts : List (Option String × List (Fin n) × List (Fin n))) : Nat → Fin n ⊕ Fin ts.length → Fin n ⊕ Fin ts.length → Bool
  | 0, x, y => decide (x = y)
  | k + 1, x, y => decide (x = y) || (nodes n ts.length).any fun z => arcB ts x z && pathB ts k z y

theorem pathB_spec {k : Nat} {x y : Fin n ⊕ Fin ts.length} (h : pathB ts k x y = true) : Relation.ReflTransGen (Arc (mkNet n ts)) x y := by
  induction k generalizing x with
  | zero => simp only [pathB, decide_eq_true_eq] at h; subst h; exact .refl
  | succ k ih =>
    simp only [pathB, Bool.or_eq_true, decide_eq_true_eq, List.any_eq_true, Bool.and_eq_true] at h
    rcases h with rfl | ⟨z, _, h1, h2⟩
    · exact .refl
    · exact .head (arcB_iff.1 h1) (ih h2)

def wfB (ts : List (Option String × List (Fin n) × List (Fin n))) (k : Nat) (i o : Fin n) : Bool :=
  ((List.finRange n).all fun p => ((nodes n ts.length).all fun x => !arcB ts x (.inl p)) == decide (p = i)) &&
  ((List.finRange n).all fun p => ((nodes n ts.length).all fun x => !arcB ts (.inl p) x) == decide (p = o)) &&
  (nodes n ts.length).all fun x => pathB ts k (.inl i) x && pathB ts k x (.inl o)

theorem wfB_spec {k : Nat} {i o : Fin n} (h : wfB ts k i o = true) : IsWorkflowNet (mkNet n ts) i o := by
  simp only [wfB, Bool.and_eq_true, List.all_eq_true, List.mem_finRange, true_implies, beq_iff_eq] at h
  obtain ⟨⟨h1, h2⟩, h3⟩ := h
  refine ⟨fun p => ?_, fun p => ?_, fun x => ⟨pathB_spec (h3 x (mem_nodes x)).1, pathB_spec (h3 x (mem_nodes x)).2⟩⟩
  · rw [← decide_eq_true_iff (p := p = i), ← h1 p, List.all_eq_true]
    simp only [mem_nodes, true_implies, Bool.not_eq_true', ← Bool.not_eq_true, arcB_iff]
  · rw [← decide_eq_true_iff (p := p = o), ← h2 p, List.all_eq_true]
    simp only [mem_nodes, true_implies, Bool.not_eq_true', ← Bool.not_eq_true, arcB_iff]

/-! S-components -/

/-- The test of a support, computably. -/
def scB (ts : List (Option String × List (Fin n) × List (Fin n))) (i o : Fin n) (S : Fin n → Bool) : Bool :=
  S i && S o && (List.finRange ts.length).all fun t =>
    let b := (List.finRange n).filter fun p => S p && ts[t].2.1.contains p
    let a := (List.finRange n).filter fun p => S p && ts[t].2.2.contains p
    (b.isEmpty && a.isEmpty) || (b.length == 1 && a.length == 1)

theorem before_some (i o : Fin n) (S : Fin n → Bool) (t : Fin ts.length) : placesBefore (shortCircuit (mkNet n ts) i o) S (some t) =
    (List.finRange n).filter fun p => S p && ts[t].2.1.contains p := by
  unfold placesBefore
  refine List.filter_congr fun p _ => ?_
  congr 1
  rw [Bool.eq_iff_iff]
  simp [shortCircuit, mkNet]

theorem after_some (i o : Fin n) (S : Fin n → Bool) (t : Fin ts.length) : placesAfter (shortCircuit (mkNet n ts) i o) S (some t) =
    (List.finRange n).filter fun p => S p && ts[t].2.2.contains p := by
  unfold placesAfter
  refine List.filter_congr fun p _ => ?_
  congr 1
  rw [Bool.eq_iff_iff]
  simp [shortCircuit, mkNet]

theorem one_filter (S : Fin n → Bool) (q : Fin n) (h : S q = true) (d : Fin n → Bool) (hd : ∀ p, d p = true ↔ p = q) :
    (List.finRange n).filter (fun p => S p && d p) = [q] := by
  refine single_list ((List.nodup_finRange n).filter _) fun p => ?_
  simp only [List.mem_filter, List.mem_finRange, true_and, Bool.and_eq_true, hd]
  exact ⟨fun h => h.2, fun e => ⟨e ▸ h, e⟩⟩

theorem scB_spec {i o : Fin n} {S : Fin n → Bool} (h : scB ts i o S = true) : IsSComponent (shortCircuit (mkNet n ts) i o) S := by
  simp only [scB, Bool.and_eq_true, List.all_eq_true, List.mem_finRange, true_implies, Bool.or_eq_true, beq_iff_eq,
    List.isEmpty_iff] at h
  obtain ⟨⟨hi, ho⟩, h⟩ := h
  intro t _ hne
  cases t with
  | none =>
    have e1 : placesBefore (shortCircuit (mkNet n ts) i o) S none = [o] := by
      unfold placesBefore
      refine one_filter S o ho _ fun p => ?_
      simp [shortCircuit]
    have e2 : placesAfter (shortCircuit (mkNet n ts) i o) S none = [i] := by
      unfold placesAfter
      refine one_filter S i hi _ fun p => ?_
      simp [shortCircuit]
    rw [e1, e2]
    exact ⟨rfl, rfl⟩
  | some t =>
    rw [before_some, after_some] at hne ⊢
    rcases h t with h | h
    · rw [h.1, h.2] at hne
      simp at hne
    · exact h

def coverB (ts : List (Option String × List (Fin n) × List (Fin n))) (i o : Fin n) (Ss : List (List (Fin n))) : Bool :=
  (Ss.all fun S => scB ts i o S.contains) && (List.finRange n).all fun p => Ss.any fun S => S.contains p

theorem coverB_spec {i o : Fin n} {Ss : List (List (Fin n))} (h : coverB ts i o Ss = true) :
    uncovered (shortCircuit (mkNet n ts) i o) (Ss.map fun S => S.contains) = [] := by
  simp only [coverB, Bool.and_eq_true, List.all_eq_true, List.mem_finRange, true_implies, List.any_eq_true] at h
  unfold uncovered
  rw [List.filter_eq_nil_iff]
  intro p _
  obtain ⟨S, hS, hp⟩ := h.2 p
  simp only [Bool.not_eq_true', decide_eq_false_iff_not, not_not]
  exact ⟨_, List.mem_map.2 ⟨S, hS, rfl⟩, scB_spec (h.1 S hS), hp⟩

end

/-! ### A sound net with two parallel tasks -/

/-- a: i→p,q; b: p→r; c: q→s; d: r,s→o -/
def parTs : List (Option String × List (Fin 6) × List (Fin 6)) :=
  [(some "a", [0], [1, 2]), (some "b", [1], [3]), (some "c", [2], [4]), (some "d", [3, 4], [5])]

theorem par_sound : Sound (mkNet 6 parTs) 0 5 :=
  soundB_spec (L := [![1,0,0,0,0,0], ![0,1,1,0,0,0], ![0,0,1,1,0,0], ![0,1,0,0,1,0], ![0,0,0,1,1,0], ![0,0,0,0,0,1]])
    (by decide) (by decide)

theorem par_wf : IsWorkflowNet (mkNet 6 parTs) 0 5 := wfB_spec (k := 6) (by decide)

/-- The oracle with the S-components of the net. -/
def parO : Oracle (Fin 6) := ⟨[[0, 1, 3, 5], [0, 2, 4, 5]].map fun S => S.contains, false, true, true⟩

theorem par_cover : uncovered (shortCircuit (mkNet 6 parTs) 0 5) parO.supports = [] := coverB_spec (by decide)

/-- The hypotheses of the theorems can be met, and the function answers `True`. -/
example : CheckSoundness parO (mkNet 6 parTs) [(0, 1)] [(5, 1)] true :=
  ((Verif.C63_complete mkNet_listed mkNet_names (by decide) par_wf par_sound true parO 1 (5, 1) (.inl par_cover)).1 true).2 rfl

/-- Source and sink exchanged: the initial marking is on the sink and the final one on the source, and the answer is `True`. -/
theorem _root_.Verif.C63_initial_refuted : ∃ (N : WNet (Fin 6) (Fin 4)) (i o : Fin 6) (O : Oracle (Fin 6)),
    Listed N ∧ DistinctNames N ∧ IsWorkflowNet N i o ∧ i ≠ o ∧ (∀ t m, ¬ Fires N (single o) t m) ∧
    ∀ r, CheckSoundness O N [(o, 1)] [(i, 1)] r ↔ r = true := by
  refine ⟨mkNet 6 parTs, 0, 5, parO, mkNet_listed, mkNet_names, par_wf, by decide, ?_, fun r =>
    Verif.C63_initial_any mkNet_listed mkNet_names (by decide) par_wf par_sound true parO (5, 1) (0, 1)
      (par_sound.option _ .refl) par_cover r⟩
  intro t m h
  rw [← one_eq] at h
  have h1 := (fires_mk.1 h).1
  have h2 : ∀ t, enB parTs (one 5) t = false := by decide
  have h3 := (h2 t).symm.trans h1
  cases h3

/-! ### A sound net that is not covered by S-components -/

/-- a: i→p1,p2,s; b: p1→q; c: p2→q; d: q,s→s2; e: q,s2→o  (i=0, p1=1, p2=2, s=3, q=4, s2=5, o=6) -/
def twoTs : List (Option String × List (Fin 7) × List (Fin 7)) :=
  [(some "a", [0], [1, 2, 3]), (some "b", [1], [4]), (some "c", [2], [4]), (some "d", [4, 3], [5]), (some "e", [4, 5], [6])]

theorem two_sound : Sound (mkNet 7 twoTs) 0 6 :=
  soundB_spec (L := [![1,0,0,0,0,0,0], ![0,1,1,1,0,0,0], ![0,0,1,1,1,0,0], ![0,1,0,1,1,0,0], ![0,0,0,1,2,0,0],
    ![0,0,1,0,0,1,0], ![0,1,0,0,0,1,0], ![0,0,0,0,1,1,0], ![0,0,0,0,0,0,1]]) (by decide) (by decide)

theorem two_wf : IsWorkflowNet (mkNet 7 twoTs) 0 6 := wfB_spec (k := 9) (by decide)

theorem two_not_covered (supports : List (Fin 7 → Bool)) : uncovered (shortCircuit (mkNet 7 twoTs) 0 6) supports ≠ [] := by
  intro h
  unfold uncovered at h
  rw [List.filter_eq_nil_iff] at h
  have := h 4 (List.mem_finRange _)
  simp only [Bool.not_eq_true', decide_eq_false_iff_not, not_not] at this
  obtain ⟨S, _, hS, h4⟩ := this
  have h1 := hS (some (⟨1, by decide⟩ : Fin twoTs.length)) ((listed_short mkNet_listed _ _).trans _)
  have h2 := hS (some (⟨2, by decide⟩ : Fin twoTs.length)) ((listed_short mkNet_listed _ _).trans _)
  have h0 := hS (some (⟨0, by decide⟩ : Fin twoTs.length)) ((listed_short mkNet_listed _ _).trans _)
  simp only [before_some, after_some] at h0 h1 h2
  have f : List.finRange 7 = [0, 1, 2, 3, 4, 5, 6] := by decide
  simp only [f, twoTs] at h0 h1 h2
  cases e1 : S 1 <;> cases e2 : S 2 <;> simp [List.filter_cons, h4, e1, e2] at h0 h1 h2

/-- A sound workflow net for which the function answers `False`, whatever the invariants that are computed. -/
theorem _root_.Verif.C63_scover_refuted : ∃ (N : WNet (Fin 7) (Fin 5)) (i o : Fin 7), Listed N ∧ DistinctNames N ∧
    IsWorkflowNet N i o ∧ Sound N i o ∧ ∀ (O : Oracle (Fin 7)) r, CheckSoundness O N [(i, 1)] [(o, 1)] r ↔ r = false :=
  ⟨mkNet 7 twoTs, 0, 6, mkNet_listed, mkNet_names, two_wf, two_sound, fun O r =>
    Verif.C63_uncovered mkNet_listed mkNet_names two_wf O (0, 1) (6, 1) (two_not_covered _) r⟩

/-! ### A dead silent transition -/

/-- a: i→p1,q1,r0; b: p1,r0→p2,r1; c: q1,r1→q2,r2; τ: p1,q2→p2,q2; d: p2,q2,r2→o
    (i=0, p1=1, q1=2, r0=3, p2=4, r1=5, q2=6, r2=7, o=8) -/
def deadTs : List (Option String × List (Fin 9) × List (Fin 9)) :=
  [(some "a", [0], [1, 2, 3]), (some "b", [1, 3], [4, 5]), (some "c", [2, 5], [6, 7]), (none, [1, 6], [4, 6]),
   (some "d", [4, 6, 7], [8])]

def deadL : List (Fin 9 → Nat) :=
  [![1,0,0,0,0,0,0,0,0], ![0,1,1,1,0,0,0,0,0], ![0,0,1,0,1,1,0,0,0], ![0,0,0,0,1,0,1,1,0], ![0,0,0,0,0,0,0,0,1]]

theorem dead_sound : Sound (mkNet 9 deadTs) 0 8 := soundB_spec (L := deadL) (by decide) (by decide)
theorem dead_wf : IsWorkflowNet (mkNet 9 deadTs) 0 8 := wfB_spec (k := 8) (by decide)

def deadO : Oracle (Fin 9) := ⟨[[0, 1, 4, 8], [0, 2, 6, 8], [0, 3, 5, 7, 8]].map fun S => S.contains, false, true, true⟩

/-- The answer is `True` although a silent transition can never fire. -/
theorem _root_.Verif.C63_silent_refuted : ∃ (N : WNet (Fin 9) (Fin 5)) (i o : Fin 9) (O : Oracle (Fin 9)) (t : Fin 5), Listed N ∧
    DistinctNames N ∧ IsWorkflowNet N i o ∧ (∀ m, Reaches N (single i) m → ¬ Enabled N m t) ∧
    ∀ r, CheckSoundness O N [(i, 1)] [(o, 1)] r ↔ r = true := by
  refine ⟨mkNet 9 deadTs, 0, 8, deadO, 3, mkNet_listed, mkNet_names, dead_wf, ?_, fun r =>
    (Verif.C63_complete mkNet_listed mkNet_names (by decide) dead_wf dead_sound true deadO 1 (8, 1)
      (.inl (coverB_spec (by decide)))).1 r⟩
  intro m hm he
  have hL : m ∈ deadL := closedB_spec (ts := deadTs) (by decide) (by rw [← one_eq]; decide) hm
  have he' := (enB_iff (ts := deadTs) (t := (⟨3, by decide⟩ : Fin deadTs.length))).2 he
  have h2 : deadL.all (fun m => !enB deadTs m ⟨3, by decide⟩) = true := by decide
  have h3 := List.all_eq_true.1 h2 m hL
  rw [he'] at h3
  cases h3

end Verif.Woflan
