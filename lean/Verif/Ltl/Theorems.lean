import Mathlib.Algebra.Order.Field.Rat
import Verif.Ltl.Proofs
/-
C51: theorems.
-/
set_option linter.unusedSectionVars false
set_option linter.unusedSimpArgs false
set_option linter.unusedVariables false
namespace Verif.Ltl
variable {A R C : Type} [DecidableEq A] [DecidableEq R] [DecidableEq C]

/-- chains are the sublists of the rows of a case -/
theorem chain_iff (enable : Bool) (rows : List (Row C A R)) (vs : List A) (es : List (Row C A R × Nat)) (c : C) (hne : es ≠ []) :
    (Chain enable rows vs es ∧ caseOf es.reverse = [c]) ↔
      es.Sublist (rows.zipIdx.filter fun p => decide (p.1.cid = c)) ∧ es.map (fun p => p.1.act) = vs.map some ∧
        (enable = true → 2 ≤ es.length → ∀ p ∈ es, p.1.time.isSome = true) := by
  have hcase : caseOf es.reverse = [c] ↔ ∃ l, es.getLast? = some l ∧ l.1.cid = c := by
    unfold caseOf
    rw [List.head?_reverse]
    cases h : es.getLast? with
    | none => simp
    | some l => simp
  rw [hcase]
  constructor
  · rintro ⟨h, l, hl, rfl⟩
    refine ⟨?_, h.act, h.time⟩
    have hall : ∀ p ∈ es, p.1.cid = l.1.cid := by
      intro p hp
      obtain ⟨i, hi⟩ := List.getElem?_of_mem hp
      rw [List.getLast?_eq_getElem?] at hl
      obtain ⟨hi1, hi2⟩ := List.getElem?_eq_some_iff.1 hi
      obtain ⟨hl1, hl2⟩ := List.getElem?_eq_some_iff.1 hl
      by_cases e : i = es.length - 1
      · subst e; rw [← hi2, ← hl2]
      · have := List.pairwise_iff_getElem.1 h.same i (es.length - 1) hi1 hl1 (by omega)
        rw [← hi2, ← hl2]; exact this
    have hs := sublist_of_sorted (fun p q : Row C A R × Nat => p.2 < q.2) (fun x => Nat.lt_irrefl _)
      (fun x y h h' => absurd (Nat.lt_trans h h') (Nat.lt_irrefl _)) _ es (zipIdx_sorted rows 0) h.sorted h.mem
    have := hs.filter fun p => decide (p.1.cid = l.1.cid)
    rwa [List.filter_eq_self.2 (by simpa using fun a b => hall (a, b))] at this
  · rintro ⟨h1, h2, h3⟩
    have hall : ∀ p ∈ es, p ∈ rows.zipIdx ∧ p.1.cid = c := by
      intro p hp
      have := h1.subset hp
      simpa using List.mem_filter.1 this
    obtain ⟨l, hl⟩ : ∃ l, es.getLast? = some l := ⟨_, List.getLast?_eq_getLast_of_ne_nil hne⟩
    refine ⟨⟨fun p hp => (hall p hp).1, h2, ?_, ?_, h3⟩, l, hl, (hall l (List.mem_of_getLast? hl)).2⟩
    · exact ((zipIdx_sorted rows 0).filter _).sublist h1
    · rw [List.pairwise_iff_forall_sublist]
      intro a b hab
      rw [(hall a (hab.subset (by simp))).2, (hall b (hab.subset (by simp))).2]

theorem zipIdx_filter_map {β γ : Type} (l : List β) (p : β → Bool) (f : β → γ) (n : Nat) :
    (((l.zipIdx n).filter fun x => p x.1).map fun x => f x.1) = (l.filter p).map f := by
  induction l generalizing n with
  | nil => simp
  | cons x l ih =>
    rw [List.zipIdx_cons, List.filter_cons, List.filter_cons]
    by_cases h : p x = true
    · simp [h, ih]
    · simp [h, ih]

theorem trace_map_act (rows : List (Row C A R)) (c : C) :
    (trace rows c).map Ev.act = ((rows.zipIdx.filter fun p => decide (p.1.cid = c)).map fun p => p.1.act) := by
  unfold trace
  rw [List.map_map, zipIdx_filter_map rows (fun r => decide (r.cid = c)) (fun r => r.act)]
  rfl

theorem mem_joined_cases (rows : List (Row C A R)) (v : A) (vs : List A) (c : C) :
    c ∈ (joined false rows (v :: vs)).flatMap caseOf ↔ InOrder (v :: vs) (trace rows c) := by
  rw [List.mem_flatMap]
  unfold InOrder
  rw [trace_map_act, List.sublist_map_iff]
  have hc : ∀ j : Joined C A R, c ∈ caseOf j ↔ caseOf j = [c] := by
    intro j
    unfold caseOf
    cases j with
    | nil => simp
    | cons x j => simp [eq_comm]
  constructor
  · rintro ⟨j, h1, h2⟩
    rw [mem_joined] at h1
    have hne : j.reverse ≠ [] := by
      intro e
      have := congrArg List.length h1.act
      rw [e] at this; simp at this
    have := (chain_iff false rows (v :: vs) j.reverse c hne).1 ⟨h1, by rw [List.reverse_reverse]; exact (hc j).1 h2⟩
    exact ⟨_, this.1, this.2.1.symm⟩
  · rintro ⟨es, h1, h2⟩
    have hne : es ≠ [] := by rintro rfl; simp at h2
    have := (chain_iff false rows (v :: vs) es c hne).2 ⟨h1, h2.symm, by simp⟩
    exact ⟨es.reverse, (mem_joined ..).2 (by rw [List.reverse_reverse]; exact this.1), (hc _).2 this.2⟩

theorem does_trace (rows : List (Row C A R)) (c : C) (r : R) (v : A) :
    Does (trace rows c) r v ↔ ∃ row ∈ rows, row.cid = c ∧ row.act = some v ∧ row.res = some r := by
  unfold Does trace
  simp only [List.mem_map, List.mem_filter, decide_eq_true_eq]
  constructor
  · rintro ⟨_, ⟨row, ⟨h1, h2⟩, rfl⟩, h3, h4⟩; exact ⟨row, h1, h2, h3, h4⟩
  · rintro ⟨row, h1, h2, h3, h4⟩; exact ⟨_, ⟨row, ⟨h1, h2⟩, rfl⟩, h3, h4⟩

theorem mem_resources (rows : List (Row C A R)) (v : A) (c : C) (r : R) :
    r ∈ (rows.filter fun r => decide (r.act = some v) && decide (r.cid = c)).filterMap Row.res ↔ Does (trace rows c) r v := by
  rw [does_trace]
  simp only [List.mem_filterMap, List.mem_filter, Bool.and_eq_true, decide_eq_true_eq]
  constructor
  · rintro ⟨row, ⟨h1, h2, h3⟩, h4⟩; exact ⟨row, h1, h3, h2, h4⟩
  · rintro ⟨row, h1, h3, h2, h4⟩; exact ⟨row, ⟨h1, h2, h3⟩, h4⟩

theorem lastRes_some {rows : List (Row C A R)} {v : A} {c : C} {r : R} (h : lastRes rows v c = some r) : Does (trace rows c) r v :=
  (mem_resources rows v c r).1 (List.mem_of_getLast? h)

theorem lastRes_of_does {rows : List (Row C A R)} {v : A} {c : C} {r : R} (h : Does (trace rows c) r v) : ∃ s, lastRes rows v c = some s := by
  have := (mem_resources rows v c r).2 h
  unfold lastRes
  exact ⟨_, List.getLast?_eq_getLast_of_ne_nil (List.ne_nil_of_mem this)⟩

theorem mem_joinRes (eq : Bool) (rows : List (Row C A R)) (a b : A) (c : C) :
    c ∈ joinRes eq rows a b ↔ ∃ x y, Does (trace rows c) x a ∧ lastRes rows b c = some y ∧ decide (x = y) = eq := by
  unfold joinRes
  simp only [List.mem_map, List.mem_filter, Bool.and_eq_true, decide_eq_true_eq]
  constructor
  · rintro ⟨row, ⟨h1, h2, h3⟩, rfl⟩
    split at h3
    · rename_i x y hx hy
      exact ⟨x, y, (does_trace ..).2 ⟨row, h1, rfl, h2, hx⟩, hy, by simpa using h3⟩
    · cases h3
  · rintro ⟨x, y, h1, h2, h3⟩
    obtain ⟨row, r1, r2, r3, r4⟩ := (does_trace ..).1 h1
    refine ⟨row, ⟨r1, r3, ?_⟩, r2⟩
    rw [r4, r2, h2]
    simpa using h3

theorem foldl_cases {κ : Type} [DecidableEq κ] (retain : Bool) (univ : List κ) (paths : List (List A)) (kept : List A → List κ)
    (i : κ) (good : List A → Prop) (hu : i ∈ univ) (hk : ∀ p ∈ paths, i ∈ kept p ↔ (good p ↔ retain = true)) :
    ∀ cs, (i ∈ paths.foldl (fun cs path => if retain then cs ++ kept path else cs.filter fun i => decide (i ∈ kept path)) cs ↔
      if retain then i ∈ cs ∨ ∃ p ∈ paths, good p else i ∈ cs ∧ ∀ p ∈ paths, ¬ good p) := by
  induction paths with
  | nil => intro cs; cases retain <;> simp
  | cons p ps ih =>
    intro cs
    rw [List.foldl_cons, ih (fun q hq => hk q (by simp [hq]))]
    have hp := hk p (by simp)
    cases retain with
    | true => simp only [if_true, List.mem_append, hp, iff_true, List.exists_mem_cons_iff, or_assoc]
    | false =>
      simp only [Bool.false_eq_true, iff_false] at hp
      simp only [Bool.false_eq_true, if_false, List.mem_filter, decide_eq_true_eq, hp, List.forall_mem_cons, and_assoc]

end Verif.Ltl

namespace Verif
open Ltl
variable {A R C : Type} [DecidableEq A] [DecidableEq R] [DecidableEq C]

open Classical in
/-- C51: on an event log, the eventually-follows filter keeps, in order, exactly the traces in which the values occur in the given order
(`positive`), respectively do not. -/
theorem C51_log_follows (positive : Bool) (vals : List A) (log : List (List (Ev A R))) :
    eventuallyFollows positive vals none log = log.filter fun t => decide (InOrder vals t) == positive := by
  unfold eventuallyFollows
  apply List.filter_congr
  intro t _
  congr 1
  rw [Bool.eq_iff_iff, followsTrace_iff]; simp

open Classical in
/-- C51: the `A_next_B_next_C` filter on an event log -/
theorem C51_log_next (positive : Bool) (a b c : A) (log : List (List (Ev A R))) :
    nextNext positive a b c log = log.filter fun t => decide (Directly a b c t) == positive := by
  unfold nextNext
  apply List.filter_congr
  intro t _
  congr 1
  rw [Bool.eq_iff_iff, nextTrace_iff]; simp

open Classical in
/-- C51: the four-eyes filter on an event log: `positive` keeps the traces where both activities are executed and nobody executes both;
otherwise the traces where somebody executes both. -/
theorem C51_log_four_eyes (positive : Bool) (a b : A) (log : List (List (Ev A R))) :
    fourEyes positive a b log = log.filter fun t => decide (if positive then FourEyes a b t else ∃ r, Does t r a ∧ Does t r b) := by
  unfold fourEyes
  apply List.filter_congr
  intro t _
  rw [Bool.eq_iff_iff]
  simp only [decide_eq_true_eq]
  have e1 : ∀ v, (resOf t v).isEmpty = true ↔ ¬ ∃ r, Does t r v := by
    intro v
    rw [List.isEmpty_iff, List.eq_nil_iff_forall_not_mem]
    simp only [mem_resOf, not_exists]
  have e2 : ((resOf t a).filter fun r => decide (r ∈ resOf t b)).isEmpty = true ↔ ¬ ∃ r, Does t r a ∧ Does t r b := by
    rw [List.isEmpty_iff, List.eq_nil_iff_forall_not_mem]
    simp only [List.mem_filter, decide_eq_true_eq, mem_resOf, not_exists]
  cases ha : (resOf t a).isEmpty <;> cases hb : (resOf t b).isEmpty <;>
    cases hi : ((resOf t a).filter fun r => decide (r ∈ resOf t b)).isEmpty <;> cases positive
  all_goals
    simp only [ha, hb, hi, Bool.not_true, Bool.not_false, Bool.and_true, Bool.and_false, Bool.true_and, Bool.false_and, if_true,
      Bool.false_eq_true, if_false, false_iff, true_iff]
    have p1 := e1 a
    have p2 := e1 b
    rw [ha] at p1
    rw [hb] at p2
    rw [hi] at e2
    simp only [true_iff, false_iff, Bool.false_eq_true, Classical.not_not] at p1 p2 e2
    try unfold FourEyes
    first
      | exact e2
      | exact ⟨p1, p2, e2⟩
      | exact fun h => h.2.2 e2
      | exact fun h => p1 h.1
      | exact fun h => p2 h.2.1
      | (rintro ⟨r, h1, h2⟩; first | exact p1 ⟨r, h1⟩ | exact p2 ⟨r, h2⟩)

open Classical in
/-- C51: the different-resources filter on an event log -/
theorem C51_log_different (positive : Bool) (a : A) (log : List (List (Ev A R))) :
    differentPersons positive a log = log.filter fun t => decide (Different a t) == positive := by
  unfold differentPersons
  apply List.filter_congr
  intro t _
  congr 1
  rw [Bool.eq_iff_iff]
  simp only [decide_eq_true_eq]
  unfold Different
  simp only [← mem_resOf, ← List.mem_dedup (l := resOf t a)]
  have hn := List.nodup_dedup (resOf t a)
  constructor
  · intro h
    match h' : (resOf t a).dedup, h with
    | r :: s :: l, _ =>
      rw [h'] at hn
      refine ⟨r, s, ?_, by simp, by simp⟩
      rintro rfl
      simp at hn
  · rintro ⟨r, s, h1, h2, h3⟩
    match h' : (resOf t a).dedup with
    | [] => rw [h'] at h2; simp at h2
    | [x] => rw [h'] at h2 h3; simp at h2 h3; exact absurd (h2.trans h3.symm) h1
    | x :: y :: l => simp

open Classical in
/-- C51: `filter_eventually_follows_relation` on an event log: with `retain` the traces in which some of the relations occurs, otherwise
those in which none does -/
theorem C51_log_relations (retain : Bool) (relations : List (List A)) (log : List (List (Ev A R))) :
    filterRelation retain relations log = log.filter fun t =>
      decide (if retain then ∃ p ∈ relations, InOrder p t else ∀ p ∈ relations, ¬ InOrder p t) := by
  unfold filterRelation
  simp only []
  have hmain : ∀ p ∈ log.zipIdx, decide (p.2 ∈ relations.foldl (fun cs path =>
      if retain then cs ++ (log.zipIdx.filter fun p => followsTrace path none p.1 == retain).map Prod.snd
      else cs.filter fun i => decide (i ∈ (log.zipIdx.filter fun p => followsTrace path none p.1 == retain).map Prod.snd))
      (if retain then [] else log.zipIdx.map Prod.snd)) =
      decide (if retain then ∃ q ∈ relations, InOrder q p.1 else ∀ q ∈ relations, ¬ InOrder q p.1) := by
    intro p hp
    have huniq : ∀ q ∈ log.zipIdx, q.2 = p.2 → q = p := by
      intro q hq h
      have h1 := List.mem_zipIdx_iff_getElem?.1 hq
      have h2 := List.mem_zipIdx_iff_getElem?.1 hp
      rw [h, h2] at h1
      exact Prod.ext (Option.some.inj h1).symm h
    have := foldl_cases retain (log.zipIdx.map Prod.snd) relations
      (fun path => (log.zipIdx.filter fun p => followsTrace path none p.1 == retain).map Prod.snd) p.2 (fun path => InOrder path p.1)
      (List.mem_map.2 ⟨p, hp, rfl⟩) (by
        intro path _
        simp only [List.mem_map, List.mem_filter, beq_iff_eq]
        rw [← followsTrace_iff]
        constructor
        · rintro ⟨q, ⟨h1, h2⟩, h3⟩
          have := huniq q h1 h3
          subst this
          rw [h2]
        · intro h
          refine ⟨p, ⟨hp, ?_⟩, rfl⟩
          rw [Bool.eq_iff_iff]; exact h) (if retain then [] else log.zipIdx.map Prod.snd)
    rw [decide_eq_decide, this]
    cases retain
    · simp only [Bool.false_eq_true, if_false]
      exact and_iff_right (List.mem_map.2 ⟨p, hp, rfl⟩)
    · simp
  rw [List.filter_congr hmain]
  have := zipIdx_filter_map log (fun t => decide (if retain then ∃ q ∈ relations, InOrder q t else ∀ q ∈ relations, ¬ InOrder q t)) id 0
  simpa using this

open Classical in
/-- C51: on a dataframe, whatever the order of the rows of different cases, the eventually-follows filter (two or more values, no time
boundaries) keeps exactly the rows of the cases in which the values occur in the given order, respectively do not. -/
theorem C51_df_follows (positive : Bool) (a b : A) (vals : List A) (rows : List (Row C A R)) :
    dfEventuallyFollows positive (a :: b :: vals) [] rows =
      some (rows.filter fun r => decide (InOrder (a :: b :: vals) (trace rows r.cid)) == positive) := by
  have key : ∀ vs, rowsOfCases positive rows ((joined false rows (a :: vs)).flatMap caseOf) =
      rows.filter fun r => decide (InOrder (a :: vs) (trace rows r.cid)) == positive := by
    intro vs
    unfold rowsOfCases
    apply List.filter_congr
    intro r _
    congr 1
    rw [decide_eq_decide]
    exact mem_joined_cases ..
  cases vals with
  | nil => simp only [dfEventuallyFollows, List.isEmpty_nil, Bool.not_true, Bool.false_eq_true, if_false]; rw [key]
  | cons v vs => simp only [dfEventuallyFollows, List.isEmpty_nil, Bool.not_true, Bool.false_eq_true, if_false]; rw [key]

open Classical in
/-- C51: with one time boundary and two values (and no missing timestamp) the dataframe filter keeps exactly the rows of the cases in
which the two values occur in this order within the boundary, respectively do not. -/
theorem C51_df_follows_within (positive : Bool) (a b : A) (bd : Rat × Rat) (rows : List (Row C A R)) (ht : ∀ r ∈ rows, r.time.isSome = true) :
    dfEventuallyFollows positive [a, b] [bd] rows =
      some (rows.filter fun r => decide (InOrderWithin [a, b] [bd] (trace rows r.cid)) == positive) := by
  simp only [dfEventuallyFollows, List.isEmpty_cons, Bool.not_false, if_true]
  congr 1
  unfold rowsOfCases
  apply List.filter_congr
  intro r _
  congr 1
  rw [decide_eq_decide, List.mem_flatMap]
  generalize r.cid = c
  have htr : trace rows c = (rows.zipIdx.filter fun p => decide (p.1.cid = c)).map fun p => ⟨p.1.act, p.1.res, p.1.time.getD 0⟩ :=
    (zipIdx_filter_map rows (fun r => decide (r.cid = c)) (fun r => (⟨r.act, r.res, r.time.getD 0⟩ : Ev A R)) 0).symm
  constructor
  · rintro ⟨j, hj, hc⟩
    rw [List.mem_filter, mem_joined] at hj
    obtain ⟨hj, hd⟩ := hj
    match j, hj, hd, hc with
    | [y, x], hj, hd, hc =>
      have hcc : caseOf [x, y].reverse = [c] := by simpa [caseOf, eq_comm] using hc
      have := (chain_iff true rows [a, b] [x, y] c (by simp)).1 ⟨by simpa using hj, hcc⟩
      unfold InOrderWithin
      rw [htr]
      refine ⟨_, this.1.map fun p => (⟨p.1.act, p.1.res, p.1.time.getD 0⟩ : Ev A R), by simpa using this.2.1, ?_⟩
      simp only [firstDiffOk, List.getD_cons_zero, Bool.and_eq_true, decide_eq_true_eq] at hd
      simp only [List.map_cons, List.map_nil, Within]
      exact ⟨hd.1, hd.2, trivial⟩
  · rintro ⟨es, h1, h2, h3⟩
    rw [htr, List.sublist_map_iff] at h1
    obtain ⟨ps, h4, rfl⟩ := h1
    have hl := congrArg List.length h2
    simp at hl
    match ps, hl with
    | [x, y], _ =>
      have hmem : ∀ p ∈ [x, y], p.1.time.isSome = true := by
        intro p hp
        have := List.mem_filter.1 (h4.subset hp)
        exact ht p.1 (List.fst_mem_of_mem_zipIdx this.1)
      have := (chain_iff true rows [a, b] [x, y] c (by simp)).2 ⟨h4, by simpa using h2, fun _ _ => hmem⟩
      refine ⟨[y, x], List.mem_filter.2 ⟨(mem_joined ..).2 (by simpa using this.1), ?_⟩, ?_⟩
      · simp only [List.map_cons, List.map_nil, Within] at h3
        simp only [firstDiffOk, List.getD_cons_zero, Bool.and_eq_true, decide_eq_true_eq]
        exact ⟨h3.1, h3.2.1⟩
      · have := this.2
        simp [caseOf] at this ⊢
        exact this.symm

open Classical in
/-- C51: the different-resources filter on a dataframe -/
theorem C51_df_different (positive : Bool) (a : A) (rows : List (Row C A R)) :
    dfDifferentPersons positive a rows = rows.filter fun r => decide (Different a (trace rows r.cid)) == positive := by
  unfold dfDifferentPersons rowsOfCases
  apply List.filter_congr
  intro r _
  congr 1
  rw [decide_eq_decide, mem_joinRes]
  constructor
  · rintro ⟨x, y, h1, h2, h3⟩
    exact ⟨x, y, by simpa using h3, h1, lastRes_some h2⟩
  · rintro ⟨x, y, h1, h2, h3⟩
    obtain ⟨z, hz⟩ := lastRes_of_does h2
    by_cases e : x = z
    · exact ⟨y, z, h3, hz, by simp [← e, Ne.symm h1]⟩
    · exact ⟨x, z, h2, hz, by simp [e]⟩

open Classical in
/-- C51: the four-eyes filter on a dataframe is right if in every case the second activity is executed by one resource only -/
theorem C51_df_four_eyes (positive : Bool) (a b : A) (rows : List (Row C A R))
    (h1 : ∀ c r s, Does (trace rows c) r b → Does (trace rows c) s b → r = s) :
    dfFourEyes positive a b rows = rows.filter fun row =>
      decide (if positive then FourEyes a b (trace rows row.cid) else ∃ r, Does (trace rows row.cid) r a ∧ Does (trace rows row.cid) r b) := by
  have hpos : ∀ c, c ∈ joinRes true rows a b ↔ ∃ r, Does (trace rows c) r a ∧ Does (trace rows c) r b := by
    intro c
    rw [mem_joinRes]
    constructor
    · rintro ⟨x, y, k1, k2, k3⟩
      have : x = y := by simpa using k3
      subst this
      exact ⟨x, k1, lastRes_some k2⟩
    · rintro ⟨r, k1, k2⟩
      obtain ⟨s, hs⟩ := lastRes_of_does k2
      exact ⟨r, s, k1, hs, by simp [h1 c r s k2 (lastRes_some hs)]⟩
  unfold dfFourEyes
  cases positive with
  | false =>
    simp only [Bool.false_eq_true, if_false]
    apply List.filter_congr
    intro r _
    rw [decide_eq_decide, hpos]
  | true =>
    simp only [if_true]
    apply List.filter_congr
    intro r _
    rw [Bool.eq_iff_iff]
    simp only [Bool.and_eq_true, Bool.not_eq_true', decide_eq_true_eq, decide_eq_false_iff_not, hpos]
    unfold FourEyes
    rw [mem_joinRes]
    constructor
    · rintro ⟨⟨x, y, k1, k2, k3⟩, k4⟩
      exact ⟨⟨x, k1⟩, ⟨y, lastRes_some k2⟩, k4⟩
    · rintro ⟨⟨x, k1⟩, ⟨y, k2⟩, k4⟩
      obtain ⟨s, hs⟩ := lastRes_of_does k2
      refine ⟨⟨x, s, k1, hs, ?_⟩, k4⟩
      simp only [decide_eq_false_iff_not]
      rintro rfl
      exact k4 ⟨x, k1, lastRes_some hs⟩

open Classical in
/-- C51: `filter_eventually_follows_relation` on a dataframe (relations of two or more activities) -/
theorem C51_df_relations (retain : Bool) (relations : List (List A)) (rows : List (Row C A R)) (h2 : ∀ p ∈ relations, 2 ≤ p.length) :
    dfFilterRelation retain relations rows = some (rows.filter fun r =>
      decide (if retain then ∃ p ∈ relations, InOrder p (trace rows r.cid) else ∀ p ∈ relations, ¬ InOrder p (trace rows r.cid))) := by
  have hstep : ∀ p ∈ relations, dfEventuallyFollows retain p [] rows =
      some (rows.filter fun r => decide (InOrder p (trace rows r.cid)) == retain) := by
    intro p hp
    have := h2 p hp
    match p, this with
    | a :: b :: vs, _ => exact C51_df_follows ..
  have hfold : ∀ (rels : List (List A)), (∀ p ∈ rels, p ∈ relations) → ∀ cs : List C,
      rels.foldl (fun (cs : Option (List C)) path => cs.bind fun cs =>
        (dfEventuallyFollows retain path [] rows).map fun kept =>
          if retain then cs ++ kept.map Row.cid else cs.filter fun c => decide (c ∈ kept.map Row.cid)) (some cs) =
      some (rels.foldl (fun cs path => if retain then cs ++ (rows.filter fun r => decide (InOrder path (trace rows r.cid)) == retain).map Row.cid
        else cs.filter fun i => decide (i ∈ (rows.filter fun r => decide (InOrder path (trace rows r.cid)) == retain).map Row.cid)) cs) := by
    intro rels
    induction rels with
    | nil => intro _ cs; rfl
    | cons p ps ih =>
      intro hm cs
      rw [List.foldl_cons, List.foldl_cons]
      rw [Option.bind_some, hstep p (hm p (by simp)), Option.map_some]
      exact ih (fun q hq => hm q (by simp [hq])) _
  unfold dfFilterRelation
  rw [hfold relations (fun _ h => h), Option.map_some]
  congr 1
  apply List.filter_congr
  intro r hr
  rw [decide_eq_decide]
  have := foldl_cases retain (rows.map Row.cid) relations
    (fun path => (rows.filter fun r => decide (InOrder path (trace rows r.cid)) == retain).map Row.cid) r.cid
    (fun path => InOrder path (trace rows r.cid)) (List.mem_map.2 ⟨r, hr, rfl⟩) (by
      intro path _
      simp only [List.mem_map, List.mem_filter, beq_iff_eq]
      constructor
      · rintro ⟨q, ⟨k1, k2⟩, k3⟩
        rw [k3] at k2
        rw [← k2]; simp
      · intro h
        refine ⟨r, ⟨hr, ?_⟩, rfl⟩
        rw [Bool.eq_iff_iff]; simpa using h) (if retain then [] else rows.map Row.cid)
  rw [this]
  cases retain
  · simp only [Bool.false_eq_true, if_false]
    exact and_iff_right (List.mem_map.2 ⟨r, hr, rfl⟩)
  · simp

open Classical in
/-- C51: `A_next_B_next_C` on a dataframe (`positive`) keeps whole cases, and only cases in which the three activities occur directly after
each other -/
theorem C51_df_next_sound (a b c : A) (rows : List (Row C A R)) :
    (∀ r ∈ dfNextNext true a b c rows, r ∈ rows ∧ Directly a b c (trace rows r.cid)) ∧
    ∀ r ∈ rows, ∀ s ∈ dfNextNext true a b c rows, r.cid = s.cid → r ∈ dfNextNext true a b c rows := by
  constructor
  · intro r hr
    unfold dfNextNext rowsOfCases at hr
    rw [List.mem_filter] at hr
    obtain ⟨hr, hc⟩ := hr
    refine ⟨hr, ?_⟩
    simp only [beq_true, decide_eq_true_eq, List.mem_map, List.mem_filter] at hc
    obtain ⟨p, ⟨hp, hm⟩, hpc⟩ := hc
    split at hm
    case h_2 => cases hm
    rename_i j k hj hk
    have hlast : ∀ v i, lastIdx rows v p.1.cid = some i → ∃ q : Row C A R, rows[i]? = some q ∧ q.act = some v ∧ q.cid = p.1.cid := by
      intro v i h
      have := List.mem_of_getLast? h
      simp only [List.mem_map, List.mem_filter, mem_dfA, decide_eq_true_eq] at this
      obtain ⟨q, ⟨⟨h1, h2⟩, h3⟩, rfl⟩ := this
      exact ⟨q.1, List.mem_zipIdx_iff_getElem?.1 h1, h2, h3⟩
    obtain ⟨q1, a1, a2, a3⟩ := hlast b j hj
    obtain ⟨q2, b1, b2, b3⟩ := hlast c k hk
    rw [mem_dfA] at hp
    have p1 := List.mem_zipIdx_iff_getElem?.1 hp.1
    simp only [Bool.and_eq_true, decide_eq_true_eq] at hm
    have e1 : j = p.2 + 1 := by omega
    have e2 : k = p.2 + 2 := by omega
    subst e1 e2
    have d1 : rows = rows.take p.2 ++ (p.1 :: q1 :: q2 :: rows.drop (p.2 + 3)) := by
      have := List.take_append_drop p.2 rows
      rw [List.drop_eq_getElem?_toList_append, p1, List.drop_eq_getElem?_toList_append, a1, List.drop_eq_getElem?_toList_append, b1] at this
      exact this.symm
    refine ⟨(trace (rows.take p.2) r.cid).map Ev.act, (trace (rows.drop (p.2 + 3)) r.cid).map Ev.act, ?_⟩
    rw [← hpc]
    conv => rhs; rw [d1]
    unfold trace
    simp [List.filter_append, a3, b3, hp.2, a2, b2]
  · intro r hr s hs hrs
    unfold dfNextNext rowsOfCases at hs ⊢
    rw [List.mem_filter] at hs ⊢
    exact ⟨hr, by rw [hrs]; exact hs.2⟩

/-! ### concrete cases and refutations -/

/-- an event of activity `n` by resource `r` at time `t` -/
def ev (n r : Nat) (t : Rat) : Ev Nat Nat := ⟨some n, some r, t⟩
def row (c n r : Nat) (t : Rat) : Row Nat Nat Nat := ⟨c, some n, some r, some t⟩

/-- C51: the time boundaries on event logs are tested on the first events of the trace, not on the matched ones: the trace `1@0, 3@5,
2@100` is kept although 2 follows 1 after 100, not within 10. -/
theorem C51_log_within_refuted : ∃ (log : List (List (Ev Nat Nat))) (t : List (Ev Nat Nat)),
    t ∈ eventuallyFollows true [1, 2] (some [(0, 10)]) log ∧ ¬ InOrderWithin [1, 2] [(0, 10)] t := by
  refine ⟨[[ev 1 0 0, ev 3 0 5, ev 2 0 100]], [ev 1 0 0, ev 3 0 5, ev 2 0 100], by decide +kernel, ?_⟩
  rintro ⟨es, h1, h2, h3⟩
  have hl := congrArg List.length h2
  simp at hl
  match es, hl with
  | [x, y], _ =>
    have hx := h1.subset (show x ∈ [x, y] by simp)
    have hy := h1.subset (show y ∈ [x, y] by simp)
    simp [ev] at h2 hx hy
    rcases hx with rfl | rfl | rfl <;> simp at h2
    rcases hy with rfl | rfl | rfl <;> simp at h2
    simp [Within] at h3
    exact absurd h3 (by decide +kernel)

/-- C51: on a dataframe, time boundaries with three values always raise -/
theorem C51_df_within_refuted (positive : Bool) (a b c : A) (vs : List A) (b1 : Rat × Rat) (bs : List (Rat × Rat)) (rows : List (Row C A R)) :
    dfEventuallyFollows positive (a :: b :: c :: vs) (b1 :: bs) rows = none := rfl

/-- C51: the four-eyes filter on a dataframe only looks at the last execution of the second activity: the case `1 by 7, 2 by 7, 2 by 8` is
kept although 7 executes both; the event log filter drops it. -/
theorem C51_df_four_eyes_refuted : ∃ (rows : List (Row Nat Nat Nat)) (r : Row Nat Nat Nat), r ∈ dfFourEyes true 1 2 rows ∧
    ¬ FourEyes 1 2 (trace rows r.cid) ∧ trace rows r.cid ∉ fourEyes true 1 2 [trace rows r.cid] := by
  refine ⟨[row 0 1 7 0, row 0 2 7 1, row 0 2 8 2], row 0 1 7 0, by decide, ?_, by decide⟩
  rintro ⟨_, _, h⟩
  exact h ⟨7, ⟨ev 1 7 0, by decide, rfl, rfl⟩, ⟨ev 2 7 1, by decide, rfl, rfl⟩⟩

/-- C51: `A_next_B_next_C` on a dataframe only looks at the last executions: the case `1, 2, 3, 2` is dropped -/
theorem C51_df_next_refuted : ∃ (rows : List (Row Nat Nat Nat)) (r : Row Nat Nat Nat), r ∈ rows ∧ r ∉ dfNextNext true 1 2 3 rows ∧
    Directly 1 2 3 (trace rows r.cid) :=
  ⟨[row 0 1 7 0, row 0 2 7 1, row 0 3 8 2, row 0 2 8 3], row 0 1 7 0, by decide, by decide, ⟨[], [some 2], by decide⟩⟩

/-- C51: and it depends on the rows of other cases in between: the same case, once with a row of another case in between -/
theorem C51_df_next_interleaved_refuted : ∃ (rows : List (Row Nat Nat Nat)) (r : Row Nat Nat Nat), r ∈ rows ∧ r ∉ dfNextNext true 1 2 3 rows ∧
    Directly 1 2 3 (trace rows r.cid) :=
  ⟨[row 0 1 7 0, row 1 5 7 1, row 0 2 7 1, row 0 3 8 2], row 0 1 7 0, by decide, by decide, ⟨[], [], by decide⟩⟩

/-- the filters keep some and drop some -/
example : eventuallyFollows true [1, 2] none [[ev 1 0 0, ev 3 0 1, ev 2 0 2], [ev 2 0 0, ev 1 0 1]] = [[ev 1 0 0, ev 3 0 1, ev 2 0 2]] := by decide +kernel
example : fourEyes true 1 2 [[ev 1 7 0, ev 2 8 1], [ev 1 7 0, ev 2 7 1], [ev 1 7 0]] = [[ev 1 7 0, ev 2 8 1]] := by decide +kernel
example : dfEventuallyFollows true [1, 2] [(0, 10)] [row 0 1 7 0, row 1 1 7 0, row 0 2 7 5, row 1 2 7 50] = some [row 0 1 7 0, row 0 2 7 5] := by
  decide +kernel
example : dfFourEyes true 1 2 [row 0 1 7 0, row 1 1 7 0, row 0 2 8 5, row 1 2 7 50] = [row 0 1 7 0, row 0 2 8 5] := by decide +kernel
example : ∀ c r s, Does (trace [row 0 1 7 0, row 1 1 7 0, row 0 2 8 5, row 1 2 7 50] c) r 2 →
    Does (trace [row 0 1 7 0, row 1 1 7 0, row 0 2 8 5, row 1 2 7 50] c) s 2 → r = s := by
  intro c r s h1 h2
  rw [does_trace] at h1 h2
  obtain ⟨x, hx, x1, x2, x3⟩ := h1
  obtain ⟨y, hy, y1, y2, y3⟩ := h2
  simp [row] at hx hy
  rcases hx with rfl | rfl | rfl | rfl <;> rcases hy with rfl | rfl | rfl | rfl <;> simp_all <;> omega

end Verif
