import Verif.StreamTemp.Model
import Verif.TempProfile.Theorems
import Mathlib.Data.List.Induction
set_option linter.unusedSectionVars false
/-
C81: streaming conformance checking with a temporal profile.
-/
namespace Verif
namespace StreamTemp
open TempProfile Dict
variable {κ : Type} [DecidableEq κ]

/-! ### Specification -/

/-- the events of a case in the order of their arrival -/
def trace (evs : List (Event κ)) (c : κ) : List Ev := evs.filterMap fun x => x.bind fun p => if p.1 = c then some p.2 else none

/-! ### Lemmas -/

theorem compare_eq (profile : Dict (String × String) (ℝ × ℝ)) (zeta : ℝ) (p e : Ev) :
    compare profile zeta p e = if e.st ≥ p.et then check profile zeta ((p.act, e.act), e.st - p.et) else none := by
  unfold compare check
  by_cases h : e.st ≥ p.et
  · simp only [h, if_true]
    cases Dict.get? profile (p.act, e.act) <;> rfl
  · simp [h]

/-- the deviations found when `e` arrives after `prev` -/
noncomputable def found (profile : Dict (String × String) (ℝ × ℝ)) (zeta : ℝ) (prev : List Ev) (e : Ev) : List Dev :=
  prev.filterMap fun p => compare profile zeta p e

/-- all deviations of a trace in the order of arrival -/
noncomputable def foundAll (profile : Dict (String × String) (ℝ × ℝ)) (zeta : ℝ) (t : List Ev) : List Dev :=
  (t.foldl (fun (acc : List Ev × List Dev) e => (acc.1 ++ [e], acc.2 ++ found profile zeta acc.1 e)) ([], [])).2

theorem foundAll_snoc (profile : Dict (String × String) (ℝ × ℝ)) (zeta : ℝ) (t : List Ev) (e : Ev) :
    foundAll profile zeta (t ++ [e]) = foundAll profile zeta t ++ found profile zeta t e := by
  have h1 : ∀ (t : List Ev) (a : List Ev) (b : List Dev),
      (t.foldl (fun (acc : List Ev × List Dev) e => (acc.1 ++ [e], acc.2 ++ found profile zeta acc.1 e)) (a, b)).1 = a ++ t := by
    intro t
    induction t with
    | nil => intro a b; simp
    | cons x t ih => intro a b; rw [List.foldl_cons, ih]; simp
  unfold foundAll
  rw [List.foldl_append]
  simp only [List.foldl_cons, List.foldl_nil]
  rw [h1]; simp

theorem pairsOf_snoc (t : List Ev) (e : Ev) :
    (pairsOf (t ++ [e])).Perm (pairsOf t ++ t.filterMap fun p => if e.st ≥ p.et then some ((p.act, e.act), e.st - p.et) else none) := by
  induction t with
  | nil => simp [pairsOf, diffsFrom]
  | cons x t ih =>
    simp only [List.cons_append, pairsOf]
    have hd : diffsFrom x (t ++ [e]) = diffsFrom x t ++ diffsFrom x [e] := by simp [diffsFrom]
    have hf : (x :: t).filterMap (fun p => if e.st ≥ p.et then some ((p.act, e.act), e.st - p.et) else none) =
        diffsFrom x [e] ++ t.filterMap fun p => if e.st ≥ p.et then some ((p.act, e.act), e.st - p.et) else none := by
      by_cases h : e.st ≥ x.et <;> simp [diffsFrom, h]
    rw [hd, hf, List.append_assoc, List.append_assoc]
    refine List.Perm.append_left _ ?_
    refine (ih.append_left _).trans ?_
    rw [← List.append_assoc, ← List.append_assoc]
    exact List.Perm.append_right _ List.perm_append_comm

theorem foundAll_perm (profile : Dict (String × String) (ℝ × ℝ)) (zeta : ℝ) (t : List Ev) :
    (foundAll profile zeta t).Perm ((pairsOf t).filterMap (check profile zeta)) := by
  induction t using List.reverseRecOn with
  | nil => simp [foundAll, pairsOf]
  | append_singleton t e ih =>
    rw [foundAll_snoc]
    refine List.Perm.trans ?_ ((pairsOf_snoc t e).filterMap (check profile zeta)).symm
    rw [List.filterMap_append]
    refine ih.append ?_
    unfold found
    rw [List.filterMap_filterMap]
    refine List.Perm.of_eq (List.filterMap_congr fun p _ => ?_)
    rw [compare_eq]
    by_cases h : e.st ≥ p.et <;> simp [h]

theorem trace_snoc (evs : List (Event κ)) (x : Event κ) (c : κ) : trace (evs ++ [x]) c = trace evs c ++ match x with
    | none => []
    | some (c', e) => if c' = c then [e] else [] := by
  unfold trace
  rw [List.filterMap_append]
  rcases x with _ | ⟨c', e⟩
  · simp
  · by_cases h : c' = c <;> simp [h]

theorem check_fold (profile : Dict (String × String) (ℝ × ℝ)) (zeta : ℝ) (c : κ) (e : Ev) : ∀ (l : List Ev) (s : State κ),
    let s' := l.foldl (report profile zeta c e) s
    s'.cases = s.cases ∧ (∀ c', c' ≠ c → Dict.get? s'.devs c' = Dict.get? s.devs c') ∧
    (∀ D, Dict.get? s.devs c = some D → Dict.get? s'.devs c = some (D ++ found profile zeta l e)) ∧
    ((keys s.devs).Nodup → (keys s'.devs).Nodup) := by
  intro l
  induction l with
  | nil => intro s; exact ⟨rfl, fun _ _ => rfl, fun D h => by simpa [found] using h, id⟩
  | cons p l ih =>
    intro s
    simp only [List.foldl_cons, report]
    cases hq : compare profile zeta p e with
    | none =>
      obtain ⟨a1, a2, a3, a4⟩ := ih s
      exact ⟨a1, a2, fun D h => by simpa [found, hq] using a3 D h, a4⟩
    | some d =>
      obtain ⟨a1, a2, a3, a4⟩ := ih { s with devs := Dict.set s.devs c ((Dict.get? s.devs c).getD [] ++ [d]) }
      refine ⟨a1, fun c' hc => ?_, fun D h => ?_, fun h => a4 (nodup_set h _ _)⟩
      · rw [a2 c' hc]
        have hc' : ¬ c = c' := fun h => hc h.symm
        simp [get?_set, hc, hc']
      · rw [a3 (D ++ [d]) (by simp [get?_set, h])]
        simp [found, hq]

theorem inv_run (profile : Dict (String × String) (ℝ × ℝ)) (zeta : ℝ) (evs : List (Event κ)) :
    (keys (run profile zeta evs).devs).Nodup ∧ ∀ c,
      Dict.get? (run profile zeta evs).cases c = (if trace evs c = [] then none else some (trace evs c)) ∧
      Dict.get? (run profile zeta evs).devs c = (if trace evs c = [] then none else some (foundAll profile zeta (trace evs c))) := by
  induction evs using List.reverseRecOn with
  | nil => exact ⟨by simp [run, init, keys], fun c => by simp [run, init, trace, Dict.get?]⟩
  | append_singleton evs x ih =>
    have hr : run profile zeta (evs ++ [x]) = process profile zeta (run profile zeta evs) x := by simp [run, List.foldl_append]
    rw [hr]
    rcases x with _ | ⟨c', e⟩
    · refine ⟨ih.1, fun c => ?_⟩
      rw [trace_snoc]; simpa [process] using ih.2 c
    · set s := run profile zeta evs with hs
      obtain ⟨hn, hall⟩ := ih
      have hcs := hall c'
      simp only [process]
      set s1 : State κ := if has s.cases c' then s else ⟨Dict.set s.cases c' [], Dict.set s.devs c' []⟩ with hs1
      have h1 : Dict.get? s1.cases c' = some (trace evs c') ∧ Dict.get? s1.devs c' = some (foundAll profile zeta (trace evs c')) := by
        rw [hs1]
        by_cases ht : trace evs c' = []
        · rw [if_pos ht] at hcs
          have : has s.cases c' = false := by simp [has, hcs.1]
          rw [this, ht]
          simp [get?_set, foundAll]
        · rw [if_neg ht, if_neg ht] at hcs
          have : has s.cases c' = true := by simp [has, hcs.1]
          rw [this]; simpa using hcs
      have h2 : ∀ c, c ≠ c' → Dict.get? s1.cases c = Dict.get? s.cases c ∧ Dict.get? s1.devs c = Dict.get? s.devs c := by
        intro c hc
        have hc' : ¬ c' = c := fun h => hc h.symm
        rw [hs1]; split <;> simp [get?_set, hc, hc']
      have hn1 : (keys s1.devs).Nodup := by
        rw [hs1]; split
        · exact hn
        · exact nodup_set hn _ _
      obtain ⟨a1, a2, a3, a4⟩ := check_fold profile zeta c' e ((Dict.get? s1.cases c').getD []) s1
      rw [h1.1] at a1 a2 a3 a4
      have a3' := a3 _ h1.2
      unfold checkConformance
      rw [h1.1]
      refine ⟨a4 hn1, fun c => ?_⟩
      rw [trace_snoc]
      by_cases hc : c = c'
      · subst hc
        simp only [if_true]
        have hne : trace evs c ++ [e] ≠ [] := by simp
        rw [if_neg hne, if_neg hne]
        refine ⟨?_, ?_⟩
        · simp only [get?_set, if_true]
          rw [a1, h1.1]; rfl
        · rw [foundAll_snoc]
          simpa using a3'
      · have hc' : ¬ c' = c := fun h => hc h.symm
        simp only [hc', if_false, List.append_nil]
        have b := hall c
        refine ⟨?_, ?_⟩
        · simp only [get?_set, hc, hc', if_false]
          rw [a1, (h2 c hc).1]; exact b.1
        · rw [a2 c hc, (h2 c hc).2]; exact b.2

theorem get?_filter_nodup {ν : Type} (f : κ × ν → Bool) (d : Dict κ ν) (h : (keys d).Nodup) (k : κ) :
    Dict.get? (d.filter f) k = (Dict.get? d k).bind fun v => if f (k, v) then some v else none := by
  induction d with
  | nil => rfl
  | cons x d ih =>
    obtain ⟨k', v⟩ := x
    simp only [keys, List.map_cons, List.nodup_cons] at h
    have ih' := ih h.2
    by_cases hk : k' = k
    · subst hk
      have hnone : Dict.get? d k' = none := by
        have := (mem_keys_iff d k').not.1 h.1
        simpa using this
      by_cases hf : f (k', v) = true
      · simp [List.filter_cons, hf, get?_cons]
      · rw [List.filter_cons, if_neg hf, ih', hnone]
        simp [get?_cons, hf]
    · have hk' : ¬ k = k' := fun h => hk h.symm
      by_cases hf : f (k', v) = true
      · rw [List.filter_cons, if_pos hf, get?_cons, get?_cons]
        simp only [hk, hk', if_false]; exact ih'
      · rw [List.filter_cons, if_neg hf, get?_cons]
        simp only [hk, hk', if_false]; exact ih'

end StreamTemp

open StreamTemp TempProfile Dict
variable {κ : Type} [DecidableEq κ]

/-- C81: after every sequence of events the checker reports, for every case, exactly the deviations that offline conformance checking (C71) finds in
the trace of the case in the order of arrival - no more, no less, with the same multiplicities; cases without deviations are not reported. -/
theorem C81_stream_eq_batch (profile : Dict (String × String) (ℝ × ℝ)) (zeta : ℝ) (evs : List (Event κ)) (c : κ) :
    (∀ D, Dict.get? (currentResult (run profile zeta evs)) c = some D →
      D ≠ [] ∧ conformance profile zeta [trace evs c] ≠ [[]] ∧ ∃ D' ∈ conformance profile zeta [trace evs c], D.Perm D') ∧
    (Dict.get? (currentResult (run profile zeta evs)) c = none ↔ conformance profile zeta [trace evs c] = [[]]) := by
  obtain ⟨hn, hall⟩ := inv_run profile zeta evs
  have hp := foundAll_perm profile zeta (trace evs c)
  have hcr : Dict.get? (currentResult (run profile zeta evs)) c =
      if foundAll profile zeta (trace evs c) = [] then none else some (foundAll profile zeta (trace evs c)) := by
    unfold currentResult
    rw [get?_filter_nodup _ _ hn, (hall c).2]
    by_cases ht : trace evs c = []
    · simp [ht, foundAll]
    · by_cases hf : foundAll profile zeta (trace evs c) = []
      · simp [hf]
      · simp [ht, hf]
  have hcf : conformance profile zeta [trace evs c] = [(pairsOf (trace evs c)).filterMap (check profile zeta)] := rfl
  have hiff : conformance profile zeta [trace evs c] = [[]] ↔ foundAll profile zeta (trace evs c) = [] := by
    rw [hcf]
    constructor
    · intro h
      have : (pairsOf (trace evs c)).filterMap (check profile zeta) = [] := by simpa using h
      rw [this] at hp; exact hp.eq_nil
    · intro h; rw [h] at hp; rw [hp.nil_eq]
  refine ⟨fun D hD => ?_, ?_⟩
  · rw [hcr] at hD
    by_cases hf : foundAll profile zeta (trace evs c) = []
    · rw [if_pos hf] at hD; simp at hD
    · rw [if_neg hf, Option.some.injEq] at hD
      subst hD
      exact ⟨hf, fun h => hf (hiff.1 h), _, by rw [hcf]; exact List.mem_singleton.2 rfl, hp⟩
  · rw [hcr, hiff]
    by_cases hf : foundAll profile zeta (trace evs c) = [] <;> simp [hf]

/-- C81, interleaving: what is reported for a case depends only on its own events; incomplete events have no effect. -/
theorem C81_interleaving (profile : Dict (String × String) (ℝ × ℝ)) (zeta : ℝ) (evs evs' : List (Event κ)) (c : κ) (h : trace evs c = trace evs' c) :
    Dict.get? (currentResult (run profile zeta evs)) c = Dict.get? (currentResult (run profile zeta evs')) c := by
  obtain ⟨hn, hall⟩ := inv_run profile zeta evs
  obtain ⟨hn', hall'⟩ := inv_run profile zeta evs'
  unfold currentResult
  rw [get?_filter_nodup _ _ hn, get?_filter_nodup _ _ hn', (hall c).2, (hall' c).2, h]

/-- C81, no alarm is taken back, and alarms only come from the event just received: a further event of the case adds the deviations of the pairs it
forms with the earlier events, in their order, and leaves all others alone. -/
theorem C81_incremental (profile : Dict (String × String) (ℝ × ℝ)) (zeta : ℝ) (evs : List (Event κ)) (c : κ) (e : Ev) :
    (Dict.get? (currentResult (run profile zeta (evs ++ [some (c, e)]))) c).getD [] =
      (Dict.get? (currentResult (run profile zeta evs)) c).getD [] ++
        (trace evs c).filterMap (fun p => if p.et ≤ e.st then check profile zeta ((p.act, e.act), e.st - p.et) else none) ∧
    ∀ c', c' ≠ c → Dict.get? (currentResult (run profile zeta (evs ++ [some (c, e)]))) c' = Dict.get? (currentResult (run profile zeta evs)) c' := by
  have key : ∀ evs : List (Event κ), (Dict.get? (currentResult (run profile zeta evs)) c).getD [] = foundAll profile zeta (trace evs c) := by
    intro evs
    obtain ⟨hn, hall⟩ := inv_run profile zeta evs
    unfold currentResult
    rw [get?_filter_nodup _ _ hn, (hall c).2]
    by_cases ht : trace evs c = []
    · simp [ht, foundAll]
    · by_cases hf : foundAll profile zeta (trace evs c) = []
      · simp [ht, hf]
      · simp [ht, hf]
  refine ⟨?_, fun c' hc => ?_⟩
  · rw [key, key, trace_snoc]
    simp only [if_true]
    rw [foundAll_snoc]
    exact congrArg _ (List.filterMap_congr fun p _ => compare_eq profile zeta p e)
  · apply C81_interleaving
    rw [trace_snoc]
    have hc' : ¬ c = c' := fun h => hc h.symm
    simp [hc']

/-- two interleaved cases; the second `b` of case 1 is too late -/
theorem C81_case : ∃ D, Dict.get? (currentResult (run [(("a", "b"), (5, 1))] 2
    [some (1, ⟨"a", 0, 0⟩), some (2, ⟨"a", 0, 0⟩), some (1, ⟨"b", 20, 20⟩), none, some (2, ⟨"b", 6, 6⟩)])) 1 = some D := by
  cases h : Dict.get? (currentResult (run [(("a", "b"), ((5 : ℝ), (1 : ℝ)))] 2
      [some (1, (⟨"a", 0, 0⟩ : Ev)), some (2, ⟨"a", 0, 0⟩), some (1, ⟨"b", 20, 20⟩), none, some (2, ⟨"b", 6, 6⟩)])) 1 with
  | some D => exact ⟨D, rfl⟩
  | none =>
    exfalso
    have := (C81_stream_eq_batch _ _ _ _).2.1 h
    have ht : trace [some (1, (⟨"a", 0, 0⟩ : Ev)), some (2, ⟨"a", 0, 0⟩), some (1, ⟨"b", 20, 20⟩), none, some (2, ⟨"b", 6, 6⟩)] 1 =
        [⟨"a", 0, 0⟩, ⟨"b", 20, 20⟩] := by decide
    rw [ht] at this
    have hg : check [(("a", "b"), ((5 : ℝ), (1 : ℝ)))] 2 (("a", "b"), 20) ≠ none := by
      unfold check
      simp only [Dict.get?]
      norm_num
      simp
    simp [conformance, pairsOf, diffsFrom] at this
    exact hg this

end Verif
