import Verif.MlPrep.Model
import Mathlib.Tactic.Linarith
import Mathlib.Tactic.NormNum
import Mathlib.Data.List.Dedup
import Mathlib.Data.List.Induction
import Mathlib.Data.List.GetD
set_option linter.unusedSectionVars false
/-
C89: training and test logs, prefixes and targets.
-/
namespace Verif
namespace MlPrep

theorem filterMap_range {α : Type} (log : List α) : (List.range log.length).filterMap (fun i => log[i]?) = log := by
  induction log using List.reverseRecOn with
  | nil => rfl
  | append_singleton l a ih =>
    rw [List.length_append, List.length_singleton, List.range_succ, List.filterMap_append]
    have e : (List.range l.length).filterMap (fun i => (l ++ [a])[i]?) = (List.range l.length).filterMap fun i => l[i]? := by
      refine List.filterMap_congr fun i hi => ?_
      exact List.getElem?_append_left (List.mem_range.1 hi)
    rw [e, ih]
    simp

theorem filterMap_range_take {α : Type} (l : List α) (n : Nat) (h : n ≤ l.length) : (List.range n).filterMap (fun i => l[i]?) = l.take n := by
  have e := filterMap_range (l.take n)
  rw [List.length_take, min_eq_left h] at e
  rw [← e]
  refine List.filterMap_congr fun i hi => ?_
  rw [List.getElem?_take_of_lt (List.mem_range.1 hi)]

theorem length_filterMap_idx {α : Type} (log : List α) (l : List Nat) (h : ∀ i ∈ l, i < log.length) : (l.filterMap fun i => log[i]?).length = l.length := by
  induction l with
  | nil => rfl
  | cons i l ih =>
    rw [List.filterMap_cons, List.getElem?_eq_getElem (h i (by simp)), List.length_cons, List.length_cons, ih fun j hj => h j (List.mem_cons_of_mem _ hj)]

theorem indexed_filter {κ ε : Type} [DecidableEq κ] (c : κ) (n : Nat) (rows : List (κ × ε)) : ∀ (seen : List κ),
    (((indexed seen rows).filter fun r => decide ((r.2 : Int) ≤ (n : Int) - 1)).map Prod.fst).filter (fun r => decide (r.1 = c)) =
      (rows.filter fun r => decide (r.1 = c)).take (n - seen.count c) := by
  induction rows with
  | nil => intro seen; simp [indexed]
  | cons r rows ih =>
    intro seen
    have ih := ih (r.1 :: seen)
    rw [List.count_cons] at ih
    rw [indexed]
    by_cases hc : r.1 = c
    · subst hc
      rw [beq_self_eq_true, if_pos rfl] at ih
      by_cases hn : ((seen.count r.1 : Nat) : Int) ≤ (n : Int) - 1
      · rw [List.filter_cons, if_pos (by simpa using hn), List.map_cons, List.filter_cons, if_pos (by simp), ih, List.filter_cons, if_pos (by simp)]
        obtain ⟨m, hm⟩ : ∃ m, n - seen.count r.1 = m + 1 := ⟨n - seen.count r.1 - 1, by omega⟩
        rw [hm, List.take_succ_cons, show n - (seen.count r.1 + 1) = m by omega]
      · rw [List.filter_cons, if_neg (by simpa using hn), ih]
        rw [show n - (seen.count r.1 + 1) = 0 by omega, show n - seen.count r.1 = 0 by omega, List.take_zero, List.take_zero]
    · have hb : (r.1 == c) = false := by simpa using hc
      rw [hb, if_neg (by simp), Nat.add_zero] at ih
      rw [List.filter_cons (xs := rows), if_neg (by simpa using hc), List.filter_cons]
      split
      · rw [List.map_cons, List.filter_cons, if_neg (by simpa using hc), ih]
      · exact ih

theorem oneHot_length (acts : List String) (nx : Option String) : (oneHot acts nx).length = acts.length := by
  unfold oneHot
  split
  · simp
  · split <;> simp

theorem oneHot_getElem (acts : List String) (hn : acts.Nodup) (nx : Option String) (k : Nat) (hk : k < acts.length) :
    (oneHot acts nx)[k]'(by rw [oneHot_length]; exact hk) = if nx = some acts[k] then 1 else 0 := by
  unfold oneHot
  split
  · simp
  · rename_i a
    split
    · rename_i ha
      rw [List.getElem_set]
      by_cases h : acts.idxOf a = k
      · subst h
        simp
      · have : ¬ (some a = some acts[k]) := by
          intro e
          have : a = acts[k] := Option.some.inj e
          apply h
          rw [this]
          exact hn.idxOf_getElem k hk
        rw [if_neg h, if_neg this]
        simp
    · rename_i ha
      have : ¬ (some a = some acts[k]) := fun e => ha (by rw [Option.some.inj e]; exact List.getElem_mem hk)
      rw [if_neg this]
      simp

end MlPrep

open MlPrep

/-- C89: for every shuffle and fraction, training and test log together are the log: every trace is in exactly one of them, as often as in the log. -/
theorem C89_split {α : Type} (log : List α) (idxs : List Nat) (hp : idxs.Perm (List.range log.length)) (p : Rat) :
    ((split log idxs p).1 ++ (split log idxs p).2).Perm log := by
  simp only [split]
  rw [← List.filterMap_append, List.take_append_drop]
  exact (hp.filterMap _).trans (by rw [filterMap_range])

/-- C89: the training log has one trace more than the given fraction of the log (rounded down), if there are enough. -/
theorem C89_split_size {α : Type} (log : List α) (idxs : List Nat) (hp : idxs.Perm (List.range log.length)) (p : Rat) :
    (split log idxs p).1.length = min ((Int.floor ((log.length : Rat) * p)).toNat + 1) log.length := by
  have hl : idxs.length = log.length := by rw [hp.length_eq, List.length_range]
  simp only [split]
  rw [length_filterMap_idx, List.length_take, hl]
  intro i hi
  exact List.mem_range.1 (hp.mem_iff.1 (List.mem_of_mem_take hi))

/-- C89, refuted: the training log does not contain the given fraction of the traces; with fraction 0 it is not empty, and with fraction 0.8 the test log
of four traces is empty. -/
theorem C89_split_fraction_refuted : (split ["x", "y"] [1, 0] 0).1 = ["y"] ∧ (split ["w", "x", "y", "z"] [2, 1, 0, 3] (4 / 5)).2 = [] := by
  have h1 : Int.floor ((([1, 0] : List Nat).length : Rat) * 0) = 0 := by simp
  have h2 : Int.floor ((([2, 1, 0, 3] : List Nat).length : Rat) * (4 / 5)) = 3 := by rw [Int.floor_eq_iff]; norm_num
  simp only [split, h1, h2]
  decide

/-- C89: the data frame is split by cases: rows keep their order, every row is in exactly one of the two frames, all rows of a case in the same. -/
theorem C89_split_df {κ ε : Type} [DecidableEq κ] (rows : List (κ × ε)) (rnd : κ → Rat) (p : Rat) :
    (splitDf rows rnd p).1 = rows.filter (fun r => decide (rnd r.1 ≤ p)) ∧ (splitDf rows rnd p).2 = rows.filter (fun r => decide (p < rnd r.1)) ∧
    ((splitDf rows rnd p).1 ++ (splitDf rows rnd p).2).Perm rows ∧
    ∀ r ∈ (splitDf rows rnd p).1, ∀ r' ∈ (splitDf rows rnd p).2, r.1 ≠ r'.1 := by
  have h1 : (splitDf rows rnd p).1 = rows.filter (fun r => decide (rnd r.1 ≤ p)) := by
    refine List.filter_congr fun r hr => decide_eq_decide.2 ?_
    rw [List.mem_filter, List.mem_dedup, decide_eq_true_eq]
    exact ⟨fun h => h.2, fun h => ⟨List.mem_map.2 ⟨r, hr, rfl⟩, h⟩⟩
  have h2 : (splitDf rows rnd p).2 = rows.filter (fun r => decide (p < rnd r.1)) := by
    refine List.filter_congr fun r hr => decide_eq_decide.2 ?_
    rw [List.mem_filter, List.mem_dedup, Bool.not_eq_true', decide_eq_false_iff_not, not_le]
    exact ⟨fun h => h.2, fun h => ⟨List.mem_map.2 ⟨r, hr, rfl⟩, h⟩⟩
  refine ⟨h1, h2, ?_, ?_⟩
  · rw [h1, h2]
    have : (rows.filter fun r => decide (p < rnd r.1)) = rows.filter fun r => !decide (rnd r.1 ≤ p) := by
      refine List.filter_congr fun r _ => ?_
      rw [← decide_not]; exact decide_eq_decide.2 not_le.symm
    rw [this]
    exact List.filter_append_perm _ rows
  · rw [h1, h2]
    intro r hr r' hr' e
    have a := (List.mem_filter.1 hr).2
    have b := (List.mem_filter.1 hr').2
    rw [decide_eq_true_eq] at a b
    rw [e] at a
    exact absurd b (not_lt.2 a)

/-- C89: the prefixes of a log are the first events of its traces. -/
theorem C89_prefixes {ε : Type} (log : List (List ε)) (n : Nat) : prefixes log n = log.map (List.take n) := by
  refine List.map_congr_left fun tr _ => ?_
  split
  · rename_i h; exact (List.take_of_length_le h).symm
  · rename_i h; exact filterMap_range_take tr n (by omega)

/-- C89: the prefixes of a data frame: a subsequence of the rows that has, for every case, the first rows of the case. -/
theorem C89_prefixes_df {κ ε : Type} [DecidableEq κ] (rows : List (κ × ε)) (n : Nat) :
    (prefixesDf rows n).Sublist rows ∧ ∀ c, (prefixesDf rows n).filter (fun r => decide (r.1 = c)) = (rows.filter fun r => decide (r.1 = c)).take n := by
  refine ⟨?_, fun c => ?_⟩
  · have h : ∀ seen : List κ, (indexed seen rows).map Prod.fst = rows := by
      induction rows with
      | nil => intro _; rfl
      | cons r rows ih => intro seen; rw [indexed, List.map_cons, ih]
    have := (List.filter_sublist (p := fun r : (κ × ε) × Nat => decide ((r.2 : Int) ≤ (n : Int) - 1)) (l := indexed [] rows)).map Prod.fst
    rw [h] at this
    exact this
  · have := indexed_filter c n rows []
    rw [List.count_nil, Nat.sub_zero] at this
    exact this

/-- C89: the target of an event is the indicator of the activity of the next event of its trace; after the last event and in the padding all is zero. -/
theorem C89_next_activity (log : List (List String)) (acts : List String) (hn : acts.Nodup) (padding : Option Nat) :
    (nextActivity log acts padding).length = log.length ∧
    ∀ (c : Nat) (hc : c < log.length), ∃ rows, (nextActivity log acts padding)[c]? = some rows ∧
      rows.length = max log[c].length (padding.getD 0) ∧
      ∀ (i : Nat) (hi : i < rows.length), rows[i].length = acts.length ∧
        ∀ (k : Nat) (hk : k < acts.length), rows[i][k]? = some (if log[c][i + 1]? = some acts[k] then 1 else 0) := by
  refine ⟨by simp [nextActivity], fun c hc => ?_⟩
  refine ⟨_, by rw [nextActivity, List.getElem?_map, List.getElem?_eq_getElem hc]; rfl, ?_, ?_⟩
  · cases padding with
    | none => simp [pad]
    | some n =>
      simp only [pad, List.length_append, List.length_map, List.length_range, List.length_replicate, Option.getD_some]
      omega
  · intro i hi
    have key : ∀ (i : Nat) (r : List Nat), ((List.range log[c].length).map fun i => oneHot acts (if i < log[c].length - 1 then log[c][i + 1]? else none))[i]? = some r →
        r = oneHot acts log[c][i + 1]? := by
      intro i r h
      rw [List.getElem?_map, Option.map_eq_some_iff] at h
      obtain ⟨j, h1, rfl⟩ := h
      obtain ⟨h2, rfl⟩ := List.getElem?_eq_some_iff.1 h1
      rw [List.getElem_range]
      split
      · rfl
      · rename_i h3
        rw [List.getElem?_eq_none (by omega)]
    have row : (pad padding (List.replicate acts.length 0) ((List.range log[c].length).map fun i => oneHot acts (if i < log[c].length - 1 then log[c][i + 1]? else none)))[i]
        = oneHot acts log[c][i + 1]? := by
      by_cases h : i < log[c].length
      · refine key i _ ?_
        cases padding with
        | none => simp only [pad]; rw [List.getElem?_eq_getElem]
        | some n =>
          simp only [pad]
          rw [List.getElem_append_left (by simpa using h)]
          rw [List.getElem?_eq_getElem]
      · cases padding with
        | none => exfalso; simp [pad] at hi; omega
        | some n =>
          simp only [pad]
          rw [List.getElem_append_right (by simpa using h), List.getElem_replicate, List.getElem?_eq_none (by omega)]
          rfl
    rw [row]
    refine ⟨oneHot_length _ _, fun k hk => ?_⟩
    rw [List.getElem?_eq_getElem (by rw [oneHot_length]; exact hk), oneHot_getElem acts hn]

/-- C89: the remaining time of an event is the time from it to the last event of its trace: for ordered time stamps it is not negative, does not
increase, and is zero at the last event. -/
theorem C89_remaining_time (log : List (List Int)) (c : Nat) (hc : c < log.length) :
    ∃ ts, (remainingTime log none)[c]? = some ts ∧ ts.length = log[c].length ∧
      (∀ (i : Nat) (t last : Int), log[c][i]? = some t → log[c].getLast? = some last → ts[i]? = some (last - t)) ∧
      (log[c].Pairwise (· ≤ ·) → (∀ t ∈ ts, 0 ≤ t) ∧ ts.Pairwise (· ≥ ·)) := by
  have hts : ∀ (tr : List Int) (i : Nat) (t last : Int), tr[i]? = some t → tr.getLast? = some last →
      ((List.range tr.length).map fun i => tr.getLastD 0 - tr.getD i 0)[i]? = some (last - t) := by
    intro tr i t last h1 h2
    obtain ⟨h3, rfl⟩ := List.getElem?_eq_some_iff.1 h1
    rw [List.getElem?_map, List.getElem?_range h3, Option.map_some, List.getLastD_eq_getLast?, h2, Option.getD_some, List.getD_eq_getElem _ _ h3]
  have hmap : ∀ tr : List Int, ((List.range tr.length).map fun i => tr.getLastD 0 - tr.getD i 0) = tr.map fun t => tr.getLastD 0 - t := by
    intro tr
    refine List.ext_getElem (by simp) fun i h1 h2 => ?_
    simp only [List.length_map] at h2
    simp [h2]
  refine ⟨_, by rw [remainingTime, List.getElem?_map, List.getElem?_eq_getElem hc]; rfl, by simp [pad], hts _, fun hs => ?_⟩
  rw [hmap]
  constructor
  · intro t ht
    obtain ⟨x, hx, rfl⟩ := List.mem_map.1 ht
    have hne : log[c] ≠ [] := List.ne_nil_of_mem hx
    rw [List.getLastD_eq_getLast?, List.getLast?_eq_getLast_of_ne_nil hne, Option.getD_some]
    have : x ≤ log[c].getLast hne := by
      have hd := List.dropLast_append_getLast hne
      rw [← hd] at hx hs
      rcases List.mem_append.1 hx with h | h
      · exact (List.pairwise_append.1 hs).2.2 x h _ (by simp)
      · rw [List.mem_singleton] at h; exact h.le
    omega
  · rw [List.pairwise_map]
    exact hs.imp fun h => by omega

/-- two interleaved cases, prefixes of length 1 -/
example : prefixesDf [(1, "a"), (2, "b"), (1, "c"), (2, "d")] 1 = [(1, "a"), (2, "b")] := by decide

/-- a trace of two events with a padding to length three -/
example : ["a", "b"].Nodup ∧ nextActivity [["a", "b"]] ["a", "b"] (some 3) = [[[0, 1], [0, 0], [0, 0]]] := by decide

end Verif
