import Verif.StreamFp.Model
import Mathlib.Tactic.Linarith
import Mathlib.Data.List.Induction
set_option linter.unusedSectionVars false
/-
C80: streaming conformance checking with footprints.
-/
namespace Verif
namespace StreamFp
open Dict
variable {κ α : Type} [DecidableEq κ] [DecidableEq α]

/-! ### Specification -/

/-- the activities of the events of the case `c` since it was last terminated, in order -/
def trace (h : List (Act κ α)) (c : κ) : List α :=
  h.foldl (fun t x => match x with
    | .event (some c') (some a) => if c' = c then t ++ [a] else t
    | .event _ _ => t
    | .term c' => if c' = c then [] else t
    | .termAll => []) []

/-- the trace from its first activity that the footprints know -/
def seen (F : Fp α) (t : List α) : List α := t.dropWhile fun a => decide (a ∉ F.acts)

/-- the pairs of neighbours -/
def pairs (t : List α) : List (α × α) := t.zip t.tail

/-- the activities known by the footprints -/
def known (F : Fp α) (t : List α) : List α := t.filter fun a => decide (a ∈ F.acts)

/-- the number of deviations of a trace: a wrong start activity, unknown activities, and neighbours (unknown activities removed) that are neither in
the sequence nor in the parallel relation -/
def deviations (F : Fp α) (t : List α) : Nat :=
  (if (known F t).head?.any (fun a => decide (a ∉ F.starts)) then 1 else 0) + (t.countP fun a => decide (a ∉ F.acts)) +
  ((pairs (known F t)).countP fun p => decide (p ∉ F.fps))

/-! ### Lemmas -/

theorem trace_snoc (h : List (Act κ α)) (x : Act κ α) (c : κ) : trace (h ++ [x]) c = match x with
    | .event (some c') (some a) => if c' = c then trace h c ++ [a] else trace h c
    | .event _ _ => trace h c
    | .term c' => if c' = c then [] else trace h c
    | .termAll => [] := by
  unfold trace
  rw [List.foldl_append]
  simp only [List.foldl_cons, List.foldl_nil]

theorem seen_snoc (F : Fp α) (t : List α) (a : α) :
    seen F (t ++ [a]) = if seen F t = [] then (if a ∈ F.acts then [a] else []) else seen F t ++ [a] := by
  induction t with
  | nil => by_cases h : a ∈ F.acts <;> simp [seen, h]
  | cons b t ih =>
    by_cases h : b ∈ F.acts
    · simp [seen, h]
    · have e : ∀ l, seen F (b :: l) = seen F l := fun l => by simp [seen, h]
      rw [List.cons_append, e, e, ih]

theorem known_seen (F : Fp α) (t : List α) : known F (seen F t) = known F t := by
  induction t with
  | nil => rfl
  | cons b t ih =>
    by_cases h : b ∈ F.acts
    · simp [seen, h]
    · have e : ∀ l, seen F (b :: l) = seen F l := fun l => by simp [seen, h]
      rw [e, ih]; simp [known, h]

theorem seen_nil_iff (F : Fp α) (t : List α) : seen F t = [] ↔ known F t = [] := by
  induction t with
  | nil => simp [seen, known]
  | cons b t ih =>
    by_cases h : b ∈ F.acts
    · simp [seen, known, h]
    · have e : ∀ l, seen F (b :: l) = seen F l := fun l => by simp [seen, h]
      rw [e, ih]; simp [known, h]

theorem pairs_snoc (t : List α) (b a : α) (h : t.getLast? = some b) : pairs (t ++ [a]) = pairs t ++ [(b, a)] := by
  induction t with
  | nil => simp at h
  | cons x t ih =>
    cases t with
    | nil => simp at h; subst h; rfl
    | cons y t =>
      have := ih (by simpa using h)
      simp only [pairs, List.cons_append, List.tail_cons, List.zip_cons_cons] at this ⊢
      rw [this]

theorem deviations_known (F : Fp α) (t : List α) (b a : α) (ha : a ∈ F.acts) (hb : (known F t).getLast? = some b) :
    deviations F (t ++ [a]) = deviations F t + if (b, a) ∉ F.fps then 1 else 0 := by
  have hk : known F (t ++ [a]) = known F t ++ [a] := by simp [known, ha]
  unfold deviations
  rw [hk, pairs_snoc _ b a hb]
  have hh : (known F t ++ [a]).head? = (known F t).head? := by
    cases hq : known F t with
    | nil => rw [hq] at hb; simp at hb
    | cons => rfl
  rw [hh]
  by_cases h : (b, a) ∈ F.fps <;> simp [h, ha] <;> omega

theorem deviations_unknown (F : Fp α) (t : List α) (a : α) (ha : a ∉ F.acts) : deviations F (t ++ [a]) = deviations F t + 1 := by
  have hk : known F (t ++ [a]) = known F t := by simp [known, ha]
  unfold deviations
  rw [hk]
  simp [ha]; omega

/-- the invariant: what the two dictionaries say about a case -/
def Ok (F : Fp α) (s : State κ α) (c : κ) (t : List α) : Prop :=
  get? s.caseDict c = (known F t).getLast? ∧ (seen F t ≠ [] → Dict.count s.devDict c = (deviations F (seen F t) : Int))

theorem Ok.verify (F : Fp α) (s : State κ α) (c : κ) (a : α) (c' : κ) (t : List α) (h : Ok F s c' t) :
    Ok F (verify F s c a) c' (if c = c' then t ++ [a] else t) := by
  obtain ⟨h1, h2⟩ := h
  by_cases hc : c = c'
  · subst hc
    rw [if_pos rfl]
    unfold StreamFp.verify
    by_cases hs : seen F t = []
    · have hk := (seen_nil_iff F t).1 hs
      have hn : get? s.caseDict c = none := by rw [h1, hk]; rfl
      have hh : has s.caseDict c = false := by simp [has, hn]
      by_cases ha : a ∈ F.acts
      · have hse : seen F (t ++ [a]) = [a] := by rw [seen_snoc, if_pos hs, if_pos ha]
        have hkn : known F (t ++ [a]) = [a] := by
          have : known F (t ++ [a]) = known F t ++ [a] := by simp [known, ha]
          rw [this, hk]; rfl
        simp only [hh, ha, if_true, hn, Bool.false_eq_true, if_false]
        refine ⟨?_, fun _ => ?_⟩
        · rw [hkn]; simp [get?_set]
        · rw [hse]
          have hd : deviations F [a] = if a ∉ F.starts then 1 else 0 := by
            have : known F [a] = [a] := by simp [known, ha]
            unfold deviations; rw [this]; simp [ha, pairs]
          rw [hd]
          unfold verifyStart addDev
          by_cases hst : a ∈ F.starts <;> simp [hst, count_set]
      · have hse : seen F (t ++ [a]) = [] := by rw [seen_snoc, if_pos hs, if_neg ha]
        have hkn : known F (t ++ [a]) = [] := (seen_nil_iff _ _).1 hse
        simp only [hh, ha, if_false, Bool.false_eq_true]
        exact ⟨by rw [hkn]; exact hn, fun h => absurd hse h⟩
    · have hk : known F t ≠ [] := fun h => hs ((seen_nil_iff F t).2 h)
      obtain ⟨b, hb⟩ : ∃ b, (known F t).getLast? = some b := by
        cases hq : (known F t).getLast? with
        | none => exact absurd (List.getLast?_eq_none_iff.1 hq) hk
        | some b => exact ⟨b, rfl⟩
      have hg : get? s.caseDict c = some b := by rw [h1, hb]
      have hh : has s.caseDict c = true := by simp [has, hg]
      have hse : seen F (t ++ [a]) = seen F t ++ [a] := by rw [seen_snoc, if_neg hs]
      have h2' := h2 hs
      by_cases ha : a ∈ F.acts
      · simp only [hh, ha, if_true, hg]
        have hkn : known F (t ++ [a]) = known F t ++ [a] := by simp [known, ha]
        refine ⟨?_, fun _ => ?_⟩
        · rw [hkn]; simp [get?_set]
        · rw [hse, deviations_known F _ b a ha (by rw [known_seen]; exact hb)]
          unfold verifyIntra addDev
          by_cases hf : (b, a) ∈ F.fps <;> simp [hf, count_set, h2']
      · simp only [hh, ha, if_true, if_false]
        have hkn : known F (t ++ [a]) = known F t := by simp [known, ha]
        refine ⟨by rw [hkn]; exact h1, fun _ => ?_⟩
        rw [hse, deviations_unknown F _ a ha]
        simp [addDev, count_set, h2']
  · rw [if_neg hc]
    have hc' : ¬ c' = c := fun h => hc h.symm
    have hadd : ∀ s : State κ α, (addDev s c).caseDict = s.caseDict ∧ Dict.count (addDev s c).devDict c' = Dict.count s.devDict c' := by
      intro s; simp [addDev, count_set, hc, hc']
    have key : get? (StreamFp.verify F s c a).caseDict c' = get? s.caseDict c' ∧
        Dict.count (StreamFp.verify F s c a).devDict c' = Dict.count s.devDict c' := by
      unfold StreamFp.verify
      set s1 : State κ α := if has s.caseDict c then s else { s with devDict := Dict.set s.devDict c 0 } with hs1
      have e1 : s1.caseDict = s.caseDict ∧ Dict.count s1.devDict c' = Dict.count s.devDict c' := by
        rw [hs1]; split <;> simp [count_set, hc, hc']
      dsimp only
      split
      · split
        · unfold verifyStart
          split
          · exact ⟨by simp [get?_set, hc, hc', (hadd s1).1, e1.1], by rw [(hadd s1).2]; exact e1.2⟩
          · exact ⟨by simp [get?_set, hc, hc', e1.1], e1.2⟩
        · unfold verifyIntra
          split
          · exact ⟨by simp [get?_set, hc, hc', (hadd s1).1, e1.1], by rw [(hadd s1).2]; exact e1.2⟩
          · exact ⟨by simp [get?_set, hc, hc', e1.1], e1.2⟩
      · exact ⟨by rw [(hadd s1).1, e1.1], by rw [(hadd s1).2]; exact e1.2⟩
    exact ⟨by rw [key.1]; exact h1, fun h => by rw [key.2]; exact h2 h⟩

theorem Ok.empty (F : Fp α) (s : State κ α) (c : κ) (h : get? s.caseDict c = none) : Ok F s c [] :=
  ⟨by simpa [known] using h, by simp [seen]⟩

theorem Ok.terminate (F : Fp α) (s : State κ α) (c c' : κ) (t : List α) (h : Ok F s c' t) :
    Ok F (terminate F s c).1 c' (if c = c' then [] else t) := by
  by_cases hc : c = c'
  · subst hc
    rw [if_pos rfl]
    apply Ok.empty
    unfold StreamFp.terminate
    split
    · assumption
    · simp [get?_del]
  · rw [if_neg hc]
    have hc' : ¬ c' = c := fun h => hc h.symm
    unfold StreamFp.terminate
    split
    · exact h
    · refine ⟨?_, fun hs => ?_⟩
      · split <;> simpa [get?_del, hc, hc', addDev] using h.1
      · rw [← h.2 hs]
        split <;> simp [count_del, count_set, hc, hc', addDev]

theorem terminate_case (F : Fp α) (s : State κ α) (c c' : κ) : get? (terminate F s c).1.caseDict c' = if c' = c then none else get? s.caseDict c' := by
  unfold StreamFp.terminate
  split
  · rename_i h; split
    · rename_i e; rw [e]; exact h
    · rfl
  · by_cases hc : c' = c
    · simp [get?_del, hc]
    · have hc' : ¬ c = c' := fun h => hc h.symm
      simp only [get?_del, hc, hc', if_false]; split <;> rfl

theorem terminateAll_case (F : Fp α) (s : State κ α) (c : κ) : get? (terminateAll F s).caseDict c = none := by
  unfold terminateAll
  have key : ∀ (l : List κ) (s : State κ α), get? (l.foldl (fun s c => (StreamFp.terminate F s c).1) s).caseDict c =
      if c ∈ l then none else get? s.caseDict c := by
    intro l
    induction l with
    | nil => intro s; simp
    | cons x l ih =>
      intro s
      rw [List.foldl_cons, ih, terminate_case]
      by_cases h1 : c ∈ l <;> by_cases h2 : c = x <;> simp [h1, h2]
  rw [key]
  split
  · rfl
  · rename_i h
    rw [mem_keys_iff] at h
    simpa using h

theorem ok_run (F : Fp α) (h : List (Act κ α)) (c : κ) : Ok F (run F h) c (trace h c) := by
  induction h using List.reverseRecOn with
  | nil => exact Ok.empty F _ c rfl
  | append_singleton h x ih =>
    have : run F (h ++ [x]) = step F (run F h) x := by simp [run, List.foldl_append]
    rw [this, trace_snoc]
    rcases x with ⟨_ | c', _ | a⟩ | c' | _
    · exact ih
    · exact ih
    · exact ih
    · exact ih.verify F _ c' a c _
    · exact ih.terminate F _ c' c _
    · exact Ok.empty F _ c (terminateAll_case F _ c)

theorem run_nodup (F : Fp α) (h : List (Act κ α)) : (keys (run F h).caseDict).Nodup := by
  have hv : ∀ (s : State κ α) (c : κ) (a : α), (keys s.caseDict).Nodup → (keys (StreamFp.verify F s c a).caseDict).Nodup := by
    intro s c a hn
    unfold StreamFp.verify
    dsimp only
    split
    · apply nodup_set
      (repeat' split) <;> simp only [verifyStart, verifyIntra, addDev] <;> (repeat' split) <;> exact hn
    · simp only [addDev]; split <;> exact hn
  have ht : ∀ (s : State κ α) (c : κ), (keys s.caseDict).Nodup → (keys (StreamFp.terminate F s c).1.caseDict).Nodup := by
    intro s c hn
    unfold StreamFp.terminate
    split
    · exact hn
    · apply nodup_del; split <;> exact hn
  have hta : ∀ (l : List κ) (s : State κ α), (keys s.caseDict).Nodup →
      (keys (l.foldl (fun s c => (StreamFp.terminate F s c).1) s).caseDict).Nodup := by
    intro l
    induction l with
    | nil => intro s h; exact h
    | cons x l ih => intro s h; exact ih _ (ht s x h)
  induction h using List.reverseRecOn with
  | nil => simp [run, init, keys]
  | append_singleton h x ih =>
    have : run F (h ++ [x]) = step F (run F h) x := by simp [run, List.foldl_append]
    rw [this]
    rcases x with ⟨_ | c', _ | a⟩ | c' | _
    · exact ih
    · exact ih
    · exact ih
    · exact hv _ _ _ ih
    · exact ht _ _ ih
    · exact hta _ _ ih

theorem deviations_zero (F : Fp α) (t : List α) : deviations F t = 0 ↔
    (∀ a ∈ t, a ∈ F.acts) ∧ (∀ a, t.head? = some a → a ∈ F.starts) ∧ (∀ p ∈ pairs t, p ∈ F.fps) := by
  have hk : (∀ a ∈ t, a ∈ F.acts) → known F t = t := by
    intro h; unfold known; rw [List.filter_eq_self]; simpa using h
  constructor
  · intro h
    unfold deviations at h
    have h1 : (t.countP fun a => decide (a ∉ F.acts)) = 0 := by omega
    have h1' : ∀ a ∈ t, a ∈ F.acts := by simpa [List.countP_eq_zero] using h1
    rw [hk h1'] at h
    have h2 : ((pairs t).countP fun p => decide (p ∉ F.fps)) = 0 := by omega
    refine ⟨h1', fun a ha => ?_, fun p hp => ?_⟩
    · by_contra hc
      rw [ha] at h
      simp [hc] at h
    · rw [List.countP_eq_zero] at h2; simpa using h2 p hp
  · rintro ⟨h1, h2, h3⟩
    unfold deviations
    rw [hk h1]
    have e1 : (t.countP fun a => decide (a ∉ F.acts)) = 0 := by rw [List.countP_eq_zero]; intro a ha; simpa using h1 a ha
    have e2 : ((pairs t).countP fun p => decide (p ∉ F.fps)) = 0 := by rw [List.countP_eq_zero]; intro p hp; simpa using h3 p hp
    have e3 : ¬ (t.head?.any (fun a => decide (a ∉ F.starts)) = true) := by
      cases hq : t.head? with
      | none => simp
      | some a => simpa using h2 a hq
    rw [e1, e2, if_neg e3]

end StreamFp

open StreamFp
variable {κ α : Type} [DecidableEq κ] [DecidableEq α]

/-- C80, status: after every history of events and terminations, the checker knows nothing of a case without a known activity (since the last
termination); otherwise it says `True` exactly if the events of the case since its first known activity are all known, start with a start activity
and have only allowed neighbours. -/
theorem C80_status (F : Fp α) (h : List (Act κ α)) (c : κ) :
    getStatus (run F h) c = if seen F (trace h c) = [] then none else some (decide (
      (∀ a ∈ seen F (trace h c), a ∈ F.acts) ∧ (∀ a, (seen F (trace h c)).head? = some a → a ∈ F.starts) ∧
      (∀ p ∈ pairs (seen F (trace h c)), p ∈ F.fps))) := by
  obtain ⟨h1, h2⟩ := ok_run F h c
  unfold getStatus
  by_cases hs : seen F (trace h c) = []
  · have hk := (seen_nil_iff F _).1 hs
    rw [hk] at h1
    simp [hs, Dict.has, h1]
  · have hk : known F (trace h c) ≠ [] := fun hc => hs ((seen_nil_iff F _).2 hc)
    have hh : Dict.has (run F h).caseDict c = true := by
      simp only [Dict.has, h1]
      cases hq : (known F (trace h c)).getLast? with
      | none => exact absurd (List.getLast?_eq_none_iff.1 hq) hk
      | some b => rfl
    rw [if_pos hh, if_neg hs, h2 hs]
    congr 1
    rw [decide_eq_decide, ← deviations_zero]
    omega

/-- C80, termination: the same, and the last known activity has to be an end activity; afterwards the case is forgotten. -/
theorem C80_terminate (F : Fp α) (h : List (Act κ α)) (c : κ) :
    ((terminate F (run F h) c).2 = if seen F (trace h c) = [] then none else some (decide (
      (∀ a ∈ seen F (trace h c), a ∈ F.acts) ∧ (∀ a, (seen F (trace h c)).head? = some a → a ∈ F.starts) ∧
      (∀ p ∈ pairs (seen F (trace h c)), p ∈ F.fps) ∧ (∀ a, (known F (trace h c)).getLast? = some a → a ∈ F.ends)))) ∧
    getStatus (terminate F (run F h) c).1 c = none := by
  refine ⟨?_, ?_⟩
  · obtain ⟨h1, h2⟩ := ok_run F h c
    unfold terminate
    by_cases hs : seen F (trace h c) = []
    · have hk := (seen_nil_iff F _).1 hs
      rw [hk] at h1
      simp only [List.getLast?_nil] at h1
      simp [hs, h1]
    · have hk : known F (trace h c) ≠ [] := fun hc => hs ((seen_nil_iff F _).2 hc)
      obtain ⟨b, hb⟩ : ∃ b, (known F (trace h c)).getLast? = some b := by
        cases hq : (known F (trace h c)).getLast? with
        | none => exact absurd (List.getLast?_eq_none_iff.1 hq) hk
        | some b => exact ⟨b, rfl⟩
      rw [hb] at h1
      rw [h1, if_neg hs]
      dsimp only
      congr 1
      rw [decide_eq_decide, hb]
      have hz := deviations_zero F (seen F (trace h c))
      have h2' := h2 hs
      by_cases he : b ∈ F.ends
      · simp only [he, not_true_eq_false, if_false, h2']
        rw [show ((deviations F (seen F (trace h c)) : Int) = 0) ↔ deviations F (seen F (trace h c)) = 0 by omega, hz]
        simp [he]
      · simp only [he, not_false_eq_true, if_true, addDev, Dict.count_set, h2']
        constructor
        · intro hc; omega
        · rintro ⟨_, _, _, h4⟩; exact absurd (h4 b rfl) he
  · have := terminate_case F (run F h) c c
    rw [if_pos rfl] at this
    simp [getStatus, Dict.has, this]

/-- C80, without the leading unknown activities, in full: a case whose first activity is known terminates with `True` exactly if it is a run of the
footprints. -/
theorem C80_fits (F : Fp α) (h : List (Act κ α)) (c : κ) (a : α) (t : List α) (ht : trace h c = a :: t) (ha : a ∈ F.acts) :
    (terminate F (run F h) c).2 = some (decide ((∀ x ∈ a :: t, x ∈ F.acts) ∧ a ∈ F.starts ∧ (∀ p ∈ pairs (a :: t), p ∈ F.fps) ∧
      (∀ b, (known F (a :: t)).getLast? = some b → b ∈ F.ends))) := by
  have hs : seen F (a :: t) = a :: t := by simp [seen, ha]
  rw [(C80_terminate F h c).1, ht, hs, if_neg (by simp)]
  congr 1
  rw [decide_eq_decide]
  simp only [List.head?_cons, Option.some.injEq, forall_eq']

/-- C80, interleaving: what the checker says of a case depends only on the events of the case since its last termination. -/
theorem C80_interleaving (F : Fp α) (h h' : List (Act κ α)) (c : κ) (e : trace h c = trace h' c) :
    getStatus (run F h) c = getStatus (run F h') c ∧ (terminate F (run F h) c).2 = (terminate F (run F h') c).2 := by
  rw [C80_status, C80_status, (C80_terminate F h c).1, (C80_terminate F h' c).1, e]
  exact ⟨rfl, rfl⟩

/-- C80, diagnostics: one row for every case with a known activity since its last termination, with its status. -/
theorem C80_diagnostics (F : Fp α) (h : List (Act κ α)) :
    (∀ c st, (c, st) ∈ currentResult (run F h) ↔ (∃ a ∈ trace h c, a ∈ F.acts) ∧ st = getStatus (run F h) c) ∧
    ((currentResult (run F h)).map Prod.fst).Nodup := by
  constructor
  · intro c st
    obtain ⟨h1, _⟩ := ok_run F h c
    have hmem : c ∈ Dict.keys (run F h).caseDict ↔ ∃ a ∈ trace h c, a ∈ F.acts := by
      rw [Dict.mem_keys_iff, h1]
      constructor
      · intro hc
        obtain ⟨b, hb⟩ := Option.isSome_iff_exists.1 hc
        have := List.mem_of_getLast? hb
        simp only [known, List.mem_filter, decide_eq_true_eq] at this
        exact ⟨b, this⟩
      · rintro ⟨a, h2, h3⟩
        cases hq : (known F (trace h c)).getLast? with
        | none =>
          have := List.getLast?_eq_none_iff.1 hq
          have hm : a ∈ known F (trace h c) := by simp [known, h2, h3]
          rw [this] at hm; simp at hm
        | some b => rfl
    rw [← hmem]
    unfold currentResult
    simp only [List.mem_map, Prod.mk.injEq]
    constructor
    · rintro ⟨x, hx, rfl, rfl⟩; exact ⟨hx, rfl⟩
    · rintro ⟨hx, rfl⟩; exact ⟨c, hx, rfl, rfl⟩
  · have : (currentResult (run F h)).map Prod.fst = Dict.keys (run F h).caseDict := by simp [currentResult, Function.comp_def]
    rw [this]
    exact run_nodup F h

/-- footprints of the one trace `a, b` -/
def StreamFp.exFp : Fp String := ⟨["a"], ["b"], ["a", "b"], [("a", "b")]⟩

/-- C80: activities unknown to the footprints at the beginning of a case are forgotten: the case `x, a, b` is reported as fitting, although `x` is
not an activity of the model; in the middle it is a deviation; a case of unknown activities only does not exist for the checker. -/
theorem C80_leading_unknown_refuted :
    (let h : List (Act Nat String) := [.event (some 1) (some "x"), .event (some 1) (some "a"), .event (some 1) (some "b")]
     trace h 1 = ["x", "a", "b"] ∧ getStatus (run exFp h) 1 = some true ∧ (terminate exFp (run exFp h) 1).2 = some true) ∧
    (let h : List (Act Nat String) := [.event (some 1) (some "a"), .event (some 1) (some "x"), .event (some 1) (some "b")]
     (terminate exFp (run exFp h) 1).2 = some false) ∧
    (let h : List (Act Nat String) := [.event (some 1) (some "x")]
     getStatus (run exFp h) 1 = none ∧ currentResult (run exFp h) = []) := by decide

/-- two interleaved cases, one terminated and begun again -/
example : let h : List (Act Nat String) := [.event (some 1) (some "a"), .event (some 2) (some "b"), .event none (some "a"), .event (some 1) (some "b"),
      .term 2, .event (some 2) (some "a")]
    trace h 1 = ["a", "b"] ∧ trace h 2 = ["a"] ∧ currentResult (run exFp h) = [(1, some true), (2, some true)] ∧
    (terminate exFp (run exFp h) 1).2 = some true ∧ (terminate exFp (run exFp h) 2).2 = some false := by decide

end Verif
