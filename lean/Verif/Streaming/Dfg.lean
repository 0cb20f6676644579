import Verif.Log.Dfg
/-
C18: streaming discovery of the directly-follows graph.
/repo/pm4py/streaming/algo/discovery/dfg/variants/frequency.py,
/repo/pm4py/streaming/algo/interface.py:38-56 (`receive`/`get` hold a lock, so concurrent calls are executed in some
order: a schedule is a sequence of events).
-/
namespace Verif.StreamDfg
open Dict Counter Dfg
variable {κ α : Type} [DecidableEq κ] [DecidableEq α]

/-! ### Model -/

/-- An event, reduced to the two attributes looked at: the case identifier and the activity, each possibly absent.
`encode_str` is taken to be the identity on identifiers, `encode_tuple`/`eval` (frequency.py:100-110, 164) to be
inverse to each other. -/
structure Event (κ α : Type) where
  case : Option κ
  activity : Option α

/-- The four dictionaries of a `StreamingDfgDiscovery` object (frequency.py:86-89). -/
structure State (κ α : Type) where
  caseDict : Dict κ α
  dfg : Dict (α × α) Int
  activities : Dict α Int
  starts : Dict α Int

/-- `build_dictionaries`: all four dictionaries start empty (frequency.py:58-89) -/
def init : State κ α := ⟨[], [], [], []⟩

/-- `if k not in d: d[k] = 1 else: d[k] = int(d[k]) + 1` (frequency.py:126-129, 132-135, 136-139) -/
def bump {ι : Type} [DecidableEq ι] (d : Dict ι Int) (k : ι) : Dict ι Int :=
  if has d k then Dict.set d k (Dict.count d k + 1) else Dict.set d k 1

/-- `_process` (frequency.py:112-142) -/
def process (s : State κ α) (e : Event κ α) : State κ α :=
  match e.case, e.activity with
  | some c, some a =>
    let s1 : State κ α :=
      match get? s.caseDict c with
      | none => { s with starts := bump s.starts a }
      | some last => { s with dfg := bump s.dfg (last, a) }
    let s2 := { s1 with activities := bump s1.activities a }
    { s2 with caseDict := Dict.set s2.caseDict c a }
  | _, _ => s

/-- The four components returned by `_current_result` (frequency.py:144-168). -/
structure Result (α : Type) where
  dfg : Dict (α × α) Int
  activities : Dict α Int
  starts : Dict α Int
  ends : Dict α Int

def currentResult (s : State κ α) : Result α where
  dfg := s.dfg
  activities := s.activities
  starts := s.starts
  ends := ofList (s.caseDict.map Prod.snd)

/-- the result after receiving a sequence of events -/
def run (evs : List (Event κ α)) : Result α := currentResult (evs.foldl process init)

/-! ### Specification -/

/-- the trace of a case: the activities of the events of the case that have both attributes, in arrival order -/
def trace (evs : List (Event κ α)) (c : κ) : List α :=
  evs.filterMap fun e => if e.case = some c then e.activity else none

/-- the cases that have at least one event with both attributes -/
def cases (evs : List (Event κ α)) : List κ :=
  dedup (evs.filterMap fun e => if e.activity.isSome then e.case else none)

/-- the event log obtained by grouping the events by case -/
def group (evs : List (Event κ α)) : List (List α) := (cases evs).map (trace evs)

/-! ### Proofs -/

theorem bump_eq {ι : Type} [DecidableEq ι] (d : Dict ι Int) (k : ι) : bump d k = inc d k 1 := by
  unfold bump inc
  split
  · rfl
  · rename_i h
    have : get? d k = none := by
      unfold has at h
      cases hg : get? d k with
      | none => rfl
      | some v => rw [hg] at h; simp at h
    rw [show Dict.count d k = 0 by unfold Dict.count; rw [this]; rfl]
    rfl

theorem trace_append (evs : List (Event κ α)) (e : Event κ α) (c : κ) :
    trace (evs ++ [e]) c = trace evs c ++ (if e.case = some c then e.activity else none).toList := by
  unfold trace
  rw [List.filterMap_append, List.append_cancel_left_eq]
  by_cases h : e.case = some c
  · simp only [List.filterMap_cons, h, if_true, List.filterMap_nil]; cases e.activity <;> rfl
  · simp [List.filterMap_cons, h]

/-- changing one summand of a sum over a duplicate-free list -/
theorem sum_change (C : List κ) (hC : C.Nodup) (c : κ) (hc : c ∈ C) (f g : κ → Nat) (δ : Nat)
    (h : ∀ x, x ≠ c → g x = f x) (hd : g c = f c + δ) : (C.map g).sum = (C.map f).sum + δ := by
  induction C with
  | nil => simp at hc
  | cons x C ih =>
    rw [List.nodup_cons] at hC
    simp only [List.map_cons, List.sum_cons]
    by_cases hx : x = c
    · subst hx
      have : C.map g = C.map f := by
        apply List.map_congr_left
        intro y hy
        exact h y (fun e => hC.1 (e ▸ hy))
      rw [this, hd]; omega
    · rw [h x hx, ih hC.2 (by simpa [show c ≠ x from fun e => hx e.symm] using hc)]; omega

theorem mem_cases (evs : List (Event κ α)) (c : κ) : c ∈ cases evs ↔ trace evs c ≠ [] := by
  unfold cases trace
  rw [mem_dedup, List.mem_filterMap, Ne, List.filterMap_eq_nil_iff]
  constructor
  · rintro ⟨e, he, h⟩ h0
    have := h0 e he
    cases ha : e.activity with
    | none => rw [ha] at h; simp at h
    | some a => rw [ha] at h this; simp at h; simp [h] at this
  · intro h
    apply Classical.byContradiction
    intro hn
    apply h
    intro e he
    by_cases hc : e.case = some c
    · rw [if_pos hc]
      cases ha : e.activity with
      | none => rfl
      | some a => exact absurd ⟨e, he, by simp [ha, hc]⟩ hn
    · simp [hc]

theorem pairs_snoc (t : List α) (a : α) :
    pairs (t ++ [a]) = pairs t ++ (t.getLast?.map fun b => (b, a)).toList := by
  rw [pairs_eq_zip, pairs_eq_zip]
  induction t with
  | nil => rfl
  | cons x t ih =>
    cases t with
    | nil => rfl
    | cons y t =>
      simp only [List.cons_append, List.tail_cons, List.zip_cons_cons] at ih ⊢
      rw [ih]
      simp [List.getLast?_cons_cons]

/-- The invariant of the stream, for a fixed list `C` containing all cases. -/
structure Inv (C : List κ) (evs : List (Event κ α)) (s : State κ α) : Prop where
  nodup : (keys s.caseDict).Nodup
  last : ∀ c, get? s.caseDict c = (trace evs c).getLast?
  dfg : ∃ P, s.dfg = ofList P ∧ ∀ p, cnt p P = (C.map fun c => cnt p (pairs (trace evs c))).sum
  acts : ∃ P, s.activities = ofList P ∧ ∀ p, cnt p P = (C.map fun c => cnt p (trace evs c)).sum
  starts : ∃ P, s.starts = ofList P ∧ ∀ p, cnt p P = (C.map fun c => cnt p (trace evs c)[0]?.toList).sum

theorem ofList_snoc {ι : Type} [DecidableEq ι] (P : List ι) (p : ι) : bump (ofList P) p = ofList (P ++ [p]) := by
  rw [bump_eq]; unfold ofList; rw [update_append]; rfl

theorem inv_run (C : List κ) (hC : C.Nodup) (evs : List (Event κ α)) (h : ∀ c, trace evs c ≠ [] → c ∈ C) :
    Inv C evs (evs.foldl process init) := by
  induction evs using snocInduct with
  | nil =>
    refine ⟨by simp [init], fun c => rfl, ⟨[], rfl, ?_⟩, ⟨[], rfl, ?_⟩, ⟨[], rfl, ?_⟩⟩ <;>
    · intro p
      have : ∀ n : Nat, ∀ l : List κ, 0 = (l.map fun _ => 0).sum := by
        intro _ l; induction l with
        | nil => rfl
        | cons _ l ih => rw [List.map_cons, List.sum_cons, ← ih]
      exact this 0 C
  | snoc evs e ih =>
    have hsub : ∀ c, trace evs c ≠ [] → c ∈ C := by
      intro c hc; apply h; rw [trace_append]; simp [hc]
    have I := ih hsub
    rw [List.foldl_append, List.foldl_cons, List.foldl_nil]
    generalize evs.foldl process init = s at I
    have skip : (e.case = none ∨ e.activity = none) → process s e = s ∧ trace (evs ++ [e]) = trace evs := by
      intro hn
      refine ⟨?_, ?_⟩
      · unfold process
        rcases hn with hn | hn <;> rw [hn]
        cases e.case <;> rfl
      · funext c; rw [trace_append]
        rcases hn with hn | hn <;> rw [hn] <;> simp
    cases hc : e.case with
    | none =>
      rw [(skip (Or.inl hc)).1]
      obtain ⟨h1, h2, h3, h4, h5⟩ := I
      rw [← (skip (Or.inl hc)).2] at h2 h3 h4 h5
      exact ⟨h1, h2, h3, h4, h5⟩
    | some c =>
    cases ha : e.activity with
    | none =>
      rw [(skip (Or.inr ha)).1]
      obtain ⟨h1, h2, h3, h4, h5⟩ := I
      rw [← (skip (Or.inr ha)).2] at h2 h3 h4 h5
      exact ⟨h1, h2, h3, h4, h5⟩
    | some a =>
      have tr : ∀ x, trace (evs ++ [e]) x = if x = c then trace evs x ++ [a] else trace evs x := by
        intro x
        rw [trace_append, hc, ha]
        by_cases hx : x = c
        · simp [hx]
        · simp [hx, show c ≠ x from fun e => hx e.symm]
      have hcC : c ∈ C := by apply h; rw [tr]; simp
      obtain ⟨h1, h2, ⟨P, hP, hPc⟩, ⟨A, hA, hAc⟩, ⟨S, hS, hSc⟩⟩ := I
      have hcase : (process s e).caseDict = Dict.set s.caseDict c a := by
        unfold process; rw [hc, ha]; simp only
        cases get? s.caseDict c <;> rfl
      have hact : (process s e).activities = bump s.activities a := by
        unfold process; rw [hc, ha]; simp only
        cases get? s.caseDict c <;> rfl
      refine ⟨by rw [hcase]; exact nodup_set h1 _ _, ?_, ?_, ⟨A ++ [a], by rw [hact, hA, ofList_snoc], ?_⟩, ?_⟩
      · intro x
        rw [hcase, get?_set, h2, tr]
        by_cases hx : x = c
        · subst hx; simp
        · simp [hx, show c ≠ x from fun e => hx e.symm]
      · have hd : (process s e).dfg = match get? s.caseDict c with
            | none => s.dfg
            | some l => bump s.dfg (l, a) := by
          unfold process; rw [hc, ha]; simp only
          cases get? s.caseDict c <;> rfl
        rw [h2] at hd
        refine ⟨P ++ ((trace evs c).getLast?.map fun b => (b, a)).toList, ?_, ?_⟩
        · rw [hd]
          cases (trace evs c).getLast? with
          | none => simp [hP]
          | some l => simp [hP, ofList_snoc]
        · intro p
          rw [cnt_append, hPc]
          symm
          apply sum_change C hC c hcC
          · intro x hx; rw [tr, if_neg hx]
          · rw [tr, if_pos rfl, pairs_snoc, cnt_append]
      · intro p
        rw [cnt_append, hAc]
        symm
        apply sum_change C hC c hcC
        · intro x hx; rw [tr, if_neg hx]
        · rw [tr, if_pos rfl, cnt_append]
      · have hd : (process s e).starts = match get? s.caseDict c with
            | none => bump s.starts a
            | some l => s.starts := by
          unfold process; rw [hc, ha]; simp only
          cases get? s.caseDict c <;> rfl
        rw [h2] at hd
        cases ht : trace evs c with
        | nil =>
          refine ⟨S ++ [a], by rw [hd, ht]; simp [hS, ofList_snoc], ?_⟩
          intro p
          rw [cnt_append, hSc]
          symm
          apply sum_change C hC c hcC
          · intro x hx; rw [tr, if_neg hx]
          · rw [tr, if_pos rfl, ht]; simp
        | cons y t =>
          refine ⟨S, by rw [hd, ht, List.getLast?_cons]; exact hS, ?_⟩
          intro p
          rw [hSc]
          congr 1
          apply List.map_congr_left
          intro x _
          rw [tr]
          by_cases hx : x = c
          · subst hx; simp [ht]
          · simp [hx]

theorem get?_ofList {ι : Type} [DecidableEq ι] (l : List ι) (k : ι) :
    get? (ofList l) k = if cnt k l = 0 then none else some (cnt k l : Int) := by
  have hc := count_ofList l k
  have hk := mem_keys_iff (ofList l) k
  rw [keys_ofList, ← cnt_pos] at hk
  cases hg : get? (ofList l) k with
  | none => rw [hg] at hk; simp at hk; simp [hk]
  | some v =>
    rw [hg] at hk; simp at hk
    unfold Dict.count at hc; rw [hg] at hc; simp at hc
    rw [if_neg (by omega), hc]

theorem cnt_flatMap_sum {ι β : Type} [DecidableEq ι] (f : β → List ι) (l : List β) (k : ι) :
    cnt k (l.flatMap f) = (l.map fun b => cnt k (f b)).sum := by
  induction l with
  | nil => rfl
  | cons b l ih => rw [List.flatMap_cons, cnt_append, ih, List.map_cons, List.sum_cons]

theorem filterMap_toList {β ι : Type} (f : β → Option ι) (l : List β) : l.filterMap f = l.flatMap fun b => (f b).toList := by
  induction l with
  | nil => rfl
  | cons b l ih => rw [List.filterMap_cons, List.flatMap_cons, ← ih]; cases f b <;> rfl

theorem values_cnt (d : Dict κ α) (h : (keys d).Nodup) (a : α) :
    cnt a (d.map Prod.snd) = (keys d).countP fun k => decide (get? d k = some a) := by
  unfold cnt keys
  rw [List.countP_map, List.countP_map]
  apply List.countP_congr
  intro e he
  have := get?_of_mem_nodup h (k := e.1) (v := e.2) he
  simp [this]

theorem countP_getLast (C : List κ) (f : κ → List α) (a : α) :
    C.countP (fun k => decide ((f k).getLast? = some a)) = (C.map fun k => cnt a (f k).getLast?.toList).sum := by
  induction C with
  | nil => rfl
  | cons c C ih =>
    rw [List.countP_cons, ih, List.map_cons, List.sum_cons]
    cases (f c).getLast? with
    | none => simp
    | some b => simp [cnt_cons]; omega

end StreamDfg
open StreamDfg Dict Counter Dfg
section
variable {κ α : Type} [DecidableEq κ] [DecidableEq α]

/-- C18: whatever sequence of events has been received, the streaming result has, entry by entry, the same
directly-follows graph, start activities and end activities as batch discovery on the log grouped by case, and its
activity counters are the numbers of occurrences in that log. -/
theorem C18_stream_eq_batch (evs : List (Event κ α)) :
    (∀ p, get? (run evs).dfg p = get? (discover (group evs)).graph p) ∧
    (∀ a, get? (run evs).starts a = get? (discover (group evs)).starts a) ∧
    (∀ a, get? (run evs).ends a = get? (discover (group evs)).ends a) ∧
    (∀ a, get? (run evs).activities a =
      if occurrences a (group evs) = 0 then none else some (occurrences a (group evs) : Int)) := by
  obtain ⟨h1, h2, ⟨P, hP, hPc⟩, ⟨A, hA, hAc⟩, ⟨S, hS, hSc⟩⟩ :=
    inv_run (cases evs) (nodup_dedup _) evs (fun c hc => (mem_cases evs c).2 hc)
  refine ⟨?_, ?_, ?_, ?_⟩
  · intro p
    have : (discover (group evs)).graph = ofList ((group evs).flatMap pairs) := by
      unfold discover; simp only; rw [foldl_pairs]; rfl
    rw [this]
    simp only [run, currentResult, hP, get?_ofList, hPc]
    rw [cnt_flatMap_sum]
    simp only [group, List.map_map]
    rfl
  · intro a
    have : (discover (group evs)).starts = ofList (startActs (group evs)) := rfl
    rw [this]
    simp only [run, currentResult, hS, get?_ofList, hSc]
    unfold startActs
    rw [filterMap_toList, cnt_flatMap_sum]
    simp only [group, List.map_map]
    rfl
  · intro a
    have : (discover (group evs)).ends = ofList (endActs (group evs)) := rfl
    rw [this, endActs_eq, filterMap_toList]
    simp only [run, currentResult, get?_ofList]
    rw [cnt_flatMap_sum, values_cnt _ h1]
    have hperm : (keys (evs.foldl process init).caseDict).Perm (cases evs) := by
      refine (List.perm_ext_iff_of_nodup h1 (nodup_dedup _)).2 ?_
      intro c
      rw [mem_keys_iff, h2]
      show _ ↔ c ∈ cases evs
      rw [mem_cases]
      cases trace evs c with
      | nil => simp
      | cons x t => simp [List.getLast?_cons]
    rw [hperm.countP_eq]
    simp only [h2, countP_getLast, group, List.map_map]
    rfl
  · intro a
    simp only [run, currentResult, hA, get?_ofList, hAc, occurrences, group, List.map_map, Function.comp_def, cnt_eq_count]

/-- C18, schedules: the result depends on the order of arrival only through the order inside each case.  Any two
interleavings of the same cases give the same dictionaries. -/
theorem C18_interleaving (evs evs' : List (Event κ α)) (h : ∀ c, trace evs c = trace evs' c) :
    (∀ p, get? (run evs).dfg p = get? (run evs').dfg p) ∧ (∀ a, get? (run evs).starts a = get? (run evs').starts a) ∧
    (∀ a, get? (run evs).ends a = get? (run evs').ends a) ∧
    (∀ a, get? (run evs).activities a = get? (run evs').activities a) := by
  have hmem : ∀ c, c ∈ cases evs ↔ c ∈ cases evs' := by intro c; rw [mem_cases, mem_cases, h]
  have hperm : (group evs).Perm (group evs') := by
    have hc : (cases evs).Perm (cases evs') :=
      (List.perm_ext_iff_of_nodup (nodup_dedup _) (nodup_dedup _)).2 hmem
    unfold group
    rw [show trace evs = trace evs' from funext h]
    exact hc.map _
  have hcnt : ∀ {ι : Type} [DecidableEq ι] (f : List α → List ι) (k : ι),
      cnt k ((group evs).flatMap f) = cnt k ((group evs').flatMap f) := by
    intro ι _ f k
    rw [cnt_flatMap_sum, cnt_flatMap_sum]
    exact (hperm.map _).sum_nat
  obtain ⟨a1, a2, a3, a4⟩ := C18_stream_eq_batch evs
  obtain ⟨b1, b2, b3, b4⟩ := C18_stream_eq_batch evs'
  refine ⟨?_, ?_, ?_, ?_⟩
  · intro p
    rw [a1, b1]
    have : ∀ l : List (List α), (discover l).graph = ofList (l.flatMap pairs) := by
      intro l; unfold discover; simp only; rw [foldl_pairs]; rfl
    rw [this, this, get?_ofList, get?_ofList, hcnt]
  · intro a
    rw [a2, b2]
    show get? (ofList (startActs _)) a = get? (ofList (startActs _)) a
    unfold startActs
    rw [filterMap_toList, filterMap_toList, get?_ofList, get?_ofList, hcnt]
  · intro a
    rw [a3, b3]
    show get? (ofList (endActs _)) a = get? (ofList (endActs _)) a
    rw [endActs_eq, endActs_eq, filterMap_toList, filterMap_toList, get?_ofList, get?_ofList, hcnt]
  · intro a
    rw [a4, b4]
    have : occurrences a (group evs) = occurrences a (group evs') := (hperm.map _).sum_nat
    rw [this]

/-- events without case or activity are ignored -/
theorem C18_ignores (evs evs' : List (Event κ α)) (e : Event κ α) (h : e.case = none ∨ e.activity = none) :
    run (evs ++ e :: evs') = run (evs ++ evs') := by
  unfold run
  rw [List.foldl_append, List.foldl_append, List.foldl_cons]
  have : ∀ s : State κ α, process s e = s := by
    intro s
    unfold process
    rcases h with h | h <;> rw [h]
    cases e.case <;> rfl
  rw [this]

/-- a concrete stream: two interleaved cases -/
example : let evs : List (Event Nat String) := [⟨some 1, some "a"⟩, ⟨some 2, some "a"⟩, ⟨some 1, some "b"⟩, ⟨none, some "z"⟩, ⟨some 2, some "b"⟩]
    group evs = [["a", "b"], ["a", "b"]] ∧ (run evs).dfg = [(("a", "b"), 2)] ∧ (run evs).starts = [("a", 2)] ∧
    (run evs).ends = [("b", 2)] := by decide
end
end Verif
