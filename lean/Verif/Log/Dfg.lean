import Verif.Common.Counter
import Verif.Common.ListX
/-
C17: directly-follows graphs.
/repo/pm4py/algo/discovery/dfg/variants/native.py, /repo/pm4py/util/compression/util.py:166-218,
/repo/pm4py/objects/dfg/util.py.
A log is the list of its traces, a trace the list of its activities.
-/
namespace Verif.Dfg
open Dict Counter
variable {α : Type} [DecidableEq α]

/-! ### Model -/

/-- `[(t[i - window], t[i]) for i in range(window, len(t))]` (native.py:60) -/
def windowPairs (w : Nat) (t : List α) : List (α × α) :=
  (List.range' w (t.length - w)).filterMap fun i =>
    match t[i - w]?, t[i]? with
    | some a, some b => some (a, b)
    | _, _ => none

/-- `native` (native.py:36-61).  The set of pairs of a trace (`keep_once_per_case`) is any list without
repetitions; `dedup` picks one order. -/
def native (w : Nat) (once : Bool) (log : List (List α)) : Dict (α × α) Int :=
  ofList (log.flatMap fun t => if once then dedup (windowPairs w t) else windowPairs w t)

/-- The three counters of a `DFG` object (objects/dfg/obj.py:22-52). -/
structure DFG (α : Type) where
  graph : Dict (α × α) Int
  starts : Dict α Int
  ends : Dict α Int

/-- `[(t[i], t[i + 1]) for i in range(0, len(t) - 1)]` (compression/util.py:177); for the empty trace the range is
`range(0, -1)`, i.e. empty, as here. -/
def pairs (t : List α) : List (α × α) :=
  (List.range (t.length - 1)).filterMap fun i =>
    match t[i]?, t[i + 1]? with
    | some a, some b => some (a, b)
    | _, _ => none

/-- `get_start_activities` (compression/util.py:196-200): `t[0]` of the non-empty traces -/
def startActs (log : List (List α)) : List α := log.filterMap fun t => t[0]?

/-- `get_end_activities` (compression/util.py:203-207): `t[len(t) - 1]` of the non-empty traces -/
def endActs (log : List (List α)) : List α :=
  (log.filter fun t => decide (0 < t.length)).filterMap fun t => t[t.length - 1]?

/-- `discover_dfg` (compression/util.py:166-180). -/
def discover (log : List (List α)) : DFG α where
  graph := log.foldl (fun d t => (pairs t).foldl (fun d p => inc d p 1) d) []
  starts := update [] (startActs log)
  ends := update [] (endActs log)

/-- `get_variants` (compression/util.py:216-218): the variants with their multiplicities -/
def variants (log : List (List α)) : Dict (List α) Int := ofList log

/-- `get_alphabet` (compression/util.py:210-213); the order of the sorted list does not matter for the counters, so any
duplicate-free list of the activities will do. -/
def alphabet (log : List (List α)) : List α := dedup log.flatten

/-- `discover_dfg_uvcl` (compression/util.py:183-193). -/
def discoverUvcl (uv : Dict (List α) Int) : DFG α where
  graph := uv.foldl (fun d e => (pairs e.1).foldl (fun d p => inc d p e.2) d) []
  starts := (alphabet (keys uv)).foldl (fun d a => uv.foldl (fun d e =>
    if e.1[0]? = some a then inc d a e.2 else d) d) []
  ends := (alphabet (keys uv)).foldl (fun d a => uv.foldl (fun d e =>
    if 0 < e.1.length ∧ e.1[e.1.length - 1]? = some a then inc d a e.2 else d) d) []

/-- `get_vertices` (objects/dfg/util.py:25-37) -/
def vertices (g : DFG α) : List α :=
  dedup ((keys g.graph).flatMap (fun e => [e.1, e.2]) ++ keys g.starts ++ keys g.ends)

/-- `get_vertex_frequencies` (objects/dfg/util.py:132-146). -/
def vertexFrequencies (g : DFG α) : Dict α Int :=
  let c0 := (vertices g).foldl (fun c v => Dict.set c v 0) []
  let c1 := g.graph.foldl (fun c e => inc c e.1.1 e.2) c0
  g.starts.foldl (fun c e => inc c e.1 e.2) c1

/-! ### Specification -/

/-- number of positions of `t` holding `a` whose `w`-th successor position holds `b` -/
def follows (w : Nat) (a b : α) (t : List α) : Nat :=
  ((List.range t.length).filter fun i => decide (t[i]? = some a ∧ t[i + w]? = some b)).length

/-- number of positions of the log holding `a` directly followed by `b` -/
def followsLog (w : Nat) (a b : α) (log : List (List α)) : Nat := (log.map (follows w a b)).sum

/-- number of traces of the log satisfying a condition -/
def tracesWith (log : List (List α)) (p : List α → Bool) : Nat := (log.filter p).length

/-- number of events of the log with activity `a` -/
def occurrences (a : α) (log : List (List α)) : Nat := (log.map fun t => t.count a).sum

/-! ### Proofs -/

theorem pairs_eq_zip (t : List α) : pairs t = t.zip t.tail := by
  induction t with
  | nil => rfl
  | cons x t ih =>
    cases t with
    | nil => rfl
    | cons y t =>
      have : pairs (x :: y :: t) = (x, y) :: pairs (y :: t) := by
        unfold pairs
        simp only [List.length_cons, Nat.add_sub_cancel]
        rw [List.range_succ_eq_map, List.filterMap_cons]
        simp only [List.filterMap_map]
        rfl
      rw [this, ih]; rfl

theorem windowPairs_eq (w : Nat) (t : List α) : windowPairs w t = (List.range (t.length - w)).filterMap fun i =>
    match t[i]?, t[i + w]? with
    | some a, some b => some (a, b)
    | _, _ => none := by
  unfold windowPairs
  have : List.range' w (t.length - w) = (List.range (t.length - w)).map fun i => i + w := by
    rw [List.range'_eq_map_range]
    apply List.map_congr_left; intro i _; omega
  rw [this, List.filterMap_map]
  congr 1
  funext i
  simp

theorem count_filterMap_pairs (w n : Nat) (t : List α) (a b : α) :
    cnt (a, b) ((List.range n).filterMap fun i =>
      match t[i]?, t[i + w]? with
      | some a, some b => some (a, b)
      | _, _ => none) =
    ((List.range n).filter fun i => decide (t[i]? = some a ∧ t[i + w]? = some b)).length := by
  induction n with
  | zero => rfl
  | succ n ih =>
    rw [List.range_succ, List.filterMap_append, cnt_append, ih, List.filter_append, List.length_append]
    congr 1
    simp only [List.filterMap_cons, List.filterMap_nil, List.filter_cons, List.filter_nil]
    cases h1 : t[n]? with
    | none => simp
    | some x =>
      cases h2 : t[n + w]? with
      | none => simp
      | some y =>
        simp only [Option.some.injEq]
        by_cases h : x = a ∧ y = b
        · obtain ⟨rfl, rfl⟩ := h; simp [cnt_cons]
        · have : (x, y) ≠ (a, b) := by simpa using h
          simp [h, cnt_cons]

theorem follows_eq (w : Nat) (t : List α) (a b : α) : cnt (a, b) (windowPairs w t) = follows w a b t := by
  rw [windowPairs_eq, count_filterMap_pairs]
  unfold follows
  have : List.range t.length = List.range (t.length - w) ++ (List.range' (t.length - w) (t.length - (t.length - w))) := by
    have h := List.range'_append_1 (s := 0) (m := t.length - w) (n := t.length - (t.length - w))
    rw [Nat.zero_add] at h
    rw [List.range_eq_range', List.range_eq_range', h]
    congr 1; omega
  rw [this, List.filter_append, List.length_append]
  have h0 : (List.range' (t.length - w) (t.length - (t.length - w))).filter
      (fun i => decide (t[i]? = some a ∧ t[i + w]? = some b)) = [] := by
    rw [List.filter_eq_nil_iff]
    intro i hi
    rw [List.mem_range'_1] at hi
    have : t[i + w]? = none := by rw [List.getElem?_eq_none_iff]; omega
    simp [this]
  rw [h0]; simp

theorem pairs_eq_window (t : List α) : pairs t = windowPairs 1 t := by rw [windowPairs_eq]; rfl

theorem foldl_pairs (log : List (List α)) (d : Dict (α × α) Int) :
    log.foldl (fun d t => (pairs t).foldl (fun d p => inc d p 1) d) d = update d (log.flatMap pairs) := by
  induction log generalizing d with
  | nil => rfl
  | cons t log ih => rw [List.foldl_cons, ih, List.flatMap_cons, update_append]; rfl

theorem filterMap_count (log : List (List α)) (f : List α → Option α) (a : α) :
    cnt a (log.filterMap f) = tracesWith log fun t => decide (f t = some a) := by
  unfold tracesWith
  induction log with
  | nil => rfl
  | cons t log ih =>
    rw [List.filterMap_cons, List.filter_cons]
    cases h : f t with
    | none => simp [ih]
    | some x =>
      rw [cnt_cons, ih]
      by_cases hx : x = a
      · simp [hx]
      · simp [hx]

theorem endActs_eq (log : List (List α)) : endActs log = log.filterMap List.getLast? := by
  unfold endActs
  rw [List.filterMap_filter]
  congr 1
  funext t
  cases t with
  | nil => rfl
  | cons x t => simp [List.getLast?_eq_getElem?]

theorem count_foldl_inc {β κ : Type} [DecidableEq κ] (l : List β) (f : β → κ) (g : β → Int) (d : Dict κ Int) (k : κ) :
    count (l.foldl (fun d b => inc d (f b) (g b)) d) k = count d k + (l.map fun b => if f b = k then g b else 0).sum := by
  induction l generalizing d with
  | nil => simp
  | cons b l ih => rw [List.foldl_cons, ih, count_inc]; simp; omega

theorem uvcl_graph (uv : Dict (List α) Int) (a b : α) :
    count (discoverUvcl uv).graph (a, b) = wsum uv fun t => (follows 1 a b t : Int) := by
  have key : ∀ (uv : Dict (List α) Int) (d : Dict (α × α) Int),
      count (uv.foldl (fun d e => (pairs e.1).foldl (fun d p => inc d p e.2) d) d) (a, b) =
        count d (a, b) + wsum uv fun t => (follows 1 a b t : Int) := by
    intro uv
    induction uv with
    | nil => intro d; simp [wsum]
    | cons e uv ih =>
      intro d
      rw [List.foldl_cons, ih]
      have h1 : count ((pairs e.1).foldl (fun d p => inc d p e.2) d) (a, b) = count d (a, b) + e.2 * (follows 1 a b e.1 : Int) := by
        rw [count_foldl_inc (pairs e.1) (fun p => p) (fun _ => e.2) d (a, b), ← follows_eq, ← pairs_eq_window]
        congr 1
        generalize pairs e.1 = l
        induction l with
        | nil => simp
        | cons p l ih2 =>
          simp only [List.map_cons, List.sum_cons, ih2, cnt_cons]
          by_cases h : p = (a, b)
          · simp only [h, if_true]; push_cast; rw [Int.mul_add]; omega
          · simp [h]
      rw [h1]; simp [wsum]; omega
  simp only [discoverUvcl]
  rw [key]; simp

theorem uvcl_acts (uv : Dict (List α) Int) (q : List α → Option α) (hq : ∀ t a, q t = some a → a ∈ t) (a : α) :
    count ((alphabet (keys uv)).foldl (fun d x => uv.foldl (fun d e =>
      if q e.1 = some x then inc d x e.2 else d) d) []) a = wsum uv fun t => if q t = some a then 1 else 0 := by
  have inner : ∀ (uv : Dict (List α) Int) (x : α) (d : Dict α Int),
      count (uv.foldl (fun d e => if q e.1 = some x then inc d x e.2 else d) d) a =
        count d a + if x = a then wsum uv fun t => if q t = some a then 1 else 0 else 0 := by
    intro uv x
    induction uv with
    | nil => intro d; simp [wsum]
    | cons e uv ih =>
      intro d
      rw [List.foldl_cons, ih]
      by_cases hx : x = a
      · subst hx
        by_cases he : q e.1 = some x
        · simp only [he, if_true, count_inc, wsum, List.map_cons, List.sum_cons]; omega
        · simp [he, wsum]
      · by_cases he : q e.1 = some x
        · simp [he, hx, count_inc]
        · simp [he, hx]
  have outer : ∀ (l : List α) (d : Dict α Int), l.Nodup →
      count (l.foldl (fun d x => uv.foldl (fun d e => if q e.1 = some x then inc d x e.2 else d) d) d) a =
        count d a + if a ∈ l then wsum uv fun t => if q t = some a then 1 else 0 else 0 := by
    intro l
    induction l with
    | nil => intro d _; simp
    | cons x l ih =>
      intro d hn
      rw [List.nodup_cons] at hn
      rw [List.foldl_cons, ih _ hn.2, inner]
      by_cases hx : x = a
      · subst hx; simp [hn.1]
      · have : a ≠ x := fun e => hx e.symm
        simp [hx, this]
  rw [outer (alphabet (keys uv)) [] (nodup_dedup _)]
  simp only [count_nil, Int.zero_add]
  split
  · rfl
  · rename_i h
    unfold wsum
    have : ∀ e ∈ uv, e.2 * (if q e.1 = some a then 1 else 0 : Int) = 0 := by
      intro e he
      have : q e.1 ≠ some a := by
        intro hqa
        apply h
        simp only [alphabet, mem_dedup, List.mem_flatten]
        exact ⟨e.1, List.mem_map.2 ⟨e, he, rfl⟩, hq _ _ hqa⟩
      simp [this]
    rw [List.map_congr_left (g := fun _ => 0) this]
    clear this h inner outer
    induction uv with
    | nil => rfl
    | cons e uv ih => rw [List.map_cons, List.sum_cons, ← ih]; rfl

theorem sum_indicator (log : List (List α)) (p : List α → Prop) [DecidablePred p] :
    (log.map fun t => if p t then (1 : Int) else 0).sum = (tracesWith log (fun t => decide (p t)) : Int) := by
  unfold tracesWith
  induction log with
  | nil => rfl
  | cons t log ih =>
    rw [List.map_cons, List.sum_cons, ih, List.filter_cons]
    by_cases h : p t
    · simp [h]; omega
    · simp [h]

end Dfg
open Dfg Dict Counter
section
variable {α : Type} [DecidableEq α]

/-- C17: `discover_dfg` on an event log (native variant, any window): the weight of `(a, b)` is the number of
positions of the log where `b` occurs `window` positions after `a`, and a pair has an entry only if it occurs. -/
theorem C17_native (w : Nat) (log : List (List α)) (a b : α) :
    count (native w false log) (a, b) = (followsLog w a b log : Int) ∧
    ((a, b) ∈ keys (native w false log) ↔ 0 < followsLog w a b log) := by
  have h : cnt (a, b) (log.flatMap fun t => windowPairs w t) = followsLog w a b log := by
    rw [cnt_flatMap]
    unfold followsLog
    congr 1
    apply List.map_congr_left
    intro t _; exact follows_eq w t a b
  unfold native
  simp only [Bool.false_eq_true, if_false]
  refine ⟨by rw [count_ofList, h], ?_⟩
  rw [keys_ofList, ← cnt_pos, h]

/-- C17: with `keep_once_per_case` the weight is the number of traces in which the pair occurs. -/
theorem C17_native_once (w : Nat) (log : List (List α)) (a b : α) :
    count (native w true log) (a, b) = (tracesWith log (fun t => decide (0 < follows w a b t)) : Int) := by
  unfold native
  simp only [if_true]
  rw [count_ofList, cnt_flatMap]
  congr 1
  unfold tracesWith
  induction log with
  | nil => rfl
  | cons t log ih =>
    rw [List.map_cons, List.sum_cons, ih, List.filter_cons]
    by_cases h : 0 < follows w a b t
    · rw [← follows_eq, cnt_pos] at h
      have h1 : cnt (a, b) (dedup (windowPairs w t)) = 1 := by
        have hn := nodup_dedup (windowPairs w t)
        have := cnt_nodup (k := (a, b)) hn
        have : 0 < cnt (a, b) (dedup (windowPairs w t)) := (cnt_pos _ _).2 (by simpa using h)
        omega
      rw [h1]
      have h2 : 0 < follows w a b t := by rw [← follows_eq, cnt_pos]; exact h
      simp [h2]; omega
    · have h1 : cnt (a, b) (dedup (windowPairs w t)) = 0 := by
        rw [cnt_zero, mem_dedup, ← cnt_pos, follows_eq]; exact h
      rw [h1]; simp [h]

/-- C17: the three counters of `discover_dfg` are exact. -/
theorem C17_discover (log : List (List α)) (a b : α) :
    count (discover log).graph (a, b) = (followsLog 1 a b log : Int) ∧
    count (discover log).starts a = (tracesWith log (fun t => decide (t.head? = some a)) : Int) ∧
    count (discover log).ends a = (tracesWith log (fun t => decide (t.getLast? = some a)) : Int) := by
  refine ⟨?_, ?_, ?_⟩
  · simp only [discover]
    rw [foldl_pairs, count_update, cnt_flatMap]
    simp only [count_nil, Int.zero_add]
    congr 1
    unfold followsLog
    congr 1
    apply List.map_congr_left
    intro t _; rw [pairs_eq_window]; exact follows_eq 1 t a b
  · simp only [discover, startActs]
    rw [count_update, filterMap_count]
    simp only [count_nil, Int.zero_add, List.head?_eq_getElem?]
  · simp only [discover]
    rw [endActs_eq, count_update, filterMap_count]
    simp

/-- C17: conservation of flow.  Every occurrence of an activity is followed by another event or is the end of its
trace, and is preceded by another event or is the start of its trace. -/
theorem C17_conservation (log : List (List α)) (a : α) :
    (occurrences a log : Int) = total (discover log).graph (fun e => decide (e.1 = a)) + count (discover log).ends a ∧
    (occurrences a log : Int) = total (discover log).graph (fun e => decide (e.2 = a)) + count (discover log).starts a := by
  have hout : ∀ t : List α, t.count a = (pairs t).countP (fun e => decide (e.1 = a)) + if t.getLast? = some a then 1 else 0 := by
    intro t
    rw [pairs_eq_zip]
    induction t with
    | nil => rfl
    | cons x t ih =>
      cases t with
      | nil => simp [List.count_singleton]
      | cons y t =>
        rw [List.count_cons, ih]
        simp only [List.tail_cons, List.zip_cons_cons, List.countP_cons, List.getLast?_cons_cons, beq_iff_eq,
          decide_eq_true_eq]
        omega
  have hin : ∀ t : List α, t.count a = (pairs t).countP (fun e => decide (e.2 = a)) + if t.head? = some a then 1 else 0 := by
    intro t
    rw [pairs_eq_zip]
    cases t with
    | nil => rfl
    | cons x t =>
      induction t generalizing x with
      | nil => simp [List.count_singleton]
      | cons y t ih =>
        rw [List.count_cons, ih y]
        simp only [List.tail_cons, List.zip_cons_cons, List.countP_cons, List.head?_cons, beq_iff_eq,
          decide_eq_true_eq, Option.some.injEq]
  rw [(C17_discover log a a).2.1, (C17_discover log a a).2.2]
  simp only [discover]
  rw [foldl_pairs, total_update _ (by simp), total_update _ (by simp)]
  have h0 : ∀ p : α × α → Bool, total ([] : Dict (α × α) Int) p = 0 := fun p => rfl
  rw [h0, h0]
  unfold occurrences tracesWith
  induction log with
  | nil => simp
  | cons t log ih =>
    simp only [List.map_cons, List.sum_cons, List.flatMap_cons, List.countP_append, List.filter_cons]
    have h1 := hout t
    have h2 := hin t
    constructor
    · rw [h1]; have := ih.1; split <;> split <;> simp_all <;> omega
    · rw [h2]; have := ih.2; split <;> split <;> simp_all <;> omega

/-- C17: the order of the traces does not matter. -/
theorem C17_order (log log' : List (List α)) (h : log.Perm log') (a b : α) :
    count (discover log).graph (a, b) = count (discover log').graph (a, b) ∧
    count (discover log).starts a = count (discover log').starts a ∧
    count (discover log).ends a = count (discover log').ends a := by
  obtain ⟨h1, h2, h3⟩ := C17_discover log a b
  obtain ⟨h1', h2', h3'⟩ := C17_discover log' a b
  rw [h1, h2, h3, h1', h2', h3']
  unfold followsLog tracesWith
  rw [(h.map _).sum_nat, (h.filter _).length_eq, (h.filter _).length_eq]
  exact ⟨rfl, rfl, rfl⟩

/-- C17: discovering from the variants with multiplicities gives the same counters as discovering from the log. -/
theorem C17_variants (log : List (List α)) (a b : α) :
    count (discoverUvcl (variants log)).graph (a, b) = count (discover log).graph (a, b) ∧
    count (discoverUvcl (variants log)).starts a = count (discover log).starts a ∧
    count (discoverUvcl (variants log)).ends a = count (discover log).ends a := by
  obtain ⟨h1, h2, h3⟩ := C17_discover log a b
  rw [h1, h2, h3]
  refine ⟨?_, ?_, ?_⟩
  · rw [uvcl_graph]
    unfold variants
    rw [wsum_ofList]
    unfold followsLog
    induction log with
    | nil => rfl
    | cons t log ih =>
      have := ih (C17_discover log a b).1 (C17_discover log a b).2.1 (C17_discover log a b).2.2
      simp only [List.map_cons, List.sum_cons] at this ⊢
      rw [this]; push_cast; rfl
  · simp only [discoverUvcl]
    rw [uvcl_acts (variants log) (fun t => t[0]?) (fun t a h => List.mem_of_getElem? h)]
    unfold variants
    rw [wsum_ofList, sum_indicator]
    simp only [List.head?_eq_getElem?]
  · simp only [discoverUvcl]
    have : ∀ (t : List α) (x : α), (0 < t.length ∧ t[t.length - 1]? = some x) ↔ t.getLast? = some x := by
      intro t x
      rw [List.getLast?_eq_getElem?]
      constructor
      · exact fun h => h.2
      · intro h
        refine ⟨?_, h⟩
        have := (List.getElem?_eq_some_iff.1 h).1
        omega
    simp only [this]
    rw [uvcl_acts (variants log) List.getLast? (fun t a h => List.mem_of_getLast? h)]
    unfold variants
    rw [wsum_ofList, sum_indicator]

/-- C17, refuted: the documentation of `get_vertex_frequencies` promises the number of occurrences in the log; for the
log with the single trace `⟨0, 1⟩` it returns 2 for activity 0 and 0 for activity 1. -/
theorem C17_vertex_frequencies_refuted :
    count (vertexFrequencies (discover [[0, 1]])) 0 = 2 ∧ occurrences 0 [[0, 1]] = 1 ∧
    count (vertexFrequencies (discover [[0, 1]])) 1 = 0 ∧ occurrences 1 [[0, 1]] = 1 := by decide

example : count (discover [[0, 1, 0, 1], [0]]).graph (0, 1) = 2 ∧ count (discover [[0, 1, 0, 1], [0]]).ends 0 = 1 := by decide
end
end Verif
