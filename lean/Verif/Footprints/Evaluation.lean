import Verif.Footprints.Theorems
import Mathlib.Tactic.Linarith
import Mathlib.Tactic.Ring
import Mathlib.Algebra.Order.Field.Basic
import Mathlib.Data.List.Perm.Subperm
import Mathlib.Algebra.Order.Field.Rat
/-
Model of /repo/pm4py/algo/conformance/footprints/util/evaluation.py and property theorems C35: footprints fitness and precision.
Simplification: the arithmetic on Python floats is done with exact rational numbers.
-/
namespace Verif
namespace Foot
variable {α : Type} [DecidableEq α]

/-- number of elements of the set given by a list -/
def card {X : Type} [DecidableEq X] (l : List X) : Nat := (dedup l).length

/-- what `fp_fitness` needs of the footprints of a log (flattened, evaluation.py:160-178) -/
structure FlatFP (α : Type) where
  dfg : Dict (α × α) Int
  sequence : List (α × α)
  parallel : List (α × α)
  start : List α
  stop : List α

/-- what `fp_fitness` needs of the conformance result (flattened, evaluation.py:181-202) -/
structure FlatConf (α : Type) where
  footprints : List (α × α)
  start : List α
  stop : List α

/-- footprints of an entire log, with its `dfg` entry (entire_event_log.py:68-83); `flatten_fp` leaves them unchanged -/
def flatLog (log : List (List α)) : FlatFP α :=
  ⟨Dfg.native 1 false log, (logFP log).sequence, (logFP log).parallel, (logFP log).start, (logFP log).stop⟩

/-- `flatten_fp` (evaluation.py:160-178) of trace-by-trace footprints -/
def flatTraces (log : List (List α)) : FlatFP α :=
  log.foldl (fun r tr => ⟨(Dfg.native 1 false [tr]).foldl (fun d e => Counter.inc d e.1 e.2) r.dfg, r.sequence ++ (traceFP tr).sequence,
    r.parallel ++ (traceFP tr).parallel, r.start ++ (traceFP tr).start, r.stop ++ (traceFP tr).stop⟩) ⟨[], [], [], [], []⟩

/-- `flatten_conf` (evaluation.py:181-202) of an overall result -/
def flatConf (c : Conf α) : FlatConf α := ⟨c.footprints, c.start, c.stop⟩

/-- `flatten_conf` (evaluation.py:181-202) of trace-by-trace results -/
def flatConfs (cs : List (Conf α)) : FlatConf α :=
  cs.foldl (fun r c => ⟨r.footprints ++ c.footprints, r.start ++ c.start, r.stop ++ c.stop⟩) ⟨[], [], []⟩

/-- `fp_fitness` (evaluation.py:48-103), the log fitness -/
def fpFitness (l : FlatFP α) (c : FlatConf α) : Rat :=
  if l.dfg.isEmpty then 1
  else
    let n : Rat := (card l.sequence : Rat) + card l.parallel
    let sumDfg : Rat := ((l.dfg.map Prod.snd).sum : Int)
    let sumDev : Rat := (((dedup c.footprints).map fun x => Dict.count l.dfg x).sum : Int)
    ((1 - sumDev / sumDfg) * n + ((card l.start : Rat) + card l.stop - card c.start - card c.stop)) / (n + card l.start + card l.stop)

/-- `perc_fit_traces` (evaluation.py:73-75); `none`: `ZeroDivisionError` for an empty list -/
def percFit (cs : List (Conf α)) : Option Rat :=
  if cs.length = 0 then none else some (((cs.filter Conf.isFit).length : Rat) / cs.length * 100)

/-- `fp_precision` (evaluation.py:106-140) -/
def fpPrecision (ls lp ms mp : List (α × α)) : Rat :=
  let lc := ls ++ lp
  let mc := ms ++ mp
  if mc.isEmpty then 1 else (card (lc.filter fun x => decide (x ∈ mc)) : Rat) / card mc

/-! ### Proofs -/

theorem card_le {X : Type} [DecidableEq X] {l1 l2 : List X} (h : ∀ x ∈ l1, x ∈ l2) : card l1 ≤ card l2 := by
  unfold card
  exact (List.Nodup.subperm (nodup_dedup l1) fun x hx => by simp at hx ⊢; exact h x hx).length_le

theorem card_eq_zero {X : Type} [DecidableEq X] {l : List X} : card l = 0 ↔ l = [] := by
  unfold card
  rw [List.length_eq_zero_iff]
  constructor
  · intro h
    rw [List.eq_nil_iff_forall_not_mem]
    intro x hx
    have : x ∈ dedup l := by simpa using hx
    rw [h] at this; cases this
  · rintro rfl; rfl

theorem card_lt {X : Type} [DecidableEq X] {l1 l2 : List X} (h : ∀ x ∈ l1, x ∈ l2) {y : X} (hy : y ∈ l2) (hn : y ∉ l1) : card l1 < card l2 := by
  have : card (y :: l1) ≤ card l2 := card_le fun x hx => by
    rcases List.mem_cons.1 hx with rfl | hx
    · exact hy
    · exact h x hx
  have h2 : card (y :: l1) = card l1 + 1 := by
    have hp : (dedup (y :: l1)).Perm (y :: dedup l1) := by
      refine (List.perm_ext_iff_of_nodup (nodup_dedup _) ?_).2 ?_
      · rw [List.nodup_cons]; exact ⟨by simpa using hn, nodup_dedup _⟩
      · intro x; simp
    unfold card; rw [hp.length_eq]; rfl
  omega

/-- the sum of the values of a dictionary is the sum of the counts of its keys -/
theorem sum_values (d : Dict (α × α) Int) (hn : (Dict.keys d).Nodup) :
    (d.map Prod.snd).sum = ((Dict.keys d).map fun x => Dict.count d x).sum := by
  rw [Dict.keys, List.map_map]
  congr 1
  refine List.map_congr_left fun e he => ?_
  simp only [Function.comp_apply, Dict.count]
  rw [Dict.get?_of_mem_nodup hn (k := e.1) (v := e.2) he]; rfl

theorem sum_le_of_subset {X : Type} [DecidableEq X] (f : X → Int) {l1 l2 : List X} (hn : l1.Nodup) (h : ∀ x ∈ l1, x ∈ l2) (hf : ∀ x ∈ l2, 0 < f x) :
    (l1.map f).sum ≤ (l2.map f).sum ∧ 0 ≤ (l1.map f).sum ∧ ((l1.map f).sum = 0 ↔ l1 = []) := by
  have pos : ∀ l : List X, (∀ x ∈ l, 0 < f x) → 0 ≤ (l.map f).sum ∧ ((l.map f).sum = 0 ↔ l = []) := by
    intro l; induction l with
    | nil => simp
    | cons x l ih =>
      intro hl
      have h1 := hl x List.mem_cons_self
      have h2 := ih fun y hy => hl y (List.mem_cons_of_mem _ hy)
      simp only [List.map_cons, List.sum_cons]
      refine ⟨by omega, ⟨fun h => by omega, fun h => by cases h⟩⟩
  obtain ⟨l, hp, hs⟩ := List.Nodup.subperm hn h
  obtain ⟨p1, p2⟩ := pos l1 fun x hx => hf x (h x hx)
  refine ⟨?_, p1, p2⟩
  have e1 : (l1.map f).sum = (l.map f).sum := by
    have key : ∀ {k k' : List X}, k.Perm k' → (k.map f).sum = (k'.map f).sum := by
      intro k k' hkk
      induction hkk with
      | nil => rfl
      | cons x _ ih => simp only [List.map_cons, List.sum_cons, ih]
      | swap x y l => simp only [List.map_cons, List.sum_cons]; omega
      | trans _ _ ih1 ih2 => exact ih1.trans ih2
    exact key hp.symm
  rw [e1]
  clear hp h hn p1 p2 e1
  induction hs with
  | slnil => simp
  | cons a hs ih =>
    have := hf a List.mem_cons_self
    have := ih fun x hx => hf x (List.mem_cons_of_mem _ hx)
    simp only [List.map_cons, List.sum_cons]; omega
  | cons_cons a hs ih =>
    have := ih fun x hx => hf x (List.mem_cons_of_mem _ hx)
    simp only [List.map_cons, List.sum_cons]; omega

/-- arithmetic core of the fitness -/
theorem fitness_core (x n k d : Rat) (h0 : 0 ≤ x) (h1 : x ≤ 1) (hn : 0 < n) (hk : 0 ≤ k) (hd : 0 ≤ d) (hdk : d ≤ k) :
    0 ≤ ((1 - x) * n + (k - d)) / (n + k) ∧ ((1 - x) * n + (k - d)) / (n + k) ≤ 1 ∧
    (((1 - x) * n + (k - d)) / (n + k) = 1 ↔ x = 0 ∧ d = 0) := by
  have hpos : 0 < n + k := by linarith
  have hxn : 0 ≤ x * n := mul_nonneg h0 hn.le
  have h1n : 0 ≤ (1 - x) * n := mul_nonneg (by linarith) hn.le
  refine ⟨div_nonneg (by linarith) hpos.le, ?_, ?_⟩
  · rw [div_le_one hpos]; linarith
  · rw [div_eq_one_iff_eq hpos.ne']
    constructor
    · intro h
      have : x * n + d = 0 := by linarith
      have h2 : x * n = 0 := by linarith
      have h3 : d = 0 := by linarith
      exact ⟨(mul_eq_zero.1 h2).resolve_right hn.ne', h3⟩
    · rintro ⟨rfl, rfl⟩; ring

/-- consistent input of `fp_fitness` -/
structure Sane (l : FlatFP α) (c : FlatConf α) : Prop where
  nodup : (Dict.keys l.dfg).Nodup
  pos : ∀ x ∈ Dict.keys l.dfg, 0 < Dict.count l.dfg x
  rel : ∀ x, x ∈ Dict.keys l.dfg ↔ x ∈ l.sequence ++ l.parallel
  dev : ∀ x ∈ c.footprints, x ∈ Dict.keys l.dfg
  start : ∀ a ∈ c.start, a ∈ l.start
  stop : ∀ a ∈ c.stop, a ∈ l.stop

theorem fitness_range {l : FlatFP α} {c : FlatConf α} (h : Sane l c) :
    0 ≤ fpFitness l c ∧ fpFitness l c ≤ 1 ∧
    (l.dfg ≠ [] → (fpFitness l c = 1 ↔ c.footprints = [] ∧ c.start = [] ∧ c.stop = [])) := by
  unfold fpFitness
  cases he : l.dfg.isEmpty with
  | true =>
    rw [List.isEmpty_iff] at he
    simp [he]
  | false =>
    have hne : l.dfg ≠ [] := by intro e; simp [e] at he
    simp only [Bool.false_eq_true, if_false]
    have hs := sum_le_of_subset (fun x => Dict.count l.dfg x) (nodup_dedup c.footprints) (l2 := Dict.keys l.dfg)
      (fun x hx => h.dev x (by simpa using hx)) h.pos
    have hs2 := sum_le_of_subset (fun x => Dict.count l.dfg x) h.nodup (l2 := Dict.keys l.dfg) (fun x hx => hx) h.pos
    rw [← sum_values l.dfg h.nodup] at hs hs2
    have hk : Dict.keys l.dfg ≠ [] := by
      intro e; apply hne; simpa [Dict.keys] using e
    have hD : (0 : Int) < (l.dfg.map Prod.snd).sum := by
      have h1 := hs2.2.1
      have h2 := hs2.2.2
      rcases Int.lt_or_eq_of_le h1 with h3 | h3
      · exact h3
      · exact absurd (h2.1 h3.symm) hk
    have hn : 0 < card l.sequence + card l.parallel := by
      rcases Nat.eq_zero_or_pos (card l.sequence + card l.parallel) with h0 | h0
      · exfalso
        have h1 := card_eq_zero.1 (show card l.sequence = 0 by omega)
        have h2 := card_eq_zero.1 (show card l.parallel = 0 by omega)
        apply hk
        rw [List.eq_nil_iff_forall_not_mem]
        intro x hx
        rw [h.rel, h1, h2] at hx; cases hx
      · exact h0
    have c1 := card_le h.start
    have c2 := card_le h.stop
    generalize hDd : (l.dfg.map Prod.snd).sum = D at *
    generalize hVd : ((dedup c.footprints).map fun x => Dict.count l.dfg x).sum = V at *
    have hDq : (0 : Rat) < (D : Rat) := by exact_mod_cast hD
    have hV0 : (0 : Rat) ≤ (V : Rat) := by exact_mod_cast hs.2.1
    have hVD : (V : Rat) ≤ (D : Rat) := by exact_mod_cast hs.1
    have core := fitness_core ((V : Rat) / D) ((card l.sequence : Rat) + card l.parallel) ((card l.start : Rat) + card l.stop)
      ((card c.start : Rat) + card c.stop) (div_nonneg hV0 hDq.le) ((div_le_one hDq).2 hVD) (by exact_mod_cast hn)
      (by exact_mod_cast Nat.zero_le _) (by exact_mod_cast Nat.zero_le _) (by exact_mod_cast Nat.add_le_add c1 c2)
    rw [← add_assoc] at core
    have e : (card l.start : Rat) + card l.stop - (card c.start + card c.stop) = (card l.start : Rat) + card l.stop - card c.start - card c.stop := by ring
    rw [e] at core
    refine ⟨core.1, core.2.1, fun _ => ?_⟩
    rw [core.2.2]
    have hx : (V : Rat) / D = 0 ↔ c.footprints = [] := by
      rw [div_eq_zero_iff]
      constructor
      · rintro (h1 | h1)
        · have : V = 0 := by exact_mod_cast h1
          have := hs.2.2.1 this
          exact card_eq_zero.1 (by unfold card; rw [this]; rfl)
        · exact absurd h1 hDq.ne'
      · intro h1
        left
        have : V = 0 := hs.2.2.2 (by rw [h1]; rfl)
        exact_mod_cast this
    have hd : (card c.start : Rat) + card c.stop = 0 ↔ c.start = [] ∧ c.stop = [] := by
      rw [← card_eq_zero, ← card_eq_zero]
      constructor
      · intro h1
        have : card c.start + card c.stop = 0 := by exact_mod_cast h1
        omega
      · rintro ⟨h1, h2⟩; rw [h1, h2]; simp
    rw [hx, hd]

theorem sane_log (log : List (List α)) (m : MFP α) : Sane (flatLog log) (flatConf (confLog (logFP log) m)) := by
  have h := C19_log_footprints log
  have hrel : ∀ x : α × α, x ∈ Dict.keys (Dfg.native 1 false log) ↔ x ∈ (logFP log).sequence ++ (logFP log).parallel := by
    rintro ⟨a, b⟩
    rw [mem_keys_native, List.mem_append, h.1, h.2.1]
    unfold DF logLang
    grind
  refine ⟨by unfold flatLog Dfg.native; exact Counter.nodup_ofList _, count_native_pos log, hrel, ?_, ?_, ?_⟩
  · intro x hx
    simp only [flatConf, confLog, mem_diff] at hx
    exact (hrel x).2 hx.1
  · intro a ha; simp only [flatConf, confLog, mem_diff] at ha; exact ha.1
  · intro a ha; simp only [flatConf, confLog, mem_diff] at ha; exact ha.1

/-- the counts added by one trace -/
theorem foldl_inc (e : Dict (α × α) Int) (d : Dict (α × α) Int) (hd : (Dict.keys d).Nodup) :
    (Dict.keys (e.foldl (fun d e => Counter.inc d e.1 e.2) d)).Nodup ∧
    (∀ x, x ∈ Dict.keys (e.foldl (fun d e => Counter.inc d e.1 e.2) d) ↔ x ∈ Dict.keys d ∨ x ∈ Dict.keys e) ∧
    ((Dict.keys e).Nodup → ∀ x, Dict.count (e.foldl (fun d e => Counter.inc d e.1 e.2) d) x = Dict.count d x + Dict.count e x) := by
  induction e generalizing d with
  | nil => simp [hd]
  | cons y e ih =>
    obtain ⟨h1, h2, h3⟩ := ih (Counter.inc d y.1 y.2) (Counter.nodup_inc hd _ _)
    refine ⟨h1, fun x => ?_, fun hn x => ?_⟩
    · rw [List.foldl_cons, h2]
      rw [show Dict.keys (y :: e) = y.1 :: Dict.keys e from rfl, List.mem_cons, Counter.inc, Dict.keys_set]
      generalize (x ∈ Dict.keys d) = A
      generalize (x ∈ Dict.keys e) = B
      generalize (x = y.1) = C
      by_cases A <;> by_cases B <;> by_cases C <;> simp_all
    · rw [List.foldl_cons, h3 (by simp only [Dict.keys, List.map_cons, List.nodup_cons] at hn; exact hn.2), Counter.count_inc]
      have hy : y.1 ∉ Dict.keys e := by simp only [Dict.keys, List.map_cons, List.nodup_cons] at hn; exact hn.1
      have e1 : Dict.count (y :: e) x = if y.1 = x then y.2 else Dict.count e x := by
        unfold Dict.count
        rw [show (y :: e : Dict (α × α) Int) = (y.1, y.2) :: e from rfl, Dict.get?_cons]
        by_cases h : y.1 = x
        · subst h; simp
        · simp [h, Ne.symm h]
      rw [e1]
      by_cases h : y.1 = x
      · subst h
        have : Dict.count e y.1 = 0 := by
          unfold Dict.count
          have := mt (Dict.mem_keys_iff e y.1).2 hy
          simp at this; rw [this]; rfl
        simp [this]
      · simp [h, Ne.symm h]

theorem native_append (log log' : List (List α)) (x : α × α) :
    Dict.count (Dfg.native 1 false (log ++ log')) x = Dict.count (Dfg.native 1 false log) x + Dict.count (Dfg.native 1 false log') x := by
  rw [(C17_native 1 (log ++ log') x.1 x.2).1, (C17_native 1 log x.1 x.2).1, (C17_native 1 log' x.1 x.2).1]
  simp [Dfg.followsLog]

/-- what `flatTraces` computes -/
theorem flatTraces_spec (log : List (List α)) :
    (Dict.keys (flatTraces log).dfg).Nodup ∧
    (∀ x, x ∈ Dict.keys (flatTraces log).dfg ↔ x ∈ Dict.keys (Dfg.native 1 false log)) ∧
    (∀ x, Dict.count (flatTraces log).dfg x = Dict.count (Dfg.native 1 false log) x) ∧
    (flatTraces log).sequence = log.flatMap (fun tr => (traceFP tr).sequence) ∧
    (flatTraces log).parallel = log.flatMap (fun tr => (traceFP tr).parallel) ∧
    (flatTraces log).start = log.flatMap (fun tr => (traceFP tr).start) ∧
    (flatTraces log).stop = log.flatMap (fun tr => (traceFP tr).stop) := by
  induction log using snocInduct with
  | nil => simp [flatTraces, Dfg.native, Counter.ofList, Counter.update]
  | snoc log tr ih =>
    obtain ⟨h1, h2, h3, h4, h5, h6, h7⟩ := ih
    have hn : (Dict.keys (Dfg.native 1 false [tr])).Nodup := by unfold Dfg.native; exact Counter.nodup_ofList _
    obtain ⟨g1, g2, g3⟩ := foldl_inc (Dfg.native 1 false [tr]) (flatTraces log).dfg h1
    have hk : ∀ x : α × α, x ∈ Dict.keys (Dfg.native 1 false (log ++ [tr])) ↔
        x ∈ Dict.keys (Dfg.native 1 false log) ∨ x ∈ Dict.keys (Dfg.native 1 false [tr]) := by
      rintro ⟨a, b⟩
      rw [mem_keys_native, mem_keys_native, mem_keys_native]
      unfold DF logLang
      simp only [List.mem_append]
      grind
    have e : flatTraces (log ++ [tr]) = ⟨(Dfg.native 1 false [tr]).foldl (fun d e => Counter.inc d e.1 e.2) (flatTraces log).dfg,
        (flatTraces log).sequence ++ (traceFP tr).sequence, (flatTraces log).parallel ++ (traceFP tr).parallel,
        (flatTraces log).start ++ (traceFP tr).start, (flatTraces log).stop ++ (traceFP tr).stop⟩ := by
      unfold flatTraces; rw [List.foldl_append]; rfl
    rw [e]
    refine ⟨g1, fun x => ?_, fun x => ?_, ?_, ?_, ?_, ?_⟩
    · rw [g2, h2, hk]
    · rw [g3 hn, h3, native_append]
    · simp [h4]
    · simp [h5]
    · simp [h6]
    · simp [h7]

theorem flatConfs_spec (cs : List (Conf α)) :
    (flatConfs cs).footprints = cs.flatMap Conf.footprints ∧ (flatConfs cs).start = cs.flatMap Conf.start ∧
    (flatConfs cs).stop = cs.flatMap Conf.stop := by
  induction cs using snocInduct with
  | nil => simp [flatConfs]
  | snoc cs c ih =>
    have e : flatConfs (cs ++ [c]) = ⟨(flatConfs cs).footprints ++ c.footprints, (flatConfs cs).start ++ c.start, (flatConfs cs).stop ++ c.stop⟩ := by
      unfold flatConfs; rw [List.foldl_append]; rfl
    rw [e]; simp [ih]

theorem sane_traces (log : List (List α)) (en : Bool) (m : MFP α) : Sane (flatTraces log) (flatConfs (confTraces en log m)) := by
  obtain ⟨h1, h2, h3, h4, h5, h6, h7⟩ := flatTraces_spec log
  obtain ⟨c1, c2, c3⟩ := flatConfs_spec (confTraces en log m)
  have hrel : ∀ x : α × α, x ∈ Dict.keys (flatTraces log).dfg ↔ x ∈ (flatTraces log).sequence ++ (flatTraces log).parallel := by
    rintro ⟨a, b⟩
    rw [h2, mem_keys_native, List.mem_append, h4, h5, List.mem_flatMap, List.mem_flatMap]
    unfold DF logLang
    constructor
    · rintro ⟨w, hw, hf⟩
      by_cases hb : Follows w b a
      · exact .inr ⟨w, hw, ((C19_trace_footprints w).2.1 a b).2 ⟨hf, hb⟩⟩
      · exact .inl ⟨w, hw, ((C19_trace_footprints w).1 a b).2 ⟨hf, hb⟩⟩
    · rintro (⟨w, hw, hf⟩ | ⟨w, hw, hf⟩)
      · exact ⟨w, hw, (((C19_trace_footprints w).1 a b).1 hf).1⟩
      · exact ⟨w, hw, (((C19_trace_footprints w).2.1 a b).1 hf).1⟩
  refine ⟨h1, fun x hx => by rw [h3]; exact count_native_pos log x ((h2 x).1 hx), hrel, ?_, ?_, ?_⟩
  · intro x hx
    rw [c1, C19_traces, List.flatMap_map, List.mem_flatMap] at hx
    obtain ⟨w, hw, hx⟩ := hx
    simp only [confTrace, mem_diff, List.mem_append] at hx
    rw [hrel, List.mem_append, h4, h5, List.mem_flatMap, List.mem_flatMap]
    rcases hx.1 with h | h
    · exact .inl ⟨w, hw, h⟩
    · exact .inr ⟨w, hw, h⟩
  · intro a ha
    rw [c2, C19_traces, List.flatMap_map, List.mem_flatMap] at ha
    obtain ⟨w, hw, ha⟩ := ha
    simp only [confTrace, mem_diff] at ha
    rw [h6, List.mem_flatMap]; exact ⟨w, hw, ha.1⟩
  · intro a ha
    rw [c3, C19_traces, List.flatMap_map, List.mem_flatMap] at ha
    obtain ⟨w, hw, ha⟩ := ha
    simp only [confTrace, mem_diff] at ha
    rw [h7, List.mem_flatMap]; exact ⟨w, hw, ha.1⟩

end Foot
open Foot
variable {α : Type} [DecidableEq α]

/-- C35: footprints fitness of a log with respect to any model footprints lies between 0 and 1, and it is 1 exactly if no pair,
start or end activity of the log deviates (for logs with at least one directly-follows pair). -/
theorem C35_log_fitness (log : List (List α)) (m : MFP α) :
    0 ≤ fpFitness (flatLog log) (flatConf (confLog (logFP log) m)) ∧
    fpFitness (flatLog log) (flatConf (confLog (logFP log) m)) ≤ 1 ∧
    ((∃ w ∈ log, 2 ≤ w.length) → (fpFitness (flatLog log) (flatConf (confLog (logFP log) m)) = 1 ↔
      (∀ w ∈ log, ∀ a b, Follows w a b → (a, b) ∈ m.sequence ∨ (a, b) ∈ m.parallel) ∧
      (∀ a w, a :: w ∈ log → a ∈ m.start) ∧ ∀ a w, w ++ [a] ∈ log → a ∈ m.stop)) := by
  obtain ⟨h1, h2, h3⟩ := fitness_range (sane_log log m)
  refine ⟨h1, h2, fun hw => ?_⟩
  have hne : (flatLog log).dfg ≠ [] := by
    obtain ⟨w, hw, hl⟩ := hw
    match w, hl with
    | a :: b :: v, _ =>
      intro e
      have := (mem_keys_native log a b).2 ⟨_, hw, [], v, rfl⟩
      rw [show Dfg.native 1 false log = [] from e] at this
      cases this
  rw [h3 hne]
  have g := C19_log_footprints log
  simp only [flatConf, confLog, ← List.isEmpty_iff, diff_isEmpty]
  refine and_congr ?_ (and_congr ?_ ?_)
  · constructor
    · intro h w hw a b hf
      have := h (a, b) (by
        rw [List.mem_append, g.1, g.2.1]
        by_cases hb : ∃ w ∈ log, Follows w b a
        · exact .inr ⟨⟨w, hw, hf⟩, hb⟩
        · exact .inl ⟨⟨w, hw, hf⟩, hb⟩)
      exact List.mem_append.1 this
    · rintro h ⟨a, b⟩ hab
      rw [List.mem_append, g.1, g.2.1] at hab
      obtain ⟨w, hw, hf⟩ : ∃ w ∈ log, Follows w a b := by rcases hab with h | h <;> exact h.1
      exact List.mem_append.2 (h w hw a b hf)
  · constructor
    · intro h a w hw; exact h a ((g.2.2.1 a).2 ⟨w, hw⟩)
    · intro h a ha; obtain ⟨w, hw⟩ := (g.2.2.1 a).1 ha; exact h a w hw
  · constructor
    · intro h a w hw; exact h a ((g.2.2.2.1 a).2 ⟨w, hw⟩)
    · intro h a ha; obtain ⟨w, hw⟩ := (g.2.2.2.1 a).1 ha; exact h a w hw

/-- C35: footprints precision lies between 0 and 1, and it is 1 exactly if every directly-follows pair of the model occurs in the
log. -/
theorem C35_precision (log : List (List α)) (m : FP α) :
    0 ≤ fpPrecision (logFP log).sequence (logFP log).parallel m.sequence m.parallel ∧
    fpPrecision (logFP log).sequence (logFP log).parallel m.sequence m.parallel ≤ 1 ∧
    (fpPrecision (logFP log).sequence (logFP log).parallel m.sequence m.parallel = 1 ↔
      ∀ a b, (a, b) ∈ m.sequence ∨ (a, b) ∈ m.parallel → ∃ w ∈ log, Follows w a b) := by
  have g := C19_log_footprints log
  have hl : ∀ a b, (a, b) ∈ (logFP log).sequence ++ (logFP log).parallel ↔ ∃ w ∈ log, Follows w a b := by
    intro a b; rw [List.mem_append, g.1, g.2.1]; grind
  cases he : (m.sequence ++ m.parallel).isEmpty with
  | true =>
    simp only [List.isEmpty_iff, List.append_eq_nil_iff] at he
    simp [fpPrecision, he.1, he.2]
  | false =>
    have hdef : fpPrecision (logFP log).sequence (logFP log).parallel m.sequence m.parallel =
        (card (((logFP log).sequence ++ (logFP log).parallel).filter fun x => decide (x ∈ m.sequence ++ m.parallel)) : Rat) /
          card (m.sequence ++ m.parallel) := by
      unfold fpPrecision; exact if_neg (by rw [he]; exact Bool.false_ne_true)
    rw [hdef]
    have hle := card_le (l1 := ((logFP log).sequence ++ (logFP log).parallel).filter fun x => decide (x ∈ m.sequence ++ m.parallel))
      (l2 := m.sequence ++ m.parallel) (by intro x hx; simpa using (List.mem_filter.1 hx).2)
    have hpos : 0 < card (m.sequence ++ m.parallel) := by
      rcases Nat.eq_zero_or_pos (card (m.sequence ++ m.parallel)) with h0 | h0
      · rw [card_eq_zero] at h0; simp [h0] at he
      · exact h0
    have hposq : (0 : Rat) < card (m.sequence ++ m.parallel) := by exact_mod_cast hpos
    refine ⟨div_nonneg (by exact_mod_cast Nat.zero_le _) hposq.le, (div_le_one hposq).2 (by exact_mod_cast hle), ?_⟩
    rw [div_eq_one_iff_eq hposq.ne']
    constructor
    · intro h a b hab
      have h : card (((logFP log).sequence ++ (logFP log).parallel).filter fun x => decide (x ∈ m.sequence ++ m.parallel)) =
        card (m.sequence ++ m.parallel) := by exact_mod_cast h
      by_cases hc : ∃ w ∈ log, Follows w a b
      · exact hc
      · exfalso
        have := card_lt (l1 := ((logFP log).sequence ++ (logFP log).parallel).filter fun x => decide (x ∈ m.sequence ++ m.parallel))
          (l2 := m.sequence ++ m.parallel) (by intro x hx; simpa using (List.mem_filter.1 hx).2) (y := (a, b)) (List.mem_append.2 hab)
          (by rw [List.mem_filter, hl]; exact fun h => hc h.1)
        omega
    · intro h
      have hge := card_le (l1 := m.sequence ++ m.parallel) (l2 := ((logFP log).sequence ++ (logFP log).parallel).filter fun x => decide (x ∈ m.sequence ++ m.parallel))
        (by
          rintro ⟨a, b⟩ hx
          rw [List.mem_filter, hl]
          exact ⟨h a b (List.mem_append.1 hx), by simpa using hx⟩)
      exact_mod_cast Nat.le_antisymm hle hge

/-- C35: fitness computed from trace-by-trace footprints lies between 0 and 1; it is 1 exactly if no trace has a deviating pair,
start or end activity (for logs with at least one directly-follows pair). -/
theorem C35_trace_fitness (log : List (List α)) (en : Bool) (m : MFP α) :
    0 ≤ fpFitness (flatTraces log) (flatConfs (confTraces en log m)) ∧
    fpFitness (flatTraces log) (flatConfs (confTraces en log m)) ≤ 1 ∧
    ((∃ w ∈ log, 2 ≤ w.length) → (fpFitness (flatTraces log) (flatConfs (confTraces en log m)) = 1 ↔
      ∀ c ∈ confTraces en log m, c.footprints = [] ∧ c.start = [] ∧ c.stop = [])) := by
  obtain ⟨h1, h2, h3⟩ := fitness_range (sane_traces log en m)
  refine ⟨h1, h2, fun hw => ?_⟩
  have hne : (flatTraces log).dfg ≠ [] := by
    obtain ⟨w, hw, hl⟩ := hw
    match w, hl with
    | a :: b :: v, _ =>
      intro e
      have := ((flatTraces_spec log).2.1 (a, b)).2 ((mem_keys_native log a b).2 ⟨_, hw, [], v, rfl⟩)
      rw [e] at this
      cases this
  obtain ⟨c1, c2, c3⟩ := flatConfs_spec (confTraces en log m)
  rw [h3 hne, c1, c2, c3]
  simp only [List.flatMap_eq_nil_iff]
  exact ⟨fun h c hc => ⟨h.1 c hc, h.2.1 c hc, h.2.2 c hc⟩, fun h => ⟨fun c hc => (h c hc).1, fun c hc => (h c hc).2.1, fun c hc => (h c hc).2.2⟩⟩

/-- C35: the percentage of fitting traces lies between 0 and 100, and is 100 exactly if all traces fit; it is undefined (division by
zero) exactly for an empty list. -/
theorem C35_perc_fit (cs : List (Conf α)) :
    (percFit cs = none ↔ cs = []) ∧
    ∀ r, percFit cs = some r → 0 ≤ r ∧ r ≤ 100 ∧ (r = 100 ↔ ∀ c ∈ cs, c.isFit = true) := by
  unfold percFit
  constructor
  · cases cs <;> simp
  · intro r hr
    split at hr
    · cases hr
    · rename_i hne
      have hpos : (0 : Rat) < cs.length := by exact_mod_cast Nat.pos_of_ne_zero hne
      have hle : ((cs.filter Conf.isFit).length : Rat) ≤ cs.length := by exact_mod_cast List.length_filter_le _ _
      have h0 : (0 : Rat) ≤ (cs.filter Conf.isFit).length := by exact_mod_cast Nat.zero_le _
      have hr := Option.some.inj hr
      have d1 : ((cs.filter Conf.isFit).length : Rat) / cs.length ≤ 1 := (div_le_one hpos).2 hle
      have d0 : 0 ≤ ((cs.filter Conf.isFit).length : Rat) / cs.length := div_nonneg h0 hpos.le
      refine ⟨by rw [← hr]; linarith, by rw [← hr]; linarith, ?_⟩
      have : r = 100 ↔ ((cs.filter Conf.isFit).length : Rat) / cs.length = 1 := by
        rw [← hr]; constructor <;> intro h <;> linarith
      rw [this, div_eq_one_iff_eq hpos.ne']
      constructor
      · intro h
        have h : (cs.filter Conf.isFit).length = cs.length := by exact_mod_cast h
        exact List.length_filter_eq_length_iff.1 h
      · intro h
        have := List.length_filter_eq_length_iff.2 h
        exact_mod_cast this

/-- C35: the fitness of a non-empty log is 1 for the footprints of every (OR-free, interleaving-free, binary-loop) tree that
accepts all its traces, in both variants. -/
theorem C35_accepted (t : PT α) (ht : Foot.Plain t) (log : List (List α)) (h : ∀ w ∈ log, t.lang w) :
    ∃ m, treeFP t = some m ∧ fpFitness (flatTraces log) (flatConfs (confTraces true log m)) = 1 ∧
      (log ≠ [] → fpFitness (flatLog log) (flatConf (confLog (logFP log) m)) = 1) := by
  obtain ⟨m, hm, hc⟩ := C19_accepted_fits t ht log h
  refine ⟨m, hm, ?_, ?_⟩
  · by_cases hw : ∃ w ∈ log, 2 ≤ w.length
    · rw [(C35_trace_fitness log true m).2.2 hw]
      intro c hcm
      have hf := hc c hcm
      rw [C19_traces, List.mem_map] at hcm
      obtain ⟨w, _, rfl⟩ := hcm
      simp only [confTrace, Bool.and_eq_true, List.isEmpty_iff] at hf ⊢
      exact ⟨hf.1.1.1.1, hf.1.1.1.2, hf.1.1.2⟩
    · have : (flatTraces log).dfg = [] := by
        have hk : Dict.keys (flatTraces log).dfg = [] := by
          rw [List.eq_nil_iff_forall_not_mem]
          rintro ⟨a, b⟩ hx
          rw [(flatTraces_spec log).2.1, mem_keys_native] at hx
          obtain ⟨w, hw', u, v, e⟩ := hx
          exact hw ⟨w, hw', by rw [e]; simp only [List.length_append, List.length_cons]; omega⟩
        simpa [Dict.keys] using hk
      simp [fpFitness, this]
  · intro hne
    obtain ⟨m', hm', hfit⟩ := C19_log_fits t ht log hne h
    rw [hm, Option.some.injEq] at hm'; subst hm'
    by_cases hw : ∃ w ∈ log, 2 ≤ w.length
    · have hs := (fitness_range (sane_log log m)).2.2
      have hdfg : (flatLog log).dfg ≠ [] := by
        obtain ⟨w, hw, hl⟩ := hw
        match w, hl with
        | a :: b :: v, _ =>
          intro e
          have := (mem_keys_native log a b).2 ⟨_, hw, [], v, rfl⟩
          rw [show Dfg.native 1 false log = [] from e] at this
          cases this
      rw [hs hdfg]
      simp only [confLog, Bool.and_eq_true, List.isEmpty_iff, flatConf] at hfit ⊢
      exact ⟨hfit.1.1.1, hfit.1.1.2, hfit.1.2⟩
    · have : (flatLog log).dfg = [] := by
        have hk : Dict.keys (flatLog log).dfg = [] := by
          rw [List.eq_nil_iff_forall_not_mem]
          rintro ⟨a, b⟩ hx
          rw [show (flatLog log).dfg = Dfg.native 1 false log from rfl, mem_keys_native] at hx
          obtain ⟨w, hw', u, v, e⟩ := hx
          exact hw ⟨w, hw', by rw [e]; simp only [List.length_append, List.length_cons]; omega⟩
        simpa [Dict.keys] using hk
      simp [fpFitness, this]

/-- A log without directly-follows pairs gets fitness 1 whatever its activities are: `⟨2⟩` against the tree that only accepts `⟨1⟩`
(evaluation.py:96-98). -/
theorem C35_empty_dfg_refuted : ∃ (t : PT Nat) (m : MFP Nat), Foot.Plain t ∧ treeFP t = some m ∧
    (confLog (logFP [[2]]) m).start = [2] ∧ fpFitness (flatLog [[2]]) (flatConf (confLog (logFP [[2]]) m)) = 1 :=
  ⟨.leaf (some 1), _, .leaf _, rfl, by decide, by rfl⟩

/-- non-trivial values -/
example : fpFitness (flatLog [[1, 2], [1, 2], [2, 1, 3]]) (flatConf (confLog (logFP [[1, 2], [1, 2], [2, 1, 3]])
    ⟨⟨[1], [2], [1, 2], false, [(1, 2)], [], [1, 2]⟩, 2⟩)) = 7 / 14 := by
  decide +kernel

end Verif
