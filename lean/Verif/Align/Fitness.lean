import Verif.Align.AStarTheorems
import Verif.Align.LessMemoryTheorems
import Verif.Replay.Model
import Mathlib.Tactic.FieldSimp
import Mathlib.Algebra.Order.Field.Basic
/-
C39: alignment-based fitness, /repo/pm4py/algo/conformance/alignments/petri_net/algorithm.py (`AL`) and
/repo/pm4py/algo/evaluation/replay_fitness/variants/alignment_based.py (`AB`).

Floats are exact rationals.  The progress bar, the process pool and time limits are not modelled.
-/
set_option linter.unusedSectionVars false
namespace Verif
open Dict
namespace Align

/-! ### Model -/

/-- what `apply_trace` adds to an alignment: keys `cost`, `fitness`, `bwc` -/
structure AliFit where
  cost : Int
  fitness : Rat
  bwc : Int
  deriving DecidableEq

/-- `apply_trace` (AL:140-167) after the search: `cost` of the alignment (`None` if there is none), the best worst cost, and
the trace cost function found in the parameters.  Without a best worst cost there is no key `fitness`; this is `none` here. -/
def traceFitness (traceCosts : List Int) (cost bwc : Option Int) : Option AliFit :=
  match cost, bwc with
  | some cost, some bwc =>
    let ltrace := traceCosts.sum + bwc
    let num := Int.fdiv cost 10000
    let den := Int.fdiv ltrace 10000
    some ⟨cost, if den > 0 then 1 - (num : Rat) / (den : Rat) else 0, ltrace⟩
  | _, _ => none

/-- the trace cost function found in the parameters after the search (AL:147): all variants but `dijkstra_less_memory`
store their default there (AS:144, dijkstra_no_heuristics.py:120); `dijkstra_less_memory` does not
(dijkstra_less_memory.py:299-302), so that the default `[]` is used. -/
def storedCosts (lessMemory : Bool) (n : Nat) : List Int := if lessMemory then [] else List.replicate n 10000

/-- `__form_alignments` (AL:358-368) for the variants of `__get_variants_structure` (AL:312-345): `al_idx` is a dictionary
from positions to results. -/
def formAlignments {A R : Type} [DecidableEq A] (variantsIdxs : Dict (List A) (List Nat)) (all : List R) : List (Option R) :=
  let alIdx : Dict Nat (Option R) := variantsIdxs.zipIdx.foldl (fun d v => v.1.2.foldl (fun d i => Dict.set d i all[v.2]?) d) []
  (List.range alIdx.length).map fun i => (Dict.get? alIdx i).getD none

/-- `apply_log` (AL:170-232); `Replay.variants` is the same dictionary as `variants_idxs`, and `one_tr_per_var` are its keys;
`align` is `apply_trace`. -/
def alignLog {A R : Type} [DecidableEq A] (align : List A → R) (log : List (List A)) : List (Option R) :=
  let v := Replay.variants log
  formAlignments v ((keys v).map align)

/-- `evaluate` (AB:36-84): percentage of fitting traces, average fitness, log fitness.  Traces without an alignment are
skipped. -/
def evaluateAlign (rs : List (Option AliFit)) : Rat × Rat × Rat :=
  let r := rs.filterMap id
  if r.length > 0 then
    let sumBwc := (r.map (·.bwc)).sum
    let sumCost := (r.map (·.cost)).sum
    (100 * ((r.filter fun x => decide (x.fitness = 1)).length : Rat) / (r.length : Rat),
     (r.map (·.fitness)).sum / (r.length : Rat),
     1 - (if sumBwc > 0 then (sumCost : Rat) / (sumBwc : Rat) else 0))
  else (0, 0, 0)

/-! ### Specification -/

section
variable {P T A : Type} [DecidableEq P] [DecidableEq T] [DecidableEq A]

/-- `g` is the least cost of an alignment -/
def OptimalCost (tr : List A) (net : LNet P T A) (im fm : Marking P) (cost : Move Nat T → Int) (g : Int) : Prop :=
  (∃ s, IsAlignment tr net im fm s ∧ g = (s.map cost).sum) ∧ ∀ s, IsAlignment tr net im fm s → g ≤ (s.map cost).sum

/-- the number of silent transitions of a run -/
def silentSteps (net : LNet P T A) (ts : List T) : Nat := (ts.filter fun t => (net.label t).isNone).length

/-- the trace is one of the net: it is the sequence of labels of a complete run -/
def Fits (net : LNet P T A) (im fm : Marking P) (tr : List A) (ts : List T) : Prop :=
  CompleteRun net.toNet im fm ts ∧ ts.filterMap net.label = tr

/-! ### Proofs -/

theorem empty_alignment (net : LNet P T A) (im fm : Marking P) (s : List (Move Nat T))
    (h : IsAlignment ([] : List A) net im fm s) : ∃ ts, s = ts.map Move.right ∧ CompleteRun net.toNet im fm ts := by
  have h1 := h.events
  have : ∀ s : List (Move Nat T), s.filterMap Move.fst? = [] → s = (s.filterMap Move.snd?).map Move.right := by
    intro s
    induction s with
    | nil => simp
    | cons mv s ih =>
      intro hs
      cases mv with
      | left i => simp [Move.fst?] at hs
      | sync i t => simp [Move.fst?] at hs
      | right t =>
        have := ih (by simpa [Move.fst?] using hs)
        simp only [List.filterMap_cons, Move.snd?, List.map_cons, ← this]
  exact ⟨_, this s (by simpa using h1), h.run⟩

theorem worst_alignment (tr : List A) (net : LNet P T A) (im fm : Marking P) (ts : List T)
    (h : CompleteRun net.toNet im fm ts) :
    IsAlignment tr net im fm ((List.range tr.length).map Move.left ++ ts.map Move.right) := by
  refine ⟨?_, ?_, ?_⟩
  · simp [List.filterMap_append, List.filterMap_map, Function.comp_def, Move.fst?]
  · have : (List.range tr.length).filterMap (fun _ => (none : Option T)) = [] := by simp [List.filterMap_eq_nil_iff]
    simpa [List.filterMap_append, List.filterMap_map, Function.comp_def, Move.snd?, this] using h
  · intro i t hit; simp at hit

/-- the cost of an optimal alignment is at most the trace costs plus the best worst cost -/
theorem cost_le_worst (tr : List A) (net : LNet P T A) (im fm : Marking P) (lc : Nat → Int) (mc : T → Int)
    (sc : Nat → T → Int) (g b : Int) (hg : OptimalCost tr net im fm (productCost lc mc sc) g)
    (hb : OptimalCost ([] : List A) net im fm (productCost lc mc sc) b) :
    g ≤ ((List.range tr.length).map lc).sum + b := by
  obtain ⟨⟨s, hs, rfl⟩, _⟩ := hb
  obtain ⟨ts, rfl, hts⟩ := empty_alignment net im fm s hs
  have h := hg.2 _ (worst_alignment tr net im fm ts hts)
  rw [List.map_append, List.sum_append, List.map_map] at h
  exact h

theorem fdiv_mono {a b : Int} (h : a ≤ b) : Int.fdiv a 10000 ≤ Int.fdiv b 10000 := by
  rw [Int.fdiv_eq_ediv_of_nonneg _ (by decide), Int.fdiv_eq_ediv_of_nonneg _ (by decide)]
  omega

theorem fdiv_nonneg' {a : Int} (h : 0 ≤ a) : 0 ≤ Int.fdiv a 10000 := by
  rw [Int.fdiv_eq_ediv_of_nonneg _ (by decide)]
  omega

theorem range_of_le (tc : List Int) (g b : Int) (h0 : 0 ≤ g) (hle : g ≤ tc.sum + b) (r : AliFit)
    (h : traceFitness tc (some g) (some b) = some r) :
    0 ≤ r.fitness ∧ r.fitness ≤ 1 ∧ 0 ≤ r.cost ∧ r.cost ≤ r.bwc := by
  simp only [traceFitness, Option.some.injEq] at h
  subst h
  refine ⟨?_, ?_, h0, hle⟩
  · simp only
    split
    · rename_i hd
      have h1 := fdiv_mono hle
      have h2 : (0 : Rat) < (Int.fdiv (tc.sum + b) 10000 : Int) := by exact_mod_cast hd
      have h3 : ((Int.fdiv g 10000 : Int) : Rat) ≤ (Int.fdiv (tc.sum + b) 10000 : Int) := by exact_mod_cast h1
      have : ((Int.fdiv g 10000 : Int) : Rat) / (Int.fdiv (tc.sum + b) 10000 : Int) ≤ 1 := by
        rw [div_le_iff₀ h2]; linarith
      linarith
    · exact le_refl _
  · simp only
    split
    · rename_i hd
      have h2 : (0 : Rat) < (Int.fdiv (tc.sum + b) 10000 : Int) := by exact_mod_cast hd
      have h3 : (0 : Rat) ≤ (Int.fdiv g 10000 : Int) := by exact_mod_cast fdiv_nonneg' h0
      have := div_nonneg h3 h2.le
      linarith
    · norm_num

theorem one_iff_num (tc : List Int) (g b : Int) (h0 : 0 ≤ g) (hd : 10000 ≤ tc.sum + b) (r : AliFit)
    (h : traceFitness tc (some g) (some b) = some r) : r.fitness = 1 ↔ g < 10000 := by
  simp only [traceFitness, Option.some.injEq] at h
  subst h
  simp only
  have hden : 0 < Int.fdiv (tc.sum + b) 10000 := by
    rw [Int.fdiv_eq_ediv_of_nonneg _ (by decide)]; omega
  rw [if_pos hden]
  have h2 : ((Int.fdiv (tc.sum + b) 10000 : Int) : Rat) ≠ 0 := by
    have : (0 : Rat) < (Int.fdiv (tc.sum + b) 10000 : Int) := by exact_mod_cast hden
    exact this.ne'
  have e1 : (1 - ((Int.fdiv g 10000 : Int) : Rat) / ((Int.fdiv (tc.sum + b) 10000 : Int) : Rat) = 1) ↔ Int.fdiv g 10000 = 0 := by
    constructor
    · intro h
      have : ((Int.fdiv g 10000 : Int) : Rat) / ((Int.fdiv (tc.sum + b) 10000 : Int) : Rat) = 0 := by linarith
      rcases div_eq_zero_iff.1 this with h | h
      · exact_mod_cast h
      · exact absurd h h2
    · intro h; rw [h]; simp
  rw [e1, Int.fdiv_eq_ediv_of_nonneg _ (by decide)]
  omega

theorem defaultCost_nonneg (net : LNet P T A) (mv : Move Nat T) : 0 ≤ defaultCost net mv := by
  cases mv with
  | left => simp [defaultCost, productCost]
  | right t => simp only [defaultCost, productCost]; split <;> omega
  | sync => simp [defaultCost, productCost]

theorem sum_ge_of_mem (l : List (Move Nat T)) (c : Move Nat T → Int) (hc : ∀ m, 0 ≤ c m) (m : Move Nat T) (h : m ∈ l) :
    c m ≤ (l.map c).sum := by
  induction l with
  | nil => simp at h
  | cons a l ih =>
    have h0 : 0 ≤ (l.map c).sum := by
      clear ih h
      induction l with
      | nil => simp
      | cons b l ih => simp only [List.map_cons, List.sum_cons]; have := hc b; omega
    simp only [List.map_cons, List.sum_cons]
    rcases List.mem_cons.1 h with rfl | h
    · omega
    · have := ih h; have := hc a; omega

theorem filterMap_range {X : Type} (l : List X) : (List.range l.length).filterMap (fun i => l[i]?) = l := by
  induction l with
  | nil => simp
  | cons a l ih =>
    rw [List.length_cons, List.range_succ_eq_map, List.filterMap_cons_some (b := a) (by simp), List.filterMap_map]
    simpa [Function.comp_def] using ih

/-- an alignment of cost below 10000 has no deviation: its run has the labels of the trace, its cost counts the silent
steps -/
theorem cheap_alignment (tr : List A) (net : LNet P T A) (im fm : Marking P) (s : List (Move Nat T))
    (hs : IsAlignment tr net im fm s) (hc : (s.map (defaultCost net)).sum < 10000) :
    (s.filterMap Move.snd?).filterMap net.label = tr ∧
    (s.map (defaultCost net)).sum = silentSteps net (s.filterMap Move.snd?) := by
  have hno : ∀ mv ∈ s, (∃ i t, mv = .sync i t) ∨ ∃ t, mv = .right t ∧ net.label t = none := by
    intro mv hmv
    have := lt_of_le_of_lt (sum_ge_of_mem s _ (defaultCost_nonneg net) mv hmv) hc
    clear hc
    cases mv with
    | left i => simp [defaultCost, productCost] at this
    | sync i t => exact .inl ⟨i, t, rfl⟩
    | right t =>
      refine .inr ⟨t, rfl, ?_⟩
      simp only [defaultCost, productCost] at this
      split at this
      · rename_i h; simpa using h
      · omega
  have key : ∀ s : List (Move Nat T), (∀ mv ∈ s, (∃ i t, mv = .sync i t) ∨ ∃ t, mv = .right t ∧ net.label t = none) →
      (∀ i t, Move.sync i t ∈ s → ∃ a, tr[i]? = some a ∧ net.label t = some a) →
      (s.filterMap Move.snd?).filterMap net.label = (s.filterMap Move.fst?).filterMap (fun i => tr[i]?) ∧
      (s.map (defaultCost net)).sum = silentSteps net (s.filterMap Move.snd?) := by
    intro s
    induction s with
    | nil => simp [silentSteps]
    | cons mv s ih =>
      intro h1 h2
      obtain ⟨ih1, ih2⟩ := ih (fun m hm => h1 m (List.mem_cons_of_mem _ hm)) fun i t h => h2 i t (List.mem_cons_of_mem _ h)
      rcases h1 mv List.mem_cons_self with ⟨i, t, rfl⟩ | ⟨t, rfl, ht⟩
      · obtain ⟨a, e1, e2⟩ := h2 i t List.mem_cons_self
        simp only [List.filterMap_cons, Move.snd?, Move.fst?, e1, e2, ih1, List.map_cons, List.sum_cons, ih2, true_and]
        simp [defaultCost, productCost, silentSteps, e2]
      · simp only [List.filterMap_cons, Move.snd?, Move.fst?, ht, ih1, List.map_cons, List.sum_cons, ih2, true_and]
        simp [defaultCost, productCost, silentSteps, ht]; omega
  obtain ⟨k1, k2⟩ := key s hno hs.sync
  refine ⟨?_, k2⟩
  rw [k1, hs.events]
  exact filterMap_range tr

/-- a run with the labels of the trace is an alignment of cost its number of silent steps -/
theorem fitting_alignment (tr : List A) (net : LNet P T A) (im fm : Marking P) (ts : List T) (h : Fits net im fm tr ts) :
    ∃ s, IsAlignment tr net im fm s ∧ (s.map (defaultCost net)).sum = silentSteps net ts := by
  obtain ⟨hrun, hl⟩ := h
  have key : ∀ (ts : List T) (k : Nat), ts.filterMap net.label = tr.drop k → k ≤ tr.length →
      ∃ s : List (Move Nat T), s.filterMap Move.fst? = List.range' k (tr.length - k) ∧ s.filterMap Move.snd? = ts ∧
        (∀ i t, Move.sync i t ∈ s → ∃ a, tr[i]? = some a ∧ net.label t = some a) ∧
        (s.map (defaultCost net)).sum = silentSteps net ts := by
    intro ts
    induction ts with
    | nil =>
      intro k h hk
      refine ⟨[], ?_, rfl, by simp, rfl⟩
      have : tr.length - k = 0 := by
        have := congrArg List.length h
        simp at this; omega
      rw [this]; rfl
    | cons t ts ih =>
      intro k h hk
      cases hlab : net.label t with
      | none =>
        rw [List.filterMap_cons_none hlab] at h
        obtain ⟨s, h1, h2, h3, h4⟩ := ih k h hk
        refine ⟨.right t :: s, by rw [List.filterMap_cons_none rfl]; exact h1, by simp [Move.snd?, h2], ?_, ?_⟩
        · intro i u hu
          simp only [List.mem_cons, reduceCtorEq, false_or] at hu
          exact h3 i u hu
        · simp only [List.map_cons, List.sum_cons, h4]
          simp [defaultCost, productCost, silentSteps, hlab]; omega
      | some a =>
        rw [List.filterMap_cons_some hlab] at h
        have hlt : k < tr.length := by
          have := congrArg List.length h
          simp at this; omega
        rw [List.drop_eq_getElem_cons hlt] at h
        obtain ⟨e1, e2⟩ := List.cons.inj h
        obtain ⟨s, h1, h2, h3, h4⟩ := ih (k + 1) e2 hlt
        refine ⟨.sync k t :: s, ?_, by simp [Move.snd?, h2], ?_, ?_⟩
        · simp only [List.filterMap_cons, Move.fst?, h1]
          rw [show tr.length - k = (tr.length - (k + 1)) + 1 by omega, List.range'_succ]
        · intro i u hu
          rcases List.mem_cons.1 hu with e | hu
          · obtain ⟨rfl, rfl⟩ := Move.sync.inj e
            exact ⟨a, by rw [List.getElem?_eq_getElem hlt, e1], hlab⟩
          · exact h3 i u hu
        · simp only [List.map_cons, List.sum_cons, h4]
          simp [defaultCost, productCost, silentSteps, hlab]
  obtain ⟨s, h1, h2, h3, h4⟩ := key ts 0 (by simpa using hl) (Nat.zero_le _)
  exact ⟨s, ⟨by rw [h1, List.range_eq_range']; simp, by rw [h2]; exact hrun, h3⟩, h4⟩
end
end Align
end Verif
