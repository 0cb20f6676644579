import Verif.Align.FitnessTheorems
/-
C39: instances of the hypotheses, and what does not hold.
-/
set_option linter.unusedSectionVars false
namespace Verif
open Dict Align

/-! ### A fitting trace with many silent steps -/

/-- `n` silent steps, then `a` -/
def exChain (n : Nat) : LNet Nat Nat String where
  places := List.range (n + 2)
  transitions := List.range (n + 1)
  inArcs i := [(i, 1)]
  outArcs i := [(i + 1, 1)]
  label t := if t < n then none else some "a"

theorem exChain_run (n : Nat) (ts : List Nat) :
    CompleteRun (exChain n).toNet [(0, 1)] [(n + 1, 1)] ts ↔ ts = List.range (n + 1) := by
  have h := completeRun_iff (traceNet (List.replicate (n + 1) "a")).toNet (traceNet_simple _) ts [(0, 1)] [(n + 1, 1)] (pos_single 0)
  have h2 := crun_trace_complete (List.replicate (n + 1) "a") ts
  have e : (traceNet (List.replicate (n + 1) "a")).toNet = (exChain n).toNet := by
    simp [traceNet, exChain]
  rw [← e, h]
  have e2 : traceFm (List.replicate (n + 1) "a") = [(n + 1, 1)] := by simp [traceFm]
  rw [e2] at h2
  simpa [traceIm] using h2

theorem exChain_silent (n : Nat) : silentSteps (exChain n) (List.range (n + 1)) = n := by
  unfold silentSteps
  rw [List.range_succ, List.filter_append]
  have : (List.range n).filter (fun t => ((exChain n).label t).isNone) = List.range n := by
    apply List.filter_eq_self.2
    intro t ht
    simp [exChain, List.mem_range.1 ht]
  rw [this]
  simp [exChain]

theorem exChain_fits (n : Nat) : Fits (exChain n) [(0, 1)] [(n + 1, 1)] ["a"] (List.range (n + 1)) := by
  refine ⟨(exChain_run n _).2 rfl, ?_⟩
  rw [List.range_succ, List.filterMap_append]
  have : (List.range n).filterMap (exChain n).label = [] := by
    rw [List.filterMap_eq_nil_iff]
    intro t ht
    simp [exChain, List.mem_range.1 ht]
  rw [this]
  simp [exChain]

/-- an alignment costs at least its silent steps -/
theorem silent_le_cost {A P T : Type} [DecidableEq P] [DecidableEq T] (tr : List A) (net : LNet P T A) (im fm : Marking P)
    (s : List (Move Nat T)) (h : IsAlignment tr net im fm s) :
    (silentSteps net (s.filterMap Move.snd?) : Int) ≤ (s.map (defaultCost net)).sum := by
  have key : ∀ s : List (Move Nat T), (∀ i t, Move.sync i t ∈ s → ∃ a, tr[i]? = some a ∧ net.label t = some a) →
      (silentSteps net (s.filterMap Move.snd?) : Int) ≤ (s.map (defaultCost net)).sum := by
    intro s
    induction s with
    | nil => simp [silentSteps]
    | cons mv s ih =>
      intro h
      have ih := ih fun i t hi => h i t (List.mem_cons_of_mem _ hi)
      simp only [List.map_cons, List.sum_cons]
      cases mv with
      | left i =>
        rw [List.filterMap_cons_none (f := Move.snd?) rfl]
        simp [defaultCost, productCost] at ih ⊢; omega
      | right t =>
        rw [List.filterMap_cons_some (f := Move.snd?) (b := t) rfl]
        have e : (silentSteps net (t :: s.filterMap Move.snd?) : Int) =
            (if (net.label t).isNone then 1 else 0) + silentSteps net (s.filterMap Move.snd?) := by
          unfold silentSteps
          rw [List.filter_cons]
          split
          · simp; omega
          · simp
        rw [e]
        have : defaultCost net (.right t) = if (net.label t).isNone then 1 else 10000 := rfl
        rw [this]
        split <;> omega
      | sync i t =>
        obtain ⟨a, _, h2⟩ := h i t List.mem_cons_self
        rw [List.filterMap_cons_some (f := Move.snd?) (b := t) rfl]
        have e : silentSteps net (t :: s.filterMap Move.snd?) = silentSteps net (s.filterMap Move.snd?) := by
          simp [silentSteps, h2]
        have : defaultCost net (.sync i t) = 0 := rfl
        rw [e, this]; omega
  exact key s h.sync

theorem exChain_optimal (n : Nat) : OptimalCost ["a"] (exChain n) [(0, 1)] [(n + 1, 1)] (defaultCost (exChain n)) n := by
  constructor
  · obtain ⟨s, h1, h2⟩ := fitting_alignment ["a"] (exChain n) _ _ _ (exChain_fits n)
    rw [exChain_silent] at h2
    exact ⟨s, h1, h2.symm⟩
  · intro s hs
    have h := silent_le_cost _ _ _ _ s hs
    have hr := (exChain_run n _).1 hs.run
    rw [hr, exChain_silent] at h
    exact h

theorem exChain_worst (n : Nat) :
    OptimalCost ([] : List String) (exChain n) [(0, 1)] [(n + 1, 1)] (defaultCost (exChain n)) (n + 10000) := by
  have hsum : (((List.range (n + 1)).map (Move.right (T1 := Nat))).map (defaultCost (exChain n))).sum = (n : Int) + 10000 := by
    rw [List.range_succ, List.map_append, List.map_append, List.sum_append, List.map_map]
    have : (List.range n).map (defaultCost (exChain n) ∘ Move.right) = (List.range n).map fun _ => (1 : Int) := by
      apply List.map_congr_left
      intro t ht
      simp [defaultCost, productCost, exChain, List.mem_range.1 ht]
    rw [this]
    simp [defaultCost, productCost, exChain]
  constructor
  · refine ⟨_, worst_alignment [] (exChain n) _ _ _ ((exChain_run n _).2 rfl), ?_⟩
    simpa using hsum.symm
  · intro s hs
    obtain ⟨ts, rfl, hts⟩ := empty_alignment _ _ _ s hs
    rw [(exChain_run n ts).1 hts, hsum]

/-- C39 (refuted): a fitting trace has fitness 1.  10000 silent steps cost as much as a deviation. -/
theorem C39_silent_refuted : ∃ (net : LNet Nat Nat String) (im fm : Marking Nat) (g b : Int) (ts : List Nat) (r : AliFit),
    Fits net im fm ["a"] ts ∧ OptimalCost ["a"] net im fm (defaultCost net) g ∧
    OptimalCost ([] : List String) net im fm (defaultCost net) b ∧
    traceFitness (storedCosts false 1) (some g) (some b) = some r ∧ r.fitness = 2 / 3 := by
  refine ⟨exChain 10000, [(0, 1)], [(10000 + 1, 1)], (10000 : Nat), (10000 : Nat) + 10000, _, ⟨10000, 2 / 3, 30000⟩,
    exChain_fits 10000, exChain_optimal 10000, exChain_worst 10000, ?_, rfl⟩
  decide +kernel

/-- the hypotheses of `C39_fitness_one_iff` -/
example : ∃ r, traceFitness (storedCosts false 1) (some 2) (some 10002) = some r ∧ r.fitness = 1 ∧
    OptimalCost ["a"] (exChain 2) [(0, 1)] [(2 + 1, 1)] (defaultCost (exChain 2)) 2 ∧
    OptimalCost ([] : List String) (exChain 2) [(0, 1)] [(2 + 1, 1)] (defaultCost (exChain 2)) 10002 :=
  ⟨⟨2, 1, 20002⟩, by decide +kernel, rfl, exChain_optimal 2, exChain_worst 2⟩

/-- C39 (refuted): a fitting trace has fitness 1, for the empty trace: the denominator is 0 and the fitness 0, although the
net accepts the empty trace. -/
theorem C39_empty_trace_refuted : ∃ (net : LNet Nat Nat String) (im fm : Marking Nat) (g : Int) (ts : List Nat) (r : AliFit),
    Fits net im fm [] ts ∧ OptimalCost ([] : List String) net im fm (defaultCost net) g ∧
    traceFitness (storedCosts false 0) (some g) (some g) = some r ∧ r.fitness = 0 := by
  refine ⟨exAlign, [(1, 1)], [(2, 1)], 1, [1], ⟨1, 0, 1⟩, ⟨⟨[(2, 1)], by decide, fun _ => rfl⟩, rfl⟩, ?_, by decide +kernel, rfl⟩
  constructor
  · refine ⟨_, worst_alignment [] exAlign _ _ [1] ⟨[(2, 1)], by decide, fun _ => rfl⟩, by decide⟩
  · intro s hs
    obtain ⟨ts, rfl, m, hm, he⟩ := empty_alignment _ _ _ s hs
    cases ts with
    | nil =>
      simp at hm; subst hm
      have := he 1; revert this; decide
    | cons t ts =>
      have := sum_ge_of_mem ((t :: ts).map Move.right) (defaultCost exAlign) (defaultCost_nonneg _) (.right t) (by simp)
      refine le_trans ?_ this
      simp only [defaultCost, productCost]
      split <;> omega

/-- C39 (refuted): the fitness lies between 0 and 1 with `dijkstra_less_memory`, which does not store the costs of the trace:
aligning `⟨b⟩` with the sequence `a`, `c`, `a` gives −1/3. -/
theorem C39_less_memory_range_refuted : ∃ (g b : Int) (r : AliFit),
    (LM.search (LM.defaultCfg exSeq ["b"]) [(0, 1)] [(3, 1)] (fun _ => LM.popMin) 12).result.map Prod.fst = some g ∧
    (LM.search (LM.defaultCfg exSeq []) [(0, 1)] [(3, 1)] (fun _ => LM.popMin) 12).result.map Prod.fst = some b ∧
    traceFitness (storedCosts true 1) (some g) (some b) = some r ∧ r.fitness = -1 / 3 := by
  refine ⟨40000, 30000, ⟨40000, -1/3, 30000⟩, by decide, by decide, by decide +kernel, by norm_num⟩

/-- C39 (refuted): the log fitness of a log of fitting traces is 1.  Silent steps count in the costs: `⟨a⟩` fits `exAlign`
with one silent step. -/
theorem C39_log_fitness_refuted : ∃ (r : AliFit),
    Fits exAlign [(0, 1)] [(2, 1)] ["a"] [0, 1] ∧
    (alignTrace ["a"] exAlign [(0, 1)] [(2, 1)] (defaultCost exAlign) (exSched _ _) 8).result.map Prod.fst = some 1 ∧
    (alignTrace [] exAlign [(0, 1)] [(2, 1)] (defaultCost exAlign) (exSched _ _) 8).result.map Prod.fst = some 10000 ∧
    traceFitness (storedCosts false 1) (some 1) (some 10000) = some r ∧ r.fitness = 1 ∧
    evaluateAlign [some r] = (100, 1, 19999 / 20000) := by
  refine ⟨⟨1, 1, 20000⟩, ⟨⟨[(2, 1)], by decide, fun _ => rfl⟩, by decide⟩, by decide, by decide, by decide +kernel, rfl, by decide +kernel⟩

/-- three traces of two variants -/
example : alignLog List.length [["a"], ["b", "c"], ["a"]] = [some 1, some 2, some 1] := by decide

example := C39_evaluate_range [some ⟨1, 1, 20000⟩, none] (by simp)
example := C39_evaluate_one [some ⟨1, 1, 20000⟩, none] ⟨_, List.mem_cons_self⟩ (by simp)
end Verif
