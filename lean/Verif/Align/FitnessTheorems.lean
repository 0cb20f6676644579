import Verif.Align.Fitness
import Verif.Replay.Log
import Mathlib.Tactic.Positivity
/-
C39: alignment-based fitness of traces and logs.
-/
set_option linter.unusedSectionVars false
namespace Verif
open Dict Align

section
variable {P T A : Type} [DecidableEq P] [DecidableEq T] [DecidableEq A]

/-! ### The results of the searches are optimal -/

/-- C39: the cost reported by Dijkstra's search is the optimal cost. -/
theorem C39_dijkstra_optimal (tr : List A) (net : LNet P T A) (hs : net.toNet.Simple) (hu : UnitWeights net.toNet)
    (im fm : Marking P) (hi : Good im) (hf : Good fm) (cost : Move Nat T → Int) (hc : ∀ mv, 0 ≤ cost mv)
    (sch : Sched (Marking (Nat ⊕ P)) (Move Nat T)) (hsch : sch.Ok) (n : Nat) (x : Tup (Marking (Nat ⊕ P)) (Move Nat T))
    (h : alignTrace tr net im fm cost sch n = .found x) : OptimalCost tr net im fm cost x.g := by
  obtain ⟨h1, h2, h3⟩ := (C06_trace_alignment tr net hs hu im fm hi hf cost hc sch hsch n).1 x h
  exact ⟨⟨_, h1, h2⟩, h3⟩

/-- C39: the cost reported by the A* search (up to 10^15) is the optimal cost. -/
theorem C39_astar_optimal (tr : List A) (net : LNet P T A) (hs : net.toNet.Simple) (hu : Incidence.Unit net.toNet)
    (im fm : Marking P) (hi : Good im) (hf : Good fm) (ki : ∀ p ∈ keys im, p ∈ net.places)
    (kf : ∀ p ∈ keys fm, p ∈ net.places) (cost : Move Nat T → Int) (hc : ∀ mv, 0 ≤ cost mv)
    (lp : Marking (Nat ⊕ P) → Rat × (Move Nat T → Rat))
    (hlp : LpOk cost (product (traceNet tr) net).transitions
      (markingEquation (product (traceNet tr) net).toNet (productMarking (traceFm tr) fm)) lp)
    (sch : ASched (Marking (Nat ⊕ P)) (Move Nat T)) (hsch : sch.Ok) (n : Nat) (x : ATup (Marking (Nat ⊕ P)) (Move Nat T))
    (h : astarTrace tr net im fm cost lp sch n = .found x) (hle : x.g ≤ 10 ^ 15) : OptimalCost tr net im fm cost x.g := by
  obtain ⟨h1, h2, h3⟩ := (C38_trace_alignment tr net hs hu im fm hi hf ki kf cost hc lp hlp sch hsch n).1 x h
  refine ⟨⟨_, h1, h2⟩, fun s hs => ?_⟩
  by_cases hb : (s.map cost).sum ≤ 10 ^ 15
  · exact h3 s hs hb
  · omega

/-! ### Fitness of a trace -/

/-- C39: with non-negative costs, the fitness computed from the optimal cost `g` of the trace and the best worst cost `b`
lies between 0 and 1, and the cost does not exceed the reported worst cost. -/
theorem C39_fitness_range (tr : List A) (net : LNet P T A) (im fm : Marking P) (lc : Nat → Int) (mc : T → Int)
    (sc : Nat → T → Int) (hl : ∀ i, 0 ≤ lc i) (hm : ∀ t, 0 ≤ mc t) (hsy : ∀ i t, 0 ≤ sc i t) (g b : Int)
    (hg : OptimalCost tr net im fm (productCost lc mc sc) g)
    (hb : OptimalCost ([] : List A) net im fm (productCost lc mc sc) b) (r : AliFit)
    (h : traceFitness ((List.range tr.length).map lc) (some g) (some b) = some r) :
    (0 ≤ r.fitness ∧ r.fitness ≤ 1) ∧ 0 ≤ r.cost ∧ r.cost ≤ r.bwc := by
  have hc : ∀ mv, 0 ≤ productCost lc mc sc mv := by
    intro mv; cases mv with
    | left i => exact hl i
    | right t => exact hm t
    | sync i t => exact hsy i t
  have h0 : 0 ≤ g := by
    obtain ⟨⟨s, _, rfl⟩, _⟩ := hg
    exact Replay.sum_nonneg' s _ fun a _ => hc a
  obtain ⟨h1, h2, h3, h4⟩ := range_of_le _ g b h0 (cost_le_worst tr net im fm lc mc sc g b hg hb) r h
  exact ⟨⟨h1, h2⟩, h3, h4⟩

theorem defaultCosts_eq (net : LNet P T A) (n : Nat) :
    defaultCost net = productCost (fun _ => 10000) (fun t => if (net.label t).isNone then 1 else 10000) (fun _ _ => 0) ∧
    storedCosts false n = (List.range n).map fun _ => (10000 : Int) := by
  refine ⟨rfl, ?_⟩
  simp [storedCosts]

theorem storedCosts_sum (n : Nat) : (storedCosts false n).sum = 10000 * (n : Int) := by
  simp [storedCosts, mul_comm]

/-- C39: with the default costs, the fitness of a trace with events is 1 exactly if it is the sequence of labels of a
complete run with less than 10000 silent steps. -/
theorem C39_fitness_one_iff (tr : List A) (htr : tr ≠ []) (net : LNet P T A) (im fm : Marking P) (g b : Int)
    (hg : OptimalCost tr net im fm (defaultCost net) g)
    (hb : OptimalCost ([] : List A) net im fm (defaultCost net) b) (r : AliFit)
    (h : traceFitness (storedCosts false tr.length) (some g) (some b) = some r) :
    r.fitness = 1 ↔ ∃ ts, Fits net im fm tr ts ∧ silentSteps net ts < 10000 := by
  have nn : ∀ s : List (Move Nat T), 0 ≤ (s.map (defaultCost net)).sum := by
    intro s
    induction s with
    | nil => simp
    | cons a s ih => simp only [List.map_cons, List.sum_cons]; have := defaultCost_nonneg net a; omega
  have h0 : 0 ≤ g := by obtain ⟨⟨s, _, rfl⟩, _⟩ := hg; exact nn s
  have hb0 : 0 ≤ b := by obtain ⟨⟨s, _, rfl⟩, _⟩ := hb; exact nn s
  have hlen : 1 ≤ (tr.length : Int) := by have := List.length_pos_of_ne_nil htr; omega
  rw [one_iff_num _ g b h0 (by rw [storedCosts_sum]; omega) r h]
  constructor
  · intro hlt
    obtain ⟨⟨s, hs, rfl⟩, _⟩ := hg
    obtain ⟨h1, h2⟩ := cheap_alignment tr net im fm s hs hlt
    exact ⟨_, ⟨hs.run, h1⟩, by omega⟩
  · rintro ⟨ts, hts, hlt⟩
    obtain ⟨s, hs, hc⟩ := fitting_alignment tr net im fm ts hts
    have := hg.2 s hs
    omega

/-- C39: if the fitness of a trace is 1, the trace is the sequence of labels of a complete run (whatever its length). -/
theorem C39_fitness_one_sound (tr : List A) (net : LNet P T A) (im fm : Marking P) (g b : Int)
    (hg : OptimalCost tr net im fm (defaultCost net) g)
    (hb : OptimalCost ([] : List A) net im fm (defaultCost net) b) (r : AliFit)
    (h : traceFitness (storedCosts false tr.length) (some g) (some b) = some r) (h1 : r.fitness = 1) :
    ∃ ts, Fits net im fm tr ts := by
  by_cases htr : tr = []
  · subst htr
    have hgb : g = b := by
      obtain ⟨⟨s, hs, rfl⟩, _⟩ := hg
      obtain ⟨⟨s', hs', rfl⟩, _⟩ := hb
      rename_i o1 o2
      have := o1 s' hs'; have := o2 s hs; omega
    simp only [traceFitness, Option.some.injEq] at h
    subst h hgb
    simp only [storedCosts, List.length_nil, List.replicate_zero, Bool.false_eq_true, if_false, List.sum_nil, zero_add] at h1
    split at h1
    · rename_i hd
      have hd' : ((Int.fdiv g 10000 : Int) : Rat) ≠ 0 := by
        have : (0 : Rat) < (Int.fdiv g 10000 : Int) := by exact_mod_cast hd
        exact this.ne'
      rw [div_self hd'] at h1
      norm_num at h1
    · norm_num at h1
  · obtain ⟨ts, h, _⟩ := (C39_fitness_one_iff tr htr net im fm g b hg hb r h).1 h1
    exact ⟨ts, h⟩

/-! ### Logs -/

/-- C39: aligning a log gives, in the order of the log, what aligning each trace gives. -/
theorem C39_log {R : Type} (align : List A → R) (log : List (List A)) : alignLog align log = log.map fun w => some (align w) := by
  let v := Replay.variants log
  let all := (keys v).map align
  have hget : ∀ (vs : List ((List A × List Nat) × Nat)) (d : Dict Nat (Option R)) (i : Nat) (w : List A), log[i]? = some w →
      (∀ x ∈ vs, x ∈ v.zipIdx) →
      get? (vs.foldl (fun d v => v.1.2.foldl (fun d i => Dict.set d i all[v.2]?) d) d) i =
        if ∃ x ∈ vs, i ∈ x.1.2 then some (some (align w)) else get? d i := by
    intro vs
    induction vs with
    | nil => simp
    | cons x vs ih =>
      intro d i w hw hvs
      rw [List.foldl_cons, ih _ i w hw fun y hy => hvs y (List.mem_cons_of_mem _ hy)]
      have hset : ∀ (is : List Nat) (r : Option R) (d : Dict Nat (Option R)),
          get? (is.foldl (fun d i => Dict.set d i r) d) i = if i ∈ is then some r else get? d i := by
        intro is
        induction is with
        | nil => simp
        | cons j is ih =>
          intro r d
          rw [List.foldl_cons, ih, get?_set]
          by_cases h1 : i ∈ is
          · simp [h1]
          · by_cases h2 : j = i
            · simp [h2]
            · have : ¬ i = j := fun h => h2 h.symm
              simp [h1, h2, this]
      rw [hset]
      by_cases h1 : ∃ x ∈ vs, i ∈ x.1.2
      · rw [if_pos h1, if_pos]
        obtain ⟨y, h, h'⟩ := h1
        exact ⟨y, List.mem_cons_of_mem _ h, h'⟩
      · rw [if_neg h1]
        by_cases h2 : i ∈ x.1.2
        · rw [if_pos h2, if_pos ⟨x, List.mem_cons_self, h2⟩]
          have hx := (List.mem_zipIdx_iff_getElem?.1 (hvs x List.mem_cons_self))
          have hmem : (x.1.1, x.1.2) ∈ Replay.variants log := List.mem_of_getElem? hx
          have := (Replay.mem_variants log x.1.1 x.1.2 hmem i).1 h2
          rw [hw] at this
          have hxw : w = x.1.1 := Option.some.inj this
          have : all[x.2]? = some (align w) := by
            simp only [all, keys, List.getElem?_map, hx, Option.map_some, hxw]
          rw [this]
        · rw [if_neg h2, if_neg]
          rintro ⟨y, h, h'⟩
          rcases List.mem_cons.1 h with rfl | h
          · exact h2 h'
          · exact h1 ⟨y, h, h'⟩
  have hkeys : ∀ (vs : List ((List A × List Nat) × Nat)) (d : Dict Nat (Option R)), (keys d).Nodup →
      (keys (vs.foldl (fun d v => v.1.2.foldl (fun d i => Dict.set d i all[v.2]?) d) d)).Nodup ∧
      ∀ i, i ∈ keys (vs.foldl (fun d v => v.1.2.foldl (fun d i => Dict.set d i all[v.2]?) d) d) ↔
        i ∈ keys d ∨ ∃ x ∈ vs, i ∈ x.1.2 := by
    have inner : ∀ (is : List Nat) (r : Option R) (d : Dict Nat (Option R)), (keys d).Nodup →
        (keys (is.foldl (fun d i => Dict.set d i r) d)).Nodup ∧
        ∀ i, i ∈ keys (is.foldl (fun d i => Dict.set d i r) d) ↔ i ∈ keys d ∨ i ∈ is := by
      intro is
      induction is with
      | nil => intro r d h; simp [h]
      | cons j is ih =>
        intro r d h
        obtain ⟨h1, h2⟩ := ih r _ (nodup_set h j r)
        refine ⟨h1, fun i => ?_⟩
        rw [List.foldl_cons, h2, keys_set, List.mem_cons]
        grind
    intro vs
    induction vs with
    | nil => intro d h; simp [h]
    | cons x vs ih =>
      intro d h
      obtain ⟨i1, i2⟩ := inner x.1.2 all[x.2]? d h
      obtain ⟨h1, h2⟩ := ih _ i1
      refine ⟨h1, fun i => ?_⟩
      rw [List.foldl_cons, h2, i2]
      simp only [List.mem_cons, exists_eq_or_imp]
      grind
  have hall : ∀ i w, log[i]? = some w → ∃ x ∈ v.zipIdx, i ∈ x.1.2 := by
    intro i w hw
    obtain ⟨is, h1, h2⟩ := Replay.exists_variants log w i hw
    obtain ⟨k, hk⟩ := List.mem_iff_getElem?.1 h1
    exact ⟨((w, is), k), List.mem_zipIdx_iff_getElem?.2 hk, h2⟩
  have hlen : (v.zipIdx.foldl (fun d v => v.1.2.foldl (fun d i => Dict.set d i all[v.2]?) d) ([] : Dict Nat (Option R))).length =
      log.length := by
    obtain ⟨h1, h2⟩ := hkeys v.zipIdx [] (by simp)
    have hp : (keys (v.zipIdx.foldl (fun d v => v.1.2.foldl (fun d i => Dict.set d i all[v.2]?) d) ([] : Dict Nat (Option R)))).Perm
        (List.range log.length) := by
      rw [List.perm_ext_iff_of_nodup h1 List.nodup_range]
      intro i
      rw [h2, List.mem_range]
      constructor
      · rintro (h | ⟨x, hx, hi⟩)
        · simp at h
        · have hx' := (List.mem_zipIdx_iff_getElem?.1 hx)
          have hmem : (x.1.1, x.1.2) ∈ Replay.variants log := List.mem_of_getElem? hx'
          have := (Replay.mem_variants log x.1.1 x.1.2 hmem i).1 hi
          exact (List.getElem?_eq_some_iff.1 this).1
      · intro hi
        exact .inr (hall i log[i] (List.getElem?_eq_getElem hi))
    have := hp.length_eq
    simpa [keys] using this
  show formAlignments v all = _
  unfold formAlignments
  simp only
  rw [hlen]
  apply List.ext_getElem?
  intro i
  by_cases hi : i < log.length
  · have hw : log[i]? = some log[i] := List.getElem?_eq_getElem hi
    rw [List.getElem?_map, List.getElem?_range hi, List.getElem?_map, hw]
    simp only [Option.map_some]
    rw [hget v.zipIdx [] i log[i] hw (fun _ h => h), if_pos (hall i _ hw)]
    rfl
  · rw [List.getElem?_eq_none (by simp; omega), List.getElem?_eq_none (by simp; omega)]
end

/-- C39: the figures of the evaluation of a log: given that the fitness of each aligned trace lies between 0 and 1 and its
cost between 0 and its worst cost (`C39_fitness_range`), the percentage lies between 0 and 100, and average and log fitness
between 0 and 1. -/
theorem C39_evaluate_range (rs : List (Option AliFit))
    (h : ∀ r, some r ∈ rs → (0 ≤ r.fitness ∧ r.fitness ≤ 1) ∧ 0 ≤ r.cost ∧ r.cost ≤ r.bwc) :
    let v := evaluateAlign rs
    (0 ≤ v.1 ∧ v.1 ≤ 100) ∧ (0 ≤ v.2.1 ∧ v.2.1 ≤ 1) ∧ (0 ≤ v.2.2 ∧ v.2.2 ≤ 1) := by
  have hres : ∀ r ∈ rs.filterMap id, (0 ≤ r.fitness ∧ r.fitness ≤ 1) ∧ 0 ≤ r.cost ∧ r.cost ≤ r.bwc := by
    intro r hr
    obtain ⟨o, ho, rfl⟩ := List.mem_filterMap.1 hr
    exact h r ho
  unfold evaluateAlign
  generalize rs.filterMap id = l at hres
  simp only
  split
  · next hpos =>
    simp only
    have hl : (0 : Rat) < l.length := by exact_mod_cast hpos
    have c0 : 0 ≤ (l.map (·.cost)).sum := Replay.sum_nonneg' l _ fun r hr => (hres r hr).2.1
    have c1 : (l.map (·.cost)).sum ≤ (l.map (·.bwc)).sum := Replay.sum_le' l _ _ fun r hr => (hres r hr).2.2
    have hs := Replay.sum_bounds l (·.fitness) fun r hr => (hres r hr).1
    have hfl : ((l.filter fun x => decide (x.fitness = 1)).length : Rat) ≤ l.length := by exact_mod_cast List.length_filter_le _ _
    refine ⟨⟨by positivity, ?_⟩, ⟨div_nonneg hs.1 hl.le, ?_⟩, ?_⟩
    · rw [div_le_iff₀ hl]; linarith
    · rw [div_le_one hl]; exact hs.2
    · split
      · rename_i hb
        have hb' : (0 : Rat) < ((l.map (·.bwc)).sum : Int) := by exact_mod_cast hb
        have q0 : (0 : Rat) ≤ ((l.map (·.cost)).sum : Int) / ((l.map (·.bwc)).sum : Int) := div_nonneg (by exact_mod_cast c0) hb'.le
        have q1 : (((l.map (·.cost)).sum : Int) : Rat) / ((l.map (·.bwc)).sum : Int) ≤ 1 := by
          rw [div_le_one hb']; exact_mod_cast c1
        constructor <;> linarith
      · norm_num
  · norm_num

/-- C39: the average is 1 exactly if all traces have fitness 1, and so is the percentage 100; the log fitness is 1 exactly
if all costs are 0. -/
theorem C39_evaluate_one (rs : List (Option AliFit)) (hne : ∃ r, some r ∈ rs)
    (h : ∀ r, some r ∈ rs → (0 ≤ r.fitness ∧ r.fitness ≤ 1) ∧ 0 ≤ r.cost ∧ r.cost ≤ r.bwc) :
    ((evaluateAlign rs).1 = 100 ↔ ∀ r, some r ∈ rs → r.fitness = 1) ∧
    ((evaluateAlign rs).2.1 = 1 ↔ ∀ r, some r ∈ rs → r.fitness = 1) ∧
    ((evaluateAlign rs).2.2 = 1 ↔ ∀ r, some r ∈ rs → r.cost = 0) := by
  have hmem : ∀ r, some r ∈ rs ↔ r ∈ rs.filterMap id := by
    intro r; simp
  simp only [hmem] at h hne ⊢
  unfold evaluateAlign
  generalize rs.filterMap id = l at h hne
  obtain ⟨r0, hr0⟩ := hne
  have hpos : l.length > 0 := List.length_pos_of_mem hr0
  have hl : (0 : Rat) < l.length := by exact_mod_cast hpos
  simp only [if_pos hpos]
  refine ⟨?_, ?_, ?_⟩
  · rw [div_eq_iff hl.ne']
    constructor
    · intro he
      have e1 : ((l.filter fun x => decide (x.fitness = 1)).length : Rat) = l.length := by linarith
      have e2 : (l.filter fun x => decide (x.fitness = 1)).length = l.length := by exact_mod_cast e1
      have := List.length_filter_eq_length_iff.1 e2
      intro r hr; simpa using this r hr
    · intro ha
      have : (l.filter fun x => decide (x.fitness = 1)) = l := List.filter_eq_self.2 fun r hr => by simp [ha r hr]
      rw [this]
  · rw [div_eq_iff hl.ne', one_mul]
    have key : ∀ l : List AliFit, (∀ r ∈ l, 0 ≤ r.fitness ∧ r.fitness ≤ 1) →
        ((l.map (·.fitness)).sum = (l.length : Rat) ↔ ∀ r ∈ l, r.fitness = 1) := by
      intro l
      induction l with
      | nil => simp
      | cons a l ih =>
        intro h
        have ih := ih fun r hr => h r (List.mem_cons_of_mem _ hr)
        have hb := (Replay.sum_bounds l (·.fitness) fun r hr => h r (List.mem_cons_of_mem _ hr)).2
        have ha := h a List.mem_cons_self
        simp only [List.map_cons, List.sum_cons, List.length_cons, Nat.cast_add, Nat.cast_one, List.forall_mem_cons]
        constructor
        · intro he
          exact ⟨by linarith, ih.1 (by linarith)⟩
        · rintro ⟨h1, h2⟩
          rw [ih.2 h2, h1]; ring
    exact key l fun r hr => (h r hr).1
  · have key : ∀ l : List AliFit, (∀ r ∈ l, 0 ≤ r.cost) → ((l.map (·.cost)).sum = 0 ↔ ∀ r ∈ l, r.cost = 0) := by
      intro l
      induction l with
      | nil => simp
      | cons a l ih =>
        intro h
        have ih := ih fun r hr => h r (List.mem_cons_of_mem _ hr)
        have hb := Replay.sum_nonneg' l (·.cost) fun r hr => h r (List.mem_cons_of_mem _ hr)
        have ha := h a List.mem_cons_self
        simp only [List.map_cons, List.sum_cons, List.forall_mem_cons]
        constructor
        · intro he
          exact ⟨by omega, ih.1 (by omega)⟩
        · rintro ⟨h1, h2⟩
          rw [ih.2 h2, h1]; rfl
    rw [← key l fun r hr => (h r hr).2.1]
    have c0 : 0 ≤ (l.map (·.cost)).sum := Replay.sum_nonneg' l _ fun r hr => (h r hr).2.1
    have c1 : (l.map (·.cost)).sum ≤ (l.map (·.bwc)).sum := Replay.sum_le' l _ _ fun r hr => (h r hr).2.2
    split
    · rename_i hb
      have hb' : (0 : Rat) < ((l.map (·.bwc)).sum : Int) := by exact_mod_cast hb
      constructor
      · intro he
        have : (((l.map (·.cost)).sum : Int) : Rat) / ((l.map (·.bwc)).sum : Int) = 0 := by linarith
        rcases div_eq_zero_iff.1 this with h | h
        · exact_mod_cast h
        · exact absurd h hb'.ne'
      · intro he; rw [he]; simp
    · simp; omega
end Verif
