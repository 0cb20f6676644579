import Verif.Footprints.Exact
import Verif.Inductive.Theorems
/-
Property theorems C19 (footprints of logs and footprints conformance) and C20 (footprints of process trees).
-/
namespace Verif
namespace Foot
variable {α : Type}

/-- the traces of a log, as a language -/
def logLang (log : List (List α)) : Lang α := fun w => w ∈ log

theorem mem_zip_tail {t : List α} {a b : α} : (a, b) ∈ t.zip t.tail ↔ Follows t a b := by
  induction t with
  | nil => simp [not_follows_nil]
  | cons x t ih =>
    cases t with
    | nil =>
      simp only [List.tail_cons, List.zip_nil_right, List.not_mem_nil, false_iff]
      rintro ⟨u, v, h⟩
      have := congrArg List.length h; simp at this; omega
    | cons y t =>
      rw [follows_cons, ← ih]
      simp only [List.tail_cons, List.zip_cons_cons, List.mem_cons, Prod.mk.injEq]
      constructor
      · rintro (⟨rfl, rfl⟩ | h)
        · exact .inl ⟨rfl, t, rfl⟩
        · exact .inr h
      · rintro (⟨rfl, z, h⟩ | h)
        · simp only [List.cons.injEq] at h; exact .inl ⟨rfl, h.1.symm⟩
        · exact .inr h

variable [DecidableEq α]

theorem mem_keys_native (log : List (List α)) (a b : α) : (a, b) ∈ Dict.keys (Dfg.native 1 false log) ↔ DF (logLang log) a b := by
  unfold Dfg.native
  simp only [Bool.false_eq_true, if_false]
  rw [Counter.keys_ofList, List.mem_flatMap]
  unfold DF logLang
  constructor
  · rintro ⟨w, hw, h⟩
    rw [← Dfg.pairs_eq_window, Dfg.pairs_eq_zip, mem_zip_tail] at h
    exact ⟨w, hw, h⟩
  · rintro ⟨w, hw, h⟩
    refine ⟨w, hw, ?_⟩
    rw [← Dfg.pairs_eq_window, Dfg.pairs_eq_zip, mem_zip_tail]; exact h

theorem count_native_pos (log : List (List α)) (x : α × α) (h : x ∈ Dict.keys (Dfg.native 1 false log)) :
    0 < Dict.count (Dfg.native 1 false log) x := by
  have h1 := C17_native 1 log x.1 x.2
  rw [show Dict.count (Dfg.native 1 false log) x = _ from h1.1]
  have := h1.2.1 h; omega

theorem mem_diff {X : Type} [DecidableEq X] {l1 l2 : List X} {x : X} : x ∈ diff l1 l2 ↔ x ∈ l1 ∧ x ∉ l2 := by simp [diff]

theorem diff_isEmpty {X : Type} [DecidableEq X] {l1 l2 : List X} : (diff l1 l2).isEmpty = true ↔ ∀ x ∈ l1, x ∈ l2 := by
  rw [List.isEmpty_iff, List.eq_nil_iff_forall_not_mem]
  simp only [mem_diff, not_and, Classical.not_not]

theorem mem_causal (log : List (List α)) (a b : α) :
    (a, b) ∈ causalAlpha (Dfg.native 1 false log) ↔ DF (logLang log) a b ∧ ¬ DF (logLang log) b a := by
  unfold causalAlpha
  rw [List.mem_filter, mem_keys_native, ← mem_keys_native log b a]
  constructor
  · rintro ⟨h1, h2⟩
    refine ⟨h1, fun h3 => ?_⟩
    have := count_native_pos log _ h3
    have h4 := (Dict.has_iff (Dfg.native 1 false log) (b, a)).2 h3
    simp [h4] at h2; omega
  · rintro ⟨h1, h2⟩
    refine ⟨h1, ?_⟩
    have := count_native_pos log _ ((mem_keys_native log a b).2 h1)
    have h4 : Dict.has (Dfg.native 1 false log) (b, a) = false := by
      rw [← Bool.not_eq_true, Dict.has_iff]; exact h2
    simp [h4, this]

theorem mem_parallelOf (log : List (List α)) (a b : α) :
    (a, b) ∈ parallelOf (Dfg.native 1 false log) ↔ DF (logLang log) a b ∧ DF (logLang log) b a := by
  unfold parallelOf
  rw [List.mem_filter, mem_keys_native, Dict.has_iff, mem_keys_native]

omit [DecidableEq α] in
theorem start_log (log : List (List α)) (a : α) : a ∈ log.filterMap List.head? ↔ Start (logLang log) a := by
  rw [List.mem_filterMap]
  constructor
  · rintro ⟨w, hw, h⟩
    cases w with
    | nil => simp at h
    | cons x w => simp at h; subst h; exact ⟨w, hw⟩
  · rintro ⟨w, hw⟩; exact ⟨_, hw, rfl⟩

omit [DecidableEq α] in
theorem end_log (log : List (List α)) (a : α) : a ∈ log.filterMap List.getLast? ↔ End (logLang log) a := by
  rw [List.mem_filterMap]
  constructor
  · rintro ⟨w, hw, h⟩
    obtain ⟨u, rfl⟩ := List.getLast?_eq_some_iff.1 h
    exact ⟨u, hw⟩
  · rintro ⟨w, hw⟩; exact ⟨_, hw, by simp⟩

end Foot
open Foot
section
variable {α : Type} [DecidableEq α]

/-- C20: for trees without OR and interleaving whose loops have two children, the computed footprints are exactly those of the
language of the tree. -/
theorem C20_exact (t : PT α) (ht : Foot.Plain t) : ∃ f, treeFP t = some f ∧
    (∀ a, a ∈ f.start ↔ ∃ w, t.lang (a :: w)) ∧
    (∀ a, a ∈ f.stop ↔ ∃ w, t.lang (w ++ [a])) ∧
    (∀ a, a ∈ f.acts ↔ ∃ w, t.lang w ∧ a ∈ w) ∧
    (f.skip = true ↔ t.lang []) ∧
    (∀ a b, (a, b) ∈ f.sequence ↔ (∃ w, t.lang w ∧ Follows w a b) ∧ ¬ ∃ w, t.lang w ∧ Follows w b a) ∧
    (∀ a b, (a, b) ∈ f.parallel ↔ (∃ w, t.lang w ∧ Follows w a b) ∧ ∃ w, t.lang w ∧ Follows w b a) ∧
    (∀ a, a ∈ f.always ↔ ∀ w, t.lang w → a ∈ w) ∧
    (∃ w, t.lang w ∧ w.length = f.minLen) ∧ (∀ w, t.lang w → f.minLen ≤ w.length) := by
  obtain ⟨f, hf, he⟩ := footprints_exact t ht
  obtain ⟨n, hn, hs⟩ := minLen_exact t ht
  refine ⟨⟨f, n⟩, by simp [treeFP, hf, hn], he.start, he.stop, he.acts, he.skip, he.sequence, he.parallel, he.always, hs.1, hs.2⟩

/-- C19: the footprints of a log: sequence holds the directly-follows pairs that occur in one direction only, parallel those
that occur in both directions; start and end activities, activities and minimal trace length are those of the log. -/
theorem C19_log_footprints (log : List (List α)) :
    (∀ a b, (a, b) ∈ (logFP log).sequence ↔ (∃ w ∈ log, Follows w a b) ∧ ¬ ∃ w ∈ log, Follows w b a) ∧
    (∀ a b, (a, b) ∈ (logFP log).parallel ↔ (∃ w ∈ log, Follows w a b) ∧ ∃ w ∈ log, Follows w b a) ∧
    (∀ a, a ∈ (logFP log).start ↔ ∃ w, a :: w ∈ log) ∧
    (∀ a, a ∈ (logFP log).stop ↔ ∃ w, w ++ [a] ∈ log) ∧
    (∀ a, a ∈ (logFP log).acts ↔ ∃ w ∈ log, a ∈ w) ∧
    (log ≠ [] → ∃ w ∈ log, w.length = (logFP log).minLen) ∧ (∀ w ∈ log, (logFP log).minLen ≤ w.length) := by
  refine ⟨mem_causal log, mem_parallelOf log, start_log log, end_log log, fun a => by simp [logFP], ?_, ?_⟩
  · intro hne
    cases h : (log.map List.length).min? with
    | none => simp at h; exact absurd h hne
    | some n =>
      have := (List.min?_eq_some_iff.1 h).1
      simpa [logFP, h] using this
  · intro w hw
    cases h : (log.map List.length).min? with
    | none => simp at h; simp [h] at hw
    | some n =>
      have := (List.min?_eq_some_iff.1 h).2 w.length (List.mem_map_of_mem hw)
      simpa [logFP, h] using this

/-- C19: the footprints of a single trace, in the same terms. -/
theorem C19_trace_footprints (tr : List α) :
    (∀ a b, (a, b) ∈ (traceFP tr).sequence ↔ Follows tr a b ∧ ¬ Follows tr b a) ∧
    (∀ a b, (a, b) ∈ (traceFP tr).parallel ↔ Follows tr a b ∧ Follows tr b a) ∧
    (∀ a, a ∈ (traceFP tr).start ↔ ∃ w, tr = a :: w) ∧
    (∀ a, a ∈ (traceFP tr).stop ↔ ∃ w, tr = w ++ [a]) ∧
    (∀ a, a ∈ (traceFP tr).acts ↔ a ∈ tr) ∧ (traceFP tr).minLen = tr.length := by
  have h : ∀ a b, DF (logLang [tr]) a b ↔ Follows tr a b := by
    intro a b; simp [DF, logLang]
  refine ⟨?_, ?_, ?_, ?_, fun a => by simp [traceFP], rfl⟩
  · intro a b
    simp only [traceFP, List.mem_filter, mem_keys_native, h]
    rw [Bool.not_eq_true', ← Bool.not_eq_true, Dict.has_iff, mem_keys_native, h]
  · intro a b
    have := mem_parallelOf [tr] a b
    rwa [h, h] at this
  · intro a
    cases tr with
    | nil => simp [traceFP]
    | cons x tr => simp [traceFP, eq_comm]
  · intro a
    simp only [traceFP, Option.mem_toList, Option.mem_def]
    exact List.getLast?_eq_some_iff

/-- C19: a log conforms to its own footprints, in strict and in non-strict mode. -/
theorem C19_self (log : List (List α)) (strict : Bool) :
    violations strict (logFP log).sequence (logFP log).parallel (logFP log).sequence (logFP log).parallel = [] := by
  have h : ∀ l : List (α × α), diff l l = [] := fun l => List.isEmpty_iff.1 (diff_isEmpty.2 fun _ h => h)
  cases strict <;> simp [violations, h]

/-- C19: conformance of one log with the footprints of another one, in terms of the traces: in non-strict mode the reported
pairs are the directly-follows pairs of the first log that are not directly-follows pairs of the second; in strict mode also
those whose reverse occurs in one log but not in the other. -/
theorem C19_violations (log log' : List (List α)) (a b : α) :
    ((a, b) ∈ violations false (logFP log).sequence (logFP log).parallel (logFP log').sequence (logFP log').parallel ↔
      (∃ w ∈ log, Follows w a b) ∧ ¬ ∃ w ∈ log', Follows w a b) ∧
    ((a, b) ∈ violations true (logFP log).sequence (logFP log).parallel (logFP log').sequence (logFP log').parallel ↔
      (∃ w ∈ log, Follows w a b) ∧ ((¬ ∃ w ∈ log', Follows w a b) ∨
        ((∃ w ∈ log, Follows w b a) ∧ ¬ ∃ w ∈ log', Follows w b a) ∨ (¬ (∃ w ∈ log, Follows w b a) ∧ ∃ w ∈ log', Follows w b a))) := by
  have h1 := C19_log_footprints log
  have h2 := C19_log_footprints log'
  simp only [violations, Bool.false_eq_true, if_false, if_true, List.mem_append, mem_diff, h1.1, h1.2.1, h2.1, h2.2.1]
  generalize (∃ w ∈ log, Follows w a b) = A
  generalize (∃ w ∈ log, Follows w b a) = B
  generalize (∃ w ∈ log', Follows w a b) = C
  generalize (∃ w ∈ log', Follows w b a) = D
  by_cases A <;> by_cases B <;> by_cases C <;> by_cases D <;> simp_all

/-- C19: footprints conformance of a trace with a process tree is exactly a comparison with the language of the tree. -/
theorem C19_trace_fits (t : PT α) (ht : Foot.Plain t) (tr : List α) : ∃ m, treeFP t = some m ∧
    ((confTrace true (traceFP tr) m).isFit = true ↔
      (∀ a b, Follows tr a b → ∃ w, t.lang w ∧ Follows w a b) ∧
      (∀ a w, tr = a :: w → ∃ w, t.lang (a :: w)) ∧ (∀ a w, tr = w ++ [a] → ∃ w, t.lang (w ++ [a])) ∧
      (∀ a, (∀ w, t.lang w → a ∈ w) → a ∈ tr) ∧ ∃ w, t.lang w ∧ w.length ≤ tr.length) := by
  obtain ⟨m, hm, h1, h2, _, _, h5, h6, h7, h8, h9⟩ := C20_exact t ht
  obtain ⟨g1, g2, g3, g4, g5, g6⟩ := C19_trace_footprints tr
  refine ⟨m, hm, ?_⟩
  simp only [confTrace, Bool.and_eq_true, diff_isEmpty, if_true, decide_eq_true_eq, and_assoc]
  refine and_congr ?_ (and_congr ?_ (and_congr ?_ (and_congr ?_ ?_)))
  · constructor
    · intro h a b hab
      have : (a, b) ∈ (traceFP tr).sequence ++ (traceFP tr).parallel := by
        rw [List.mem_append, g1, g2]
        by_cases hb : Follows tr b a
        · exact .inr ⟨hab, hb⟩
        · exact .inl ⟨hab, hb⟩
      have := h _ this
      rw [List.mem_append, h5, h6] at this
      rcases this with h | h <;> exact h.1
    · rintro h ⟨a, b⟩ hab
      rw [List.mem_append, g1, g2] at hab
      have hab : Follows tr a b := by rcases hab with h | h <;> exact h.1
      rw [List.mem_append, h5, h6]
      by_cases hb : ∃ w, t.lang w ∧ Follows w b a
      · exact .inr ⟨h a b hab, hb⟩
      · exact .inl ⟨h a b hab, hb⟩
  · constructor
    · intro h a w e
      exact (h1 a).1 (h a ((g3 a).2 ⟨w, e⟩))
    · intro h a ha
      obtain ⟨w, e⟩ := (g3 a).1 ha
      exact (h1 a).2 (h a w e)
  · constructor
    · intro h a w e
      exact (h2 a).1 (h a ((g4 a).2 ⟨w, e⟩))
    · intro h a ha
      obtain ⟨w, e⟩ := (g4 a).1 ha
      exact (h2 a).2 (h a w e)
  · constructor
    · intro h a ha
      exact (g5 a).1 (h a ((h7 a).2 ha))
    · intro h a ha
      exact (g5 a).2 (h a ((h7 a).1 ha))
  · rw [g6]
    constructor
    · intro h
      obtain ⟨w, hw, hl⟩ := h8
      exact ⟨w, hw, by omega⟩
    · rintro ⟨w, hw, hl⟩
      have := h9 w hw; omega

/-- C19: the cached trace-by-trace conformance gives for every trace the result of checking that trace. -/
theorem C19_traces (en : Bool) (trs : List (List α)) (m : MFP α) : confTraces en trs m = trs.map fun tr => confTrace en (traceFP tr) m := by
  unfold confTraces
  have key : ∀ (trs : List (List α)) (acc : List (Conf α) × Dict (List α) (Conf α)),
      (∀ k c, Dict.get? acc.2 k = some c → c = confTrace en (traceFP k) m) →
      (trs.foldl (fun (acc : List (Conf α) × Dict (List α) (Conf α)) tr =>
        match Dict.get? acc.2 tr with
        | some c => (acc.1 ++ [c], acc.2)
        | none => let c := confTrace en (traceFP tr) m
                  (acc.1 ++ [c], Dict.set acc.2 tr c)) acc).1 = acc.1 ++ trs.map fun tr => confTrace en (traceFP tr) m := by
    intro trs
    induction trs with
    | nil => simp
    | cons tr trs ih =>
      intro acc hacc
      rw [List.foldl_cons, ih]
      · cases h : Dict.get? acc.2 tr with
        | none => simp
        | some c => simp [hacc tr c h]
      · intro k c hk
        cases h : Dict.get? acc.2 tr with
        | none =>
          simp only [h] at hk
          rw [Dict.get?_set] at hk
          split at hk
          · rename_i e; subst e; exact (Option.some.inj hk).symm
          · exact hacc k c hk
        | some c' => simp only [h] at hk; exact hacc k c hk
  exact key trs ([], []) (by simp)

/-- C19: traces accepted by the tree are never reported. -/
theorem C19_accepted_fits (t : PT α) (ht : Foot.Plain t) (trs : List (List α)) (h : ∀ w ∈ trs, t.lang w) :
    ∃ m, treeFP t = some m ∧ ∀ c ∈ confTraces true trs m, c.isFit = true := by
  obtain ⟨m, hm, _⟩ := C20_exact t ht
  refine ⟨m, hm, ?_⟩
  intro c hc
  rw [C19_traces, List.mem_map] at hc
  obtain ⟨w, hw, rfl⟩ := hc
  obtain ⟨m', hm', hf⟩ := C19_trace_fits t ht w
  rw [hm, Option.some.injEq] at hm'; subst hm'
  rw [hf]
  have hl := h w hw
  exact ⟨fun a b hab => ⟨w, hl, hab⟩, fun a w' e => ⟨w', e ▸ hl⟩, fun a w' e => ⟨w', e ▸ hl⟩, fun a ha => ha w hl, w, hl, Nat.le_refl _⟩

/-- C19: a non-empty log all of whose traces are accepted by the tree fits in log-level conformance. -/
theorem C19_log_fits (t : PT α) (ht : Foot.Plain t) (log : List (List α)) (hne : log ≠ []) (h : ∀ w ∈ log, t.lang w) :
    ∃ m, treeFP t = some m ∧ (confLog (logFP log) m).isFit = true := by
  obtain ⟨m, hm, h1, h2, _, _, h5, h6, h7, h8, h9⟩ := C20_exact t ht
  obtain ⟨g1, g2, g3, g4, g5, g6, g7⟩ := C19_log_footprints log
  refine ⟨m, hm, ?_⟩
  simp only [confLog, Bool.and_eq_true, diff_isEmpty, decide_eq_true_eq, and_assoc]
  refine ⟨?_, ?_, ?_, ?_⟩
  · rintro ⟨a, b⟩ hab
    rw [List.mem_append, g1, g2] at hab
    obtain ⟨w, hw, hf⟩ : ∃ w ∈ log, Follows w a b := by rcases hab with h | h <;> exact h.1
    rw [List.mem_append, h5, h6]
    by_cases hb : ∃ w, t.lang w ∧ Follows w b a
    · exact .inr ⟨⟨w, h w hw, hf⟩, hb⟩
    · exact .inl ⟨⟨w, h w hw, hf⟩, hb⟩
  · intro a ha
    obtain ⟨w, hw⟩ := (g3 a).1 ha
    exact (h1 a).2 ⟨w, h _ hw⟩
  · intro a ha
    obtain ⟨w, hw⟩ := (g4 a).1 ha
    exact (h2 a).2 ⟨w, h _ hw⟩
  · obtain ⟨w, hw, hl⟩ := g6 hne
    have := h9 w (h w hw)
    omega

/-- C19: a non-empty log fits the footprints of the tree that the inductive miner discovers from it, if the loops of that tree
are binary. -/
theorem C19_discovered_fits {env : IM.Env α} (henv : env.Lawful) (h sz : α → Nat) (log : List (List α)) (hsz : IM.SmallAlphabet log)
    (hne : log ≠ []) (n : Nat) (t : PT α) (hd : IM.discover env h sz n log = some t) (ht : Foot.Plain t) :
    ∃ m, treeFP t = some m ∧ (confLog (logFP log) m).isFit = true ∧ ∀ c ∈ confTraces true log m, c.isFit = true := by
  have hfit := C07_fitness henv h sz log hsz n t hd
  obtain ⟨m, hm, h1⟩ := C19_log_fits t ht log hne hfit
  obtain ⟨m', hm', h2⟩ := C19_accepted_fits t ht log hfit
  rw [hm, Option.some.injEq] at hm'; subst hm'
  exact ⟨m, hm, h1, h2⟩

end
end Verif
