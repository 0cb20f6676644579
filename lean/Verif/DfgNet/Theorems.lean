import Verif.DfgNet.Proofs
set_option linter.unusedSectionVars false
/-
C44: theorems on the conversion of directly-follows graphs to Petri nets.
-/
namespace Verif.DfgNet
variable {α : Type} [DecidableEq α]

/-- **C44.** The default conversion: the net accepts exactly the traces of the directly-follows graph all of whose
activities occur in an arc. -/
theorem _root_.Verif.C44_language (dfg : List (α × α)) (starts ends : List α) (w : List α) :
    (toNet dfg starts ends).Accepts (·.label) im fm w ↔ DfgTrace dfg starts ends w ∧ ∀ a ∈ w, InArc dfg a :=
  language dfg starts ends w

/-- **C44.** In particular it accepts all traces of the graph with at least two activities. -/
theorem _root_.Verif.C44_language_long (dfg : List (α × α)) (starts ends : List α) (w : List α) (h : 2 ≤ w.length) :
    (toNet dfg starts ends).Accepts (·.label) im fm w ↔ DfgTrace dfg starts ends w := by
  rw [C44_language]
  refine ⟨fun h => h.1, fun ht => ⟨ht, ?_⟩⟩
  intro a ha
  obtain ⟨i, hi, rfl⟩ := List.mem_iff_getElem.1 ha
  by_cases hl : i + 1 < w.length
  · exact ⟨(w[i], w[i + 1]), ht.2.2 i _ _ (by simp [hi]) (by simp [hl]), .inl rfl⟩
  · have hi' : i - 1 + 1 = i := by omega
    exact ⟨(w[i - 1], w[i]), ht.2.2 (i - 1) _ _ (by simp [show i - 1 < w.length by omega]) (by simp [hi', hi]), .inr rfl⟩

/-- **C44, refuted.** Not all traces of the graph are accepted: activities that occur in no arc are forgotten. -/
theorem _root_.Verif.C44_language_refuted :
    ¬ ∀ (dfg : List (Nat × Nat)) (starts ends w : List Nat), DfgTrace dfg starts ends w →
      (toNet dfg starts ends).Accepts (·.label) im fm w := by
  intro h
  have := (C44_language [] [7] [7] [7]).1 (h [] [7] [7] [7]
    ⟨⟨7, by simp, rfl⟩, ⟨7, by simp, rfl⟩, by intro i a b _ hb; simp at hb⟩)
  obtain ⟨e, he, _⟩ := this.2 7 (by simp)
  simp at he

/-- **C44.** The conversion with invisible transitions accepts exactly the traces of the graph, if the artificial start and
end activities are new names. -/
theorem _root_.Verif.C44_invisibles_language {sa ea : α} {dfg : List (α × α)} {starts ends : List α}
    (hf : Fresh sa ea dfg starts ends) {net : Net (Pl2 α) (Tr (Pl2 α) α)} {im fm : Marking (Pl2 α)}
    (h : toNet2 sa ea dfg starts ends = some (net, im, fm)) (w : List α) :
    net.Accepts (·.label) im fm w ↔ DfgTrace dfg starts ends w := language2 hf h w

/-- **C44.** It raises (for new names) iff there is no start activity or no end activity. -/
theorem _root_.Verif.C44_invisibles_raises {sa ea : α} {dfg : List (α × α)} {starts ends : List α}
    (hf : Fresh sa ea dfg starts ends) : toNet2 sa ea dfg starts ends = none ↔ starts = [] ∨ ends = [] := by
  have h1 : sa ∈ activitiesOf (enrich sa ea dfg starts ends) ↔ starts ≠ [] := by
    rw [mem_activitiesOf]
    constructor
    · rintro ⟨e, he, h⟩ rfl
      rcases (mem_enrich _ _ _ _ _ _).1 he with h' | ⟨_, h'⟩ | ⟨h', h''⟩
      · exact hf.dfg.1 ⟨e, h', h⟩
      · simp at h'
      · rcases h with h | h
        · exact hf.ends.1 (h ▸ h')
        · exact hf.ne (h.symm.trans h'')
    · intro h
      obtain ⟨a, l, rfl⟩ := List.exists_cons_of_ne_nil h
      exact ⟨(sa, a), (mem_enrich _ _ _ _ _ _).2 (.inr (.inl ⟨rfl, by simp⟩)), .inl rfl⟩
  have h2 : ea ∈ activitiesOf (enrich sa ea dfg starts ends) ↔ ends ≠ [] := by
    rw [mem_activitiesOf]
    constructor
    · rintro ⟨e, he, h⟩ rfl
      rcases (mem_enrich _ _ _ _ _ _).1 he with h' | ⟨h', h''⟩ | ⟨h', _⟩
      · exact hf.dfg.2 ⟨e, h', h⟩
      · rcases h with h | h
        · exact hf.ne (h'.symm.trans h)
        · exact hf.starts.2 (h ▸ h'')
      · simp at h'
    · intro h
      obtain ⟨a, l, rfl⟩ := List.exists_cons_of_ne_nil h
      exact ⟨(a, ea), (mem_enrich _ _ _ _ _ _).2 (.inr (.inr ⟨by simp, rfl⟩)), .inr rfl⟩
  unfold toNet2
  simp only [h1, h2]
  constructor
  · intro h
    apply Classical.byContradiction
    intro hn
    rw [if_pos ⟨fun h' => hn (.inl h'), fun h' => hn (.inr h')⟩] at h
    cases h
  · rintro (h | h) <;> simp [h]

/-- **C44, refuted.** If an activity of the log has the artificial name, its occurrences become invisible. -/
theorem _root_.Verif.C44_invisibles_names_refuted :
    ¬ ∀ (sa ea : Nat) (dfg : List (Nat × Nat)) (starts ends : List Nat) (net : Net (Pl2 Nat) (Tr (Pl2 Nat) Nat))
      (im fm : Marking (Pl2 Nat)), sa ≠ ea → toNet2 sa ea dfg starts ends = some (net, im, fm) →
      ∀ w, DfgTrace dfg starts ends w → net.Accepts (·.label) im fm w := by
  intro h
  have h1 := h 0 1 [] [1] [1] _ _ _ (by decide) rfl [1] ⟨⟨1, by simp, rfl⟩, ⟨1, by simp, rfl⟩, by intro i a b _ hb; simp at hb⟩
  rw [accepts_machine] at h1
  have key : ∀ (p q : Pl2 Nat) w, Word ((trans2 0 1 (enrich 0 1 [] [1] [1])).map kind) p w q → w = [] := by
    intro p q w hw
    induction hw with
    | nil p => rfl
    | @cons l p r w q hk _ ih =>
      have : l = none := by
        have hall : ∀ k ∈ (trans2 0 1 (enrich 0 1 [] [1] [1])).map kind, k.1 = (none : Option Nat) := by decide
        exact hall _ hk
      subst this; simp [ih]
  have := key _ _ _ h1
  simp at this

/-- **C44.** The nets are safe state machines: in both conversions every reachable marking is one token in one place. -/
theorem _root_.Verif.C44_one_token (dfg : List (α × α)) (starts ends : List α) :
    (∀ ts m, (toNet dfg starts ends).FiringSequence im ts m → ∃ p, m = [(p, 1)]) ∧
    ∀ (sa ea : α) net im2 fm2, toNet2 sa ea dfg starts ends = some (net, im2, fm2) →
      ∀ ts m, net.FiringSequence im2 ts m → ∃ p, m = [(p, 1)] := by
  refine ⟨?_, ?_⟩
  · intro ts m h
    obtain ⟨q, rfl, _⟩ := (firing_machine _ _ _ _ _).1 h
    exact ⟨q, rfl⟩
  · intro sa ea net im2 fm2 h ts m hm
    unfold toNet2 at h
    simp only at h
    split at h
    · simp only [Option.some.injEq, Prod.mk.injEq] at h
      obtain ⟨rfl, rfl, rfl⟩ := h
      obtain ⟨q, rfl, _⟩ := (firing_machine _ _ _ _ _).1 hm
      exact ⟨q, rfl⟩
    · cases h

theorem walk_split {π : Type} {T : List (Tr π α)} {p q : π} {ts : List (Tr π α)} (h : Walk T p ts q) :
    p = q ∨ ∃ t ∈ T, t.dst = q := by
  induction h with
  | nil p => exact .inl rfl
  | @cons t ts q ht _ ih =>
    rcases ih with h | h
    · exact .inr ⟨t, ht, h⟩
    · exact .inr h

/-- The activity can be reached from a start activity along the arcs. -/
def Reached (dfg : List (α × α)) (starts : List α) (a : α) : Prop := ∃ s ∈ starts, Dfg.Path dfg s a

/-- **C44.** The default net always has the option to complete if the graph has: if there is a start activity in an arc, and
from every activity reached in the graph some end activity can be reached, then from every reachable marking the final
marking can be reached. -/
theorem _root_.Verif.C44_option_to_complete (dfg : List (α × α)) (starts ends : List α)
    (h0 : ∃ a ∈ starts, InArc dfg a)
    (hr : ∀ a, Reached dfg starts a → ∃ b ∈ ends, Dfg.Path dfg a b) (ts : List (Tr (Pl α) α)) (m : Marking (Pl α))
    (h : (toNet dfg starts ends).FiringSequence im ts m) :
    ∃ ts' m', (toNet dfg starts ends).FiringSequence m ts' m' ∧ Marking.eq m' fm = true := by
  have hpath : ∀ a b, Dfg.Path dfg a b → b ∈ ends → ∃ w, Tail dfg ends a w := by
    intro a b hp hb
    have : ∀ c, Dfg.Path dfg a c → (∃ w, Tail dfg ends c w) → ∃ w, Tail dfg ends a w := by
      intro c hc
      induction hc with
      | refl => exact id
      | @step x y _ hxy ih => rintro ⟨w, hw⟩; exact ih ⟨y :: w, hxy, hw⟩
    exact this b hp ⟨[], hb⟩
  have hact : ∀ a, InArc dfg a → Reached dfg starts a →
      ∃ w, Word ((toNet dfg starts ends).transitions.map kind) (.act a) w .sink := by
    intro a ha hra
    obtain ⟨b, hb, hp⟩ := hr a hra
    obtain ⟨w, hw⟩ := hpath a b hp hb
    refine ⟨w, tail_word dfg starts ends a w (tail_mono _ _ _ _ _ hw fun x hx he => List.mem_filter.2 ⟨he, ?_⟩)⟩
    simpa using (mem_activitiesOf dfg x).2 (tail_inArc _ _ _ _ hw ha x hx)
  have hword : ∀ p w q, Word ((toNet dfg starts ends).transitions.map kind) p w q →
      (p = .source ∨ p = .sink ∨ ∃ a, p = .act a ∧ InArc dfg a ∧ Reached dfg starts a) →
      (q = .source ∨ q = .sink ∨ ∃ a, q = .act a ∧ InArc dfg a ∧ Reached dfg starts a) := by
    intro p w q hw
    induction hw with
    | nil p => exact id
    | @cons l p r w q hk _ ih =>
      intro hp
      apply ih
      rcases (kinds dfg starts ends l p r).1 hk with ⟨a, h1, h2, rfl, rfl, rfl⟩ | ⟨a, h1, h2, rfl, rfl, rfl⟩ | ⟨e, h1, rfl, rfl, rfl⟩
      · exact .inr (.inr ⟨a, rfl, h2, a, h1, .refl⟩)
      · exact .inr (.inl rfl)
      · rcases hp with hp | hp | ⟨a, hp, ha, s, hs, hsa⟩
        · cases hp
        · cases hp
        · cases hp
          exact .inr (.inr ⟨e.2, rfl, ⟨e, h1, .inr rfl⟩, s, hs, hsa.step h1⟩)
  obtain ⟨q, rfl, hw⟩ := (firing_machine _ _ _ _ _).1 h
  have hq := hword .source _ q ((word_iff _ _ _ _).2 ⟨ts, hw, rfl⟩) (.inl rfl)
  have hgo : ∃ w, Word ((toNet dfg starts ends).transitions.map kind) q w .sink := by
    rcases hq with rfl | rfl | ⟨a, rfl, ha, hra⟩
    · obtain ⟨a, ha, hin⟩ := h0
      obtain ⟨w, hw⟩ := hact a hin ⟨a, ha, .refl⟩
      exact ⟨_, Word.cons ((kinds dfg starts ends _ _ _).2 (.inl ⟨a, ha, hin, rfl, rfl, rfl⟩)) hw⟩
    · exact ⟨[], .nil _⟩
    · exact hact a ha hra
  obtain ⟨w, hw⟩ := hgo
  obtain ⟨ts', hw', _⟩ := (word_iff _ _ _ _).1 hw
  exact ⟨ts', [(.sink, 1)], (firing_machine _ _ _ _ _).2 ⟨_, rfl, hw'⟩, (eq_single _ _).2 rfl⟩

theorem keys_native (log : List (List α)) (e : α × α) : e ∈ Dict.keys (Dfg.native 1 false log) ↔
    ∃ t ∈ log, ∃ i, t[i]? = some e.1 ∧ t[i + 1]? = some e.2 := by
  unfold Dfg.native
  rw [Counter.keys_ofList]
  simp only [Bool.false_eq_true, if_false, List.mem_flatMap, Dfg.windowPairs_eq, List.mem_filterMap, List.mem_range]
  constructor
  · rintro ⟨t, ht, i, hi, h⟩
    refine ⟨t, ht, i, ?_⟩
    cases h1 : t[i]? with
    | none => simp [h1] at h
    | some a =>
      cases h2 : t[i + 1]? with
      | none => simp [h1, h2] at h
      | some b => simp [h1, h2] at h; subst h; simp
  · rintro ⟨t, ht, i, h1, h2⟩
    have hl := (List.getElem?_eq_some_iff.1 h2).1
    exact ⟨t, ht, i, by omega, by rw [h1, h2]⟩

theorem log_dfgTrace (log : List (List α)) (t : List α) (ht : t ∈ log) (hne : t ≠ []) :
    DfgTrace (Dict.keys (Dfg.native 1 false log)) (Dfg.startActs log) (Dfg.endActs log) t := by
  refine ⟨?_, ?_, ?_⟩
  · obtain ⟨a, v, rfl⟩ := List.exists_cons_of_ne_nil hne
    exact ⟨a, List.mem_filterMap.2 ⟨_, ht, rfl⟩, rfl⟩
  · have hl : 0 < t.length := List.length_pos_iff.2 hne
    refine ⟨t[t.length - 1], List.mem_filterMap.2 ⟨t, List.mem_filter.2 ⟨ht, by simpa using hl⟩, by simp [hl]⟩, ?_⟩
    rw [List.getLast?_eq_getElem?]; simp [hl]
  · intro i a b ha hb
    exact (keys_native log (a, b)).2 ⟨t, ht, i, ha, hb⟩

/-- **C44.** Replay: the net of the directly-follows graph discovered from a log accepts every trace of the log with at least
two events; with invisible transitions, every trace that is not empty. -/
theorem _root_.Verif.C44_log_replay (log : List (List α)) (t : List α) (ht : t ∈ log) :
    (2 ≤ t.length → (toNet (Dict.keys (Dfg.native 1 false log)) (Dfg.startActs log) (Dfg.endActs log)).Accepts (·.label) im fm t) ∧
    (t ≠ [] → ∀ sa ea, Fresh sa ea (Dict.keys (Dfg.native 1 false log)) (Dfg.startActs log) (Dfg.endActs log) →
      ∃ net im2 fm2, toNet2 sa ea (Dict.keys (Dfg.native 1 false log)) (Dfg.startActs log) (Dfg.endActs log) = some (net, im2, fm2) ∧
        net.Accepts (·.label) im2 fm2 t) := by
  constructor
  · intro h
    exact (C44_language_long _ _ _ _ h).2 (log_dfgTrace log t ht (by intro h'; subst h'; simp at h))
  · intro hne sa ea hf
    have hd := log_dfgTrace log t ht hne
    cases h : toNet2 sa ea (Dict.keys (Dfg.native 1 false log)) (Dfg.startActs log) (Dfg.endActs log) with
    | none =>
      obtain ⟨⟨a, ha, _⟩, ⟨b, hb, _⟩, _⟩ := hd
      rcases (C44_invisibles_raises hf).1 h with h | h
      · rw [h] at ha; simp at ha
      · rw [h] at hb; simp at hb
    | some x =>
      obtain ⟨net, im2, fm2⟩ := x
      exact ⟨net, im2, fm2, rfl, (C44_invisibles_language hf h t).2 hd⟩

/-- **C44.** The inferred start (end) activities are the activities with an outgoing (ingoing) arc but no ingoing
(outgoing) one. -/
theorem _root_.Verif.C44_infer (dfg : List (α × α)) (a : α) :
    (a ∈ inferStart dfg ↔ (∃ e ∈ dfg, e.1 = a) ∧ ∀ e ∈ dfg, e.2 ≠ a) ∧
    (a ∈ inferEnd dfg ↔ (∃ e ∈ dfg, e.2 = a) ∧ ∀ e ∈ dfg, e.1 ≠ a) := by
  have key : ∀ (f : α × α → α) (l : List (α × α)) (s : List α),
      a ∈ l.foldl (fun s e => if f e ∈ s then s else s ++ [f e]) s ↔ a ∈ s ∨ ∃ e ∈ l, f e = a := by
    intro f l
    induction l with
    | nil => simp
    | cons e l ih =>
      intro s
      rw [List.foldl_cons, ih]
      have : a ∈ (if f e ∈ s then s else s ++ [f e]) ↔ a ∈ s ∨ f e = a := by grind
      rw [this]
      simp only [List.mem_cons, exists_eq_or_imp]
      grind
  unfold inferStart inferEnd
  rw [List.mem_filter, List.mem_filter, key Prod.fst, key Prod.snd]
  simp
  constructor
  · intro _ _
    constructor
    · intro h x y hxy he; subst he; exact h x hxy
    · intro h x hx; exact h x a hx rfl
  · intro _ _
    constructor
    · intro h x y hxy he; subst he; exact h y hxy
    · intro h x hx; exact h a x hx rfl

end Verif.DfgNet
