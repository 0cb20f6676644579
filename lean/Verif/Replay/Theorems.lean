import Verif.Replay.Invariant
import Verif.Replay.Paths
import Mathlib.Tactic.NormNum
import Mathlib.Tactic.FieldSimp
import Mathlib.Tactic.Positivity
import Mathlib.Algebra.Order.Field.Rat
import Mathlib.Algebra.Order.Field.Basic
set_option linter.unusedSectionVars false
/-
C26: token-based replay of a trace.
-/
namespace Verif
open Dict Replay
variable {P T A : Type} [DecidableEq P] [DecidableEq T] [DecidableEq A]

/-! ### Accounting -/

theorem Replay.result_account {e : Env P T A} (he : Proper e) (ne w : List A) :
    ∃ added : Int, let r := (applyTrace e ne w).1
      r.produced + added + finalDeficit e.fm r.marking = r.consumed + r.remaining ∧ 0 ≤ added ∧
      added + finalDeficit e.fm r.marking ≤ r.consumed ∧
      0 ≤ r.missing ∧ 0 ≤ r.remaining ∧ r.remaining ≤ r.produced ∧
      (e.stopUnfit = false → r.missing ≤ added + finalDeficit e.fm r.marking ∧
        (UnitArcs e.net → r.missing = added + finalDeficit e.fm r.marking)) := by
  have h := Inv.replayed he ne w
  obtain ⟨ad, a1, a2, a3, a4, a5⟩ := h.account
  have hb := remaining_deficit e.fm _ h.nodup h.pos he.fmNodup he.fmPos
  have hd := finalDeficit_bounds e.fm _ he.fmNodup he.fmPos h.pos
  have hr := remaining_bounds e.fm _ h.nodup h.pos he.fmPos
  have ht := tokens_nonneg _ h.nodup h.pos
  have hm := h.nonneg
  refine ⟨ad, ?_⟩
  simp only [applyTrace]
  refine ⟨by omega, a3, by omega, by omega, hr.1, by omega, ?_⟩
  intro hst
  have hns : (replayed e ne w).stopped = false := by
    cases hs : (replayed e ne w).stopped with
    | false => rfl
    | true => have := (h.stop hs).1; rw [hst] at this; cases this
  rw [hns] at a2 a5
  simp at a2 a5
  exact ⟨by omega, fun hu => by have := a5 hu; omega⟩

/-- In a net whose arcs have weight 1, the four counters balance: what was produced or added as missing was consumed or is
left over. -/
theorem C26_accounting (e : Env P T A) (he : Proper e) (hu : UnitArcs e.net) (hst : e.stopUnfit = false) (ne w : List A) :
    (applyTrace e ne w).1.produced + (applyTrace e ne w).1.missing =
      (applyTrace e ne w).1.consumed + (applyTrace e ne w).1.remaining := by
  obtain ⟨ad, h1, _, _, _, _, _, h2⟩ := result_account he ne w
  have := (h2 hst).2 hu
  omega

/-- With weighted arcs only an inequality holds (see `C26_accounting_refuted`). -/
theorem C26_accounting_weighted (e : Env P T A) (he : Proper e) (hst : e.stopUnfit = false) (ne w : List A) :
    (applyTrace e ne w).1.produced + (applyTrace e ne w).1.missing ≤
      (applyTrace e ne w).1.consumed + (applyTrace e ne w).1.remaining := by
  obtain ⟨ad, h1, _, _, _, _, _, h2⟩ := result_account he ne w
  have := (h2 hst).1
  omega

theorem Replay.counts_events (e : Env P T A) (he : Proper e) (hst : e.stopUnfit = false) (ne w : List A) :
    (w.foldl (event e) (initState e ne)).consumed = ((w.foldl (event e) (initState e ne)).act.map (consumedTokens e.net)).sum ∧
    (w.foldl (event e) (initState e ne)).produced =
      tokens e.im + ((w.foldl (event e) (initState e ne)).act.map (producedTokens e.net)).sum := by
  induction w using snocInduct with
  | nil => simp [initState]
  | snoc w a ih =>
    rw [List.foldl_append]
    have hinv := Inv.events he ne w
    generalize w.foldl (event e) (initState e ne) = s at ih hinv
    have hns : s.stopped = false := by
      cases hs : s.stopped with
      | false => rfl
      | true => have := (hinv.stop hs).1; rw [hst] at this; cases this
    simp only [List.foldl_cons, List.foldl_nil, event, hns]
    cases hm : transMap e a with
    | none => exact ih
    | some d =>
      simp only [Bool.false_eq_true, if_false]
      have hc := choose_spec (m := s.marking) hm
      have hx := walk_ext e (choose e s.marking a d) s
      have hi' := hinv.ext he hx
      obtain ⟨new, ha, _, _, hcc, hpp, _⟩ := hx
      generalize walk e (choose e s.marking a d) s = s' at *
      generalize choose e s.marking a d = t at *
      have ih' : s'.consumed = (s'.act.map (consumedTokens e.net)).sum ∧
          s'.produced = tokens e.im + (s'.act.map (producedTokens e.net)).sum := by
        rw [ha, List.map_append, List.sum_append, List.map_append, List.sum_append]
        omega
      unfold fireEvent
      split
      · simp only [RState.fire, List.map_append, List.sum_append, List.map_cons, List.map_nil, List.sum_cons, List.sum_nil]; omega
      · simp only [hst, Bool.false_eq_true, if_false]
        have hadd := foldl_addArc (e.net.inArcs t) (he.simple.inPos t hc.1) 0 s'.marking hi'.nodup hi'.pos
        rw [← addMissing_eq] at hadd
        obtain ⟨_, _, _, _, i5, _⟩ := hadd
        have i5 := i5 (he.simple.noParallel t hc.1)
        have hen2 : e.net.isEnabled t (addMissing e.net t s'.marking).2 = true := by
          rw [Net.isEnabled_iff]
          refine ⟨hc.1, ?_⟩
          intro b hb
          have := i5 b hb
          omega
        simp only [hen2, if_true, List.map_append, List.sum_append, List.map_cons, List.map_nil, List.sum_cons, List.sum_nil]
        omega

/-- The consumed tokens are those consumed by the activated transitions and the final marking, the produced ones those of
the initial marking and of the activated transitions. -/
theorem C26_counters (e : Env P T A) (he : Proper e) (hst : e.stopUnfit = false) (ne w : List A) :
    (applyTrace e ne w).1.consumed =
      ((applyTrace e ne w).1.act.map fun t => ((e.net.inArcs t).map Prod.snd).sum).sum + (e.fm.map Prod.snd).sum ∧
    (applyTrace e ne w).1.produced =
      (e.im.map Prod.snd).sum + ((applyTrace e ne w).1.act.map fun t => ((e.net.outArcs t).map Prod.snd).sum).sum := by
  have h := counts_events e he hst ne w
  have hx := final_ext e (w.foldl (event e) (initState e ne))
  obtain ⟨new, ha, _, _, hcc, hpp, _⟩ := hx
  have e1 : (fun t => ((e.net.inArcs t).map Prod.snd).sum) = consumedTokens e.net := by funext t; rw [consumedTokens_eq]
  have e2 : (fun t => ((e.net.outArcs t).map Prod.snd).sum) = producedTokens e.net := by funext t; rw [producedTokens_eq]
  rw [e1, e2, ← tokens_eq, ← tokens_eq]
  simp only [applyTrace, replayed]
  rw [ha, hcc, hpp, List.map_append, List.sum_append, List.map_append, List.sum_append]
  omega

/-! ### Fitness -/

/-- The fitness of a trace lies between 0 and 1. -/
theorem C26_fitness_range (e : Env P T A) (he : Proper e) (hst : e.stopUnfit = false) (ne w : List A) :
    0 ≤ (applyTrace e ne w).1.fitness ∧ (applyTrace e ne w).1.fitness ≤ 1 := by
  obtain ⟨ad, h1, h2, h3, h4, h5, h6, h7⟩ := result_account he ne w
  have h8 := (h7 hst).1
  have hf : (applyTrace e ne w).1.fitness = fitness (applyTrace e ne w).1.missing (applyTrace e ne w).1.consumed
    (applyTrace e ne w).1.remaining (applyTrace e ne w).1.produced := rfl
  rw [hf]
  generalize (applyTrace e ne w).1 = r at *
  unfold fitness
  split
  · next hc =>
    have hcq : (0 : Rat) < r.consumed := by exact_mod_cast hc.1
    have hpq : (0 : Rat) < r.produced := by exact_mod_cast hc.2
    have m0 : (0 : Rat) ≤ (r.missing : Rat) / r.consumed := div_nonneg (by exact_mod_cast h4) hcq.le
    have r0 : (0 : Rat) ≤ (r.remaining : Rat) / r.produced := div_nonneg (by exact_mod_cast h5) hpq.le
    have m1 : (r.missing : Rat) / r.consumed ≤ 1 := by rw [div_le_one hcq]; exact_mod_cast (by omega : r.missing ≤ r.consumed)
    have r1 : (r.remaining : Rat) / r.produced ≤ 1 := by rw [div_le_one hpq]; exact_mod_cast h6
    constructor <;> linarith
  · norm_num

theorem Replay.tokens_pos {m : Marking P} (hn : (keys m).Nodup) (hm : Pos m) (hne : m ≠ []) : 0 < tokens m := by
  obtain ⟨x, l, rfl⟩ := List.exists_cons_of_ne_nil hne
  rw [tokens_eq]
  have hx : get? (x :: l) x.1 = some x.2 := get?_of_mem_nodup hn (by simp)
  have := hm _ _ hx
  have : 0 ≤ (l.map Prod.snd).sum := by
    apply sum_nonneg'
    intro y hy
    have : get? (x :: l) y.1 = some y.2 := get?_of_mem_nodup hn (by simp [hy])
    have := hm _ _ this; omega
  simp only [List.map_cons, List.sum_cons]; omega

theorem Replay.pos_counts (e : Env P T A) (he : Proper e) (hst : e.stopUnfit = false) (him : e.im ≠ []) (hfm : e.fm ≠ []) (ne w : List A) :
    0 < (applyTrace e ne w).1.consumed ∧ 0 < (applyTrace e ne w).1.produced := by
  have hcnt := C26_counters e he hst ne w
  rw [← tokens_eq, ← tokens_eq] at hcnt
  have hact : ∀ t ∈ (applyTrace e ne w).1.act, t ∈ e.net.transitions := (Inv.replayed he ne w).act
  have c0 : 0 ≤ ((applyTrace e ne w).1.act.map fun t => ((e.net.inArcs t).map Prod.snd).sum).sum := by
    apply sum_nonneg'
    intro t ht
    apply sum_nonneg'
    intro a ha
    have := he.simple.inPos t (hact t ht) a ha; omega
  have p0 : 0 ≤ ((applyTrace e ne w).1.act.map fun t => ((e.net.outArcs t).map Prod.snd).sum).sum := by
    apply sum_nonneg'
    intro t ht
    apply sum_nonneg'
    intro a ha
    have := he.simple.outPos t (hact t ht) a ha; omega
  have ti := tokens_pos he.imNodup he.imPos him
  have tf := tokens_pos he.fmNodup he.fmPos hfm
  omega

/-- If neither the initial nor the final marking is empty, the fitness is 1 exactly if no token is missing and none
remains. -/
theorem C26_fitness_one (e : Env P T A) (he : Proper e) (hst : e.stopUnfit = false) (him : e.im ≠ []) (hfm : e.fm ≠ []) (ne w : List A) :
    (applyTrace e ne w).1.fitness = 1 ↔ (applyTrace e ne w).1.missing = 0 ∧ (applyTrace e ne w).1.remaining = 0 := by
  obtain ⟨ad, h1, h2, h3, h4, h5, h6, h7⟩ := result_account he ne w
  have h8 := (h7 hst).1
  have hc := pos_counts e he hst him hfm ne w
  have hf : (applyTrace e ne w).1.fitness = fitness (applyTrace e ne w).1.missing (applyTrace e ne w).1.consumed
    (applyTrace e ne w).1.remaining (applyTrace e ne w).1.produced := rfl
  rw [hf]
  generalize (applyTrace e ne w).1 = r at *
  unfold fitness
  rw [if_pos hc]
  have hcq : (0 : Rat) < r.consumed := by exact_mod_cast hc.1
  have hpq : (0 : Rat) < r.produced := by exact_mod_cast hc.2
  have m0 : (0 : Rat) ≤ (r.missing : Rat) / r.consumed := div_nonneg (by exact_mod_cast h4) hcq.le
  have r0 : (0 : Rat) ≤ (r.remaining : Rat) / r.produced := div_nonneg (by exact_mod_cast h5) hpq.le
  constructor
  · intro h
    have hm : (r.missing : Rat) / r.consumed = 0 := by linarith
    have hr : (r.remaining : Rat) / r.produced = 0 := by linarith
    rw [div_eq_zero_iff] at hm hr
    constructor
    · rcases hm with h | h
      · exact_mod_cast h
      · exact absurd h hcq.ne'
    · rcases hr with h | h
      · exact_mod_cast h
      · exact absurd h hpq.ne'
  · rintro ⟨hm, hr⟩
    rw [hm, hr]; norm_num

/-! ### Missing and remaining tokens tell whether the trace fits -/

/-- Whatever happens (unless the replay stops at the first problem), the visible transitions activated by the replay are
labelled by the events of the trace that belong to the model, in that order. -/
theorem C26_replays_trace (e : Env P T A) (he : Proper e) (hst : e.stopUnfit = false) (ne w : List A) :
    (applyTrace e ne w).1.act.filterMap e.lab = modelPart e.net e.lab w := by
  have h := Inv.replayed he ne w
  apply h.labels
  cases hs : (replayed e ne w).stopped with
  | false => rfl
  | true => have := (h.stop hs).1; rw [hst] at this; cases this

theorem Replay.missing_zero {e : Env P T A} (he : Proper e) (ne w : List A) (h : (applyTrace e ne w).1.missing = 0) :
    (replayed e ne w).missing = 0 ∧ finalDeficit e.fm (replayed e ne w).marking = 0 := by
  have hi := Inv.replayed he ne w
  have := hi.nonneg
  have := (finalDeficit_bounds e.fm _ he.fmNodup he.fmPos hi.pos).1
  have h : (replayed e ne w).missing + finalDeficit e.fm (replayed e ne w).marking = 0 := h
  omega

/-- If no token is missing and none remains, the activated transitions are a firing sequence from the initial to the final
marking whose visible transitions are the events of the trace: the part of the trace in the model belongs to the language
of the net.  (For every net without parallel arcs, with hidden and duplicate transitions and all parameters.) -/
theorem C26_sound (e : Env P T A) (he : Proper e) (ne w : List A)
    (hm : (applyTrace e ne w).1.missing = 0) (hr : (applyTrace e ne w).1.remaining = 0) :
    (∃ m, e.net.FiringSequence e.im (applyTrace e ne w).1.act m ∧ SameTokens m e.fm ∧
      (applyTrace e ne w).1.act.filterMap e.lab = modelPart e.net e.lab w) ∧
    InLanguage e.net e.lab e.im e.fm (modelPart e.net e.lab w) := by
  have hi := Inv.replayed he ne w
  obtain ⟨h1, h2⟩ := missing_zero he ne w hm
  have hns : (replayed e ne w).stopped = false := by
    cases hs : (replayed e ne w).stopped with
    | false => rfl
    | true => have := (hi.stop hs).2; omega
  have hsame : SameTokens (replayed e ne w).marking e.fm := by
    intro p
    have a := (finalDeficit_zero e.fm _ he.fmNodup hi.pos).1 h2 p
    have b := (remaining_zero e.fm _ hi.nodup hi.pos he.fmPos).1 hr p
    omega
  exact ⟨⟨_, hi.run h1, hsame, hi.labels hns⟩, _, _, hi.run h1, hsame, hi.labels hns⟩

/-- Transitions with problems are reported exactly if tokens had to be added during the replay; then the sequence of
activated transitions is not enabled as is or the replay stopped. -/
theorem C26_problems (e : Env P T A) (he : Proper e) (ne w : List A) :
    ((applyTrace e ne w).1.problems = [] →
      e.net.FiringSequence e.im (applyTrace e ne w).1.act (applyTrace e ne w).1.marking ∧
      (applyTrace e ne w).1.act.filterMap e.lab = modelPart e.net e.lab w) ∧
    ((applyTrace e ne w).1.problems ≠ [] → 0 < (applyTrace e ne w).1.missing) := by
  have hi := Inv.replayed he ne w
  constructor
  · intro h
    have h0 := hi.problems.1 h
    have hns : (replayed e ne w).stopped = false := by
      cases hs : (replayed e ne w).stopped with
      | false => rfl
      | true => have := (hi.stop hs).2; omega
    exact ⟨hi.run h0, hi.labels hns⟩
  · intro h
    have h0 : (replayed e ne w).missing ≠ 0 := fun h' => h (hi.problems.2 h')
    have := hi.nonneg
    have := (finalDeficit_bounds e.fm _ he.fmNodup he.fmPos hi.pos).1
    show 0 < (replayed e ne w).missing + finalDeficit e.fm (replayed e ne w).marking
    omega

/-- visible labels are unique -/
def Replay.UniqueLabels (net : Net P T) (lab : T → Option A) : Prop :=
  ∀ t ∈ net.transitions, ∀ u ∈ net.transitions, lab t = lab u → lab t ≠ none → t = u

theorem Replay.fseq_snoc {net : Net P T} {m m' : Marking P} {t : T} {ts : List T} (h : net.FiringSequence m (ts ++ [t]) m') :
    ∃ m1, net.FiringSequence m ts m1 ∧ net.execute t m1 = some m' := by
  simp only [Net.FiringSequence, List.foldlM_append, List.foldlM_cons, List.foldlM_nil, Option.bind_eq_bind,
    Option.pure_def, Option.bind_eq_some_iff, Option.some.injEq] at h
  obtain ⟨m1, h1, m2, h2, rfl⟩ := h
  exact ⟨m1, h1, h2⟩

theorem Replay.events_complete {e : Env P T A} (hu : UniqueLabels e.net e.lab) (ne w : List A) :
    ∀ ts m, e.net.FiringSequence e.im ts m → (∀ t ∈ ts, e.lab t ≠ none) → ts.filterMap e.lab = modelPart e.net e.lab w →
      let s := w.foldl (event e) (initState e ne)
      s.marking = m ∧ s.act = ts ∧ s.missing = 0 ∧ s.stopped = false ∧ s.problems = [] := by
  induction w using snocInduct with
  | nil =>
    intro ts m hf hv hl
    have : ts = [] := by
      cases ts with
      | nil => rfl
      | cons t ts =>
        have := hv t (by simp)
        cases hlt : e.lab t with
        | none => exact absurd hlt this
        | some a => simp [modelPart, hlt] at hl
    subst this
    simp [Net.FiringSequence] at hf
    simp [initState, hf]
  | snoc w a ih =>
    intro ts m hf hv hl
    rw [modelPart_snoc] at hl
    rw [List.foldl_append]
    simp only [List.foldl_cons, List.foldl_nil]
    cases hm : transMap e a with
    | none =>
      rw [if_neg (transMap_none.1 hm), List.append_nil] at hl
      obtain ⟨h1, h2, h3, h4, h5⟩ := ih ts m hf hv hl
      simp only [event, h4, hm, Bool.false_eq_true, if_false]
      exact ⟨h1, h2, h3, trivial, h5⟩
    | some d =>
      have hd := transMap_some hm
      rw [if_pos ⟨d, hd⟩] at hl
      obtain ⟨ts', t, rfl⟩ : ∃ ts' t, ts = ts' ++ [t] := by
        rcases List.eq_nil_or_concat ts with rfl | ⟨ts', t, h⟩
        · simp at hl
        · exact ⟨ts', t, by simpa using h⟩
      obtain ⟨m1, hf1, hex⟩ := fseq_snoc hf
      have hvt := hv t (by simp)
      cases hlt : e.lab t with
      | none => exact absurd hlt hvt
      | some b =>
        rw [List.filterMap_append] at hl
        simp only [List.filterMap_cons, hlt, List.filterMap_nil] at hl
        have hab := List.append_inj' hl (by simp)
        simp only [List.cons.injEq, and_true] at hab
        obtain ⟨hl', rfl⟩ := hab
        obtain ⟨h1, h2, h3, h4, h5⟩ := ih ts' m1 hf1 (fun u hu => hv u (by simp [hu])) hl'
        have hen := ((Net.execute_some_iff _ _ _ _).1 hex).1
        have htm := ((Net.isEnabled_iff _ _ _).1 hen).1
        simp only [event, h4, hm, Bool.false_eq_true, if_false, h1]
        have hc := choose_spec (m := m1) hm
        have heq : choose e m1 b d = t := hu _ hc.1 _ htm (by rw [hc.2.1, hlt]) (by rw [hc.2.1]; simp)
        rw [heq]
        have hw : walk e t (w.foldl (event e) (initState e ne)) = w.foldl (event e) (initState e ne) := by
          unfold walk
          rw [h1, hen]; simp
        rw [hw]
        unfold fireEvent
        rw [h1, if_pos hen]
        simp only [RState.fire, h1, h2, h3, h4, h5, hex, Option.getD_some, and_self]

/-- If the labels of the visible transitions are unique and the part of the trace in the model is the trace of a firing
sequence of visible transitions from the initial to the final marking, the replay finds it: nothing is missing, nothing
remains, no problems. -/
theorem C26_complete (e : Env P T A) (he : Proper e) (hu : UniqueLabels e.net e.lab) (ne w : List A) (ts : List T) (m : Marking P)
    (hf : e.net.FiringSequence e.im ts m) (hm : SameTokens m e.fm) (hv : ∀ t ∈ ts, e.lab t ≠ none)
    (hl : ts.filterMap e.lab = modelPart e.net e.lab w) :
    (applyTrace e ne w).1.act = ts ∧ (applyTrace e ne w).1.missing = 0 ∧ (applyTrace e ne w).1.remaining = 0 ∧
      (applyTrace e ne w).1.problems = [] ∧ (applyTrace e ne w).1.fitness = 1 ∧
      (e.considerNotInModel = false → (applyTrace e ne w).1.isFit = true) := by
  obtain ⟨h1, h2, h3, h4, h5⟩ := events_complete hu ne w ts m hf hv hl
  have hpos := fseq_pos he.simple hf he.imPos
  have hnod := (fseq_tokens hf he.imNodup).1
  have hbr : breakCond m e.fm = true := by
    unfold breakCond
    rw [List.all_eq_true]
    intro x hx
    have hg : get? e.fm x.1 = some x.2 := get?_of_mem_nodup he.fmNodup (by simpa using hx)
    have := he.fmPos _ _ hg
    have hc : count m x.1 = x.2 := by rw [hm x.1]; simp [count, hg]
    rw [has_iff]
    apply Classical.byContradiction
    intro hn
    rw [count_of_not_mem hn] at hc; omega
  have hrep : replayed e ne w = w.foldl (event e) (initState e ne) := by
    unfold replayed
    simp only
    split
    · have hf1 : final1 e 5 (w.foldl (event e) (initState e ne)) = w.foldl (event e) (initState e ne) := by
        unfold final1; rw [h1, if_pos hbr]
      rw [hf1]
      unfold final2; rw [h1, if_pos hbr]
    · rfl
  have hd : finalDeficit e.fm m = 0 := (finalDeficit_zero e.fm m he.fmNodup hpos).2 fun p => by rw [hm p]
  have hr : remaining e.fm m = 0 := (remaining_zero e.fm m hnod hpos he.fmPos).2 fun p => by rw [hm p]
  simp only [applyTrace, hrep]
  rw [h1, h2, h3, h5, hd, hr]
  refine ⟨rfl, rfl, rfl, rfl, ?_, ?_⟩
  · unfold fitness; split <;> norm_num
  · intro hc; simp [hc]

/-- For a net without hidden transitions and with unique labels the replay decides membership in the language: nothing is
missing and nothing remains exactly if the part of the trace in the model is a trace of the net. -/
theorem C26_exact (e : Env P T A) (he : Proper e) (hu : UniqueLabels e.net e.lab)
    (hv : ∀ t ∈ e.net.transitions, e.lab t ≠ none) (ne w : List A) :
    ((applyTrace e ne w).1.missing = 0 ∧ (applyTrace e ne w).1.remaining = 0) ↔
      InLanguage e.net e.lab e.im e.fm (modelPart e.net e.lab w) := by
  constructor
  · rintro ⟨h1, h2⟩
    exact (C26_sound e he ne w h1 h2).2
  · rintro ⟨ts, m, hf, hm, hl⟩
    have := C26_complete e he hu ne w ts m hf hm (fun t ht => hv t (fseq_mem hf t ht)) hl
    exact ⟨this.2.1, this.2.2.1⟩

/-- `is_fit` for the usual models, where the final marking is one token and every transition produces tokens: a trace is
reported as fitting exactly if no token is missing and none remains. -/
theorem C26_is_fit (e : Env P T A) (he : Proper e) (hcr : e.considerRemaining = true) (hcn : e.considerNotInModel = false)
    (sink : P) (hfm : e.fm = [(sink, 1)]) (him : e.im ≠ []) (hout : ∀ t ∈ e.net.transitions, e.net.outArcs t ≠ []) (ne w : List A) :
    (applyTrace e ne w).1.isFit = true ↔ (applyTrace e ne w).1.missing = 0 ∧ (applyTrace e ne w).1.remaining = 0 := by
  have hi := Inv.replayed he ne w
  have hfit : (applyTrace e ne w).1.isFit = true ↔ (replayed e ne w).missing = 0 ∧ remaining e.fm (replayed e ne w).marking = 0 := by
    simp [applyTrace, hcr, hcn]
  have hnon : ∀ ts m m', e.net.FiringSequence m ts m' → Pos m → (∃ p, 1 ≤ count m p) → ∃ p, 1 ≤ count m' p := by
    intro ts
    induction ts with
    | nil => intro m m' h _ hm; simp [Net.FiringSequence] at h; exact h ▸ hm
    | cons t ts ih =>
      intro m m' h hp hm
      obtain ⟨m1, h1, h2⟩ := fseq_cons h
      have hp1 := Net.execute_pos he.simple hp h1
      refine ih m1 m' h2 hp1 ?_
      have ht := ((Net.isEnabled_iff _ _ _).1 ((Net.execute_some_iff _ _ _ _).1 h1).1)
      obtain ⟨a, l, ha⟩ := List.exists_cons_of_ne_nil (hout t ht.1)
      refine ⟨a.1, ?_⟩
      have hfi := Net.execute_fires h1 a.1
      have hen := ((Net.isEnabled_iff_enabled e.net he.simple t m hp).1 ((Net.execute_some_iff _ _ _ _).1 h1).1).2 a.1
      have hge := arcWeight_le_of_mem (as := e.net.outArcs t) (fun b hb => by have := he.simple.outPos t ht.1 b hb; omega)
        (a := a) (by rw [ha]; simp)
      have := he.simple.outPos t ht.1 a (by rw [ha]; simp)
      omega
  rw [hfit]
  constructor
  · rintro ⟨h1, h2⟩
    refine ⟨?_, h2⟩
    have hrun := hi.run h1
    have him' : ∃ p, 1 ≤ count e.im p := by
      obtain ⟨x, l, hx⟩ := List.exists_cons_of_ne_nil him
      have hg : get? e.im x.1 = some x.2 := get?_of_mem_nodup he.imNodup (by rw [hx]; simp)
      have := he.imPos _ _ hg
      exact ⟨x.1, by simp [count, hg]; omega⟩
    obtain ⟨p, hp⟩ := hnon _ _ _ hrun he.imPos him'
    have hle := (remaining_zero e.fm _ hi.nodup hi.pos he.fmPos).1 h2
    have hd : finalDeficit e.fm (replayed e ne w).marking = 0 := by
      rw [finalDeficit_zero e.fm _ he.fmNodup hi.pos]
      have hps := hle p
      intro q
      rw [hfm] at hps ⊢
      by_cases hqs : sink = q
      · subst hqs
        by_cases hpss : sink = p
        · subst hpss; simp [count, get?] at hps hp ⊢; exact hp
        · simp [count, get?, hpss] at hps hp; omega
      · have := hi.pos.count_nonneg q
        simp [count, get?, hqs] at this ⊢; exact this
    show (replayed e ne w).missing + finalDeficit e.fm (replayed e ne w).marking = 0
    omega
  · rintro ⟨h1, h2⟩
    exact ⟨(missing_zero he ne w h1).1, h2⟩

end Verif
