import Verif.Replay.Walk
import Verif.Replay.Spec
set_option linter.unusedSectionVars false
/-
Invariant of the loop over the events.
-/
namespace Verif
open Dict
namespace Replay
variable {P T A : Type} [DecidableEq P] [DecidableEq T] [DecidableEq A]

theorem transMap_aux (lab : T → Option A) (a : A) (ts : List T) (acc : Option T) :
    (∀ d, ts.foldl (fun acc t => if lab t = some a then some t else acc) acc = some d → (d ∈ ts ∧ lab d = some a) ∨ acc = some d) ∧
    (ts.foldl (fun acc t => if lab t = some a then some t else acc) acc = none ↔ acc = none ∧ ∀ t ∈ ts, lab t ≠ some a) := by
  induction ts generalizing acc with
  | nil => simp
  | cons t ts ih =>
    simp only [List.foldl_cons]
    obtain ⟨h1, h2⟩ := ih (if lab t = some a then some t else acc)
    constructor
    · intro d hd
      rcases h1 d hd with h | h
      · exact .inl ⟨by simp [h.1], h.2⟩
      · split at h
        · next hl => simp at h; subst h; exact .inl ⟨by simp, hl⟩
        · exact .inr h
    · rw [h2]
      by_cases hl : lab t = some a
      · simp [hl]
      · simp [hl]

theorem transMap_some {e : Env P T A} {a : A} {d : T} (h : transMap e a = some d) : d ∈ e.net.transitions ∧ e.lab d = some a := by
  rcases (transMap_aux e.lab a e.net.transitions none).1 d h with h | h
  · exact h
  · cases h

theorem transMap_none {e : Env P T A} {a : A} : transMap e a = none ↔ ¬ ∃ t ∈ e.net.transitions, e.lab t = some a := by
  have := (transMap_aux e.lab a e.net.transitions none).2
  unfold transMap
  rw [this]
  simp

theorem choose_spec {e : Env P T A} {m : Marking P} {a : A} {d : T} (h : transMap e a = some d) :
    choose e m a d ∈ e.net.transitions ∧ e.lab (choose e m a d) = some a ∧
      ((∃ t, e.net.isEnabled t m = true ∧ e.lab t = some a) → e.net.isEnabled (choose e m a d) m = true) := by
  unfold choose
  have hd := transMap_some h
  cases hl : (e.net.enabledTransitions m).filter fun t => decide (e.lab t = some a) with
  | nil =>
    refine ⟨hd.1, hd.2, ?_⟩
    rintro ⟨t, h1, h2⟩
    have : t ∈ (e.net.enabledTransitions m).filter fun t => decide (e.lab t = some a) := by
      rw [List.mem_filter]
      exact ⟨List.mem_filter.2 ⟨((Net.isEnabled_iff _ _ _).1 h1).1, h1⟩, by simp [h2]⟩
    rw [hl] at this; cases this
  | cons t ts =>
    have : t ∈ (e.net.enabledTransitions m).filter fun t => decide (e.lab t = some a) := by rw [hl]; simp
    rw [List.mem_filter] at this
    obtain ⟨h1, h2⟩ := this
    have h1 := List.mem_filter.1 h1
    exact ⟨h1.1, by simpa using h2, fun _ => h1.2⟩

/-- Invariant after the events `w`. -/
structure Inv (e : Env P T A) (w : List A) (s : RState P T A) : Prop where
  nodup : (keys s.marking).Nodup
  pos : Pos s.marking
  account : ∃ added, tokens s.marking + s.consumed = s.produced + added ∧
    s.missing ≤ added + (if s.stopped then 1 else 0) ∧ 0 ≤ added ∧ added ≤ s.consumed ∧
    (UnitArcs e.net → s.missing = added + (if s.stopped then 1 else 0))
  nonneg : 0 ≤ s.missing
  stop : s.stopped = true → e.stopUnfit = true ∧ 1 ≤ s.missing
  labels : s.stopped = false → s.act.filterMap e.lab = modelPart e.net e.lab w
  run : s.missing = 0 → e.net.FiringSequence e.im s.act s.marking
  problems : s.problems = [] ↔ s.missing = 0
  act : ∀ t ∈ s.act, t ∈ e.net.transitions

theorem Inv.ext {e : Env P T A} (he : Proper e) {w : List A} {s s' : RState P T A} (h : Inv e w s) (hx : RExt e s s') : Inv e w s' := by
  obtain ⟨new, ha, hf, hp, hc, hpr, hm, hb, _, hst⟩ := hx
  obtain ⟨hn, htk⟩ := fseq_tokens hf h.nodup
  obtain ⟨ad, a1, a2, a3, a4, a5⟩ := h.account
  have hcn : 0 ≤ (new.map (consumedTokens e.net)).sum := by
    apply sum_nonneg'
    intro t ht
    rw [consumedTokens_eq]
    apply sum_nonneg'
    intro a haa
    have := he.simple.inPos t (fseq_mem hf t ht) a haa
    omega
  refine ⟨hn, fseq_pos he.simple hf h.pos, ⟨ad, by omega, ?_, a3, by omega, ?_⟩, by rw [hm]; exact h.nonneg, ?_, ?_, ?_, ?_, ?_⟩
  · rw [hm, hst]; exact a2
  · rw [hm, hst]; exact a5
  · rw [hm, hst]; exact h.stop
  · intro hs
    rw [ha, List.filterMap_append, h.labels (by rw [← hst]; exact hs)]
    have : new.filterMap e.lab = [] := by
      rw [List.filterMap_eq_nil_iff]
      intro t ht
      obtain ⟨p1, p2, l, hl, htl⟩ := hp t ht
      exact he.hidden p1 p2 l hl t htl
    rw [this, List.append_nil]
  · intro hz
    rw [ha]
    exact fseq_append (h.run (by rw [← hm]; exact hz)) hf
  · rw [hb, hm]; exact h.problems
  · intro t ht
    rw [ha] at ht
    rcases List.mem_append.1 ht with h' | h'
    · exact h.act t h'
    · exact fseq_mem hf t h'

theorem Inv.init {e : Env P T A} (he : Proper e) (ne : List A) : Inv e [] (initState e ne) where
  nodup := he.imNodup
  pos := he.imPos
  account := ⟨0, by simp [initState], by simp [initState], by simp, by simp [initState], by simp [initState]⟩
  nonneg := by simp [initState]
  stop := by simp [initState]
  labels := by simp [initState, modelPart]
  run := fun _ => fseq_nil _ _
  problems := by simp [initState]
  act := by simp [initState]

theorem modelPart_snoc (net : Net P T) (lab : T → Option A) (w : List A) (a : A) :
    modelPart net lab (w ++ [a]) = modelPart net lab w ++ (if ∃ t ∈ net.transitions, lab t = some a then [a] else []) := by
  unfold modelPart
  rw [List.filter_append]
  congr 1
  simp [List.filter_cons]

theorem consumedTokens_nonneg {e : Env P T A} (he : Proper e) {t : T} (ht : t ∈ e.net.transitions) : 0 ≤ consumedTokens e.net t := by
  rw [consumedTokens_eq]
  apply sum_nonneg'
  intro a haa
  have := he.simple.inPos t ht a haa
  omega

theorem Inv.fireEvent {e : Env P T A} (he : Proper e) {w : List A} {s : RState P T A} (h : Inv e w s) (hns : s.stopped = false) {t : T}
    (ht : t ∈ e.net.transitions) {a : A} (hl : e.lab t = some a) : Inv e (w ++ [a]) (fireEvent e t s) := by
  have hmp : modelPart e.net e.lab (w ++ [a]) = modelPart e.net e.lab w ++ [a] := by
    rw [modelPart_snoc, if_pos ⟨t, ht, hl⟩]
  have hcn := consumedTokens_nonneg he ht
  obtain ⟨ad, a1, a2, a3, a4, a5⟩ := h.account
  unfold Replay.fireEvent
  split
  · next hen =>
    have hex := execute_of_enabled hen
    obtain ⟨hn, htk⟩ := execute_tokens h.nodup hex
    refine ⟨hn, Net.execute_pos he.simple h.pos hex, ⟨ad, ?_, a2, a3, ?_, a5⟩, h.nonneg, h.stop, ?_, ?_, h.problems, ?_⟩
    · simp only [RState.fire]; omega
    · simp only [RState.fire]; omega
    · intro hs
      simp only [RState.fire, List.filterMap_append, h.labels hns, hmp]
      simp [hl]
    · intro hz
      exact fseq_append (h.run hz) (fseq_single hex)
    · intro u hu
      simp only [RState.fire, List.mem_append, List.mem_singleton] at hu
      rcases hu with hu | rfl
      · exact h.act u hu
      · exact ht
  · next hen =>
    simp only
    split
    · next hst =>
      refine ⟨h.nodup, h.pos, ⟨ad, a1, ?_, a3, a4, ?_⟩, ?_, ?_, ?_, ?_, ?_, h.act⟩
      · simp only [hns] at a2; simp at a2 ⊢; omega
      · simp only [hns] at a5; simp at a5 ⊢; exact fun hu => by have := a5 hu; omega
      · have := h.nonneg; simp only; omega
      · intro _; refine ⟨hst, ?_⟩; have := h.nonneg; simp only; omega
      · simp
      · have := h.nonneg; simp only; intro hz; omega
      · have := h.nonneg; simp; omega
    · have hna : ∃ b ∈ e.net.inArcs t, count s.marking b.1 < b.2 := by
        rw [Net.isEnabled_iff] at hen
        have : ¬ ∀ b ∈ e.net.inArcs t, ¬ count s.marking b.1 < b.2 := by
          intro hh; exact hen ⟨ht, by simpa using hh⟩
        simpa using this
      have hadd := foldl_addArc (e.net.inArcs t) (he.simple.inPos t ht) 0 s.marking h.nodup h.pos
      rw [← addMissing_eq] at hadd
      obtain ⟨i1, i2, i3, i4, i5, i6, i6b, i7, i8, i9⟩ := hadd
      have i5 := i5 (he.simple.noParallel t ht)
      have i6 := i6 hna
      have hen2 : e.net.isEnabled t (addMissing e.net t s.marking).2 = true := by
        rw [Net.isEnabled_iff]
        refine ⟨ht, ?_⟩
        intro b hb
        have := i5 b hb
        omega
      simp only [hen2, if_true]
      have hex := execute_of_enabled hen2
      obtain ⟨hn, htk⟩ := execute_tokens i1 hex
      rw [← consumedTokens_eq] at i8
      simp only [hns] at a2 a5
      refine ⟨hn, Net.execute_pos he.simple i2 hex,
        ⟨ad + (tokens (addMissing e.net t s.marking).2 - tokens s.marking), ?_, ?_, ?_, ?_, ?_⟩, ?_, ?_, ?_, ?_, ?_, ?_⟩
      · simp only; omega
      · simp only [hns]; simp at a2 ⊢; omega
      · omega
      · simp only; omega
      · intro hu
        have := i9 (hu t ht).1
        have := a5 hu
        simp only [hns]; simp at this ⊢; omega
      · have := h.nonneg; simp only; omega
      · simp only [hns]; simp
      · intro _
        simp only [List.filterMap_append, h.labels hns, hmp]
        simp [hl]
      · have := h.nonneg; simp only; intro hz; omega
      · have := h.nonneg; simp; omega
      · intro u hu
        simp only [List.mem_append, List.mem_singleton] at hu
        rcases hu with hu | rfl
        · exact h.act u hu
        · exact ht

theorem Inv.event {e : Env P T A} (he : Proper e) {w : List A} {s : RState P T A} (h : Inv e w s) (a : A) :
    Inv e (w ++ [a]) (event e s a) := by
  unfold Replay.event
  split
  · next hst => exact ⟨h.nodup, h.pos, h.account, h.nonneg, h.stop, by simp [hst], h.run, h.problems, h.act⟩
  · next hst =>
    have hst : s.stopped = false := by simpa using hst
    cases hm : transMap e a with
    | none =>
      have := transMap_none.1 hm
      refine ⟨h.nodup, h.pos, h.account, h.nonneg, h.stop, ?_, h.run, h.problems, h.act⟩
      intro hs
      rw [modelPart_snoc, if_neg this, List.append_nil]
      exact h.labels hst
    | some d =>
      simp only
      have hc := choose_spec (m := s.marking) hm
      have hw := walk_ext e (choose e s.marking a d) s
      have h' := h.ext he hw
      obtain ⟨_, _, _, _, _, _, _, _, _, hs'⟩ := hw
      exact h'.fireEvent he (by rw [hs']; exact hst) hc.1 hc.2.1

theorem Inv.events {e : Env P T A} (he : Proper e) (ne : List A) (w : List A) : Inv e w (w.foldl (Replay.event e) (initState e ne)) := by
  induction w using snocInduct with
  | nil => exact Inv.init he ne
  | snoc w a ih => rw [List.foldl_append]; exact ih.event he a

theorem Inv.replayed {e : Env P T A} (he : Proper e) (ne : List A) (w : List A) : Inv e w (Replay.replayed e ne w) :=
  (Inv.events he ne w).ext he (final_ext e _)

end Replay
end Verif
