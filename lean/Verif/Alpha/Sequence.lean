import Verif.Alpha.Theorems
set_option linter.unusedSectionVars false
/-
C45: behaviour of the mined net, where it is known: logs with one variant without repetition; and where it fails.
-/
namespace Verif.Alpha
variable {α : Type} [DecidableEq α]

theorem execute_single {P : Type} [DecidableEq P] {net : Net P α} {a : α} {p p' : P} (ht : a ∈ net.transitions)
    (hi : net.inArcs a = [(p, 1)]) (ho : net.outArcs a = [(p', 1)]) (q : P) :
    net.execute a [(q, 1)] = if p = q then some [(p', 1)] else none := by
  unfold Net.execute Net.isEnabled
  rw [hi, ho]
  by_cases h : p = q
  · subst h
    simp [ht, Dict.count, Dict.get?, Net.consume, Net.produce, Dict.set, Dict.del]
  · have h' : ¬ q = p := fun h' => h h'.symm
    simp [ht, h, h', Dict.count, Dict.get?]

theorem arcs_nodup (log : List (List α)) (a : α) : ((alphaLog log).inArcs a).Nodup ∧ ((alphaLog log).outArcs a).Nodup := by
  have hk : (Dict.keys (Dfg.native 1 false log)).Nodup := by unfold Dfg.native; exact Counter.nodup_ofList _
  have h1 : (internalPlaces (Foot.parallelOf (Dfg.native 1 false log)) (Foot.causalAlpha (Dfg.native 1 false log))).Nodup :=
    List.Nodup.filter _ (run_nodup _ _ (hk.filter _) _)
  unfold alphaLog
  rw [native_filter]
  constructor
  · show ((if a ∈ Dfg.startActs log then [(APl.source, (1 : Int))] else []) ++ List.map _ (List.filter _ _)).Nodup
    rw [List.nodup_append]
    refine ⟨by split <;> simp, (h1.filter _).map (fun a b h => by simpa using h), ?_⟩
    intro x hx y hy
    obtain ⟨p, _, rfl⟩ := List.mem_map.1 hy
    split at hx <;> simp at hx
    subst hx; simp
  · show ((if a ∈ Dfg.endActs log then [(APl.sink, (1 : Int))] else []) ++ List.map _ (List.filter _ _)).Nodup
    rw [List.nodup_append]
    refine ⟨by split <;> simp, (h1.filter _).map (fun a b h => by simpa using h), ?_⟩
    intro x hx y hy
    obtain ⟨p, _, rfl⟩ := List.mem_map.1 hy
    split at hx <;> simp at hx
    subst hx; simp

theorem eq_singleton_of {β : Type} {l : List β} {x : β} (h : l.Nodup) (hm : ∀ y, y ∈ l ↔ y = x) : l = [x] := by
  cases l with
  | nil => exact absurd ((hm x).2 rfl) (by simp)
  | cons y l =>
    have hy := (hm y).1 (by simp)
    subst hy
    cases l with
    | nil => rfl
    | cons z l =>
      have hz := (hm z).1 (by simp)
      subst hz
      simp at h

section
variable {t : List α}

theorem follows_single (a b : α) : Follows [t] a b ↔ ∃ i : Nat, t[i]? = some a ∧ t[i + 1]? = some b := by
  unfold Follows; simp

theorem idx_inj (hn : t.Nodup) {i j : Nat} {a : α} (hi : t[i]? = some a) (hj : t[j]? = some a) : i = j := by
  have h1 := (List.getElem?_eq_some_iff.1 hi).1
  exact (List.getElem?_inj h1 hn).1 (hi.trans hj.symm)

theorem maximal_single (hn : t.Nodup) (p : PairOf α) :
    Maximal' (Follows [t]) p ↔ ∃ (i : Nat) (a b : α), t[i]? = some a ∧ t[i + 1]? = some b ∧ p = ({a}, {b}) := by
  have key : ∀ p : PairOf α, Candidate (Follows [t]) p → ∃ (i : Nat) (a b : α), t[i]? = some a ∧ t[i + 1]? = some b ∧ p = ({a}, {b}) := by
    intro p hc
    obtain ⟨a, ha⟩ := hc.left
    obtain ⟨b, hb⟩ := hc.right
    obtain ⟨i, h1, h2⟩ := (follows_single a b).1 (hc.causal a ha b hb).1
    refine ⟨i, a, b, h1, h2, ?_⟩
    ext x
    · simp only [Finset.mem_singleton]
      constructor
      · intro hx
        obtain ⟨j, h3, h4⟩ := (follows_single x b).1 (hc.causal x hx b hb).1
        have := idx_inj hn h2 h4
        have : i = j := by omega
        subst this
        rw [h1] at h3; exact (Option.some.inj h3).symm
      · rintro rfl; exact ha
    · simp only [Finset.mem_singleton]
      constructor
      · intro hx
        obtain ⟨j, h3, h4⟩ := (follows_single a x).1 (hc.causal a ha x hx).1
        have := idx_inj hn h1 h3
        subst this
        rw [h2] at h4; exact (Option.some.inj h4).symm
      · rintro rfl; exact hb
  constructor
  · intro h; exact key p h.1
  · rintro ⟨i, a, b, h1, h2, rfl⟩
    have hself : ∀ x, ¬ Follows [t] x x := by
      intro x h
      obtain ⟨j, h3, h4⟩ := (follows_single x x).1 h
      have := idx_inj hn h3 h4
      omega
    refine ⟨⟨by simp, by simp, ?_, by simpa using hself a, by simpa using hself b⟩, ?_⟩
    · intro x hx y hy
      simp at hx hy
      subst hx; subst hy
      refine ⟨(follows_single _ _).2 ⟨i, h1, h2⟩, fun h => ?_⟩
      obtain ⟨j, h3, h4⟩ := (follows_single _ _).1 h
      have e1 := idx_inj hn h2 h3
      have e2 := idx_inj hn h1 h4
      omega
    · intro q hq hs1 hs2
      obtain ⟨j, c, d, _, _, rfl⟩ := key q hq
      simp at hs1 hs2
      rw [hs1, hs2]

/-- The place before the activity at a position. -/
def line (t : List α) (i : Nat) : APl α :=
  if i = t.length then .sink
  else match i with
    | 0 => .source
    | i + 1 => match t[i]?, t[i + 1]? with
      | some a, some b => .pair ({a}, {b})
      | _, _ => .source

theorem line_succ {i : Nat} {a b : α} (ha : t[i]? = some a) (hb : t[i + 1]? = some b) : line t (i + 1) = .pair ({a}, {b}) := by
  have := (List.getElem?_eq_some_iff.1 hb).1
  unfold line
  rw [if_neg (by omega)]
  simp only [ha, hb]

theorem arcs_line (hn : t.Nodup) {i : Nat} {a : α} (ha : t[i]? = some a) :
    (alphaLog [t]).inArcs a = [(line t i, 1)] ∧ (alphaLog [t]).outArcs a = [(line t (i + 1), 1)] := by
  have hl := (List.getElem?_eq_some_iff.1 ha).1
  constructor
  · refine eq_singleton_of (arcs_nodup [t] a).1 ?_
    rintro ⟨x, n⟩
    rw [(C45_arcs [t] a x n).1]
    simp only [maximal_single hn, List.mem_singleton, exists_eq_left, Prod.mk.injEq]
    rw [and_comm]
    refine and_congr_left fun _ => ?_
    cases i with
    | zero =>
      have hs : line t 0 = .source := by unfold line; rw [if_neg (by omega)]
      rw [hs]
      constructor
      · rintro (h | ⟨p, rfl, ⟨j, c, d, h1, h2, rfl⟩, h3⟩)
        · exact h.1
        · simp at h3; subst h3
          have := idx_inj hn ha h2; omega
      · rintro rfl
        exact .inl ⟨rfl, by rw [List.head?_eq_getElem?]; exact ha⟩
    | succ i =>
      have hb : t[i]? = some t[i] := by simp [show i < t.length by omega]
      rw [line_succ hb ha]
      constructor
      · rintro (⟨_, h⟩ | ⟨p, rfl, ⟨j, c, d, h1, h2, rfl⟩, h3⟩)
        · rw [List.head?_eq_getElem?] at h
          have := idx_inj hn ha h; omega
        · simp at h3; subst h3
          have e := idx_inj hn ha h2
          have e : i = j := by omega
          subst e
          rw [hb] at h1; cases h1; rfl
      · rintro rfl
        exact .inr ⟨_, rfl, ⟨i, _, _, hb, ha, rfl⟩, by simp⟩
  · refine eq_singleton_of (arcs_nodup [t] a).2 ?_
    rintro ⟨x, n⟩
    rw [(C45_arcs [t] a x n).2]
    simp only [maximal_single hn, List.mem_singleton, exists_eq_left, Prod.mk.injEq]
    rw [and_comm]
    refine and_congr_left fun _ => ?_
    by_cases hlast : i + 1 = t.length
    · have hs : line t (i + 1) = .sink := by unfold line; rw [if_pos hlast]
      rw [hs]
      constructor
      · rintro (h | ⟨p, rfl, ⟨j, c, d, h1, h2, rfl⟩, h3⟩)
        · exact h.1
        · simp at h3; subst h3
          have := idx_inj hn ha h1
          have := (List.getElem?_eq_some_iff.1 h2).1
          omega
      · rintro rfl
        refine .inl ⟨rfl, ?_⟩
        rw [List.getLast?_eq_getElem?, show t.length - 1 = i by omega]; exact ha
    · have hb : t[i + 1]? = some t[i + 1] := by simp [show i + 1 < t.length by omega]
      rw [line_succ ha hb]
      constructor
      · rintro (⟨_, h⟩ | ⟨p, rfl, ⟨j, c, d, h1, h2, rfl⟩, h3⟩)
        · rw [List.getLast?_eq_getElem?] at h
          have := idx_inj hn ha h; omega
        · simp at h3; subst h3
          have e := idx_inj hn ha h1
          subst e
          rw [hb] at h2; cases h2; rfl
      · rintro rfl
        exact .inr ⟨_, rfl, ⟨i, _, _, ha, hb, rfl⟩, by simp⟩

theorem line_inj (hn : t.Nodup) {i j : Nat} (hi : i ≤ t.length) (hj : j ≤ t.length) (h : line t i = line t j) : i = j := by
  have form : ∀ i, i ≤ t.length → (i = t.length ∧ line t i = .sink) ∨ (i = 0 ∧ 0 < t.length ∧ line t i = .source) ∨
      ∃ (k : Nat) (a b : α), i = k + 1 ∧ t[k]? = some a ∧ t[k + 1]? = some b ∧ line t i = .pair ({a}, {b}) := by
    intro i hi
    by_cases h : i = t.length
    · left; exact ⟨h, by unfold line; rw [if_pos h]⟩
    · right
      cases i with
      | zero => left; exact ⟨rfl, by omega, by unfold line; rw [if_neg h]⟩
      | succ k =>
        right
        have h1 : t[k]? = some t[k] := by simp [show k < t.length by omega]
        have h2 : t[k + 1]? = some t[k + 1] := by simp [show k + 1 < t.length by omega]
        exact ⟨k, _, _, rfl, h1, h2, line_succ h1 h2⟩
  rcases form i hi with ⟨h1, h2⟩ | ⟨h1, _, h2⟩ | ⟨k, a, b, h1, h3, h4, h2⟩ <;>
    rcases form j hj with ⟨g1, g2⟩ | ⟨g1, _, g2⟩ | ⟨k', c, d, g1, g3, g4, g2⟩ <;> rw [h2, g2] at h <;>
    first
    | omega
    | (cases h; done)
    | skip
  simp at h
  rw [← h.1] at g3
  have := idx_inj hn h3 g3
  omega

theorem runs_line (hn : t.Nodup) (ts : List α) (i : Nat) (hi : i ≤ t.length) (m : Marking (APl α)) :
    (alphaLog [t]).FiringSequence [(line t i, 1)] ts m ↔ ∃ k, i + ts.length = k ∧ k ≤ t.length ∧ ts = (t.drop i).take ts.length ∧
      m = [(line t k, 1)] := by
  unfold Net.FiringSequence
  induction ts generalizing i with
  | nil =>
    simp only [List.foldlM_nil, Option.pure_def, Option.some.injEq]
    constructor
    · rintro rfl; exact ⟨i, by simp, hi, by simp, rfl⟩
    · rintro ⟨k, rfl, _, _, rfl⟩; rfl
  | cons x ts ih =>
    rw [List.foldlM_cons]
    by_cases hx : x ∈ t
    · obtain ⟨j, hj⟩ := List.mem_iff_getElem?.1 hx
      have hjl := (List.getElem?_eq_some_iff.1 hj).1
      have htr : x ∈ (alphaLog [t]).transitions := ((C45_transitions [t]).2 x).2 ⟨t, by simp, hx⟩
      rw [execute_single htr (arcs_line hn hj).1 (arcs_line hn hj).2]
      by_cases hij : i = j
      · subst hij
        rw [if_pos rfl]
        show List.foldlM _ [(line t (i + 1), 1)] ts = some m ↔ _
        rw [ih (i + 1) (by omega)]
        have hd : t.drop i = x :: t.drop (i + 1) := by
          rw [List.drop_eq_getElem_cons hjl]
          rw [List.getElem?_eq_getElem hjl] at hj
          rw [Option.some.inj hj]
        constructor
        · rintro ⟨k, h1, h2, h3, h4⟩
          refine ⟨k, by simp; omega, h2, ?_, h4⟩
          rw [hd, List.length_cons, List.take_succ_cons, ← h3]
        · rintro ⟨k, h1, h2, h3, h4⟩
          refine ⟨k, by simp at h1; omega, h2, ?_, h4⟩
          rw [hd, List.length_cons, List.take_succ_cons] at h3
          exact (List.cons.inj h3).2
      · rw [if_neg (fun h => hij (line_inj hn hi (by omega) h.symm))]
        constructor
        · intro h; cases h
        · rintro ⟨k, h1, h2, h3, h4⟩
          exfalso
          have h0 : (x :: ts)[0]? = some x := rfl
          rw [h3] at h0
          simp [List.getElem?_take, List.getElem?_drop] at h0
          exact hij (idx_inj hn h0 hj)
    · have : (alphaLog [t]).execute x [(line t i, 1)] = none := by
        unfold Net.execute Net.isEnabled
        have : x ∉ (alphaLog [t]).transitions := fun h => hx (by
          obtain ⟨t', ht', h⟩ := ((C45_transitions [t]).2 x).1 h
          simp at ht'; subst ht'; assumption)
        simp [this]
      rw [this]
      constructor
      · intro h; cases h
      · rintro ⟨k, h1, h2, h3, h4⟩
        exfalso
        have h0 : x ∈ x :: ts := by simp
        rw [h3] at h0
        exact hx (List.mem_of_mem_drop (List.mem_of_mem_take h0))

/-- **C45.** From a log with a single variant, in which no activity occurs twice, the miner discovers a net that accepts
exactly this variant. -/
theorem _root_.Verif.C45_sequence (t : List α) (hn : t.Nodup) (hne : t ≠ []) (w : List α) :
    (alphaLog [t]).Accepts (fun a => some a) [(.source, 1)] [(.sink, 1)] w ↔ w = t := by
  have hl : 0 < t.length := List.length_pos_iff.2 hne
  have h0 : (APl.source : APl α) = line t 0 := by unfold line; rw [if_neg (by omega)]
  have h1 : (APl.sink : APl α) = line t t.length := by unfold line; rw [if_pos rfl]
  unfold Net.Accepts
  rw [h0, h1]
  constructor
  · rintro ⟨ts, m, hf, he, rfl⟩
    obtain ⟨k, rfl, hk, h2, rfl⟩ := (runs_line hn ts 0 (by omega) m).1 hf
    rw [DfgNet.eq_single] at he
    have := line_inj hn hk (Nat.le_refl _) he
    rw [List.filterMap_some, h2]
    simp only [List.drop_zero]
    rw [List.take_of_length_le (by omega)]
  · rintro rfl
    exact ⟨w, _, (runs_line hn w 0 (by omega) _).2 ⟨w.length, by simp, Nat.le_refl _, by simp, rfl⟩, by rw [DfgNet.eq_single], by simp⟩

end

/-- **C45, refuted.** "The mined net can replay every trace of the log" fails: an activity that directly follows itself. -/
theorem _root_.Verif.C45_replay_refuted :
    ¬ ∀ (log : List (List Nat)) (t : List Nat), t ∈ log → t ≠ [] →
      (alphaLog log).Accepts (fun a => some a) [(.source, 1)] [(.sink, 1)] t := by
  intro H
  obtain ⟨ts, m, hf, _, hw⟩ := H [[0, 0]] [0, 0] (by simp) (by simp)
  rw [List.filterMap_some] at hw
  subst hw
  unfold Net.FiringSequence at hf
  have hfo : ∀ a b, Follows [[0, 0]] a b ↔ a = 0 ∧ b = 0 := by
    intro a b
    rw [follows_single]
    constructor
    · rintro ⟨i, h1, h2⟩
      rcases i with _ | i
      · simp at h1 h2; omega
      · simp at h2
    · rintro ⟨rfl, rfl⟩; exact ⟨0, rfl, rfl⟩
  have hno : ∀ p, ¬ Maximal' (Follows [[0, 0]]) p := by
    intro p h
    obtain ⟨a, ha⟩ := h.1.left
    obtain ⟨b, hb⟩ := h.1.right
    have := h.1.causal a ha b hb
    simp only [hfo] at this
    omega
  have hi : (alphaLog [[0, 0]]).inArcs 0 = [(.source, 1)] := by
    refine eq_singleton_of (arcs_nodup _ _).1 ?_
    rintro ⟨x, n⟩
    rw [(C45_arcs _ 0 x n).1]
    simp [hno, and_comm]
  have ho : (alphaLog [[0, 0]]).outArcs 0 = [(.sink, 1)] := by
    refine eq_singleton_of (arcs_nodup _ _).2 ?_
    rintro ⟨x, n⟩
    rw [(C45_arcs _ 0 x n).2]
    simp [hno, and_comm]
  have htr : 0 ∈ (alphaLog [[0, 0]]).transitions := ((C45_transitions _).2 0).2 ⟨[0, 0], by simp, by simp⟩
  simp only [List.foldlM_cons, execute_single htr hi ho] at hf
  simp [execute_single htr hi ho] at hf

end Verif.Alpha
