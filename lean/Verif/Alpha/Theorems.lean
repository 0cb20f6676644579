import Verif.Alpha.Proofs
import Verif.DfgNet.Theorems
import Verif.Footprints.Theorems
set_option linter.unusedSectionVars false
/-
C45: the Alpha Miner computes the net of the Alpha algorithm.
-/
namespace Verif.Alpha
variable {α : Type} [DecidableEq α]

theorem has_iff (d : Dict (α × α) Int) (k : α × α) : Dict.has d k = true ↔ k ∈ Dict.keys d := by
  rw [Dict.mem_keys_iff]; rfl

/-- For positive values the two relations are those of the keys. -/
theorem rel_of_pos (dfg : Dict (α × α) Int) (hk : (Dict.keys dfg).Nodup) (hp : ∀ e ∈ dfg, 0 < e.2) :
    Rel (fun a b => (a, b) ∈ Dict.keys dfg) (Foot.parallelOf dfg) (Foot.causalAlpha dfg) := by
  have hpos : ∀ k, k ∈ Dict.keys dfg → 0 < Dict.count dfg k := by
    intro k h
    obtain ⟨⟨k', v⟩, he, rfl⟩ := List.mem_map.1 h
    unfold Dict.count
    rw [Dict.get?_of_mem_nodup hk he]
    exact hp _ he
  constructor
  · intro a b
    unfold Foot.parallelOf
    rw [List.mem_filter, has_iff]
  · intro a b
    unfold Foot.causalAlpha
    rw [List.mem_filter]
    refine and_congr_right fun h => ?_
    simp only [Bool.and_eq_true, decide_eq_true_eq, Bool.or_eq_true, Bool.not_eq_true', hpos _ h, true_and]
    rw [← Bool.not_eq_true, has_iff]
    constructor
    · rintro (h | h) hh
      · exact h hh
      · have := hpos _ hh; omega
    · exact .inl

theorem mem_labels (dfg : List (α × α)) (starts ends : List α) (a : α) :
    (a ∈ labels dfg starts ends ↔ (∃ e ∈ dfg, e.1 = a ∨ e.2 = a) ∨ a ∈ starts ∨ a ∈ ends) ∧ (labels dfg starts ends).Nodup := by
  have key : ∀ (l s : List α), s.Nodup → (a ∈ l.foldl (fun s a => if a ∈ s then s else s ++ [a]) s ↔ a ∈ s ∨ a ∈ l) ∧
      (l.foldl (fun s a => if a ∈ s then s else s ++ [a]) s).Nodup := by
    intro l
    induction l with
    | nil => intro s hs; simpa using hs
    | cons x l ih =>
      intro s hs
      rw [List.foldl_cons]
      by_cases h : x ∈ s
      · rw [if_pos h]
        refine ⟨(ih s hs).1.trans ?_, (ih s hs).2⟩
        constructor
        · rintro (h | h) <;> simp [h]
        · rintro (h' | h')
          · exact .inl h'
          · rcases List.mem_cons.1 h' with rfl | h'
            · exact .inl h
            · exact .inr h'
      · rw [if_neg h]
        have hs' : (s ++ [x]).Nodup := by
          rw [List.nodup_append]
          refine ⟨hs, by simp, ?_⟩
          intro y hy z hz
          simp at hz; subst hz
          rintro rfl; exact h hy
        refine ⟨(ih _ hs').1.trans ?_, (ih _ hs').2⟩
        simp [or_assoc]
  unfold labels
  refine ⟨(key _ [] (by simp)).1.trans ?_, (key _ [] (by simp)).2⟩
  simp only [List.not_mem_nil, false_or, List.mem_append, List.mem_flatMap, or_assoc]
  refine or_congr ?_ Iff.rfl
  constructor <;> rintro ⟨e, he, h⟩ <;> refine ⟨e, he, ?_⟩ <;> simpa [eq_comm] using h

theorem labels_nodup (dfg : List (α × α)) (starts ends : List α) : (labels dfg starts ends).Nodup := by
  cases h : labels dfg starts ends with
  | nil => simp
  | cons a l => rw [← h]; exact (mem_labels dfg starts ends a).2

theorem native_filter (log : List (List α)) :
    (Dfg.native 1 false log).filter (fun x => decide (0 < x.2)) = Dfg.native 1 false log := by
  rw [List.filter_eq_self]
  rintro ⟨k, v⟩ h
  have hk : (Dict.keys (Dfg.native 1 false log)).Nodup := by unfold Dfg.native; exact Counter.nodup_ofList _
  have h1 := Foot.count_native_pos log k (List.mem_map.2 ⟨_, h, rfl⟩)
  unfold Dict.count at h1
  rw [Dict.get?_of_mem_nodup hk h] at h1
  simpa using h1

theorem rel_log (log : List (List α)) : Rel (Follows log) (Foot.parallelOf (Dfg.native 1 false log)) (Foot.causalAlpha (Dfg.native 1 false log)) := by
  have hk : (Dict.keys (Dfg.native 1 false log)).Nodup := by unfold Dfg.native; exact Counter.nodup_ofList _
  have := rel_of_pos (Dfg.native 1 false log) hk (by
    rintro ⟨k, v⟩ h
    have h1 := Foot.count_native_pos log k (List.mem_map.2 ⟨_, h, rfl⟩)
    unfold Dict.count at h1
    rw [Dict.get?_of_mem_nodup hk h] at h1
    exact h1)
  constructor
  · intro a b
    rw [this.par]
    unfold Follows
    simp only [DfgNet.keys_native]
  · intro a b
    rw [this.causal]
    unfold Follows
    simp only [DfgNet.keys_native]

theorem places_nodup (dfg : Dict (α × α) Int) (hk : (Dict.keys dfg).Nodup) (starts ends : List α) :
    (alphaNet dfg starts ends).places.Nodup := by
  have h1 : (internalPlaces (Foot.parallelOf dfg) (Foot.causalAlpha dfg)).Nodup :=
    List.Nodup.filter _ (run_nodup _ _ (hk.filter _) _)
  show ([APl.source, APl.sink] ++ _).Nodup
  rw [List.nodup_append]
  refine ⟨by simp, h1.map (fun a b h => by simpa using h), ?_⟩
  intro a ha b hb
  obtain ⟨p, _, rfl⟩ := List.mem_map.1 hb
  simp at ha
  rcases ha with rfl | rfl <;> simp

/-- **C45.** The places of the net mined from a log are a source, a sink and exactly the maximal pairs of the Alpha
algorithm, each once. -/
theorem _root_.Verif.C45_places (log : List (List α)) :
    (alphaLog log).places.Nodup ∧
    ∀ x, x ∈ (alphaLog log).places ↔ x = .source ∨ x = .sink ∨ ∃ p, Maximal' (Follows log) p ∧ x = .pair p := by
  unfold alphaLog
  rw [native_filter]
  refine ⟨places_nodup _ (by unfold Dfg.native; exact Counter.nodup_ofList _) _ _, ?_⟩
  intro x
  show x ∈ [APl.source, APl.sink] ++ _ ↔ _
  rw [List.mem_append, List.mem_map]
  simp only [mem_internal (rel_log log), List.mem_cons, List.not_mem_nil, or_false, or_assoc, eq_comm (a := x)]

/-- **C45.** The transitions are exactly the activities of the log, each once. -/
theorem _root_.Verif.C45_transitions (log : List (List α)) :
    (alphaLog log).transitions.Nodup ∧ ∀ a, a ∈ (alphaLog log).transitions ↔ ∃ t ∈ log, a ∈ t := by
  unfold alphaLog
  rw [native_filter]
  refine ⟨labels_nodup _ _ _, ?_⟩
  · intro a
    show a ∈ labels _ _ _ ↔ _
    rw [(mem_labels _ _ _ a).1]
    simp only [DfgNet.keys_native]
    constructor
    · rintro (⟨e, ⟨t, ht, i, h1, h2⟩, h⟩ | h | h)
      · rcases h with rfl | rfl
        · exact ⟨t, ht, List.mem_of_getElem? h1⟩
        · exact ⟨t, ht, List.mem_of_getElem? h2⟩
      · obtain ⟨t, ht, h⟩ := List.mem_filterMap.1 h
        exact ⟨t, ht, List.mem_of_getElem? h⟩
      · obtain ⟨t, ht, h⟩ := List.mem_filterMap.1 h
        exact ⟨t, (List.mem_filter.1 ht).1, List.mem_of_getElem? h⟩
    · rintro ⟨t, ht, ha⟩
      obtain ⟨i, hi⟩ := List.mem_iff_getElem?.1 ha
      cases i with
      | zero => exact .inr (.inl (List.mem_filterMap.2 ⟨t, ht, hi⟩))
      | succ i =>
        have hl : i < t.length := by
          have := (List.getElem?_eq_some_iff.1 hi).1; omega
        exact .inl ⟨(t[i], a), ⟨t, ht, i, by simp [hl], hi⟩, .inr rfl⟩

/-- **C45.** The arcs: from the source to the activities that start a trace, from a place `(A, B)` to the activities of `B`;
from the activities of `A` to `(A, B)`, from the activities that end a trace to the sink; all with weight 1. -/
theorem _root_.Verif.C45_arcs (log : List (List α)) (a : α) (x : APl α) (n : Int) :
    ((x, n) ∈ (alphaLog log).inArcs a ↔ n = 1 ∧
      ((x = .source ∧ ∃ t ∈ log, t.head? = some a) ∨ ∃ p, x = .pair p ∧ Maximal' (Follows log) p ∧ a ∈ p.2)) ∧
    ((x, n) ∈ (alphaLog log).outArcs a ↔ n = 1 ∧
      ((x = .sink ∧ ∃ t ∈ log, t.getLast? = some a) ∨ ∃ p, x = .pair p ∧ Maximal' (Follows log) p ∧ a ∈ p.1)) := by
  unfold alphaLog
  rw [native_filter]
  have hs : a ∈ Dfg.startActs log ↔ ∃ t ∈ log, t.head? = some a := by
    unfold Dfg.startActs
    simp [List.mem_filterMap, List.head?_eq_getElem?]
  have he : a ∈ Dfg.endActs log ↔ ∃ t ∈ log, t.getLast? = some a := by
    unfold Dfg.endActs
    simp only [List.mem_filterMap, List.mem_filter, decide_eq_true_eq, List.getLast?_eq_getElem?]
    constructor
    · rintro ⟨t, ⟨h1, _⟩, h2⟩; exact ⟨t, h1, h2⟩
    · rintro ⟨t, h1, h2⟩
      exact ⟨t, ⟨h1, by have := (List.getElem?_eq_some_iff.1 h2).1; omega⟩, h2⟩
  have hi := mem_internal (rel_log log)
  constructor
  · show (x, n) ∈ (if a ∈ Dfg.startActs log then _ else _) ++ List.map _ (List.filter _ _) ↔ _
    rw [List.mem_append, ← hs]
    simp only [List.mem_map, List.mem_filter, hi, decide_eq_true_eq]
    constructor
    · rintro (h | ⟨p, ⟨h1, h2⟩, h⟩)
      · split at h
        · next hh => simp at h; exact ⟨h.2, .inl ⟨h.1, hh⟩⟩
        · simp at h
      · cases h; exact ⟨rfl, .inr ⟨p, rfl, h1, h2⟩⟩
    · rintro ⟨rfl, (⟨rfl, h⟩ | ⟨p, rfl, h1, h2⟩)⟩
      · left; rw [if_pos h]; simp
      · exact .inr ⟨p, ⟨h1, h2⟩, rfl⟩
  · show (x, n) ∈ (if a ∈ Dfg.endActs log then _ else _) ++ List.map _ (List.filter _ _) ↔ _
    rw [List.mem_append, ← he]
    simp only [List.mem_map, List.mem_filter, hi, decide_eq_true_eq]
    constructor
    · rintro (h | ⟨p, ⟨h1, h2⟩, h⟩)
      · split at h
        · next hh => simp at h; exact ⟨h.2, .inl ⟨h.1, hh⟩⟩
        · simp at h
      · cases h; exact ⟨rfl, .inr ⟨p, rfl, h1, h2⟩⟩
    · rintro ⟨rfl, (⟨rfl, h⟩ | ⟨p, rfl, h1, h2⟩)⟩
      · left; rw [if_pos h]; simp
      · exact .inr ⟨p, ⟨h1, h2⟩, rfl⟩

/-- **C45.** Every causal pair without self-loops is connected by a place. -/
theorem _root_.Verif.C45_connected (log : List (List α)) (a b : α) (h : Follows log a b) (h' : ¬ Follows log b a)
    (ha : ¬ Follows log a a) (hb : ¬ Follows log b b) :
    ∃ p, .pair p ∈ (alphaLog log).places ∧ a ∈ p.1 ∧ b ∈ p.2 := by
  have hr := rel_log log
  let l := (allPairs (Foot.parallelOf (Dfg.native 1 false log)) (Foot.causalAlpha (Dfg.native 1 false log))).filter
    fun p => decide (a ∈ p.1 ∧ b ∈ p.2)
  have hmem : ∀ p, p ∈ l ↔ Candidate (Follows log) p ∧ a ∈ p.1 ∧ b ∈ p.2 := by
    intro p
    simp only [l, List.mem_filter, mem_allPairs hr, decide_eq_true_eq]
  have hne : (({a}, {b}) : PairOf α) ∈ l := (hmem _).2 ⟨by constructor <;> simp_all, by simp, by simp⟩
  obtain ⟨p, hp, hmax⟩ := Finset.exists_max_image l.toFinset (fun p => p.1.card + p.2.card) ⟨_, List.mem_toFinset.2 hne⟩
  rw [List.mem_toFinset, hmem] at hp
  refine ⟨p, ((C45_places log).2 _).2 (.inr (.inr ⟨p, ⟨hp.1, ?_⟩, rfl⟩)), hp.2⟩
  intro q hq h1 h2
  have := hmax q (List.mem_toFinset.2 ((hmem q).2 ⟨hq, h1 hp.2.1, h2 hp.2.2⟩))
  have c1 := Finset.card_le_card h1
  have c2 := Finset.card_le_card h2
  have e1 : p.1 = q.1 := Finset.eq_of_subset_of_card_le h1 (by omega)
  have e2 : p.2 = q.2 := Finset.eq_of_subset_of_card_le h2 (by omega)
  exact (Prod.ext e1 e2).symm

end Verif.Alpha
