import Verif.Petri.Spec
namespace Verif
open Dict
variable {P T : Type} [DecidableEq P] [DecidableEq T]

omit [DecidableEq T] in
@[simp] theorem arcWeight_nil (p : P) : arcWeight ([] : List (P × Int)) p = 0 := rfl

theorem arcWeight_cons (a : P × Int) (as : List (P × Int)) (p : P) :
    arcWeight (a :: as) p = (if a.1 = p then a.2 else 0) + arcWeight as p := by
  unfold arcWeight
  by_cases h : a.1 = p <;> simp [h]

theorem arcWeight_append (as bs : List (P × Int)) (p : P) :
    arcWeight (as ++ bs) p = arcWeight as p + arcWeight bs p := by
  induction as with
  | nil => simp
  | cons a as ih => simp only [List.cons_append, arcWeight_cons, ih]; omega

theorem arcWeight_eq_zero {as : List (P × Int)} {p : P} (h : p ∉ as.map Prod.fst) : arcWeight as p = 0 := by
  induction as with
  | nil => rfl
  | cons a as ih =>
    simp only [List.map_cons, List.mem_cons, not_or] at h
    rw [arcWeight_cons, ih h.2, if_neg (fun h' => h.1 h'.symm)]; rfl

theorem arcWeight_nonneg {as : List (P × Int)} (h : ∀ a ∈ as, 0 ≤ a.2) (p : P) : 0 ≤ arcWeight as p := by
  induction as with
  | nil => simp
  | cons a as ih =>
    rw [arcWeight_cons]
    have h1 := ih (fun b hb => h b (by simp [hb]))
    have h2 := h a (by simp)
    split <;> omega

theorem arcWeight_of_mem_nodup {as : List (P × Int)} (hn : (as.map Prod.fst).Nodup) {a : P × Int} (h : a ∈ as) :
    arcWeight as a.1 = a.2 := by
  induction as with
  | nil => cases h
  | cons b as ih =>
    simp only [List.map_cons, List.nodup_cons] at hn
    rw [arcWeight_cons]
    cases h with
    | head => rw [arcWeight_eq_zero hn.1]; simp
    | tail _ h =>
      have : b.1 ≠ a.1 := fun he => hn.1 (he ▸ List.mem_map.2 ⟨a, h, rfl⟩)
      rw [if_neg this, ih hn.2 h]; omega

theorem arcWeight_le_of_mem {as : List (P × Int)} (hpos : ∀ a ∈ as, 0 ≤ a.2) {a : P × Int} (h : a ∈ as) :
    a.2 ≤ arcWeight as a.1 := by
  induction as with
  | nil => cases h
  | cons b as ih =>
    rw [arcWeight_cons]
    cases h with
    | head =>
      have := arcWeight_nonneg (fun c hc => hpos c (List.mem_cons_of_mem _ hc)) a.1
      simp; omega
    | tail _ h =>
      have h1 := ih (fun c hc => hpos c (by simp [hc])) h
      have h2 := hpos b (by simp)
      split <;> omega

namespace Net

theorem count_consume (m : Marking P) (a : P × Int) (p : P) :
    count (consume m a) p = count m p - (if a.1 = p then a.2 else 0) := by
  unfold consume
  simp only [count_set, if_true]
  by_cases h0 : count m a.1 - a.2 = 0
  · rw [if_pos h0]
    simp only [count_del, count_set]
    grind
  · rw [if_neg h0]
    simp only [count_set]; grind

theorem count_foldl_consume (as : List (P × Int)) (m : Marking P) (p : P) :
    count (as.foldl consume m) p = count m p - arcWeight as p := by
  induction as generalizing m with
  | nil => simp
  | cons a as ih => simp only [List.foldl_cons, ih, count_consume, arcWeight_cons]; omega

theorem count_foldl_produce (as : List (P × Int)) (m : Marking P) (p : P) :
    count (as.foldl produce m) p = count m p + arcWeight as p := by
  induction as generalizing m with
  | nil => simp
  | cons a as ih =>
    simp only [List.foldl_cons, ih, produce, count_set, arcWeight_cons]; split <;> simp_all <;> omega

theorem pos_set {m : Marking P} (h : Pos m) (p : P) (v : Int) (hv : 0 < v) : Pos (Dict.set m p v) := by
  intro k w hk
  rw [get?_set] at hk
  split at hk
  · simp at hk; omega
  · exact h k w hk

theorem pos_del {m : Marking P} (h : Pos m) (p : P) : Pos (Dict.del m p) := by
  intro k w hk
  rw [get?_del] at hk
  split at hk
  · simp at hk
  · exact h k w hk

theorem pos_consume {m : Marking P} (h : Pos m) (a : P × Int) (ha : a.2 ≤ count m a.1) : Pos (consume m a) := by
  unfold consume
  simp only [count_set, if_true]
  by_cases h0 : count m a.1 - a.2 = 0
  · rw [if_pos h0]
    intro k w hk
    rw [get?_del] at hk
    split at hk
    · simp at hk
    · rw [get?_set] at hk; split at hk
      · contradiction
      · exact h k w hk
  · rw [if_neg h0]
    exact pos_set h _ _ (by omega)

theorem weakConsume_eq {m : Marking P} (a : P × Int) (ha : a.2 ≤ count m a.1) : weakConsume m a = consume m a := by
  unfold weakConsume consume
  simp only [count_set, if_true]
  by_cases h0 : count m a.1 - a.2 = 0
  · rw [if_pos h0, if_pos (by omega)]
  · rw [if_neg h0, if_neg (by omega)]

/-- Consuming along arcs from pairwise different places, each with enough tokens. -/
theorem foldl_consume_simple (as : List (P × Int)) (m : Marking P) (hn : (as.map Prod.fst).Nodup)
    (he : ∀ a ∈ as, a.2 ≤ count m a.1) (hm : Pos m) :
    Pos (as.foldl consume m) ∧ as.foldl weakConsume m = as.foldl consume m := by
  induction as generalizing m with
  | nil => exact ⟨hm, rfl⟩
  | cons a as ih =>
    simp only [List.map_cons, List.nodup_cons] at hn
    have ha := he a (by simp)
    simp only [List.foldl_cons, weakConsume_eq a ha]
    apply ih _ hn.2 _ (pos_consume hm a ha)
    intro b hb
    rw [count_consume]
    have : a.1 ≠ b.1 := fun h => hn.1 (h ▸ List.mem_map.2 ⟨b, hb, rfl⟩)
    rw [if_neg this]
    have := he b (by simp [hb])
    omega

theorem pos_foldl_produce (as : List (P × Int)) (m : Marking P) (hp : ∀ a ∈ as, 1 ≤ a.2) (hm : Pos m) :
    Pos (as.foldl produce m) := by
  induction as generalizing m with
  | nil => exact hm
  | cons a as ih =>
    simp only [List.foldl_cons]
    apply ih _ (fun b hb => hp b (by simp [hb]))
    have h1 := hp a (by simp)
    have h2 := hm.count_nonneg a.1
    exact pos_set hm _ _ (by omega)

theorem isEnabled_iff (net : Net P T) (t : T) (m : Marking P) :
    net.isEnabled t m = true ↔ t ∈ net.transitions ∧ ∀ a ∈ net.inArcs t, a.2 ≤ count m a.1 := by
  unfold isEnabled
  split
  · rename_i h; simp [h]
  · rename_i h; simp [h]

theorem isEnabled_iff_enabled (net : Net P T) (hs : net.Simple) (t : T) (m : Marking P) (hm : Pos m) :
    net.isEnabled t m = true ↔ net.Enabled t m := by
  rw [isEnabled_iff]
  constructor
  · rintro ⟨h1, h2⟩
    refine ⟨h1, fun p => ?_⟩
    by_cases hp : p ∈ (net.inArcs t).map Prod.fst
    · obtain ⟨a, ha, rfl⟩ := List.mem_map.1 hp
      rw [arcWeight_of_mem_nodup (hs.noParallel t h1) ha]
      exact h2 a ha
    · rw [arcWeight_eq_zero hp]; exact hm.count_nonneg p
  · rintro ⟨h1, h2⟩
    refine ⟨h1, fun a ha => ?_⟩
    have := h2 a.1
    rwa [arcWeight_of_mem_nodup (hs.noParallel t h1) ha] at this

theorem execute_some_iff (net : Net P T) (t : T) (m m' : Marking P) :
    net.execute t m = some m' ↔ net.isEnabled t m = true ∧
      m' = (net.outArcs t).foldl produce ((net.inArcs t).foldl consume m) := by
  unfold execute
  split
  · rename_i h; simp [h, eq_comm]
  · rename_i h; simp [h]

theorem execute_fires {net : Net P T} {t : T} {m m' : Marking P} (h : net.execute t m = some m') :
    net.Fires t m m' := by
  rw [execute_some_iff] at h
  intro p
  rw [h.2, count_foldl_produce, count_foldl_consume]

theorem execute_pos {net : Net P T} (hs : net.Simple) {t : T} {m m' : Marking P} (hm : Pos m)
    (h : net.execute t m = some m') : Pos m' := by
  rw [execute_some_iff, isEnabled_iff] at h
  obtain ⟨⟨h1, h2⟩, rfl⟩ := h
  exact pos_foldl_produce _ _ (hs.outPos t h1)
    (foldl_consume_simple _ _ (hs.noParallel t h1) h2 hm).1

theorem weakExecute_eq {net : Net P T} (hs : net.Simple) {t : T} {m : Marking P} (hm : Pos m)
    (h : net.isEnabled t m = true) : net.execute t m = some (net.weakExecute t m) := by
  rw [execute_some_iff]
  refine ⟨h, ?_⟩
  rw [isEnabled_iff] at h
  unfold weakExecute
  rw [(foldl_consume_simple _ _ (hs.noParallel t h.1) h.2 hm).2]

end Net
end Verif
