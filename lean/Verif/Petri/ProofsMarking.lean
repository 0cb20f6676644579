import Verif.Petri.Proofs
namespace Verif
open Dict
variable {P : Type} [DecidableEq P]

namespace Marking

theorem eq_iff (m n : Marking P) : eq m n = true ↔ ∀ p, get? m p = get? n p := by
  simp only [eq, Bool.and_eq_true, List.all_eq_true, has_iff, decide_eq_true_eq]
  constructor
  · rintro ⟨⟨h1, h2⟩, h3⟩ p
    by_cases hp : p ∈ keys m
    · obtain ⟨e, he, rfl⟩ := List.mem_map.1 hp
      exact (h3 e he).symm
    · have hq : p ∉ keys n := by
        intro hq
        obtain ⟨e, he, rfl⟩ := List.mem_map.1 hq
        exact hp (h2 e he)
      rw [mem_keys_iff] at hp hq
      simp at hp hq
      rw [hp, hq]
  · intro h
    refine ⟨⟨?_, ?_⟩, ?_⟩
    · intro e he
      rw [mem_keys_iff, ← h, ← mem_keys_iff]; exact List.mem_map.2 ⟨e, he, rfl⟩
    · intro e he
      rw [mem_keys_iff, h, ← mem_keys_iff]; exact List.mem_map.2 ⟨e, he, rfl⟩
    · intro e _; exact (h e.1).symm

theorem le_iff (m n : Marking P) : le m n = true ↔ ∀ p, p ∈ keys m → p ∈ keys n ∧ count m p ≤ count n p := by
  simp only [le, Bool.and_eq_true, List.all_eq_true, has_iff]
  constructor
  · rintro ⟨h1, h2⟩ p hp
    obtain ⟨e, he, rfl⟩ := List.mem_map.1 hp
    have := h2 e he
    simp only [Bool.not_eq_true', decide_eq_false_iff_not] at this
    exact ⟨h1 e he, by simp only [count]; omega⟩
  · intro h
    refine ⟨fun e he => (h e.1 (List.mem_map.2 ⟨e, he, rfl⟩)).1, fun e he => ?_⟩
    have := (h e.1 (List.mem_map.2 ⟨e, he, rfl⟩)).2
    simp only [count] at this
    simp only [Bool.not_eq_true', decide_eq_false_iff_not]; omega

theorem copy_get? (m : Marking P) (h : (keys m).Nodup) :
    ∀ p, get? (m.foldl (fun acc e => Dict.set acc e.1 e.2) ([] : Marking P)) p = get? m p := by
  have : ∀ (m acc : Marking P), (keys m).Nodup → ∀ p,
      get? (m.foldl (fun acc e => Dict.set acc e.1 e.2) acc) p = (get? m p).or (get? acc p) := by
    intro m
    induction m with
    | nil => intro acc _ p; simp
    | cons e m ih =>
      intro acc hn p
      obtain ⟨k, v⟩ := e
      simp only [keys, List.map_cons, List.nodup_cons] at hn
      simp only [List.foldl_cons]
      rw [ih _ hn.2, get?_set, get?_cons]
      by_cases hk : k = p
      · subst hk
        have : get? m k = none := by
          have h' : k ∉ keys m := hn.1
          rw [mem_keys_iff] at h'; simpa using h'
        simp [this]
      · simp [hk]
  intro p
  rw [this m [] h p]; simp

theorem count_eq_of_get? {m n : Marking P} {p : P} (h : get? m p = get? n p) : count m p = count n p := by
  unfold count; rw [h]

/-- sum of the values stored for `p` equals the count when keys are unique -/
theorem arcWeight_eq_count (n : Marking P) (h : (keys n).Nodup) (p : P) : arcWeight n p = count n p := by
  by_cases hp : p ∈ keys n
  · obtain ⟨e, he, rfl⟩ := List.mem_map.1 hp
    rw [arcWeight_of_mem_nodup h he]
    unfold count
    rw [get?_of_mem_nodup h (v := e.2) he]; rfl
  · rw [arcWeight_eq_zero hp]
    rw [mem_keys_iff] at hp
    simp at hp
    simp [count, hp]

theorem add_count (m n : Marking P) (hm : (keys m).Nodup) (hn : (keys n).Nodup) (p : P) :
    count (add m n) p = count m p + count n p := by
  unfold add
  rw [show (fun (acc : Marking P) (e : P × Int) => Dict.set acc e.1 (count acc e.1 + e.2)) = Net.produce from rfl]
  rw [Net.count_foldl_produce, arcWeight_eq_count n hn, count_eq_of_get? (copy_get? m hm p)]

theorem subStep_eq : (subStep : Marking P → P × Int → Marking P) = Net.consume := rfl

theorem sub_count (m n : Marking P) (hm : (keys m).Nodup) (hn : (keys n).Nodup) (p : P) :
    count (sub m n) p = count m p - count n p := by
  unfold sub
  rw [subStep_eq, Net.count_foldl_consume, arcWeight_eq_count n hn, count_eq_of_get? (copy_get? m hm p)]

theorem copy_pos (m : Marking P) (hm : (keys m).Nodup) (h : Pos m) :
    Pos (m.foldl (fun acc e => Dict.set acc e.1 e.2) ([] : Marking P)) := by
  intro k v hk
  rw [copy_get? m hm] at hk
  exact h k v hk

theorem add_pos (m n : Marking P) (hm : (keys m).Nodup) (hn : (keys n).Nodup) (pm : Pos m) (pn : Pos n) :
    Pos (add m n) := by
  unfold add
  rw [show (fun (acc : Marking P) (e : P × Int) => Dict.set acc e.1 (count acc e.1 + e.2)) = Net.produce from rfl]
  apply Net.pos_foldl_produce _ _ _ (copy_pos m hm pm)
  intro a ha
  have := pn a.1 a.2 (get?_of_mem_nodup hn ha)
  omega

theorem sub_pos (m n : Marking P) (hm : (keys m).Nodup) (hn : (keys n).Nodup) (pm : Pos m)
    (hle : ∀ p, count n p ≤ count m p) : Pos (sub m n) := by
  unfold sub
  rw [subStep_eq]
  refine (Net.foldl_consume_simple n _ hn ?_ (copy_pos m hm pm)).1
  intro a ha
  rw [count_eq_of_get? (copy_get? m hm a.1)]
  have := hle a.1
  rw [← arcWeight_eq_count n hn, arcWeight_of_mem_nodup hn ha] at this
  exact this

theorem nodup_foldl_set {f : Marking P → P × Int → Int} (n m : Marking P) (h : (keys m).Nodup) :
    (keys (n.foldl (fun acc e => Dict.set acc e.1 (f acc e)) m)).Nodup := by
  induction n generalizing m with
  | nil => exact h
  | cons e n ih => simp only [List.foldl_cons]; exact ih _ (nodup_set h _ _)

theorem add_nodup (m n : Marking P) : (keys (add m n)).Nodup := by
  unfold add
  exact nodup_foldl_set (f := fun acc e => count acc e.1 + e.2) n _
    (nodup_foldl_set (f := fun _ e => e.2) m [] (by simp))

theorem nodup_foldl_consume (n m : Marking P) (h : (keys m).Nodup) :
    (keys (n.foldl Net.consume m)).Nodup := by
  induction n generalizing m with
  | nil => exact h
  | cons e n ih =>
    simp only [List.foldl_cons]
    apply ih
    unfold Net.consume
    simp only
    split
    · exact nodup_del (nodup_set h _ _) _
    · exact nodup_set h _ _

theorem sub_nodup (m n : Marking P) : (keys (sub m n)).Nodup := by
  unfold sub
  rw [subStep_eq]
  exact nodup_foldl_consume n _ (nodup_foldl_set (f := fun _ e => e.2) m [] (by simp))

end Marking
end Verif
