import Verif.Alphabet.Model
set_option linter.unusedSectionVars false
/-
C91: renaming activities to letters is reversible.
-/
namespace Verif
namespace Alphabet

/-- the number of a string of letters -/
def value (l : List Char) : Nat := l.foldl (fun v c => 26 * v + (c.toNat - 65) + 1) 0

theorem letter_toNat (d : Nat) (h : d < 26) : (Char.ofNat (d + 65)).toNat = d + 65 := by
  have : (d + 65).isValidChar := by left; omega
  rw [Char.ofNat, dif_pos this]
  rfl

theorem loop_append (n : Nat) : ∀ (r : List Char), loop n r = loop n [] ++ r := by
  induction n using Nat.strongRecOn with
  | ind n ih =>
    intro r
    rw [loop.eq_1 n r, loop.eq_1 n []]
    by_cases h : n < 26
    · simp only [dif_pos h]; rfl
    · simp only [dif_neg h]
      rw [ih (n / 26 - 1) (by omega), ih (n / 26 - 1) (by omega) [_], List.append_assoc]
      rfl

theorem value_append (l : List Char) (c : Char) : value (l ++ [c]) = 26 * value l + (c.toNat - 65) + 1 := by
  unfold value; rw [List.foldl_append]; rfl

theorem value_loop (n : Nat) : value (loop n []) = n + 1 := by
  induction n using Nat.strongRecOn with
  | ind n ih =>
    rw [loop]
    have hd := letter_toNat (n % 26) (Nat.mod_lt _ (by decide))
    split
    · rename_i h
      change 26 * 0 + ((Char.ofNat (n % 26 + 65)).toNat - 65) + 1 = _
      rw [hd]; omega
    · rename_i h
      rw [loop_append, value_append, ih (n / 26 - 1) (by omega), hd]
      omega

theorem name_injective (m n : Nat) (h : name m = name n) : m = n := by
  have h1 : loop m [] = loop n [] := by
    have := congrArg String.toList h
    unfold name at this
    rwa [String.toList_ofList, String.toList_ofList] at this
  have := congrArg value h1
  rw [value_loop, value_loop] at this
  omega

theorem letters_loop (n : Nat) : ∀ (r : List Char), (∀ c ∈ r, 65 ≤ c.toNat ∧ c.toNat ≤ 90) → ∀ c ∈ loop n r, 65 ≤ c.toNat ∧ c.toNat ≤ 90 := by
  induction n using Nat.strongRecOn with
  | ind n ih =>
    intro r hr
    have hd := letter_toNat (n % 26) (Nat.mod_lt _ (by decide))
    have hc : ∀ c ∈ Char.ofNat (n % 26 + 65) :: r, 65 ≤ c.toNat ∧ c.toNat ≤ 90 := by
      intro c hc
      rcases List.mem_cons.1 hc with rfl | hc
      · rw [hd]; have := Nat.mod_lt n (show 26 > 0 by decide); omega
      · exact hr c hc
    rw [loop]
    split
    · exact hc
    · exact ih _ (by omega) _ hc

theorem length_loop (n : Nat) (r : List Char) : r.length + 1 ≤ (loop n r).length := by
  induction n using Nat.strongRecOn generalizing r with
  | ind n ih =>
    rw [loop]
    split
    · exact Nat.le_refl _
    · have := ih (n / 26 - 1) (by omega) (Char.ofNat (n % 26 + 65) :: r)
      rw [List.length_cons] at this
      omega

theorem lookup_of_nodup {l : List (String × String)} (h : (l.map Prod.fst).Nodup) {a b : String} (hm : (a, b) ∈ l) : l.lookup a = some b := by
  induction l with
  | nil => cases hm
  | cons p l ih =>
    obtain ⟨x, y⟩ := p
    rw [List.map_cons, List.nodup_cons] at h
    rw [List.lookup_cons]
    rcases List.mem_cons.1 hm with e | hm
    · obtain ⟨rfl, rfl⟩ := Prod.mk.inj e
      rw [beq_self_eq_true]
    · have hne : a ≠ x := fun e => h.1 (e ▸ List.mem_map.2 ⟨_, hm, rfl⟩)
      have : (a == x) = false := by simpa using hne
      rw [this]
      exact ih h.2 hm

theorem remap_keys (acts : List String) : (remap acts).map Prod.fst = acts := by
  unfold remap
  rw [List.map_map]
  exact List.zipIdx_map_fst 0 acts

theorem mem_remap {acts : List String} (i : Nat) (h : i < acts.length) : (acts[i], name i) ∈ remap acts := by
  unfold remap
  refine List.mem_map.2 ⟨(acts[i], i), ?_, rfl⟩
  rw [List.mem_zipIdx_iff_getElem?]
  exact List.getElem?_eq_getElem h

theorem remap_vals (acts : List String) : ((remap acts).map Prod.snd).Nodup := by
  have : (remap acts).map Prod.snd = (List.range acts.length).map name := by
    unfold remap
    rw [List.map_map]
    have : (Prod.snd ∘ fun p : String × Nat => (p.1, name p.2)) = name ∘ Prod.snd := rfl
    rw [this, ← List.map_map, List.zipIdx_map_snd, List.range_eq_range']
  rw [this]
  exact List.Nodup.map (fun m n h => name_injective m n h) List.nodup_range

theorem lookup_inverse {acts : List String} (i : Nat) (h : i < acts.length) : (inverse acts).lookup (name i) = some acts[i] := by
  unfold inverse
  refine lookup_of_nodup ?_ ?_
  · rw [List.map_reverse, List.nodup_reverse, List.map_map]
    exact remap_vals acts
  · rw [List.mem_reverse]
    exact List.mem_map.2 ⟨_, mem_remap i h, rfl⟩

end Alphabet

open Alphabet

/-- C91: different activities get different names, however many there are. -/
theorem C91_injective (acts : List String) (hn : acts.Nodup) (a b : String) (ha : a ∈ acts) (hb : b ∈ acts) (h : rename acts [a] = rename acts [b]) : a = b := by
  obtain ⟨i, hi, rfl⟩ := List.getElem_of_mem ha
  obtain ⟨j, hj, rfl⟩ := List.getElem_of_mem hb
  have key : ∀ k (hk : k < acts.length), (remap acts).lookup acts[k] = some (name k) := fun k hk =>
    lookup_of_nodup (by rw [remap_keys]; exact hn) (mem_remap k hk)
  simp only [rename, List.map_cons, List.map_nil, key i hi, key j hj] at h
  have : i = j := name_injective i j (Option.some.inj (List.cons.inj h).1)
  subst this
  rfl

/-- C91: the returned dictionary turns the renamed column into the original one. -/
theorem C91_roundtrip (acts rows : List String) (hn : acts.Nodup) (hr : ∀ a ∈ rows, a ∈ acts) :
    (rename acts rows).map (fun x => x.bind fun y => (inverse acts).lookup y) = rows.map some := by
  unfold rename
  rw [List.map_map]
  refine List.map_congr_left fun a ha => ?_
  obtain ⟨i, hi, rfl⟩ := List.getElem_of_mem (hr a ha)
  have := lookup_of_nodup (by rw [remap_keys]; exact hn) (mem_remap i hi)
  simp only [Function.comp, this, Option.bind_some]
  exact lookup_inverse i hi

/-- C91: the names are not empty and consist of capital letters; the first 26 activities get one letter. -/
theorem C91_letters (n : Nat) : (name n).toList ≠ [] ∧ (∀ c ∈ (name n).toList, 'A' ≤ c ∧ c ≤ 'Z') ∧ ((name n).toList.length = 1 ↔ n < 26) := by
  unfold name
  rw [String.toList_ofList]
  refine ⟨fun h => ?_, fun c hc => ?_, ?_⟩
  · have := length_loop n []
    rw [h] at this
    simp at this
  · exact letters_loop n [] (fun c hc => by cases hc) c hc
  · constructor
    · intro h
      by_contra hn
      rw [loop, dif_neg hn] at h
      have := length_loop (n / 26 - 1) [Char.ofNat (n % 26 + 65)]
      rw [h] at this
      simp at this
    · intro h
      rw [loop, dif_pos h]
      rfl

/-- the 27th name is AA; a column is renamed and restored -/
example : name 0 = "A" ∧ name 25 = "Z" ∧ name 26 = "AA" ∧ name 27 = "AB" ∧ name 701 = "ZZ" ∧ name 702 = "AAA" := by
  refine ⟨?_, ?_, ?_, ?_, ?_, ?_⟩ <;> simp [name, loop]

end Verif
