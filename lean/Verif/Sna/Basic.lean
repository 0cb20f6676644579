import Verif.Sna.Spec
import Mathlib.Tactic.Ring
import Mathlib.Tactic.Linarith
/-
Lemmas for C73: weighted sums over variants, nested dictionaries.
-/
set_option linter.unusedSectionVars false
namespace Verif
namespace Sna
open Dict Counter
variable {α : Type} [DecidableEq α] {κ ν : Type} [DecidableEq κ]

/-! ### sums over dictionaries -/

theorem sum_set (f : κ → ν → ℚ) (d : Dict κ ν) (h : (keys d).Nodup) (k : κ) (v : ν) :
    ((Dict.set d k v).map fun e => f e.1 e.2).sum = (d.map fun e => f e.1 e.2).sum + f k v - ((get? d k).map (f k)).getD 0 := by
  induction d with
  | nil => simp [Dict.set]
  | cons e d ih =>
    obtain ⟨k0, v0⟩ := e
    simp only [keys, List.map_cons, List.nodup_cons] at h
    rw [get?_cons]
    simp only [Dict.set]
    by_cases hk : k0 = k
    · subst hk
      simp only [if_true, List.map_cons, List.sum_cons, Option.map_some, Option.getD_some]
      ring
    · simp only [hk, if_false, List.map_cons, List.sum_cons]
      rw [ih h.2]
      ring

theorem sum_update (g : κ → ℚ) (d : Dict κ Int) (h : (keys d).Nodup) (l : List κ) :
    ((update d l).map fun e => (e.2 : ℚ) * g e.1).sum = (d.map fun e => (e.2 : ℚ) * g e.1).sum + (l.map g).sum := by
  induction l generalizing d with
  | nil => simp [update]
  | cons x l ih =>
    have : update d (x :: l) = update (inc d x 1) l := rfl
    rw [this, ih _ (nodup_inc h x 1)]
    unfold inc
    rw [sum_set (fun k (v : Int) => (v : ℚ) * g k) d h]
    have : ((get? d x).map fun (v : Int) => (v : ℚ) * g x).getD 0 = (count d x : ℚ) * g x := by
      unfold count
      cases get? d x <;> simp
    rw [this]
    simp only [List.map_cons, List.sum_cons]
    push_cast
    ring

/-- a sum over the variants is a sum over the traces -/
theorem sum_vs {vs : Dict (List α) Int} {log : List (List α)} (h : VariantsOf vs log) (g : List α → ℚ) :
    (vs.map fun e => (e.2 : ℚ) * g e.1).sum = (log.map g).sum := by
  rw [(h.map _).sum_eq]
  unfold variants ofList
  rw [sum_update g [] (by simp)]
  simp

theorem nodup_vs {vs : Dict (List α) Int} {log : List (List α)} (h : VariantsOf vs log) : (keys vs).Nodup :=
  (h.map Prod.fst).nodup_iff.2 (nodup_ofList log)

theorem mem_vs {vs : Dict (List α) Int} {log : List (List α)} (h : VariantsOf vs log) (v : List α) (n : Int) :
    (v, n) ∈ vs ↔ v ∈ log ∧ n = (log.count v : Int) := by
  rw [List.Perm.mem_iff h]
  have hn : (keys (variants log)).Nodup := nodup_ofList log
  have hc : Dict.count (variants log) v = (log.count v : Int) := by
    unfold variants; rw [count_ofList]
    unfold cnt List.count
    congr 2
    funext x
    simp [beq_eq_decide]
  constructor
  · intro hm
    have h1 := get?_of_mem_nodup hn hm
    have h2 : v ∈ keys (variants log) := List.mem_map.2 ⟨_, hm, rfl⟩
    refine ⟨(keys_ofList log v).1 h2, ?_⟩
    rw [← hc]; unfold Dict.count; rw [h1]; rfl
  · rintro ⟨h1, rfl⟩
    have h2 : v ∈ keys (variants log) := (keys_ofList log v).2 h1
    rw [mem_keys_iff, Option.isSome_iff_exists] at h2
    obtain ⟨n, hn'⟩ := h2
    have h3 := mem_of_get? hn'
    have : n = (log.count v : Int) := by rw [← hc]; unfold Dict.count; rw [hn']; rfl
    rw [← this]; exact h3

/-! ### sums of updates -/

/-- sum of the updates whose key satisfies `q` -/
def S (q : κ → Bool) (us : List (κ × ℚ)) : ℚ := (us.map fun r => if q r.1 then r.2 else 0).sum

theorem S_append (q : κ → Bool) (us vs : List (κ × ℚ)) : S q (us ++ vs) = S q us + S q vs := by simp [S]
theorem S_cons (q : κ → Bool) (r : κ × ℚ) (vs : List (κ × ℚ)) : S q (r :: vs) = (if q r.1 then r.2 else 0) + S q vs := by simp [S]
theorem S_nil (q : κ → Bool) : S q ([] : List (κ × ℚ)) = 0 := rfl
theorem S_flatMap {β : Type} (q : κ → Bool) (f : β → List (κ × ℚ)) (l : List β) : S q (l.flatMap f) = (l.map fun b => S q (f b)).sum := by
  induction l with
  | nil => rfl
  | cons b l ih => rw [List.flatMap_cons, S_append, ih, List.map_cons, List.sum_cons]
theorem S_true (us : List (κ × ℚ)) : S (fun _ => true) us = (us.map Prod.snd).sum := by simp [S]

theorem S_none {q : κ → Bool} {us : List (κ × ℚ)} (h : ∀ r ∈ us, q r.1 = false) : S q us = 0 := by
  induction us with
  | nil => rfl
  | cons r us ih => rw [S_cons, h r (by simp), ih fun r hr => h r (by simp [hr])]; simp

theorem get?_addC (us : List ((α × α) × ℚ)) (k : α × α) : ∀ d, get? (us.foldl addC d) k =
    if k ∈ us.map Prod.fst then some ((get? d k).getD 0 + S (fun x => x == k) us) else get? d k := by
  induction us with
  | nil => intro d; simp
  | cons r us ih =>
    intro d
    rw [List.foldl_cons, ih]
    unfold addC
    rw [get?_set, S_cons]
    by_cases hk : r.1 = k
    · subst hk
      by_cases hm : r.1 ∈ us.map Prod.fst
      · simp [hm]; ring
      · have : S (fun x => x == r.1) us = 0 := S_none (by
          intro r' hr'
          simp only [beq_eq_false_iff_ne, ne_eq]
          exact fun e => hm (List.mem_map.2 ⟨r', hr', e⟩))
        simp only [hm, this]
        simp
    · have hk' : ¬ k = r.1 := fun e => hk e.symm
      have hm : k ∈ List.map Prod.fst (r :: us) ↔ k ∈ List.map Prod.fst us := by rw [List.map_cons, List.mem_cons]; simp [hk']
      by_cases h2 : k ∈ List.map Prod.fst us
      · rw [if_pos h2, if_pos (hm.2 h2)]; simp [hk]
      · rw [if_neg h2, if_neg fun h => h2 (hm.1 h)]; simp [hk]

theorem val_add (d : Dict α (Dict α ℚ)) (r : (α × α) × ℚ) (a b : α) :
    val (add d r) a b = if r.1 = (a, b) then some ((val d a b).getD 0 + r.2) else val d a b := by
  obtain ⟨⟨x, y⟩, q⟩ := r
  unfold add val
  simp only [get?_set, Prod.mk.injEq]
  by_cases hx : x = a
  · subst hx
    simp only [if_true, Option.bind_some, true_and, get?_set]
    by_cases hy : y = b
    · subst hy; simp
    · simp only [hy, if_false]
      cases get? d x <;> simp
  · simp [hx]

theorem val_fold (us : List ((α × α) × ℚ)) (a b : α) : ∀ d, val (us.foldl add d) a b =
    if (a, b) ∈ us.map Prod.fst then some ((val d a b).getD 0 + S (fun x => x == (a, b)) us) else val d a b := by
  induction us with
  | nil => intro d; simp
  | cons r us ih =>
    intro d
    rw [List.foldl_cons, ih, val_add, S_cons]
    by_cases hk : r.1 = (a, b)
    · by_cases hm : (a, b) ∈ us.map Prod.fst
      · simp [hm, hk]; ring
      · have : S (fun x => x == (a, b)) us = 0 := S_none (by
          intro r' hr'
          simp only [beq_eq_false_iff_ne, ne_eq]
          exact fun e => hm (List.mem_map.2 ⟨r', hr', e⟩))
        simp only [this, hk]
        simp [hm, hk]
    · have hk' : ¬ (a, b) = r.1 := fun e => hk e.symm
      have hm : (a, b) ∈ List.map Prod.fst (r :: us) ↔ (a, b) ∈ List.map Prod.fst us := by rw [List.map_cons, List.mem_cons]; simp [hk']
      by_cases h2 : (a, b) ∈ List.map Prod.fst us
      · rw [if_pos h2, if_pos (hm.2 h2)]; simp [hk]
      · rw [if_neg h2, if_neg fun h => h2 (hm.1 h)]; simp [hk]

theorem nodup_add {d : Dict α (Dict α ℚ)} (h : (keys d).Nodup) (r : (α × α) × ℚ) : (keys (add d r)).Nodup := nodup_set h _ _

theorem nodup_fold (us : List ((α × α) × ℚ)) : ∀ {d : Dict α (Dict α ℚ)}, (keys d).Nodup → (keys (us.foldl add d)).Nodup := by
  induction us with
  | nil => intro d h; exact h
  | cons r us ih => intro d h; exact ih (nodup_add h r)

theorem get?_append {ν : Type} (d e : Dict κ ν) (k : κ) : get? (d ++ e) k = (get? d k).or (get? e k) := by
  induction d with
  | nil => simp
  | cons x d ih =>
    obtain ⟨k', v⟩ := x
    rw [List.cons_append, get?_cons, get?_cons]
    split
    · rfl
    · exact ih

theorem get?_inner (m : Dict α ℚ) (a a' b : α) (q : ℚ) :
    get? (m.map fun f => ((a', f.1), f.2 / q)) (a, b) = if a' = a then (get? m b).map (· / q) else none := by
  induction m with
  | nil => simp
  | cons f m ih =>
    obtain ⟨k, v⟩ := f
    rw [List.map_cons, get?_cons, get?_cons, ih]
    simp only [Prod.mk.injEq]
    by_cases h1 : a' = a
    · by_cases h2 : k = b <;> simp [h1, h2]
    · simp [h1]

theorem get?_connections {d : Dict α (Dict α ℚ)} (h : (keys d).Nodup) (q : ℚ) (a b : α) :
    get? (connections d q) (a, b) = (val d a b).map (· / q) := by
  induction d with
  | nil => rfl
  | cons e d ih =>
    obtain ⟨k, m⟩ := e
    simp only [keys, List.map_cons, List.nodup_cons] at h
    unfold connections at ih ⊢
    rw [List.flatMap_cons, get?_append, ih h.2, get?_inner]
    unfold val
    rw [get?_cons]
    by_cases hk : k = a
    · subst hk
      have : get? d k = none := by
        cases e : get? d k with
        | none => rfl
        | some v => exact absurd (List.mem_map.2 ⟨_, mem_of_get? e, rfl⟩) h.1
      simp [this]
    · simp [hk]

end Sna
end Verif
