import Verif.Common.Dict
/-
Python `collections.Counter` as a dictionary with integer values.
-/
namespace Verif
namespace Counter
open Dict
variable {κ : Type} [DecidableEq κ]

/-- `c[k] += n`, also `c.update({k: n})` -/
def inc (d : Dict κ Int) (k : κ) (n : Int) : Dict κ Int := Dict.set d k (Dict.count d k + n)

/-- `c.update(iterable)` -/
def update (d : Dict κ Int) (l : List κ) : Dict κ Int := l.foldl (fun d k => inc d k 1) d

/-- `Counter(iterable)` -/
def ofList (l : List κ) : Dict κ Int := update [] l

/-- number of occurrences of `k` in a list -/
def cnt (k : κ) (l : List κ) : Nat := l.countP fun x => decide (x = k)

@[simp] theorem cnt_nil (k : κ) : cnt k [] = 0 := rfl
theorem cnt_cons (k x : κ) (l : List κ) : cnt k (x :: l) = cnt k l + if x = k then 1 else 0 := by
  unfold cnt; rw [List.countP_cons]; simp
theorem cnt_append (k : κ) (l m : List κ) : cnt k (l ++ m) = cnt k l + cnt k m := by
  unfold cnt; rw [List.countP_append]
theorem cnt_pos (k : κ) (l : List κ) : 0 < cnt k l ↔ k ∈ l := by
  unfold cnt; rw [List.countP_pos_iff]; simp
theorem cnt_zero (k : κ) (l : List κ) : cnt k l = 0 ↔ k ∉ l := by
  rw [← cnt_pos]; omega
theorem cnt_eq_count (k : κ) (l : List κ) : cnt k l = l.count k := by
  unfold cnt List.count; congr 1
theorem cnt_nodup {k : κ} {l : List κ} (h : l.Nodup) : cnt k l ≤ 1 := by
  rw [cnt_eq_count]; exact (List.nodup_iff_count.1 h) k
theorem cnt_flatMap {β : Type} (f : β → List κ) (l : List β) (x : κ) :
    cnt x (l.flatMap f) = (l.map fun b => cnt x (f b)).sum := by
  induction l with
  | nil => rfl
  | cons b l ih => simp [List.flatMap_cons, cnt_append, ih]

/-- sum of the values of the keys that satisfy `p` -/
def total (d : Dict κ Int) (p : κ → Bool) : Int := ((d.filter fun e => p e.1).map Prod.snd).sum

theorem count_inc (d : Dict κ Int) (k : κ) (n : Int) (k' : κ) :
    count (inc d k n) k' = count d k' + if k = k' then n else 0 := by
  unfold inc; rw [count_set]; split
  · rename_i h; subst h; rfl
  · omega

theorem count_update (d : Dict κ Int) (l : List κ) (k : κ) : count (update d l) k = count d k + (cnt k l : Int) := by
  induction l generalizing d with
  | nil => simp [update]
  | cons x l ih =>
    have : update d (x :: l) = update (inc d x 1) l := rfl
    rw [this, ih, count_inc, cnt_cons]
    by_cases h : x = k
    · subst h; simp; omega
    · simp [h]

@[simp] theorem count_ofList (l : List κ) (k : κ) : count (ofList l) k = (cnt k l : Int) := by
  simp [ofList, count_update]

theorem nodup_inc {d : Dict κ Int} (h : (keys d).Nodup) (k : κ) (n : Int) : (keys (inc d k n)).Nodup := nodup_set h _ _

theorem nodup_update {d : Dict κ Int} (h : (keys d).Nodup) (l : List κ) : (keys (update d l)).Nodup := by
  induction l generalizing d with
  | nil => exact h
  | cons x l ih => exact ih (nodup_inc h x 1)

theorem nodup_ofList (l : List κ) : (keys (ofList l)).Nodup := nodup_update (by simp) l

theorem keys_update (d : Dict κ Int) (l : List κ) (k : κ) : k ∈ keys (update d l) ↔ k ∈ keys d ∨ k ∈ l := by
  induction l generalizing d with
  | nil => simp [update]
  | cons x l ih =>
    have : update d (x :: l) = update (inc d x 1) l := rfl
    rw [this, ih]
    unfold inc
    rw [keys_set]
    simp only [List.mem_cons]
    grind

@[simp] theorem keys_ofList (l : List κ) (k : κ) : k ∈ keys (ofList l) ↔ k ∈ l := by
  simp [ofList, keys_update]

theorem total_set (d : Dict κ Int) (h : (keys d).Nodup) (k : κ) (v : Int) (p : κ → Bool) :
    total (Dict.set d k v) p = total d p + if p k then v - count d k else 0 := by
  induction d with
  | nil => simp [Dict.set, total]; split <;> simp_all
  | cons e d ih =>
    obtain ⟨k0, v0⟩ := e
    simp only [keys, List.map_cons, List.nodup_cons] at h
    have hc : count ((k0, v0) :: d) k = if k0 = k then v0 else count d k := by
      unfold count; rw [get?_cons]; split <;> rfl
    rw [hc]
    simp only [Dict.set]
    by_cases hk : k0 = k
    · subst hk
      simp only [if_true]
      unfold total
      by_cases hp : p k0 = true
      · simp [hp]; omega
      · simp [hp]
    · simp only [hk, if_false]
      have := ih h.2
      unfold total at this ⊢
      by_cases hp : p k0 = true
      · simp only [List.filter_cons, hp, if_true, List.map_cons, List.sum_cons, this]; omega
      · simp only [List.filter_cons, hp]
        simpa using this

theorem total_inc (d : Dict κ Int) (h : (keys d).Nodup) (k : κ) (n : Int) (p : κ → Bool) :
    total (inc d k n) p = total d p + if p k then n else 0 := by
  unfold inc; rw [total_set d h]; split <;> omega

theorem total_update (d : Dict κ Int) (h : (keys d).Nodup) (l : List κ) (p : κ → Bool) :
    total (update d l) p = total d p + (l.countP p : Int) := by
  induction l generalizing d with
  | nil => simp [update]
  | cons x l ih =>
    have : update d (x :: l) = update (inc d x 1) l := rfl
    rw [this, ih _ (nodup_inc h x 1), total_inc d h, List.countP_cons]
    split <;> simp_all <;> omega

theorem total_ofList (l : List κ) (p : κ → Bool) : total (ofList l) p = (l.countP p : Int) := by
  unfold ofList
  rw [total_update _ (by simp)]; simp [total]

/-- weighted sum over all entries -/
def wsum (d : Dict κ Int) (g : κ → Int) : Int := (d.map fun e => e.2 * g e.1).sum

theorem wsum_set (d : Dict κ Int) (h : (keys d).Nodup) (k : κ) (v : Int) (g : κ → Int) :
    wsum (Dict.set d k v) g = wsum d g + (v - count d k) * g k := by
  induction d with
  | nil => simp [Dict.set, wsum]
  | cons e d ih =>
    obtain ⟨k0, v0⟩ := e
    simp only [keys, List.map_cons, List.nodup_cons] at h
    have hc : count ((k0, v0) :: d) k = if k0 = k then v0 else count d k := by
      unfold count; rw [get?_cons]; split <;> rfl
    rw [hc]
    simp only [Dict.set]
    by_cases hk : k0 = k
    · subst hk
      simp only [if_true, wsum, List.map_cons, List.sum_cons]
      rw [Int.sub_mul]; omega
    · simp only [hk, if_false]
      have := ih h.2
      unfold wsum at this ⊢
      simp only [List.map_cons, List.sum_cons, this]; omega

theorem wsum_update (d : Dict κ Int) (h : (keys d).Nodup) (l : List κ) (g : κ → Int) :
    wsum (update d l) g = wsum d g + (l.map g).sum := by
  induction l generalizing d with
  | nil => simp [update]
  | cons x l ih =>
    have : update d (x :: l) = update (inc d x 1) l := rfl
    rw [this, ih _ (nodup_inc h x 1)]
    unfold inc
    rw [wsum_set d h, show count d x + 1 - count d x = 1 by omega]
    simp; omega

theorem wsum_ofList (l : List κ) (g : κ → Int) : wsum (ofList l) g = (l.map g).sum := by
  unfold ofList
  rw [wsum_update _ (by simp)]; simp [wsum]

theorem update_append (d : Dict κ Int) (l m : List κ) : update d (l ++ m) = update (update d l) m := by
  simp [update]

end Counter
end Verif
