/-
Model of Python `dict` / `collections.Counter` as association lists in insertion order.
Iteration order = list order.  Python's own implementation of `dict` is part of the trusted base.
-/
namespace Verif

/-- A Python dictionary: key/value pairs in insertion order. -/
abbrev Dict (κ ν : Type) := List (κ × ν)

namespace Dict
variable {κ ν : Type} [DecidableEq κ]

/-- `d.get(k)` -/
def get? : Dict κ ν → κ → Option ν
  | [], _ => none
  | (k', v) :: d, k => if k' = k then some v else get? d k

/-- `d[k] = v` (keeps the position of an existing key) -/
def set : Dict κ ν → κ → ν → Dict κ ν
  | [], k, v => [(k, v)]
  | (k', v') :: d, k, v => if k' = k then (k', v) :: d else (k', v') :: set d k v

/-- `del d[k]` (`Counter.__delitem__` ignores missing keys) -/
def del (d : Dict κ ν) (k : κ) : Dict κ ν := d.filter (fun e => decide (e.1 ≠ k))

/-- `d.keys()` -/
def keys (d : Dict κ ν) : List κ := d.map Prod.fst

/-- `k in d` -/
def has (d : Dict κ ν) (k : κ) : Bool := (get? d k).isSome

@[simp] theorem get?_nil (k : κ) : get? ([] : Dict κ ν) k = none := rfl

@[simp] theorem keys_nil : keys ([] : Dict κ ν) = [] := rfl

theorem get?_cons (k' : κ) (v : ν) (d : Dict κ ν) (k : κ) :
    get? ((k', v) :: d) k = if k' = k then some v else get? d k := rfl

theorem get?_set (d : Dict κ ν) (k : κ) (v : ν) (k' : κ) :
    get? (set d k v) k' = if k = k' then some v else get? d k' := by
  induction d with
  | nil => simp [set, get?]
  | cons e d ih =>
    obtain ⟨k0, v0⟩ := e
    by_cases h : k0 = k
    · subst h; simp [set, get?]; grind
    · simp [set, h, get?, ih]; grind

theorem get?_del (d : Dict κ ν) (k k' : κ) :
    get? (del d k) k' = if k = k' then none else get? d k' := by
  induction d with
  | nil => simp [del, get?]
  | cons e d ih =>
    obtain ⟨k0, v0⟩ := e
    simp only [del] at ih ⊢
    by_cases h : k0 = k
    · subst h; simp [ih, get?]; grind
    · simp [h, get?, ih]; grind

theorem mem_keys_iff (d : Dict κ ν) (k : κ) : k ∈ keys d ↔ (get? d k).isSome := by
  induction d with
  | nil => simp [keys]
  | cons e d ih =>
    obtain ⟨k0, v0⟩ := e
    simp only [keys, List.map_cons, List.mem_cons, get?] at ih ⊢
    by_cases h : k0 = k
    · simp [h]
    · simp [h, ih]; grind

theorem has_iff (d : Dict κ ν) (k : κ) : has d k = true ↔ k ∈ keys d := by
  rw [mem_keys_iff, has]

theorem get?_of_mem_nodup {d : Dict κ ν} (hn : (keys d).Nodup) {k : κ} {v : ν} (h : (k, v) ∈ d) :
    get? d k = some v := by
  induction d with
  | nil => cases h
  | cons e d ih =>
    obtain ⟨k0, v0⟩ := e
    simp only [keys, List.map_cons, List.nodup_cons] at hn
    simp only [List.mem_cons, Prod.mk.injEq] at h
    rcases h with ⟨rfl, rfl⟩ | h
    · simp [get?]
    · have : k0 ≠ k := by
        rintro rfl; exact hn.1 (List.mem_map.2 ⟨_, h, rfl⟩)
      simp [get?, this, ih hn.2 h]

theorem mem_of_get? {d : Dict κ ν} {k : κ} {v : ν} (h : get? d k = some v) : (k, v) ∈ d := by
  induction d with
  | nil => simp at h
  | cons e d ih =>
    obtain ⟨k0, v0⟩ := e
    simp only [get?] at h
    split at h
    · rename_i h0; subst h0; simp at h; subst h; simp
    · exact List.mem_cons_of_mem _ (ih h)

theorem keys_set (d : Dict κ ν) (k : κ) (v : ν) (k' : κ) : k' ∈ keys (set d k v) ↔ k' = k ∨ k' ∈ keys d := by
  rw [mem_keys_iff, mem_keys_iff, get?_set]; grind

theorem keys_del (d : Dict κ ν) (k k' : κ) : k' ∈ keys (del d k) ↔ k' ≠ k ∧ k' ∈ keys d := by
  rw [mem_keys_iff, mem_keys_iff, get?_del]; grind

theorem nodup_set {d : Dict κ ν} (h : (keys d).Nodup) (k : κ) (v : ν) : (keys (set d k v)).Nodup := by
  induction d with
  | nil => simp [set, keys]
  | cons e d ih =>
    obtain ⟨k0, v0⟩ := e
    simp only [keys, List.map_cons, List.nodup_cons] at h
    by_cases h0 : k0 = k
    · subst h0; simp only [set, if_true, keys, List.map_cons, List.nodup_cons]; exact h
    · simp only [set, h0, if_false, keys, List.map_cons, List.nodup_cons]
      refine ⟨?_, ih h.2⟩
      have := keys_set d k v k0
      simp only [keys] at this
      rw [this]; rintro (h1 | h1)
      · exact h0 h1
      · exact h.1 h1

theorem nodup_del {d : Dict κ ν} (h : (keys d).Nodup) (k : κ) : (keys (del d k)).Nodup := by
  unfold del keys
  exact List.Sublist.nodup (List.filter_sublist.map _) h

/-- `Counter.__getitem__`: missing keys count 0. -/
def count (d : Dict κ Int) (k : κ) : Int := (get? d k).getD 0

@[simp] theorem count_nil (k : κ) : count ([] : Dict κ Int) k = 0 := rfl

theorem count_set (d : Dict κ Int) (k : κ) (v : Int) (k' : κ) :
    count (set d k v) k' = if k = k' then v else count d k' := by
  unfold count; rw [get?_set]; split <;> rfl

theorem count_del (d : Dict κ Int) (k k' : κ) :
    count (del d k) k' = if k = k' then 0 else count d k' := by
  unfold count; rw [get?_del]; split <;> rfl

/-- All stored values are positive. -/
def Pos (d : Dict κ Int) : Prop := ∀ k v, get? d k = some v → 0 < v

theorem Pos.count_nonneg {d : Dict κ Int} (h : Pos d) (k : κ) : 0 ≤ count d k := by
  unfold count
  cases hg : get? d k with
  | none => simp
  | some v => have := h k v hg; simp; omega

theorem Pos.get?_eq {d : Dict κ Int} (h : Pos d) (k : κ) :
    get? d k = if count d k = 0 then none else some (count d k) := by
  unfold count
  cases hg : get? d k with
  | none => simp
  | some v => have := h k v hg; simp; omega

/-- Dictionaries with positive values are determined by their counts. -/
theorem Pos.ext {d e : Dict κ Int} (hd : Pos d) (he : Pos e) (h : ∀ k, count d k = count e k) (k : κ) :
    get? d k = get? e k := by
  rw [hd.get?_eq, he.get?_eq, h]

end Dict
end Verif
