import Verif.Skeleton.Model
import Verif.Streaming.Dfg
namespace Verif.Skeleton
open Dict Counter StreamDfg
variable {α : Type} [DecidableEq α]

/-! ### Counters -/
section
variable {κ : Type} [DecidableEq κ]

theorem get?_filter_pos (d : Dict κ Int) (h : (keys d).Nodup) (k : κ) :
    get? (d.filter fun p => decide (0 < p.2)) k = (get? d k).filter fun v => decide (0 < v) := by
  induction d with
  | nil => rfl
  | cons p d ih =>
    obtain ⟨k', v⟩ := p
    simp only [keys, List.map_cons, List.nodup_cons] at h
    rw [List.filter_cons]
    by_cases hk : k' = k
    · subst hk
      by_cases hv : 0 < v
      · simp [hv, get?_cons, Option.filter]
      · have hnk : get? (d.filter fun p => decide (0 < p.2)) k' = none := by
          rw [ih h.2]
          cases hg : get? d k' with
          | none => rfl
          | some w =>
            exfalso; apply h.1
            have := mem_of_get? hg
            exact List.mem_map.2 ⟨_, this, rfl⟩
        simp [hv, get?_cons, Option.filter, hnk]
    · by_cases hv : 0 < v
      · simp [hv, get?_cons, hk, ih h.2]
      · simp [hv, get?_cons, hk, ih h.2]

theorem nodup_filter (d : Dict κ Int) (h : (keys d).Nodup) (p : κ × Int → Bool) : (keys (d.filter p)).Nodup := by
  unfold keys at *
  exact h.sublist (List.Sublist.map _ List.filter_sublist)

theorem nodup_foldl_inc {β : Type} (l : List β) (f : β → κ) (g : β → Int) (d : Dict κ Int) (h : (keys d).Nodup) :
    (keys (l.foldl (fun d b => inc d (f b) (g b)) d)).Nodup := by
  induction l generalizing d with
  | nil => exact h
  | cons b l ih => exact ih _ (nodup_inc h _ _)

theorem count_filter_pos (d : Dict κ Int) (h : (keys d).Nodup) (k : κ) :
    count (d.filter fun p => decide (0 < p.2)) k = if 0 < count d k then count d k else 0 := by
  unfold Dict.count
  rw [get?_filter_pos d h]
  cases get? d k with
  | none => rfl
  | some v => by_cases hv : 0 < v <;> simp [Option.filter, hv]

theorem pos_filter_pos (d : Dict κ Int) (h : (keys d).Nodup) : Pos (d.filter fun p => decide (0 < p.2)) := by
  intro k v hv
  rw [get?_filter_pos d h] at hv
  cases hg : get? d k with
  | none => rw [hg] at hv; cases hv
  | some w =>
    rw [hg] at hv
    simp only [Option.filter] at hv
    split at hv
    · rename_i h1; simp at h1 hv; omega
    · cases hv

theorem sum_entries (e : Dict κ Int) (h : (keys e).Nodup) (k : κ) :
    (e.map fun p => if p.1 = k then p.2 else 0).sum = count e k := by
  induction e with
  | nil => rfl
  | cons p e ih =>
    obtain ⟨k', v⟩ := p
    simp only [keys, List.map_cons, List.nodup_cons] at h
    rw [List.map_cons, List.sum_cons, ih h.2]
    unfold Dict.count
    rw [get?_cons]
    by_cases hk : k' = k
    · subst hk
      have : get? e k' = none := by
        cases hg : get? e k' with
        | none => rfl
        | some w => exact absurd (List.mem_map.2 ⟨_, mem_of_get? hg, rfl⟩) h.1
      simp [this]
    · simp [hk]
end

theorem keys_scaled (f : List α → List (α × α)) (e : List α × Int) : keys (scaled f e) = keys (ofList (f e.1)) := by
  unfold scaled keys; rw [List.map_map]; rfl

theorem count_scaled (f : List α → List (α × α)) (e : List α × Int) (k : α × α) :
    count (scaled f e) k = (cnt k (f e.1) : Int) * e.2 := by
  rw [← count_ofList]
  unfold scaled
  generalize ofList (f e.1) = d
  unfold Dict.count
  induction d with
  | nil => simp
  | cons p d ih =>
    obtain ⟨k', v⟩ := p
    rw [List.map_cons, get?_cons, get?_cons]
    by_cases hk : k' = k
    · simp [hk]
    · simp only [hk, if_false]; exact ih

theorem count_add (f : List α → List (α × α)) (e : List α × Int) (d : Dict (α × α) Int) (hd : (keys d).Nodup) (k : α × α) :
    count (counterAdd d (scaled f e)) k =
      if 0 < count d k + (cnt k (f e.1) : Int) * e.2 then count d k + (cnt k (f e.1) : Int) * e.2 else 0 := by
  unfold counterAdd
  rw [count_filter_pos _ (nodup_foldl_inc _ _ _ _ hd), Dfg.count_foldl_inc _ Prod.fst Prod.snd,
    sum_entries _ (by rw [keys_scaled]; exact nodup_ofList _), count_scaled]

theorem count_sub (f : List α → List (α × α)) (e : List α × Int) (d : Dict (α × α) Int) (hd : (keys d).Nodup) (k : α × α) :
    count (counterSub d (scaled f e)) k =
      if 0 < count d k - (cnt k (f e.1) : Int) * e.2 then count d k - (cnt k (f e.1) : Int) * e.2 else 0 := by
  unfold counterSub
  have h := Dfg.count_foldl_inc (scaled f e) Prod.fst (fun p => -p.2) d k
  have h2 : ((scaled f e).map fun p => if p.1 = k then -p.2 else 0).sum = - count (scaled f e) k := by
    rw [← sum_entries _ (by rw [keys_scaled]; exact nodup_ofList _)]
    generalize scaled f e = l
    induction l with
    | nil => rfl
    | cons p l ih =>
      rw [List.map_cons, List.sum_cons, List.map_cons, List.sum_cons, ih]
      by_cases hp : p.1 = k <;> simp [hp]; omega
  rw [h2, count_scaled] at h
  rw [count_filter_pos _ (nodup_foldl_inc _ _ _ _ hd), h, show ∀ a b : Int, a + -b = a - b from fun a b => rfl]

theorem nodup_counterAdd (d e : Dict (α × α) Int) (hd : (keys d).Nodup) : (keys (counterAdd d e)).Nodup :=
  nodup_filter _ (nodup_foldl_inc _ _ _ _ hd) _

theorem nodup_counterSub (d e : Dict (α × α) Int) (hd : (keys d).Nodup) : (keys (counterSub d e)).Nodup :=
  nodup_filter _ (nodup_foldl_inc _ _ _ _ hd) _

/-- number of times a pair is produced by `f` on the traces of a log -/
def produced (f : List α → List (α × α)) (log : List (List α)) (k : α × α) : Nat := (log.map fun t => cnt k (f t)).sum

/-- occurrences of an activity in a log -/
def occ (log : List (List α)) (a : α) : Nat := (log.map fun t => cnt a t).sum

theorem occ_flatten (log : List (List α)) (a : α) : cnt a log.flatten = occ log a := by
  induction log with
  | nil => rfl
  | cons t log ih => rw [List.flatten_cons, cnt_append, ih]; rfl

theorem ofList_nonneg (log : List (List α)) : ∀ e ∈ ofList log, 0 < e.2 := by
  intro e he
  have h := get?_of_mem_nodup (nodup_ofList log) (k := e.1) (v := e.2) he
  rw [get?_ofList] at h
  split at h
  · cases h
  · simp at h; omega

theorem produced_wsum (f : List α → List (α × α)) (log : List (List α)) (k : α × α) :
    wsum (ofList log) (fun t => (cnt k (f t) : Int)) = (produced f log k : Int) := by
  rw [wsum_ofList]
  unfold produced
  induction log with
  | nil => rfl
  | cons t log ih => rw [List.map_cons, List.sum_cons, ih, List.map_cons, List.sum_cons]; simp

theorem add_fold (f : List α → List (α × α)) (lt : Dict (List α) Int) (hlt : ∀ e ∈ lt, 0 < e.2) (d : Dict (α × α) Int)
    (hd : (keys d).Nodup) (hp : Pos d) :
    let r := lt.foldl (fun ret0 e => counterAdd ret0 (scaled f e)) d
    (keys r).Nodup ∧ Pos r ∧ ∀ k, count r k = count d k + wsum lt fun t => (cnt k (f t) : Int) := by
  induction lt generalizing d with
  | nil => exact ⟨hd, hp, fun k => by simp [wsum]⟩
  | cons e lt ih =>
    obtain ⟨h1, h2, h3⟩ := ih (fun e he => hlt e (by simp [he])) (counterAdd d (scaled f e)) (nodup_counterAdd _ _ hd)
      (pos_filter_pos _ (nodup_foldl_inc _ _ _ _ hd))
    refine ⟨h1, h2, fun k => ?_⟩
    have h4 := h3 k
    rw [List.foldl_cons, h4, count_add f e d hd]
    have h5 := hlt e (by simp)
    have h6 := hp.count_nonneg k
    have h7 : 0 ≤ (cnt k (f e.1) : Int) * e.2 := Int.mul_nonneg (by omega) (by omega)
    have h8 : (if 0 < count d k + (cnt k (f e.1) : Int) * e.2 then count d k + (cnt k (f e.1) : Int) * e.2 else 0) =
        count d k + (cnt k (f e.1) : Int) * e.2 := by split <;> omega
    rw [h8]
    simp only [wsum, List.map_cons, List.sum_cons, Int.mul_comm e.2]
    omega

theorem mem_keys_enough (d : Dict (α × α) Int) (hd : (keys d).Nodup) (hp : Pos d) (all : Dict α Int) (num den : Nat) (k : α × α) :
    k ∈ keys (d.filter fun p => enough all num den p.1 p.2) ↔
      0 < count d k ∧ count d k * den ≥ count all k.1 * ((den : Int) - num) := by
  unfold keys
  rw [List.mem_map]
  constructor
  · rintro ⟨p, hm, rfl⟩
    rw [List.mem_filter] at hm
    have hg := get?_of_mem_nodup hd (k := p.1) (v := p.2) hm.1
    have : count d p.1 = p.2 := by unfold Dict.count; rw [hg]; rfl
    rw [this]
    refine ⟨hp _ _ hg, ?_⟩
    have := hm.2
    unfold enough at this
    exact of_decide_eq_true this
  · rintro ⟨h1, h2⟩
    cases hg : get? d k with
    | none => unfold Dict.count at h1; rw [hg] at h1; simp at h1
    | some v =>
      refine ⟨(k, v), ?_, rfl⟩
      rw [List.mem_filter]
      have : count d k = v := by unfold Dict.count; rw [hg]; rfl
      refine ⟨mem_of_get? hg, ?_⟩
      unfold enough
      rw [← this]
      exact decide_eq_true h2

theorem mem_discoverPairs (f : List α → List (α × α)) (log : List (List α)) (num den : Nat) (k : α × α) :
    k ∈ discoverPairs f (ofList log) (ofList log.flatten) num den ↔
      0 < produced f log k ∧ (produced f log k : Int) * den ≥ (occ log k.1 : Int) * ((den : Int) - num) := by
  obtain ⟨h1, h2, h3⟩ := add_fold f (ofList log) (ofList_nonneg log) [] (by simp) (by intro k v h; cases h)
  unfold discoverPairs
  simp only
  rw [mem_keys_enough _ h1 h2, h3 k, produced_wsum, count_ofList, occ_flatten]
  simp only [count_nil, Int.zero_add]
  constructor
  · rintro ⟨a, b⟩; exact ⟨by omega, b⟩
  · rintro ⟨a, b⟩; exact ⟨by omega, b⟩

theorem sub_fold (lt : Dict (List α) Int) (hlt : ∀ e ∈ lt, 0 < e.2) (d : Dict (α × α) Int)
    (hd : (keys d).Nodup) (hp : Pos d) :
    let r := lt.foldl (fun ret0 e => counterSub ret0 (scaled combos e)) d
    (keys r).Nodup ∧ Pos r ∧ ∀ k, count r k =
      if 0 < count d k - wsum lt (fun t => (cnt k (combos t) : Int)) then count d k - wsum lt fun t => (cnt k (combos t) : Int) else 0 := by
  induction lt generalizing d with
  | nil =>
    refine ⟨hd, hp, fun k => ?_⟩
    have := hp.count_nonneg k
    simp only [wsum, List.map_nil, List.sum_nil, List.foldl_nil]
    split <;> omega
  | cons e lt ih =>
    obtain ⟨h1, h2, h3⟩ := ih (fun e he => hlt e (by simp [he])) (counterSub d (scaled combos e)) (nodup_counterSub _ _ hd)
      (pos_filter_pos _ (nodup_foldl_inc _ _ _ _ hd))
    refine ⟨h1, h2, fun k => ?_⟩
    have h4 := h3 k
    rw [List.foldl_cons, h4, count_sub combos e d hd]
    have h7 : 0 ≤ wsum lt fun t => (cnt k (combos t) : Int) := by
      clear ih h1 h2 h3 h4
      have hlt' : ∀ e ∈ lt, 0 < e.2 := fun e he => hlt e (by simp [he])
      clear hlt
      induction lt with
      | nil => simp [wsum]
      | cons x l ih2 =>
        have := ih2 (fun e he => hlt' e (by simp [he]))
        simp only [wsum, List.map_cons, List.sum_cons] at this ⊢
        have := Int.mul_nonneg (Int.le_of_lt (hlt' x (by simp))) (show (0 : Int) ≤ cnt k (combos x.1) by omega)
        omega
    simp only [wsum, List.map_cons, List.sum_cons, Int.mul_comm e.2] at h7 ⊢
    have key : ∀ c a b : Int, 0 ≤ b → (if 0 < (if 0 < c - a then c - a else 0) - b then
        (if 0 < c - a then c - a else 0) - b else 0) = if 0 < c - (a + b) then c - (a + b) else 0 := by
      intro c a b hb; split <;> split <;> split <;> omega
    exact key _ _ _ h7

theorem mem_allCombos (all : Dict α Int) (k : α × α) :
    k ∈ ((keys all).flatMap fun x => (keys all).filterMap fun y => if x ≠ y then some (x, y) else none) ↔
      k.1 ∈ keys all ∧ k.2 ∈ keys all ∧ k.1 ≠ k.2 := by
  rw [List.mem_flatMap]
  constructor
  · rintro ⟨x, hx, h⟩
    rw [List.mem_filterMap] at h
    obtain ⟨y, hy, h⟩ := h
    split at h
    · simp at h; subst h; exact ⟨hx, hy, by assumption⟩
    · cases h
  · rintro ⟨h1, h2, h3⟩
    exact ⟨k.1, h1, List.mem_filterMap.2 ⟨k.2, h2, by simp [h3]⟩⟩

theorem init_fold (all : Dict α Int) (l : List (α × α)) (d : Dict (α × α) Int) (hd : (keys d).Nodup) (k : α × α) :
    let r := l.foldl (fun d k => Dict.set d k (count all k.1)) d
    (keys r).Nodup ∧ get? r k = if k ∈ l then some (count all k.1) else get? d k := by
  induction l generalizing d with
  | nil => exact ⟨hd, by simp⟩
  | cons x l ih =>
    obtain ⟨h1, h2⟩ := ih (Dict.set d x (count all x.1)) (nodup_set hd _ _)
    refine ⟨h1, ?_⟩
    rw [List.foldl_cons, h2, get?_set]
    by_cases hk : k ∈ l
    · simp [hk]
    · by_cases hx : x = k
      · simp [hx]
      · simp [hx, show k ≠ x from fun e => hx e.symm]

theorem mem_neverTogether (log : List (List α)) (num den : Nat) (k : α × α) :
    k ∈ neverTogether (ofList log) (ofList log.flatten) num den ↔
      k.1 ≠ k.2 ∧ 0 < occ log k.2 ∧ produced combos log k < occ log k.1 ∧
      ((occ log k.1 : Int) - produced combos log k) * den ≥ (occ log k.1 : Int) * ((den : Int) - num) := by
  have hi := fun k => init_fold (ofList log.flatten) ((keys (ofList log.flatten)).flatMap fun x =>
    (keys (ofList log.flatten)).filterMap fun y => if x ≠ y then some (x, y) else none) [] (by simp) k
  simp only [mem_allCombos, keys_ofList, count_ofList, get?_nil] at hi
  unfold neverTogether
  simp only
  generalize hr : ((keys (ofList log.flatten)).flatMap fun x =>
    (keys (ofList log.flatten)).filterMap fun y => if x ≠ y then some (x, y) else none).foldl
      (fun d k => Dict.set d k (count (ofList log.flatten) k.1)) [] = r
  simp only [count_ofList] at hr
  rw [hr] at hi
  have hpos : Pos r := by
    intro k v hv
    rw [(hi k).2] at hv
    split at hv
    · rename_i h
      simp at hv
      have := (cnt_pos k.1 log.flatten).2 h.1
      omega
    · cases hv
  obtain ⟨h1, h2, h3⟩ := sub_fold (ofList log) (ofList_nonneg log) r (hi k).1 hpos
  rw [mem_keys_enough _ h1 h2, h3 k, produced_wsum, count_ofList]
  have hc : count r k = if k.1 ∈ log.flatten ∧ k.2 ∈ log.flatten ∧ k.1 ≠ k.2 then (cnt k.1 log.flatten : Int) else 0 := by
    unfold Dict.count
    rw [(hi k).2]
    split <;> rfl
  rw [hc]
  simp only [← cnt_pos, occ_flatten]
  by_cases hk : 0 < occ log k.1 ∧ 0 < occ log k.2 ∧ k.1 ≠ k.2
  · rw [if_pos hk]
    simp only [hk.2.1, hk.2.2, ne_eq, not_false_eq_true, true_and]
    split
    · constructor
      · rintro ⟨a, b⟩; exact ⟨by omega, b⟩
      · rintro ⟨a, b⟩; exact ⟨by omega, b⟩
    · constructor
      · rintro ⟨a, b⟩; omega
      · rintro ⟨a, b⟩; omega
  · rw [if_neg hk]
    constructor
    · rintro ⟨a, b⟩
      split at a <;> omega
    · rintro ⟨a, b, c, d⟩
      exact absurd ⟨by omega, b, a⟩ hk

/-! ### What the per-trace lists contain -/

theorem sum_single {ι : Type} [DecidableEq ι] (l : List ι) (hl : l.Nodup) (c : ι) (f : ι → Nat) (h : ∀ x ∈ l, x ≠ c → f x = 0) :
    (l.map f).sum = if c ∈ l then f c else 0 := by
  induction l with
  | nil => rfl
  | cons x l ih =>
    rw [List.nodup_cons] at hl
    rw [List.map_cons, List.sum_cons, ih hl.2 (fun y hy => h y (by simp [hy]))]
    by_cases hx : x = c
    · subst hx; simp [hl.1]
    · rw [h x (by simp) hx]; simp [show c ≠ x from fun e => hx e.symm]

theorem cnt_replicate {ι : Type} [DecidableEq ι] (n : Nat) (x k : ι) : cnt k (List.replicate n x) = if x = k then n else 0 := by
  induction n with
  | zero => simp
  | succ n ih => rw [List.replicate_succ, cnt_cons, ih]; by_cases h : x = k <;> simp [h]

theorem cnt_equivalence (t : List α) (x y : α) :
    cnt (x, y) (equivalence t) = if x ≠ y ∧ cnt x t = cnt y t then cnt x t else 0 := by
  unfold equivalence activFreq
  simp only
  rw [cnt_flatMap_sum, sum_single _ (nodup_ofList t) x]
  · rw [cnt_flatMap_sum, sum_single _ (nodup_ofList t) y]
    · simp only [keys_ofList, count_ofList]
      by_cases h1 : x ≠ y ∧ cnt x t = cnt y t
      · rw [if_pos h1]
        have h2 : x ≠ y ∧ (cnt x t : Int) = (cnt y t : Int) := ⟨h1.1, by rw [h1.2]⟩
        simp only [if_pos h2, cnt_replicate]
        by_cases hx : x ∈ t
        · have hy : y ∈ t := by rw [← cnt_pos, ← h1.2, cnt_pos]; exact hx
          simp [hx, hy]
        · simp only [if_neg hx]; exact ((cnt_zero x t).2 hx).symm
      · rw [if_neg h1]
        have h2 : ¬ (x ≠ y ∧ (cnt x t : Int) = (cnt y t : Int)) := by rintro ⟨a, b⟩; exact h1 ⟨a, by omega⟩
        simp only [if_neg h2, cnt_nil, ite_self]
    · intro z _ hz
      split
      · rw [cnt_replicate]; simp [hz]
      · rfl
  · intro z _ hz
    rw [cnt_flatMap_sum]
    have : ∀ l : List α, (l.map fun w => cnt (x, y) (if z ≠ w ∧ count (ofList t) z = count (ofList t) w then
        List.replicate (count (ofList t) z).toNat (z, w) else [])).sum = 0 := by
      intro l
      induction l with
      | nil => rfl
      | cons w l ih =>
        rw [List.map_cons, List.sum_cons, ih]
        split
        · rw [cnt_replicate]; simp [hz]
        · rfl
    exact this _

theorem mem_combos (t : List α) (x y : α) : (x, y) ∈ combos t ↔ x ≠ y ∧ x ∈ t ∧ y ∈ t := by
  unfold combos
  rw [mem_dedup, List.mem_flatMap]
  constructor
  · rintro ⟨a, ha, h⟩
    rw [List.mem_filterMap] at h
    obtain ⟨b, hb, h⟩ := h
    split at h
    · simp at h; obtain ⟨rfl, rfl⟩ := h; exact ⟨by assumption, ha, hb⟩
    · cases h
  · rintro ⟨h, h1, h2⟩
    exact ⟨x, h1, List.mem_filterMap.2 ⟨y, h2, by simp [h]⟩⟩

theorem cnt_pairs_le (t : List α) (x y : α) : cnt (x, y) (directlyFollows t) ≤ cnt x t := by
  unfold directlyFollows
  rw [Dfg.pairs_eq_zip]
  induction t with
  | nil => simp
  | cons a t ih =>
    cases t with
    | nil => simp
    | cons b t =>
      rw [List.tail_cons, List.zip_cons_cons, cnt_cons, cnt_cons]
      rw [List.tail_cons] at ih
      by_cases h1 : a = x
      · by_cases h2 : b = y
        · simp only [h1, h2, if_true] at ih ⊢; omega
        · simp only [h1, Prod.mk.injEq, h2, and_false, if_false, if_true] at ih ⊢; omega
      · simp [h1] at ih ⊢; omega

theorem all_eq_of_sum {β : Type} (l : List β) (f g : β → Nat) (h : ∀ x ∈ l, f x ≤ g x) (hs : (l.map g).sum ≤ (l.map f).sum) :
    ∀ x ∈ l, f x = g x := by
  induction l with
  | nil => simp
  | cons x l ih =>
    simp only [List.map_cons, List.sum_cons] at hs
    have h1 := h x (by simp)
    have hle : (l.map f).sum ≤ (l.map g).sum := by
      clear ih hs
      induction l with
      | nil => simp
      | cons y l ih2 =>
        have := ih2 (fun z hz => h z (by rcases List.mem_cons.1 hz with rfl | hz <;> simp [*]))
        have := h y (by simp)
        simp only [List.map_cons, List.sum_cons]; omega
    intro y hy
    rcases List.mem_cons.1 hy with rfl | hy
    · omega
    · exact ih (fun z hz => h z (by simp [hz])) (by omega) y hy

theorem produced_pos (f : List α → List (α × α)) (log : List (List α)) (k : α × α) :
    0 < produced f log k ↔ ∃ t ∈ log, k ∈ f t := by
  unfold produced
  induction log with
  | nil => simp
  | cons t log ih =>
    rw [List.map_cons, List.sum_cons]
    constructor
    · intro h
      by_cases h1 : 0 < cnt k (f t)
      · exact ⟨t, by simp, (cnt_pos _ _).1 h1⟩
      · obtain ⟨u, hu, h2⟩ := ih.1 (by omega); exact ⟨u, by simp [hu], h2⟩
    · rintro ⟨u, hu, h2⟩
      rcases List.mem_cons.1 hu with rfl | hu
      · have := (cnt_pos _ _).2 h2; omega
      · have := ih.2 ⟨u, hu, h2⟩; omega

theorem occ_pos (log : List (List α)) (a : α) : 0 < occ log a ↔ ∃ t ∈ log, a ∈ t := by
  rw [← occ_flatten, cnt_pos, List.mem_flatten]

end Verif.Skeleton
