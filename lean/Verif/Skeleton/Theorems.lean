import Verif.Skeleton.Proofs
namespace Verif.Skeleton
open Dict Counter StreamDfg
variable {α : Type} [DecidableEq α]

/-! ### Activity frequencies -/

theorem fill_fold (l : List α) (rs : Dict α Int) (h : (keys rs).Nodup) :
    let r := l.foldl (fun rs a => if has rs a then rs else Dict.set rs a 0) rs
    (keys r).Nodup ∧ (∀ a, a ∈ keys r ↔ a ∈ keys rs ∨ a ∈ l) ∧ ∀ a, count r a = count rs a := by
  induction l generalizing rs with
  | nil => exact ⟨h, by simp, fun _ => rfl⟩
  | cons x l ih =>
    rw [List.foldl_cons]
    by_cases hx : has rs x = true
    · rw [if_pos hx]
      obtain ⟨h1, h2, h3⟩ := ih rs h
      refine ⟨h1, fun a => ?_, h3⟩
      rw [h2, List.mem_cons]
      have := (has_iff rs x).1 hx
      constructor
      · rintro (h | h) <;> simp [h]
      · rintro (h | rfl | h)
        · exact Or.inl h
        · exact Or.inl this
        · exact Or.inr h
    · rw [if_neg hx]
      obtain ⟨h1, h2, h3⟩ := ih (Dict.set rs x 0) (nodup_set h _ _)
      refine ⟨h1, fun a => ?_, fun a => ?_⟩
      · rw [h2, keys_set, List.mem_cons]; grind
      · rw [h3, count_set]
        split
        · rename_i he
          rw [has_iff, mem_keys_iff] at hx
          unfold Dict.count
          subst he
          cases hg : get? rs x with
          | none => rfl
          | some v => rw [hg] at hx; simp at hx
        · rfl

theorem inner_fold (rs : Dict α Int) (m : Int) (l : List α) (hl : l.Nodup) (d : Dict α (Dict Int Int)) (a : α) :
    get? (l.foldl (fun d a => Dict.set d a (inc ((get? d a).getD []) (count rs a) m)) d) a =
      if a ∈ l then some (inc ((get? d a).getD []) (count rs a) m) else get? d a := by
  induction l generalizing d with
  | nil => simp
  | cons x l ih =>
    rw [List.nodup_cons] at hl
    rw [List.foldl_cons, ih hl.2]
    simp only [get?_set]
    by_cases hx : x = a
    · subst hx; simp [hl.1]
    · have : a ≠ x := fun e => hx e.symm
      simp [this, hx]

/-- the counter of activity `a` -/
def freqCounter (lt : Dict (List α) Int) (a : α) (c : Dict Int Int) : Dict Int Int :=
  lt.foldl (fun c e => inc c (cnt a e.1 : Int) e.2) c

theorem freqCounters_get (lt : Dict (List α) Int) (all : Dict α Int) (hall : ∀ e ∈ lt, ∀ a ∈ e.1, a ∈ keys all)
    (d : Dict α (Dict Int Int)) (a : α) :
    get? (lt.foldl (fun ret0 e =>
      let rs := (keys all).foldl (fun rs a => if has rs a then rs else Dict.set rs a 0) (activFreq e.1)
      (keys rs).foldl (fun ret0 a =>
        Dict.set ret0 a (inc ((get? ret0 a).getD []) (count rs a) e.2)) ret0) d) a =
      if a ∈ keys all ∧ lt ≠ [] then some (freqCounter lt a ((get? d a).getD [])) else get? d a := by
  induction lt generalizing d with
  | nil => simp
  | cons e lt ih =>
    rw [List.foldl_cons, ih (fun e he => hall e (by simp [he]))]
    obtain ⟨h1, h2, h3⟩ := fill_fold (keys all) (activFreq e.1) (nodup_ofList _)
    simp only
    rw [inner_fold _ _ _ h1]
    have hm : ∀ a, a ∈ keys ((keys all).foldl (fun rs a => if has rs a then rs else Dict.set rs a 0) (activFreq e.1)) ↔ a ∈ keys all := by
      intro a
      rw [h2]
      constructor
      · rintro (h | h)
        · exact hall e (by simp) a ((keys_ofList _ _).1 h)
        · exact h
      · exact Or.inr
    simp only [hm, h3]
    have hc : count (activFreq e.1) a = (cnt a e.1 : Int) := count_ofList _ _
    rw [hc]
    by_cases ha : a ∈ keys all
    · cases lt with
      | nil => simp [ha, freqCounter]
      | cons e' lt => simp [ha, freqCounter]
    · simp [ha]

theorem freqCounter_spec (lt : Dict (List α) Int) (hlt : ∀ e ∈ lt, 0 < e.2) (a : α) (c : Dict Int Int)
    (hn : (keys c).Nodup) (hp : ∀ p ∈ c, 0 < p.2) :
    (keys (freqCounter lt a c)).Nodup ∧ (∀ p ∈ freqCounter lt a c, 0 < p.2) ∧
    (∀ n, n ∈ keys (freqCounter lt a c) ↔ n ∈ keys c ∨ ∃ e ∈ lt, n = (cnt a e.1 : Int)) ∧
    ((freqCounter lt a c).map Prod.snd).sum = (c.map Prod.snd).sum + (lt.map Prod.snd).sum := by
  induction lt generalizing c with
  | nil => exact ⟨hn, hp, by simp [freqCounter], by simp [freqCounter]⟩
  | cons e lt ih =>
    have hc0 : 0 ≤ count c (cnt a e.1 : Int) := by
      unfold Dict.count
      cases hg : get? c (cnt a e.1 : Int) with
      | none => simp
      | some v => exact Int.le_of_lt (hp _ (mem_of_get? hg))
    have hpos := hlt e (by simp)
    have hp' : ∀ p ∈ inc c (cnt a e.1 : Int) e.2, 0 < p.2 := by
      intro p hpm
      have hg := get?_of_mem_nodup (nodup_inc hn _ _) (k := p.1) (v := p.2) hpm
      unfold inc at hg
      rw [get?_set] at hg
      split at hg
      · simp at hg; omega
      · exact hp _ (mem_of_get? hg)
    obtain ⟨h1, h2, h3, h4⟩ := ih (fun e he => hlt e (by simp [he])) (inc c (cnt a e.1 : Int) e.2) (nodup_inc hn _ _) hp'
    refine ⟨h1, h2, fun n => ?_, ?_⟩
    · show n ∈ keys (freqCounter lt a (inc c (cnt a e.1 : Int) e.2)) ↔ _
      rw [h3]
      unfold inc
      rw [keys_set]
      grind
    · show ((freqCounter lt a (inc c (cnt a e.1 : Int) e.2)).map Prod.snd).sum = _
      rw [h4]
      have := total_inc c hn (cnt a e.1 : Int) e.2 (fun _ => true)
      unfold total at this
      simp only [List.filter_eq_self.2 (fun _ _ => rfl), if_true] at this
      rw [List.map_cons, List.sum_cons, this]; omega

theorem cutAfter_id (den lenLog : Nat) (hden : 0 < den) (l : List (Int × Int)) (added : Int) (hp : ∀ p ∈ l, 0 < p.2)
    (h : added + (l.map Prod.snd).sum ≤ lenLog) : cutAfter 0 den lenLog added l = l := by
  induction l generalizing added with
  | nil => rfl
  | cons p l ih =>
    unfold cutAfter
    simp only [List.map_cons, List.sum_cons] at h
    split
    · rename_i hge
      have h1 : added + p.2 ≥ lenLog := by
        have hd : (0 : Int) < den := by omega
        rw [show ((den : Int) - ((0 : Nat) : Int)) = den by omega, Int.mul_comm (den : Int)] at hge
        exact Int.le_of_mul_le_mul_right hge hd
      cases l with
      | nil => rfl
      | cons q l =>
        exfalso
        have hq := hp q (by simp)
        have : 0 ≤ (l.map Prod.snd).sum := by
          have hp2 : ∀ p ∈ l, 0 < p.2 := fun p h => hp p (by simp [h])
          clear hp ih h hge
          induction l with
          | nil => simp
          | cons x l ih2 =>
            have := ih2 (fun p h => hp2 p (by simp [h]))
            have := hp2 x (by simp)
            simp only [List.map_cons, List.sum_cons]; omega
        simp only [List.map_cons, List.sum_cons] at h
        omega
    · rw [ih _ (fun q hq => hp q (by simp [hq])) (by omega)]

theorem get?_map_val {κ ν μ : Type} [DecidableEq κ] (d : Dict κ ν) (g : ν → μ) (k : κ) :
    get? (d.map fun p => (p.1, g p.2)) k = (get? d k).map g := by
  induction d with
  | nil => rfl
  | cons p d ih =>
    obtain ⟨k', v⟩ := p
    rw [List.map_cons, get?_cons, get?_cons]
    split <;> simp [*]

theorem perm_sum_int {l m : List Int} (h : l.Perm m) : l.sum = m.sum := by
  induction h with
  | nil => rfl
  | cons x _ ih => simp [ih]
  | swap x y l => simp only [List.sum_cons]; omega
  | trans _ _ h1 h2 => exact h1.trans h2

/-- At noise 0 the set of an activity is the set of its frequencies in the traces. -/
theorem activFreqs_get (log : List (List α)) (lenLog den : Nat) (hden : 0 < den) (hlen : log.length ≤ lenLog) (a : α) :
    if ∃ t ∈ log, a ∈ t then
      ∃ s, get? (activFreqs (ofList log) (ofList log.flatten) lenLog 0 den) a = some s ∧
        ∀ n, n ∈ s ↔ ∃ t ∈ log, n = (cnt a t : Int)
    else get? (activFreqs (ofList log) (ofList log.flatten) lenLog 0 den) a = none := by
  have hmem : ∀ t, (∃ e ∈ ofList log, e.1 = t) ↔ t ∈ log := by
    intro t
    rw [← keys_ofList log t]
    unfold keys; rw [List.mem_map]
  have hg := freqCounters_get (ofList log) (ofList log.flatten) (by
    intro e he a ha
    rw [keys_ofList, List.mem_flatten]
    exact ⟨e.1, (hmem e.1).1 ⟨e, he, rfl⟩, ha⟩) [] a
  have hg2 : get? (freqCounters (ofList log) (ofList log.flatten)) a =
      if a ∈ keys (ofList log.flatten) ∧ ofList log ≠ [] then some (freqCounter (ofList log) a []) else none := hg
  unfold activFreqs
  rw [get?_map_val _ (fun c : Dict Int Int => (cutAfter 0 den lenLog 0 (List.mergeSort c fun x y => decide (x.2 ≥ y.2))).map Prod.fst), hg2]
  have hk : a ∈ keys (ofList log.flatten) ↔ ∃ t ∈ log, a ∈ t := by rw [keys_ofList, List.mem_flatten]
  by_cases hex : ∃ t ∈ log, a ∈ t
  · have hne : ofList log ≠ [] := by
      obtain ⟨t, ht, _⟩ := hex
      intro h0
      have := (hmem t).2 ht
      rw [h0] at this; simp at this
    rw [if_pos hex, if_pos ⟨hk.2 hex, hne⟩]
    refine ⟨_, rfl, ?_⟩
    obtain ⟨h1, h2, h3, h4⟩ := freqCounter_spec (ofList log) (ofList_nonneg log) a [] (by simp) (by simp)
    have hperm := List.mergeSort_perm (freqCounter (ofList log) a []) (fun x y => decide (x.2 ≥ y.2))
    have hsum : ((ofList log).map Prod.snd).sum = (log.length : Int) := by
      have := wsum_ofList log (fun _ => 1)
      unfold wsum at this
      simp only [Int.mul_one] at this
      rw [show (ofList log).map Prod.snd = (ofList log).map (fun e => e.2) from rfl, this]
      have : ∀ l : List (List α), (l.map fun _ => (1 : Int)).sum = l.length := by
        intro l
        induction l with
        | nil => rfl
        | cons t l ih => rw [List.map_cons, List.sum_cons, ih]; simp; omega
      exact this log
    simp only []
    rw [cutAfter_id den lenLog hden]
    · intro n
      rw [(hperm.map Prod.fst).mem_iff]
      show n ∈ keys (freqCounter (ofList log) a []) ↔ _
      rw [h3]
      simp only [keys_nil, List.not_mem_nil, false_or]
      constructor
      · rintro ⟨e, he, rfl⟩; exact ⟨e.1, (hmem _).1 ⟨e, he, rfl⟩, rfl⟩
      · rintro ⟨t, ht, rfl⟩
        obtain ⟨e, he, rfl⟩ := (hmem t).2 ht
        exact ⟨e, he, rfl⟩
    · intro p hp; exact h2 p (hperm.mem_iff.1 hp)
    · have hs : (((freqCounter (ofList log) a []).mergeSort fun x y => decide (x.2 ≥ y.2)).map Prod.snd).sum =
          ((freqCounter (ofList log) a []).map Prod.snd).sum := by
        exact perm_sum_int (hperm.map Prod.snd)
      rw [hs, h4, hsum]
      simp
      omega
  · rw [if_neg hex, if_neg (fun h => hex (hk.1 h.1))]; rfl

/-! ### Pair counts of `after` and `before` -/

theorem cnt_filterMap_le (t : List α) (ok : Nat → Bool) (a x y : α) (n : Nat) :
    cnt (x, y) ((List.range n).filterMap fun j => if ok j then match t[j]? with
      | some b => some (a, b)
      | none => none else none) ≤ if a = x then cnt y (t.take n) else 0 := by
  induction n with
  | zero => simp
  | succ n ih =>
    rw [List.range_succ, List.filterMap_append, cnt_append]
    have h2 : cnt (x, y) ([n].filterMap fun j => if ok j then match t[j]? with
        | some b => some (a, b)
        | none => none else none) ≤ if a = x ∧ t[n]? = some y then 1 else 0 := by
      simp only [List.filterMap_cons, List.filterMap_nil]
      cases ht : t[n]? with
      | none => simp
      | some b =>
        by_cases hk : ok n = true
        · simp only [hk, if_true, cnt_cons, cnt_nil, Prod.mk.injEq, Option.some.injEq]; omega
        · simp [hk]
    rw [List.take_add_one, cnt_append]
    have h3 : cnt y t[n]?.toList = if t[n]? = some y then 1 else 0 := by
      cases t[n]? with
      | none => simp
      | some b => simp [cnt_cons]
    rw [h3]
    by_cases ha : a = x
    · simp only [ha, true_and, if_true] at ih h2 ⊢; omega
    · simp only [ha, false_and, if_false] at ih h2 ⊢; omega

theorem cnt_posPairs_le (t : List α) (ok : Nat → Nat → Bool) (x y : α) : cnt (x, y) (posPairs t ok) ≤ cnt x t * cnt y t := by
  unfold posPairs
  rw [cnt_flatMap_sum]
  have h : ∀ n, ((List.range n).map fun i => cnt (x, y) ((List.range t.length).filterMap fun j =>
      if ok i j then match t[i]?, t[j]? with
        | some a, some b => some (a, b)
        | _, _ => none
      else none)).sum ≤ cnt x (t.take n) * cnt y t := by
    intro n
    induction n with
    | zero => simp
    | succ n ih =>
      rw [List.range_succ, List.map_append, List.sum_append, List.take_add_one, cnt_append, Nat.add_mul]
      refine Nat.add_le_add ih ?_
      simp only [List.map_cons, List.map_nil, List.sum_cons, List.sum_nil, Nat.add_zero]
      cases ht : t[n]? with
      | none =>
        have : ∀ l : List Nat, l.filterMap (fun j => if ok n j = true then (match (none : Option α), t[j]? with
            | some a, some b => some (a, b)
            | _, _ => none) else none) = [] := by
          intro l; rw [List.filterMap_eq_nil_iff]; intro j _; split <;> rfl
        rw [this]; simp
      | some a =>
        have := cnt_filterMap_le t (ok n) a x y t.length
        rw [List.take_length] at this
        have e : (List.range t.length).filterMap (fun j => if ok n j = true then (match some a, t[j]? with
            | some a, some b => some (a, b)
            | _, _ => none) else none) = (List.range t.length).filterMap (fun j => if ok n j then match t[j]? with
            | some b => some (a, b)
            | none => none else none) := by
          congr 1
          funext j
          cases t[j]? <;> rfl
        rw [e]
        refine Nat.le_trans this ?_
        simp only [Option.toList_some, cnt_cons, cnt_nil]
        by_cases ha : a = x <;> simp [ha]
  have := h t.length
  rwa [List.take_length] at this

theorem mem_posPairs (t : List α) (ok : Nat → Nat → Bool) (x y : α) :
    (x, y) ∈ posPairs t ok ↔ ∃ i j, ok i j = true ∧ t[i]? = some x ∧ t[j]? = some y := by
  unfold posPairs
  simp only [List.mem_flatMap, List.mem_filterMap, List.mem_range]
  constructor
  · rintro ⟨i, hi, j, hj, h⟩
    refine ⟨i, j, ?_⟩
    split at h
    · split at h
      · simp at h; obtain ⟨rfl, rfl⟩ := h; rename_i h1 _ _ _ _ h2 h3; exact ⟨h1, h2, h3⟩
      · cases h
    · cases h
  · rintro ⟨i, j, h1, h2, h3⟩
    refine ⟨i, ?_, j, ?_, by simp [h1, h2, h3]⟩
    · exact (List.getElem?_eq_some_iff.1 h2).1
    · exact (List.getElem?_eq_some_iff.1 h3).1

/-! ### Conformance -/

theorem checkDiff_ok (k : Kind) (model info : List (α × α)) (t : List α) (r : Result α)
    (h : ∀ p ∈ model, p.1 ∈ t → p ∈ info) :
    (checkDiff k model info t r).deviations = r.deviations ∧ (checkDiff k model info t r).devTotal = r.devTotal := by
  have : ((model.filter fun x => decide (x.1 ∈ t)).filter fun x => decide (x ∉ info)) = [] := by
    rw [List.filter_eq_nil_iff]
    intro p hp
    rw [List.mem_filter] at hp
    simp [h p hp.1 (of_decide_eq_true hp.2)]
  unfold checkDiff
  simp only [this, List.length_nil, Nat.lt_irrefl, if_false, gt_iff_lt, Nat.add_zero, and_self]

theorem checkInter_ok (model info : List (α × α)) (t : List α) (r : Result α)
    (h : ∀ p ∈ model, p.1 ∈ t → p ∉ info) :
    (checkInter model info t r).deviations = r.deviations ∧ (checkInter model info t r).devTotal = r.devTotal := by
  have : ((model.filter fun x => decide (x.1 ∈ t)).filter fun x => decide (x ∈ info)) = [] := by
    rw [List.filter_eq_nil_iff]
    intro p hp
    rw [List.mem_filter] at hp
    simp [h p hp.1 (of_decide_eq_true hp.2)]
  unfold checkInter
  simp only [this, List.length_nil, Nat.lt_irrefl, if_false, gt_iff_lt, Nat.add_zero, and_self]

theorem checkFreq_ok (model : Dict α (List Int)) (t : List α) (r : Result α)
    (h1 : ∀ a ∈ t, ∃ s, get? model a = some s ∧ (cnt a t : Int) ∈ s)
    (h2 : ∀ a ∈ keys model, a ∉ t → ∃ s, get? model a = some s ∧ (0 : Int) ∈ s) :
    (checkFreq model t r).deviations = r.deviations ∧ (checkFreq model t r).devTotal = r.devTotal := by
  have hm : ((keys model).filter fun a => ((get? model a).getD []).all (fun n => decide (0 < n)) && decide (a ∉ t)) = [] := by
    rw [List.filter_eq_nil_iff]
    intro a ha hc
    rw [Bool.and_eq_true] at hc
    obtain ⟨s, hs, h0⟩ := h2 a ha (of_decide_eq_true hc.2)
    rw [hs] at hc
    have := List.all_eq_true.1 hc.1 0 h0
    simp at this
  have hb : (activFreq t).filterMap (badFreq model) = [] := by
    rw [List.filterMap_eq_nil_iff]
    intro p hp
    have hg := get?_of_mem_nodup (nodup_ofList t) (k := p.1) (v := p.2) hp
    rw [get?_ofList] at hg
    split at hg
    · cases hg
    · rename_i hz
      simp at hg
      obtain ⟨s, hs, hin⟩ := h1 p.1 ((cnt_pos _ _).1 (by omega))
      unfold badFreq
      simp only [hs]
      rw [← hg]; simp [hin]
  unfold checkFreq
  simp only [hm, hb, List.append_nil, List.map_nil, List.length_nil, Nat.add_zero, and_self]

/-- noise 0: the pairs found are those produced at least as often as the first activity occurs -/
theorem mem_discoverPairs_zero (f : List α → List (α × α)) (log : List (List α)) (den : Nat) (hden : 0 < den) (k : α × α) :
    k ∈ discoverPairs f (ofList log) (ofList log.flatten) 0 den ↔ 0 < produced f log k ∧ occ log k.1 ≤ produced f log k := by
  rw [mem_discoverPairs]
  have hd : (0 : Int) < den := by omega
  rw [show ((den : Int) - ((0 : Nat) : Int)) = den by omega]
  constructor
  · rintro ⟨a, b⟩
    have := Int.le_of_mul_le_mul_right b hd
    exact ⟨a, by omega⟩
  · rintro ⟨a, b⟩
    exact ⟨a, Int.mul_le_mul_of_nonneg_right (by omega) (by omega)⟩

theorem pairs_sound (f : List α → List (α × α)) (log : List (List α)) (den : Nat) (hden : 0 < den) (x y : α)
    (hle : ∀ t ∈ log, cnt (x, y) (f t) ≤ cnt x t)
    (hk : (x, y) ∈ discoverPairs f (ofList log) (ofList log.flatten) 0 den) (t : List α) (ht : t ∈ log) (hx : x ∈ t) :
    (x, y) ∈ f t := by
  rw [mem_discoverPairs_zero _ _ _ hden] at hk
  have := all_eq_of_sum log _ _ hle hk.2 t ht
  rw [← cnt_pos, this, cnt_pos]
  exact hx

end Skeleton
open Skeleton Dict Counter StreamDfg
section
variable {α : Type} [DecidableEq α]

/-- C16: what the constraints discovered at noise 0 say: `(x, y)` is an equivalence iff `x ≠ y`, `x` occurs, and every
trace with `x` has as many `y` as `x`. -/
theorem C16_equivalence (log : List (List α)) (lenLog den : Nat) (hden : 0 < den) (x y : α) :
    (x, y) ∈ (discover log lenLog 0 den).equivalence ↔
      x ≠ y ∧ (∃ t ∈ log, x ∈ t) ∧ ∀ t ∈ log, x ∈ t → t.count x = t.count y := by
  show (x, y) ∈ discoverPairs _ _ _ _ _ ↔ _
  simp only [← cnt_eq_count]
  rw [mem_discoverPairs_zero _ _ _ hden]
  constructor
  · rintro ⟨h1, h2⟩
    have hle : ∀ t ∈ log, cnt (x, y) (equivalence t) ≤ cnt x t := by
      intro t _; rw [cnt_equivalence]; split <;> omega
    have he := all_eq_of_sum log _ _ hle h2
    obtain ⟨t, ht, hm⟩ := (produced_pos _ _ _).1 h1
    have hc := (cnt_pos _ _).2 hm
    rw [cnt_equivalence] at hc
    split at hc
    · rename_i hxy
      refine ⟨hxy.1, ⟨t, ht, (cnt_pos _ _).1 hc⟩, ?_⟩
      intro u hu hxu
      have hu2 := he u hu
      rw [cnt_equivalence] at hu2
      split at hu2
      · rename_i h; exact h.2
      · have := (cnt_pos _ _).2 hxu; omega
    · omega
  · rintro ⟨h1, ⟨t, ht, hx⟩, h2⟩
    have he : ∀ t ∈ log, cnt (x, y) (equivalence t) = cnt x t := by
      intro t ht
      rw [cnt_equivalence]
      by_cases hx : x ∈ t
      · rw [if_pos ⟨h1, h2 t ht hx⟩]
      · have := (cnt_zero x t).2 hx
        split <;> omega
    refine ⟨(produced_pos _ _ _).2 ⟨t, ht, ?_⟩, ?_⟩
    · rw [← cnt_pos, he t ht, cnt_pos]; exact hx
    · unfold occ produced
      rw [List.map_congr_left he]
      exact Nat.le_refl _

/-- C16: `(x, y)` is never-together iff both occur in the log, they differ, and no trace contains both. -/
theorem C16_never_together (log : List (List α)) (lenLog den : Nat) (hden : 0 < den) (x y : α) :
    (x, y) ∈ (discover log lenLog 0 den).neverTogether ↔
      x ≠ y ∧ (∃ t ∈ log, x ∈ t) ∧ (∃ t ∈ log, y ∈ t) ∧ ∀ t ∈ log, ¬ (x ∈ t ∧ y ∈ t) := by
  show (x, y) ∈ neverTogether _ _ _ _ ↔ _
  rw [mem_neverTogether]
  have hd : (0 : Int) < den := by omega
  rw [show ((den : Int) - ((0 : Nat) : Int)) = den by omega]
  simp only [occ_pos]
  have key : produced combos log (x, y) = 0 ↔ ∀ t ∈ log, ¬ (x ≠ y ∧ x ∈ t ∧ y ∈ t) := by
    have := produced_pos combos log (x, y)
    simp only [mem_combos] at this
    constructor
    · intro h t ht hc
      have := this.2 ⟨t, ht, hc⟩
      omega
    · intro h
      apply Classical.byContradiction
      intro h0
      obtain ⟨t, ht, hc⟩ := this.1 (by omega)
      exact h t ht hc
  constructor
  · rintro ⟨h1, h2, h3, h4⟩
    have := Int.le_of_mul_le_mul_right h4 hd
    have h0 := key.1 (by omega)
    exact ⟨h1, (occ_pos _ _).1 (by omega), h2, fun t ht hc => h0 t ht ⟨h1, hc⟩⟩
  · rintro ⟨h1, h2, h3, h4⟩
    have h0 := key.2 (fun t ht hc => h4 t ht hc.2)
    have := (occ_pos _ _).2 h2
    exact ⟨h1, h3, by omega, by rw [h0]; simp⟩

/-- C16: `(x, y)` is directly-follows iff `x` occurs and every `x` is directly followed by `y`, counted over the log. -/
theorem C16_directly_follows (log : List (List α)) (lenLog den : Nat) (hden : 0 < den) (x y : α) :
    (x, y) ∈ (discover log lenLog 0 den).directlyFollows ↔
      (∃ t ∈ log, x ∈ t) ∧ ∀ t ∈ log, cnt (x, y) (t.zip t.tail) = t.count x := by
  show (x, y) ∈ discoverPairs _ _ _ _ _ ↔ _
  rw [mem_discoverPairs_zero _ _ _ hden]
  simp only [← cnt_eq_count, ← Dfg.pairs_eq_zip]
  constructor
  · rintro ⟨h1, h2⟩
    have he := all_eq_of_sum log _ _ (fun t _ => cnt_pairs_le t x y) h2
    obtain ⟨t, ht, hm⟩ := (produced_pos _ _ _).1 h1
    refine ⟨⟨t, ht, ?_⟩, he⟩
    rw [← cnt_pos, ← he t ht, cnt_pos]; exact hm
  · rintro ⟨⟨t, ht, hx⟩, h2⟩
    refine ⟨(produced_pos _ _ _).2 ⟨t, ht, ?_⟩, ?_⟩
    · rw [← cnt_pos]; unfold directlyFollows; rw [h2 t ht, cnt_pos]; exact hx
    · unfold occ produced directlyFollows
      rw [List.map_congr_left h2]
      exact Nat.le_refl _

/-- C16: at noise 0 the frequencies allowed for an activity of the log are exactly the numbers of its occurrences
in the traces (0 included if it is missing from some trace); `lenLog` may be the number of traces (event logs) or
the number of rows (dataframes). -/
theorem C16_activ_freq (log : List (List α)) (lenLog den : Nat) (hden : 0 < den) (hlen : log.length ≤ lenLog) (a : α)
    (ha : ∃ t ∈ log, a ∈ t) :
    ∃ s, get? (discover log lenLog 0 den).activFreq a = some s ∧ ∀ n, n ∈ s ↔ ∃ t ∈ log, n = (t.count a : Int) := by
  have := activFreqs_get log lenLog den hden hlen a
  rw [if_pos ha] at this
  simp only [← cnt_eq_count]
  exact this

theorem freq_ok (log : List (List α)) (lenLog den : Nat) (hden : 0 < den) (hlen : log.length ≤ lenLog) (t : List α)
    (ht : t ∈ log) (r : Skeleton.Result α) :
    (checkFreq (discover log lenLog 0 den).activFreq t r).deviations = r.deviations ∧
    (checkFreq (discover log lenLog 0 den).activFreq t r).devTotal = r.devTotal := by
  apply checkFreq_ok
  · intro a ha
    have := activFreqs_get log lenLog den hden hlen a
    rw [if_pos ⟨t, ht, ha⟩] at this
    obtain ⟨s, h1, h2⟩ := this
    exact ⟨s, h1, (h2 _).2 ⟨t, ht, rfl⟩⟩
  · intro a ha hat
    have := activFreqs_get log lenLog den hden hlen a
    split at this
    · obtain ⟨s, h1, h2⟩ := this
      exact ⟨s, h1, (h2 _).2 ⟨t, ht, by rw [(cnt_zero a t).2 hat]; rfl⟩⟩
    · rw [mem_keys_iff] at ha
      have h0 : get? (discover log lenLog 0 den).activFreq a = none := this
      rw [h0] at ha; cases ha

/-- C16: every trace of the log fits the skeleton discovered from the log at noise 0, for any choice of considered
constraints without always-after and always-before. -/
theorem C16_fits_own_log (log : List (List α)) (lenLog den : Nat) (hden : 0 < den) (hlen : log.length ≤ lenLog)
    (considered : Kind → Bool) (h1 : considered .alwaysAfter = false) (h2 : considered .alwaysBefore = false)
    (t : List α) (ht : t ∈ log) :
    (applyActlist considered (discover log lenLog 0 den) t).isFit = true ∧
    (applyActlist considered (discover log lenLog 0 den) t).devTotal = 0 := by
  have e1 := fun r => checkDiff_ok .equivalence (discover log lenLog 0 den).equivalence (equivalence t) t r (by
    rintro ⟨x, y⟩ hp hx
    exact pairs_sound _ log den hden x y (fun t _ => by rw [cnt_equivalence]; split <;> omega) hp t ht hx)
  have e2 := fun r => checkInter_ok (discover log lenLog 0 den).neverTogether (combos t) t r (by
    rintro ⟨x, y⟩ hp hx hc
    rw [mem_combos] at hc
    exact ((C16_never_together log lenLog den hden x y).1 hp).2.2.2 t ht ⟨hc.2.1, hc.2.2⟩)
  have e3 := fun r => checkDiff_ok .directlyFollows (discover log lenLog 0 den).directlyFollows (directlyFollows t) t r (by
    rintro ⟨x, y⟩ hp hx
    exact pairs_sound _ log den hden x y (fun t _ => cnt_pairs_le t x y) hp t ht hx)
  have e4 := fun r => freq_ok log lenLog den hden hlen t ht r
  unfold applyActlist Skeleton.Result.isFit
  simp only [h1, h2, Bool.false_eq_true, if_false]
  cases considered .equivalence <;> cases considered .neverTogether <;> cases considered .directlyFollows <;>
    cases considered .activFreq <;> simp [e1, e2, e3, e4]

/-- C16: for logs in which no trace repeats an activity, all six kinds of constraints fit. -/
theorem C16_fits_without_repetitions (log : List (List α)) (lenLog den : Nat) (hden : 0 < den) (hlen : log.length ≤ lenLog)
    (hrep : ∀ t ∈ log, t.Nodup) (considered : Kind → Bool) (t : List α) (ht : t ∈ log) :
    (applyActlist considered (discover log lenLog 0 den) t).isFit = true ∧
    (applyActlist considered (discover log lenLog 0 den) t).devTotal = 0 := by
  have hle : ∀ ok x y, ∀ t ∈ log, cnt (x, y) (posPairs t ok) ≤ cnt x t := by
    intro ok x y t ht
    have h1 := cnt_posPairs_le t ok x y
    have h2 : cnt y t ≤ 1 := cnt_nodup (hrep t ht)
    have h3 : cnt x t * cnt y t ≤ cnt x t * 1 := Nat.mul_le_mul_left _ h2
    omega
  have e1 := fun r => checkDiff_ok .equivalence (discover log lenLog 0 den).equivalence (equivalence t) t r (by
    rintro ⟨x, y⟩ hp hx
    exact pairs_sound _ log den hden x y (fun t _ => by rw [cnt_equivalence]; split <;> omega) hp t ht hx)
  have e5 := fun r => checkDiff_ok .alwaysAfter (discover log lenLog 0 den).alwaysAfter (after t) t r (by
    rintro ⟨x, y⟩ hp hx
    exact pairs_sound _ log den hden x y (hle _ x y) hp t ht hx)
  have e6 := fun r => checkDiff_ok .alwaysBefore (discover log lenLog 0 den).alwaysBefore (before t) t r (by
    rintro ⟨x, y⟩ hp hx
    exact pairs_sound _ log den hden x y (hle _ x y) hp t ht hx)
  have e2 := fun r => checkInter_ok (discover log lenLog 0 den).neverTogether (combos t) t r (by
    rintro ⟨x, y⟩ hp hx hc
    rw [mem_combos] at hc
    exact ((C16_never_together log lenLog den hden x y).1 hp).2.2.2 t ht ⟨hc.2.1, hc.2.2⟩)
  have e3 := fun r => checkDiff_ok .directlyFollows (discover log lenLog 0 den).directlyFollows (directlyFollows t) t r (by
    rintro ⟨x, y⟩ hp hx
    exact pairs_sound _ log den hden x y (fun t _ => cnt_pairs_le t x y) hp t ht hx)
  have e4 := fun r => freq_ok log lenLog den hden hlen t ht r
  unfold applyActlist Skeleton.Result.isFit
  simp only
  cases considered .equivalence <;> cases considered .alwaysAfter <;> cases considered .alwaysBefore <;>
    cases considered .neverTogether <;> cases considered .directlyFollows <;>
    cases considered .activFreq <;> simp [e1, e2, e3, e4, e5, e6]

/-- C16, refuted for always-after: the log ⟨x, y, y⟩, ⟨x⟩ has the constraint "x is always followed by y", and its
second trace deviates from it. -/
theorem C16_always_after_refuted : ∃ (log : List (List Nat)) (t : List Nat), t ∈ log ∧
    (applyActlist (fun k => decide (k = .alwaysAfter)) (discover log log.length 0 1) t).isFit = false := by
  refine ⟨[[0, 1, 1], [0]], [0], by simp, ?_⟩
  have hm : (0, 1) ∈ (discover [[0, 1, 1], [0]] 2 0 1).alwaysAfter := by
    show (0, 1) ∈ discoverPairs _ _ _ _ _
    rw [mem_discoverPairs_zero _ _ _ (by decide)]
    decide
  unfold applyActlist Skeleton.Result.isFit checkDiff
  simp only [decide_eq_true_eq, reduceCtorEq, if_false, if_true]
  have : (0, 1) ∈ ((discover [[0, 1, 1], [0]] 2 0 1).alwaysAfter.filter fun x => decide (x.1 ∈ [0])).filter
      fun x => decide (x ∉ after [0]) := by
    rw [List.mem_filter, List.mem_filter]
    exact ⟨⟨hm, by decide⟩, by decide⟩
  have hl := List.length_pos_of_mem this
  simp only [List.length_cons, List.length_nil, Nat.zero_add, Nat.reduceAdd]
  rw [if_pos hl]
  simp

/-- C16, refuted for always-before: the log ⟨y, y, x⟩, ⟨x⟩. -/
theorem C16_always_before_refuted : ∃ (log : List (List Nat)) (t : List Nat), t ∈ log ∧
    (applyActlist (fun k => decide (k = .alwaysBefore)) (discover log log.length 0 1) t).isFit = false := by
  refine ⟨[[1, 1, 0], [0]], [0], by simp, ?_⟩
  have hm : (0, 1) ∈ (discover [[1, 1, 0], [0]] 2 0 1).alwaysBefore := by
    show (0, 1) ∈ discoverPairs _ _ _ _ _
    rw [mem_discoverPairs_zero _ _ _ (by decide)]
    decide
  unfold applyActlist Skeleton.Result.isFit checkDiff
  simp only [decide_eq_true_eq, reduceCtorEq, if_false, if_true]
  have : (0, 1) ∈ ((discover [[1, 1, 0], [0]] 2 0 1).alwaysBefore.filter fun x => decide (x.1 ∈ [0])).filter
      fun x => decide (x ∉ before [0]) := by
    rw [List.mem_filter, List.mem_filter]
    exact ⟨⟨hm, by decide⟩, by decide⟩
  have hl := List.length_pos_of_mem this
  simp only [List.length_cons, List.length_nil, Nat.zero_add, Nat.reduceAdd]
  rw [if_pos hl]
  simp

/-- C16: raising the noise threshold only adds constraints between activities. -/
theorem C16_noise_monotone (log : List (List α)) (lenLog num num' den : Nat) (h : num ≤ num') (p : α × α) :
    (p ∈ (discover log lenLog num den).equivalence → p ∈ (discover log lenLog num' den).equivalence) ∧
    (p ∈ (discover log lenLog num den).alwaysAfter → p ∈ (discover log lenLog num' den).alwaysAfter) ∧
    (p ∈ (discover log lenLog num den).alwaysBefore → p ∈ (discover log lenLog num' den).alwaysBefore) ∧
    (p ∈ (discover log lenLog num den).neverTogether → p ∈ (discover log lenLog num' den).neverTogether) ∧
    (p ∈ (discover log lenLog num den).directlyFollows → p ∈ (discover log lenLog num' den).directlyFollows) := by
  have key : (occ log p.1 : Int) * ((den : Int) - num') ≤ (occ log p.1 : Int) * ((den : Int) - num) :=
    Int.mul_le_mul_of_nonneg_left (by omega) (by omega)
  have h1 : ∀ f, p ∈ discoverPairs f (ofList log) (ofList log.flatten) num den →
      p ∈ discoverPairs f (ofList log) (ofList log.flatten) num' den := by
    intro f hp
    rw [mem_discoverPairs] at hp ⊢
    exact ⟨hp.1, Int.le_trans key hp.2⟩
  refine ⟨h1 _, h1 _, h1 _, ?_, h1 _⟩
  intro hp
  have hp : p ∈ neverTogether _ _ _ _ := hp
  show p ∈ neverTogether _ _ _ _
  rw [mem_neverTogether] at hp ⊢
  exact ⟨hp.1, hp.2.1, hp.2.2.1, Int.le_trans key hp.2.2.2⟩

/-- C16: `apply_log` returns for each trace of the log, in order, the result of the trace (the grouping of equal
traces and the index bookkeeping are transparent). -/
theorem C16_apply_log {ρ : Type} (f : List α → ρ) (traces : List (List α)) :
    applyLog f traces = traces.map fun t => some (f t) := by
  have inv : ∀ traces : List (List α),
      let s := traces.foldl (fun (s : List (List α) × List Nat) tr =>
        let gtk := if tr ∈ s.1 then s.1 else s.1 ++ [tr]
        (gtk, s.2 ++ [gtk.idxOf tr])) ([], [])
      s.2.map (fun i => s.1[i]?) = traces.map some := by
    intro traces
    induction traces using snocInduct with
    | nil => rfl
    | snoc l t ih =>
      simp only [List.foldl_append, List.foldl_cons, List.foldl_nil] at ih ⊢
      generalize l.foldl (fun (s : List (List α) × List Nat) tr =>
        ((if tr ∈ s.1 then s.1 else s.1 ++ [tr]), s.2 ++ [(if tr ∈ s.1 then s.1 else s.1 ++ [tr]).idxOf tr])) ([], []) = s at ih ⊢
      have hg : ∀ g : List (List α), t ∈ g → g[g.idxOf t]? = some t := by
        intro g hg
        rw [List.getElem?_eq_getElem (List.idxOf_lt_length_of_mem hg), List.getElem_idxOf]
      rw [List.map_append, List.map_append]
      split
      · rename_i hmem
        rw [ih]; simp [hg _ hmem]
      · rw [List.map_cons, List.map_nil, hg _ (by simp)]
        have : (s.2.map fun i => (s.1 ++ [t])[i]?) = s.2.map fun i => s.1[i]? := by
          apply List.map_congr_left
          intro i hi
          have : s.1[i]? ∈ l.map some := by rw [← ih]; exact List.mem_map.2 ⟨i, hi, rfl⟩
          obtain ⟨u, _, hu⟩ := List.mem_map.1 this
          have hlt := (List.getElem?_eq_some_iff.1 hu.symm).1
          rw [List.getElem?_append_left hlt]
        rw [this, ih]; rfl
  have h := inv traces
  unfold applyLog
  simp only at h ⊢
  have e : (traces.map fun t => some (f t)) = (traces.map some).map fun o => o.map f := by
    rw [List.map_map]; rfl
  rw [e, ← h, List.map_map]
  apply List.map_congr_left
  intro i _
  simp

/-- a log and a trace to which the theorems apply -/
example : ∃ t ∈ [["a", "b"], ["a", "c", "b"]], t.Nodup ∧ ("a", "b") ∈ equivalence t := ⟨["a", "b"], by decide⟩
end
end Verif
