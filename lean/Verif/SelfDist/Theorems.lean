import Verif.SelfDist.Spec
import Verif.Filter.Proofs
import Mathlib.Data.List.Nodup
import Mathlib.Data.List.Induction
/-
Property theorems C75: minimum self-distances, witnesses, rework.
-/
set_option linter.unusedSectionVars false
namespace Verif
open SelfDist Dict
namespace SelfDist
variable {α γ κ β : Type} [DecidableEq α] [DecidableEq γ] [DecidableEq κ]

theorem mem_indices (a : α) (t : List α) (i : Nat) : i ∈ indices a t ↔ t[i]? = some a := by
  unfold indices
  rw [List.mem_filter, List.mem_range, decide_eq_true_eq]
  constructor
  · exact And.right
  · intro h
    refine ⟨?_, h⟩
    by_contra hc
    rw [List.getElem?_eq_none (by omega)] at h
    simp at h

theorem sorted_indices (a : α) (t : List α) : (indices a t).Pairwise (· < ·) :=
  List.Pairwise.filter _ List.pairwise_lt_range

/-- consecutive elements of a sorted list -/
theorem zip_lower : ∀ (l : List Nat), l.Pairwise (· < ·) → ∀ i ∈ l, ∀ j ∈ l, i < j →
    ∃ p ∈ l.zip l.tail, p.2 - p.1 - 1 ≤ j - i - 1 := by
  intro l
  induction l with
  | nil => simp
  | cons x l ih =>
    intro h i hi j hj hij
    cases l with
    | nil =>
      simp only [List.mem_singleton] at hi hj
      omega
    | cons y l =>
      obtain ⟨h1, h2⟩ := List.pairwise_cons.1 h
      rcases List.mem_cons.1 hi with rfl | hi'
      · rcases List.mem_cons.1 hj with rfl | hj'
        · omega
        · refine ⟨(i, y), by simp, ?_⟩
          rcases List.mem_cons.1 hj' with rfl | hj''
          · exact le_refl _
          · have := (List.pairwise_cons.1 h2).1 j hj''
            simp only
            omega
      · rcases List.mem_cons.1 hj with rfl | hj'
        · have := h1 i hi'
          omega
        · obtain ⟨p, hp, hle⟩ := ih h2 i hi' j hj' hij
          exact ⟨p, by simpa using Or.inr hp, hle⟩

theorem zip_mem : ∀ (l : List Nat), l.Pairwise (· < ·) → ∀ p ∈ l.zip l.tail, p.1 ∈ l ∧ p.2 ∈ l ∧ p.1 < p.2 := by
  intro l
  induction l with
  | nil => simp
  | cons x l ih =>
    intro h p hp
    cases l with
    | nil => simp at hp
    | cons y l =>
      obtain ⟨h1, h2⟩ := List.pairwise_cons.1 h
      simp only [List.tail_cons, List.zip_cons_cons, List.mem_cons] at hp
      rcases hp with rfl | hp
      · exact ⟨by simp, by simp, h1 y (by simp)⟩
      · obtain ⟨a1, a2, a3⟩ := ih h2 p (by simpa using hp)
        exact ⟨List.mem_cons_of_mem _ a1, List.mem_cons_of_mem _ a2, a3⟩

theorem zip_tight : ∀ (l : List Nat), l.Pairwise (· < ·) → ∀ i ∈ l, ∀ j ∈ l, i < j →
    (∀ p ∈ l.zip l.tail, j - i - 1 ≤ p.2 - p.1 - 1) → (i, j) ∈ l.zip l.tail := by
  intro l
  induction l with
  | nil => simp
  | cons x l ih =>
    intro h i hi j hj hij hmin
    cases l with
    | nil =>
      simp only [List.mem_singleton] at hi hj
      omega
    | cons y l =>
      obtain ⟨h1, h2⟩ := List.pairwise_cons.1 h
      have hxy := h1 y (by simp)
      rcases List.mem_cons.1 hi with rfl | hi'
      · rcases List.mem_cons.1 hj with rfl | hj'
        · omega
        · rcases List.mem_cons.1 hj' with rfl | hj''
          · simp
          · have := (List.pairwise_cons.1 h2).1 j hj''
            have h3 := hmin (i, y) (by simp)
            simp only at h3
            omega
      · rcases List.mem_cons.1 hj with rfl | hj'
        · have := h1 i hi'
          omega
        · have := ih h2 i hi' j hj' hij fun p hp => hmin p (by simpa using Or.inr hp)
          simpa using Or.inr this

theorem diffs_eq (l : List Nat) : diffs l = (l.zip l.tail).map fun p => p.2 - p.1 - 1 := by
  unfold diffs
  rw [List.zip, List.map_zipWith]

/-- two positions with the same activity -/
theorem split_iff (t : List α) (a : α) (mid : List α) :
    (∃ pre suf, t = pre ++ a :: (mid ++ a :: suf)) ↔ ∃ i j, i < j ∧ t[i]? = some a ∧ t[j]? = some a ∧ mid = (t.take j).drop (i + 1) := by
  constructor
  · rintro ⟨pre, suf, rfl⟩
    refine ⟨pre.length, pre.length + 1 + mid.length, by omega, by simp, ?_, ?_⟩
    · rw [List.getElem?_append_right (by omega)]
      have : pre.length + 1 + mid.length - pre.length = mid.length + 1 := by omega
      rw [this, List.getElem?_cons_succ, List.getElem?_append_right (by omega)]
      simp
    · have e1 : pre ++ a :: (mid ++ a :: suf) = (pre ++ a :: mid) ++ a :: suf := by simp
      have e2 : pre.length + 1 + mid.length = (pre ++ a :: mid).length := by simp; omega
      rw [e1, e2, List.take_left]
      have e3 : pre ++ a :: mid = (pre ++ [a]) ++ mid := by simp
      have e4 : pre.length + 1 = (pre ++ [a]).length := by simp
      rw [e3, e4, List.drop_left]
  · rintro ⟨i, j, hij, hi, hj, rfl⟩
    obtain ⟨hjl, hj'⟩ := List.getElem?_eq_some_iff.1 hj
    obtain ⟨hil, hi'⟩ := List.getElem?_eq_some_iff.1 hi
    refine ⟨t.take i, t.drop (j + 1), ?_⟩
    have e1 : t = t.take j ++ t.drop j := (List.take_append_drop _ _).symm
    have e2 : t.drop j = a :: t.drop (j + 1) := by rw [List.drop_eq_getElem_cons hjl, hj']
    have e3 : t.take j = (t.take j).take i ++ (t.take j).drop i := (List.take_append_drop _ _).symm
    have hl : i < (t.take j).length := by rw [List.length_take]; omega
    have e4 : (t.take j).drop i = a :: (t.take j).drop (i + 1) := by
      rw [List.drop_eq_getElem_cons hl, List.getElem_take, hi']
    have e5 : (t.take j).take i = t.take i := by rw [List.take_take]; congr 1; omega
    calc t = t.take j ++ t.drop j := e1
      _ = (t.take i ++ a :: (t.take j).drop (i + 1)) ++ a :: t.drop (j + 1) := by rw [e2, ← e4, ← e5, ← e3]
      _ = _ := by simp

theorem mid_length {t : List α} {a : α} {i j : Nat} (hj : t[j]? = some a) : ((t.take j).drop (i + 1)).length = j - i - 1 := by
  obtain ⟨hjl, _⟩ := List.getElem?_eq_some_iff.1 hj
  rw [List.length_drop, List.length_take]
  omega

/-- the positions of two occurrences of `a`, in a trace of the log -/
def Twice (log : List (List α)) (a : α) (d : Nat) : Prop := ∃ t ∈ log, ∃ i j, i < j ∧ t[i]? = some a ∧ t[j]? = some a ∧ d = j - i - 1

theorem twice_iff (log : List (List α)) (a : α) (d : Nat) : (∃ mid, Between log a mid ∧ mid.length = d) ↔ Twice log a d := by
  constructor
  · rintro ⟨mid, ⟨t, ht, h⟩, rfl⟩
    obtain ⟨i, j, hij, hi, hj, rfl⟩ := (split_iff t a mid).1 h
    exact ⟨t, ht, i, j, hij, hi, hj, mid_length hj⟩
  · rintro ⟨t, ht, i, j, hij, hi, hj, rfl⟩
    exact ⟨_, ⟨t, ht, (split_iff t a _).2 ⟨i, j, hij, hi, hj, rfl⟩⟩, mid_length hj⟩

theorem two_le {δ : Type} {l : List δ} {x y : δ} (hx : x ∈ l) (hy : y ∈ l) (h : x ≠ y) : l.length > 1 := by
  match l with
  | [] => simp at hx
  | [z] =>
    simp only [List.mem_singleton] at hx hy
    exact absurd (hx.trans hy.symm) h
  | _ :: _ :: _ => simp

theorem mem_distances (log : List (List α)) (a : α) (d : Nat) (h : d ∈ distances log a) : Twice log a d := by
  unfold distances at h
  obtain ⟨l, hl, hd⟩ := List.mem_flatMap.1 h
  obtain ⟨hl, _⟩ := List.mem_filter.1 hl
  obtain ⟨t, ht, rfl⟩ := List.mem_map.1 hl
  rw [diffs_eq] at hd
  obtain ⟨p, hp, rfl⟩ := List.mem_map.1 hd
  obtain ⟨h1, h2, h3⟩ := zip_mem _ (sorted_indices a t) p hp
  exact ⟨t, ht, p.1, p.2, h3, (mem_indices a t _).1 h1, (mem_indices a t _).1 h2, rfl⟩

theorem distances_lower (log : List (List α)) (a : α) (d : Nat) (h : Twice log a d) : ∃ e ∈ distances log a, e ≤ d := by
  obtain ⟨t, ht, i, j, hij, hi, hj, rfl⟩ := h
  rw [← mem_indices] at hi hj
  obtain ⟨p, hp, hle⟩ := zip_lower _ (sorted_indices a t) i hi j hj hij
  refine ⟨_, ?_, hle⟩
  unfold distances
  refine List.mem_flatMap.2 ⟨indices a t, List.mem_filter.2 ⟨List.mem_map_of_mem ht, ?_⟩, ?_⟩
  · simpa using two_le hi hj (by omega)
  · rw [diffs_eq]
    exact List.mem_map.2 ⟨p, hp, rfl⟩

theorem filter_two (a : α) (t : List α) : (t.filter fun e => decide (e = a)).length > 1 ↔ ∃ i j : Nat, i < j ∧ t[i]? = some a ∧ t[j]? = some a := by
  constructor
  · intro h
    match hf : t.filter fun e => decide (e = a) with
    | [] => rw [hf] at h; simp at h
    | [_] => rw [hf] at h; simp at h
    | x :: y :: l =>
      have hs : List.Sublist [a, a] t := by
        have : List.Sublist [x, y] t := (List.Sublist.trans (by simp) (List.filter_sublist (p := fun e => decide (e = a)) (l := t) |> fun s => hf ▸ s))
        have hx : x = a := by simpa using (List.mem_filter.1 (show x ∈ t.filter fun e => decide (e = a) by rw [hf]; simp)).2
        have hy : y = a := by simpa using (List.mem_filter.1 (show y ∈ t.filter fun e => decide (e = a) by rw [hf]; simp)).2
        rwa [hx, hy] at this
      obtain ⟨r₁, r₂, rfl, h1, h2⟩ := List.cons_sublist_iff.1 hs
      obtain ⟨i, hi⟩ := List.getElem?_of_mem h1
      obtain ⟨j, hj⟩ := List.getElem?_of_mem (List.singleton_sublist.1 h2)
      have hil := (List.getElem?_eq_some_iff.1 hi).1
      refine ⟨i, r₁.length + j, by omega, ?_, ?_⟩
      · rw [List.getElem?_append_left hil]; exact hi
      · rw [List.getElem?_append_right (by omega), Nat.add_sub_cancel_left]; exact hj
  · rintro ⟨i, j, hij, hi, hj⟩
    obtain ⟨pre, suf, e⟩ := (split_iff t a _).2 ⟨i, j, hij, hi, hj, rfl⟩
    generalize (t.take j).drop (i + 1) = mid at e
    subst e
    simp only [List.filter_append, List.filter_cons, decide_true, if_true, List.length_append, List.length_cons]
    omega

/-- the loop over the activities -/
def setStep {ν : Type} (v : α → Option ν) (d : Dict α ν) (a : α) : Dict α ν := (v a).elim d (Dict.set d a)

theorem fold_set {ν : Type} (v : α → Option ν) (l : List α) : ∀ (d : Dict α ν) (a : α),
    get? (l.foldl (setStep v) d) a = if a ∈ l then (v a).elim (get? d a) some else get? d a := by
  induction l with
  | nil => simp
  | cons x l ih =>
    intro d a
    rw [List.foldl_cons, ih]
    unfold setStep
    by_cases hx : x = a
    · subst hx
      cases hv : v x with
      | none => simp
      | some y => simp [get?_set]
    · have hx' : ¬ a = x := fun e => hx e.symm
      cases hv : v x with
      | none => simp [hx']
      | some y => simp [get?_set, hx, hx']

theorem mem_alphabet (log : List (List α)) (a : α) : a ∈ alphabet log ↔ ∃ t ∈ log, a ∈ t := by
  unfold alphabet
  rw [Filter.firstOcc_mem, List.mem_flatten]

theorem twice_alphabet {log : List (List α)} {a : α} {d : Nat} (h : Twice log a d) : a ∈ alphabet log := by
  obtain ⟨t, ht, i, _, _, hi, _⟩ := h
  exact (mem_alphabet log a).2 ⟨t, ht, List.mem_of_getElem? hi⟩

/-- the test of line 58 -/
def tested (log : List (List α)) (a : α) : Prop :=
  ((log.map fun t => t.filter fun e => decide (e = a)).filter fun t => decide (t.length > 1)).length > 0

instance (log : List (List α)) (a : α) : Decidable (tested log a) := by unfold tested; infer_instance

theorem tested_iff (log : List (List α)) (a : α) : tested log a ↔ ∃ d, Twice log a d := by
  unfold tested
  rw [gt_iff_lt, List.length_pos_iff_exists_mem]
  constructor
  · rintro ⟨l, hl⟩
    obtain ⟨hl, h2⟩ := List.mem_filter.1 hl
    obtain ⟨t, ht, rfl⟩ := List.mem_map.1 hl
    obtain ⟨i, j, hij, hi, hj⟩ := (filter_two a t).1 (by simpa using h2)
    exact ⟨_, t, ht, i, j, hij, hi, hj, rfl⟩
  · rintro ⟨_, t, ht, i, j, hij, hi, hj, _⟩
    exact ⟨_, List.mem_filter.2 ⟨List.mem_map_of_mem ht, by simpa using (filter_two a t).2 ⟨i, j, hij, hi, hj⟩⟩⟩

theorem get_msd (log : List (List α)) (a : α) : get? (msd log) a = if tested log a then some ((distances log a).min?.getD 0) else none := by
  have e : msd log = (alphabet log).foldl (setStep fun a => if tested log a then some ((distances log a).min?.getD 0) else none) [] := by
    unfold msd
    congr 1
    funext d a
    change (if tested log a then _ else _) = _
    simp only [setStep]
    by_cases h : tested log a
    · rw [if_pos h, if_pos h]
      rfl
    · rw [if_neg h, if_neg h]
      rfl
  rw [e, fold_set]
  by_cases h : tested log a
  · obtain ⟨d, hd⟩ := (tested_iff log a).1 h
    simp [h, twice_alphabet hd]
  · simp [h]

theorem isMsd_iff (log : List (List α)) (a : α) (d : Nat) : IsMsd log a d ↔ Twice log a d ∧ ∀ e, Twice log a e → d ≤ e := by
  unfold IsMsd
  rw [twice_iff]
  refine and_congr_right fun _ => ⟨fun h e he => ?_, fun h mid hm => h _ ((twice_iff log a _).1 ⟨mid, hm, rfl⟩)⟩
  obtain ⟨mid, h1, rfl⟩ := (twice_iff log a e).2 he
  exact h mid h1

theorem min_iff (l : List Nat) (d : Nat) : l.min? = some d ↔ d ∈ l ∧ ∀ e ∈ l, d ≤ e :=
  List.min?_eq_some_iff

theorem msd_iff (log : List (List α)) (a : α) (d : Nat) : get? (msd log) a = some d ↔ IsMsd log a d := by
  rw [get_msd, isMsd_iff]
  by_cases h : tested log a
  · rw [if_pos h]
    obtain ⟨e, he⟩ := (tested_iff log a).1 h
    obtain ⟨f, hf, _⟩ := distances_lower log a e he
    cases hm : (distances log a).min? with
    | none => rw [List.min?_eq_none_iff] at hm; rw [hm] at hf; simp at hf
    | some m =>
      rw [Option.getD_some, Option.some_inj]
      obtain ⟨h1, h2⟩ := (min_iff _ m).1 hm
      have h3 : Twice log a m ∧ ∀ e, Twice log a e → m ≤ e := ⟨mem_distances log a m h1, fun e he => by
        obtain ⟨f, hf, hle⟩ := distances_lower log a e he
        exact (h2 f hf).trans hle⟩
      constructor
      · rintro rfl; exact h3
      · rintro ⟨h4, h5⟩
        exact Nat.le_antisymm (h3.2 d h4) (h5 m h3.1)
  · rw [if_neg h]
    constructor
    · intro h'; exact absurd h' (by simp)
    · rintro ⟨h1, _⟩; exact absurd ((tested_iff log a).2 ⟨d, h1⟩) h

/-! ### data frames -/

theorem caseTrace_snoc (rows : List (γ × α)) (r : γ × α) (c : γ) :
    caseTrace (rows ++ [r]) c = caseTrace rows c ++ if r.1 = c then [r.2] else [] := by
  unfold caseTrace
  rw [List.filter_append, List.map_append]
  by_cases h : r.1 = c <;> simp [h]

theorem index_snoc (rows : List (γ × α)) (r : γ × α) :
    index (rows ++ [r]) = index rows ++ [(r.1, r.2, (index rows).countP fun x => decide (x.1 = r.1))] := by
  unfold index
  rw [List.foldl_append, List.foldl_cons, List.foldl_nil]

theorem index_count (rows : List (γ × α)) (c : γ) : (index rows).countP (fun x => decide (x.1 = c)) = (caseTrace rows c).length := by
  induction rows using List.reverseRecOn with
  | nil => rfl
  | append_singleton rows r ih =>
    rw [index_snoc, caseTrace_snoc, List.countP_append, ih, List.length_append]
    by_cases h : r.1 = c <;> simp [h]

theorem mem_index (rows : List (γ × α)) (c : γ) (a : α) (i : Nat) : (c, a, i) ∈ index rows ↔ (caseTrace rows c)[i]? = some a := by
  induction rows using List.reverseRecOn with
  | nil => simp [index, caseTrace]
  | append_singleton rows r ih =>
    rw [index_snoc, caseTrace_snoc, List.mem_append, ih, index_count, List.mem_singleton]
    by_cases h : r.1 = c
    · subst h
      simp only [if_true]
      rcases Nat.lt_trichotomy i (caseTrace rows r.1).length with h | h | h
      · rw [List.getElem?_append_left h]
        constructor
        · rintro (h' | h')
          · exact h'
          · simp only [Prod.mk.injEq] at h'; omega
        · exact .inl
      · subst h
        simp
        exact eq_comm
      · rw [List.getElem?_eq_none (by omega), List.getElem?_eq_none (by simp; omega)]
        simp
        omega
    · rw [if_neg h, List.append_nil]
      constructor
      · rintro (h' | h')
        · exact h'
        · simp only [Prod.mk.injEq] at h'; exact absurd h'.1.symm h
      · exact .inl

theorem mem_merged (cat : γ → α → κ) (rows : List (γ × α)) (a : α) (d : Int) :
    (a, d) ∈ merged (repeated cat (index rows)) ↔ ∃ n : Nat, d = n ∧ Twice (traces rows) a n := by
  have hmem : ∀ x y, x ∈ index rows → y ∈ index rows → x ≠ y → cat x.1 x.2.1 = cat y.1 y.2.1 → x ∈ repeated cat (index rows) := by
    intro x y hx hy hne hc
    unfold repeated
    refine List.mem_filter.2 ⟨hx, ?_⟩
    rw [decide_eq_true_eq]
    have : ((index rows).filter fun z => decide (cat z.1 z.2.1 = cat x.1 x.2.1)).length > 1 :=
      two_le (List.mem_filter.2 ⟨hx, by simp⟩) (List.mem_filter.2 ⟨hy, by simp [hc]⟩) hne
    rw [← List.countP_eq_length_filter] at this
    omega
  unfold merged
  rw [List.mem_filter, List.mem_flatMap, decide_eq_true_eq]
  constructor
  · rintro ⟨⟨⟨c, a', i⟩, hx, hy⟩, hd⟩
    obtain ⟨⟨c', a'', j⟩, hz, he⟩ := List.mem_map.1 hy
    obtain ⟨hy, hc⟩ := List.mem_filter.1 hz
    simp only [decide_eq_true_eq, Prod.mk.injEq] at hc he
    obtain ⟨rfl, rfl⟩ := hc
    obtain ⟨rfl, rfl⟩ := he
    clear hy
    have hx := (List.mem_filter.1 hx).1
    have hy := (List.mem_filter.1 (List.mem_filter.1 hz).1).1
    rw [mem_index] at hx hy
    simp only at hd
    refine ⟨j - i - 1, by omega, caseTrace rows c', ?_, i, j, by omega, hx, hy, rfl⟩
    refine List.mem_map.2 ⟨c', ?_, rfl⟩
    rw [Filter.firstOcc_mem]
    have := List.mem_of_getElem? hx
    unfold caseTrace at this
    obtain ⟨r, hr, _⟩ := List.mem_map.1 this
    obtain ⟨hr, he⟩ := List.mem_filter.1 hr
    exact List.mem_map.2 ⟨r, hr, by simpa using he⟩
  · rintro ⟨n, rfl, t, ht, i, j, hij, hi, hj, rfl⟩
    obtain ⟨c, hc, rfl⟩ := List.mem_map.1 ht
    rw [← mem_index] at hi hj
    have hne : (c, a, i) ≠ (c, a, j) := by simp; omega
    refine ⟨⟨(c, a, i), hmem _ _ hi hj hne rfl, List.mem_map.2 ⟨(c, a, j), List.mem_filter.2 ⟨hmem _ _ hj hi hne.symm rfl, by simp⟩, ?_⟩⟩, by omega⟩
    simp only [Prod.mk.injEq, true_and]
    omega

theorem get_map_key {ν : Type} (f : α → ν) (l : List α) (a : α) : get? (l.map fun a => (a, f a)) a = if a ∈ l then some (f a) else none := by
  induction l with
  | nil => simp
  | cons x l ih =>
    rw [List.map_cons, get?_cons, ih]
    by_cases h : x = a
    · simp [h]
    · have h' : ¬ a = x := fun e => h e.symm
      simp [h, h']

theorem msdDf_iff (cat : γ → α → κ) (rows : List (γ × α)) (a : α) (d : Int) :
    get? (msdDf cat rows) a = some d ↔ ∃ n : Nat, d = n ∧ IsMsd (traces rows) a n := by
  unfold msdDf
  simp only
  rw [get_map_key]
  set df := merged (repeated cat (index rows)) with hdf
  have hm : ∀ d, d ∈ (df.filter fun p => decide (p.1 = a)).map Prod.snd ↔ ∃ n : Nat, d = n ∧ Twice (traces rows) a n := by
    intro d
    rw [← mem_merged cat, ← hdf]
    constructor
    · intro h
      obtain ⟨p, hp, rfl⟩ := List.mem_map.1 h
      obtain ⟨hp, he⟩ := List.mem_filter.1 hp
      have he : p.1 = a := by simpa using he
      rw [← he]; exact hp
    · intro h
      exact List.mem_map.2 ⟨(a, d), List.mem_filter.2 ⟨h, by simp⟩, rfl⟩
  have hk : a ∈ Filter.firstOcc (df.map Prod.fst) ↔ ∃ d, d ∈ (df.filter fun p => decide (p.1 = a)).map Prod.snd := by
    rw [Filter.firstOcc_mem, List.mem_map]
    constructor
    · rintro ⟨p, hp, rfl⟩
      exact ⟨p.2, List.mem_map.2 ⟨p, List.mem_filter.2 ⟨hp, by simp⟩, rfl⟩⟩
    · rintro ⟨d, hd⟩
      obtain ⟨p, hp, _⟩ := List.mem_map.1 hd
      obtain ⟨hp, he⟩ := List.mem_filter.1 hp
      exact ⟨p, hp, by simpa using he⟩
  have hall : IsMsd (traces rows) a = fun n => Twice (traces rows) a n ∧ ∀ e, Twice (traces rows) a e → n ≤ e := funext fun n =>
    propext (isMsd_iff _ a n)
  rw [hall]
  by_cases h : a ∈ Filter.firstOcc (df.map Prod.fst)
  · rw [if_pos h]
    obtain ⟨x, hx⟩ := hk.1 h
    cases hmin : ((df.filter fun p => decide (p.1 = a)).map Prod.snd).min? with
    | none => rw [List.min?_eq_none_iff] at hmin; rw [hmin] at hx; simp at hx
    | some m =>
      rw [Option.getD_some, Option.some_inj]
      obtain ⟨h1, h2⟩ := List.min?_eq_some_iff.1 hmin
      obtain ⟨n, rfl, hn⟩ := (hm m).1 h1
      have h3 : ∀ e, Twice (traces rows) a e → n ≤ e := fun e he => by
        have := h2 (e : Int) ((hm _).2 ⟨e, rfl, he⟩)
        omega
      constructor
      · rintro rfl; exact ⟨n, rfl, hn, h3⟩
      · rintro ⟨n', rfl, h4, h5⟩
        have := h3 n' h4
        have := h5 n hn
        omega
  · rw [if_neg h]
    constructor
    · intro h'; exact absurd h' (by simp)
    · rintro ⟨n, rfl, h4, _⟩
      exact absurd (hk.2 ⟨n, (hm n).2 ⟨n, rfl, h4⟩⟩) h

/-! ### witnesses -/

theorem get_witnesses (m : Dict α Nat) (log : List (List α)) (a : α) (W : List α) :
    get? (witnesses m log) a = some W ↔ a ∈ alphabet log ∧ ∃ d, get? m a = some d ∧ d > 0 ∧ W = log.flatMap (witnessesIn d a) := by
  have e : witnesses m log = (alphabet log).foldl
      (setStep fun a => (get? m a).elim none fun d => if d > 0 then some (log.flatMap (witnessesIn d a)) else none) [] := by
    unfold witnesses
    congr 1
    funext w a
    simp only [setStep]
    cases hg : get? m a with
    | none => rfl
    | some d => by_cases h : d > 0 <;> simp [h]
  rw [e, fold_set]
  by_cases h : a ∈ alphabet log
  · rw [if_pos h]
    cases hg : get? m a with
    | none => simp
    | some d =>
      by_cases hd : d > 0
      · simp only [Option.elim_some, hd, if_true, Option.some.injEq, h, true_and]
        constructor
        · rintro rfl; exact ⟨d, rfl, hd, rfl⟩
        · rintro ⟨d', rfl, _, rfl⟩; rfl
      · simp [hd]
  · simp [h]

theorem mem_witnessesIn (d : Nat) (a : α) (t : List α) (b : α) (hmin : ∀ i j, i < j → t[i]? = some a → t[j]? = some a → d ≤ j - i - 1) :
    b ∈ witnessesIn d a t ↔ ∃ mid, (∃ pre suf, t = pre ++ a :: (mid ++ a :: suf)) ∧ mid.length = d ∧ b ∈ mid := by
  unfold witnessesIn
  constructor
  · intro h
    split at h
    · obtain ⟨p, hp, hb⟩ := List.mem_flatMap.1 h
      obtain ⟨h1, h2, h3⟩ := zip_mem _ (sorted_indices a t) p hp
      rw [mem_indices] at h1 h2
      split at hb
      · next hd => exact ⟨_, (split_iff t a _).2 ⟨p.1, p.2, h3, h1, h2, rfl⟩, by rw [mid_length h2, hd], hb⟩
      · simp at hb
    · simp at h
  · rintro ⟨mid, hs, hl, hb⟩
    obtain ⟨i, j, hij, hi, hj, rfl⟩ := (split_iff t a mid).1 hs
    rw [if_pos ((filter_two a t).2 ⟨i, j, hij, hi, hj⟩)]
    rw [mid_length hj] at hl
    have : (i, j) ∈ (indices a t).zip (indices a t).tail := by
      refine zip_tight _ (sorted_indices a t) i ((mem_indices a t i).2 hi) j ((mem_indices a t j).2 hj) hij fun p hp => ?_
      obtain ⟨h1, h2, h3⟩ := zip_mem _ (sorted_indices a t) p hp
      rw [mem_indices] at h1 h2
      rw [hl]
      exact hmin p.1 p.2 h3 h1 h2
    exact List.mem_flatMap.2 ⟨(i, j), this, by rw [if_pos hl]; exact hb⟩

/-! ### rework -/

theorem reworkDf_cum (rows : List (γ × α)) (r : γ × α) (n : Nat) :
    (r, n) ∈ rows.foldl (fun acc r => acc ++ [(r, acc.countP fun x => decide (x.1 = r))]) ([] : List ((γ × α) × Nat)) ↔ n < Counter.cnt r rows := by
  have hc : ∀ (rows : List (γ × α)) r, (rows.foldl (fun acc r => acc ++ [(r, acc.countP fun x => decide (x.1 = r))]) ([] : List ((γ × α) × Nat))).countP
      (fun x => decide (x.1 = r)) = Counter.cnt r rows := by
    intro rows r
    induction rows using List.reverseRecOn with
    | nil => rfl
    | append_singleton rows q ih =>
      rw [List.foldl_append, List.foldl_cons, List.foldl_nil, List.countP_append, ih, Counter.cnt_append]
      simp [Counter.cnt]
  induction rows using List.reverseRecOn with
  | nil => simp
  | append_singleton rows q ih =>
    rw [List.foldl_append, List.foldl_cons, List.foldl_nil, List.mem_append, List.mem_singleton, hc, Counter.cnt_append]
    refine (or_congr_left ih).trans ?_
    by_cases h : q = r
    · subst h
      simp [Counter.cnt]
      omega
    · have h' : ¬ r = q := fun e => h e.symm
      simp [Counter.cnt, h, h']

theorem cnt_caseTrace (rows : List (γ × α)) (c : γ) (a : α) : Counter.cnt a (caseTrace rows c) = Counter.cnt (c, a) rows := by
  unfold caseTrace Counter.cnt
  rw [List.countP_map, List.countP_filter]
  apply List.countP_congr
  rintro ⟨x, y⟩ _
  simp [and_comm]

theorem ofList_get {δ : Type} [DecidableEq δ] (l : List δ) (a : δ) (n : Int) :
    get? (Counter.ofList l) a = some n ↔ n = Counter.cnt a l ∧ n > 0 := by
  have h1 := Counter.count_ofList l a
  have h2 := Counter.keys_ofList l a
  have h3 := Counter.cnt_pos a l
  rw [mem_keys_iff] at h2
  unfold Dict.count at h1
  cases h : get? (Counter.ofList l) a with
  | none =>
    rw [h] at h1 h2
    simp at h1 h2
    constructor
    · intro h'; exact absurd h' (by simp)
    · rintro ⟨rfl, h'⟩
      exact absurd (h3.1 (by omega)) h2
  | some m =>
    rw [h] at h1 h2
    simp at h1 h2
    have := h3.2 h2
    rw [Option.some_inj]
    constructor
    · rintro rfl; exact ⟨h1, by omega⟩
    · rintro ⟨h', _⟩; omega

end SelfDist

variable {α γ κ β : Type} [DecidableEq α] [DecidableEq γ] [DecidableEq κ]

/-- C75: the minimum self-distance of an activity is the smallest number of activities between two of its occurrences in a trace. -/
theorem C75_min (log : List (List α)) (a : α) (d : Nat) : get? (msd log) a = some d ↔ IsMsd log a d := msd_iff log a d

/-- C75: an activity has no minimum self-distance exactly if no trace has it twice. -/
theorem C75_none (log : List (List α)) (a : α) : get? (msd log) a = none ↔ ¬ ∃ mid, Between log a mid := by
  rw [get_msd]
  have : tested log a ↔ ∃ mid, Between log a mid := by
    rw [tested_iff]
    constructor
    · rintro ⟨d, hd⟩
      obtain ⟨mid, h, _⟩ := (twice_iff log a d).2 hd
      exact ⟨mid, h⟩
    · rintro ⟨mid, h⟩
      exact ⟨_, (twice_iff log a _).1 ⟨mid, h, rfl⟩⟩
  rw [← this]
  by_cases h : tested log a <;> simp [h]

/-- C75: a data frame has the minimum self-distances of the event log of its cases, even if different pairs of case identifier and activity have the
same concatenation (`cat` is any function). -/
theorem C75_df (cat : γ → α → κ) (rows : List (γ × α)) (a : α) :
    get? (msdDf cat rows) a = Option.map (fun n : Nat => (n : Int)) (get? (msd (traces rows)) a) := by
  apply Option.ext
  intro d
  rw [msdDf_iff, Option.map_eq_some_iff]
  constructor
  · rintro ⟨n, rfl, h⟩
    exact ⟨n, (msd_iff _ a n).2 h, rfl⟩
  · rintro ⟨n, h, rfl⟩
    exact ⟨n, rfl, (msd_iff _ a n).1 h⟩

/-- C75: with the default activity key, the witnesses of an activity are exactly the activities between two of its occurrences at the minimum
self-distance; there is an entry exactly if that distance is positive. -/
theorem C75_witnesses (key : β → α) (log : List (List β)) (a : α) :
    (∀ W, get? (getWitnesses key key log) a = some W →
      ∀ b, b ∈ W ↔ ∃ mid, Between (log.map (List.map key)) a mid ∧ IsMsd (log.map (List.map key)) a mid.length ∧ b ∈ mid) ∧
    ((∃ W, get? (getWitnesses key key log) a = some W) ↔ ∃ d, IsMsd (log.map (List.map key)) a d ∧ 0 < d) := by
  unfold getWitnesses
  set L := log.map (List.map key) with hL
  constructor
  · intro W hW b
    obtain ⟨_, d, hd, hpos, rfl⟩ := (get_witnesses _ L a W).1 hW
    rw [msd_iff] at hd
    have hmin : ∀ t ∈ L, ∀ i j, i < j → t[i]? = some a → t[j]? = some a → d ≤ j - i - 1 := fun t ht i j hij hi hj =>
      ((isMsd_iff L a d).1 hd).2 _ ⟨t, ht, i, j, hij, hi, hj, rfl⟩
    rw [List.mem_flatMap]
    constructor
    · rintro ⟨t, ht, hb⟩
      obtain ⟨mid, h1, h2, h3⟩ := (mem_witnessesIn d a t b (hmin t ht)).1 hb
      exact ⟨mid, ⟨t, ht, h1⟩, by rw [h2]; exact hd, h3⟩
    · rintro ⟨mid, ⟨t, ht, h1⟩, h2, h3⟩
      refine ⟨t, ht, (mem_witnessesIn d a t b (hmin t ht)).2 ⟨mid, h1, ?_, h3⟩⟩
      rw [isMsd_iff] at h2 hd
      exact Nat.le_antisymm (h2.2 d hd.1) (hd.2 _ h2.1)
  · constructor
    · rintro ⟨W, hW⟩
      obtain ⟨_, d, hd, hpos, _⟩ := (get_witnesses _ L a W).1 hW
      exact ⟨d, (msd_iff L a d).1 hd, hpos⟩
    · rintro ⟨d, hd, hpos⟩
      exact ⟨_, (get_witnesses _ L a _).2 ⟨twice_alphabet ((isMsd_iff L a d).1 hd).1, d, (msd_iff L a d).2 hd, hpos, rfl⟩⟩

/-- C75: the rework of an activity is the number of traces that have it more than once; there is an entry exactly if this is positive. -/
theorem C75_rework (log : List (List α)) (a : α) (n : Int) :
    get? (rework log) a = some n ↔ n = ((log.filter fun t => decide (t.count a ≥ 2)).length : Nat) ∧ n > 0 := by
  unfold rework
  rw [ofList_get]
  have : Counter.cnt a (log.flatMap fun t => (keys (Counter.ofList t)).filter fun a => decide (Dict.count (Counter.ofList t) a > 1)) =
      (log.filter fun t => decide (t.count a ≥ 2)).length := by
    rw [Counter.cnt_flatMap]
    induction log with
    | nil => rfl
    | cons t log ih =>
      rw [List.map_cons, List.sum_cons, ih, List.filter_cons]
      have hn : ((keys (Counter.ofList t)).filter fun a => decide (Dict.count (Counter.ofList t) a > 1)).Nodup :=
        (Counter.nodup_ofList t).filter _
      have hm : a ∈ (keys (Counter.ofList t)).filter (fun a => decide (Dict.count (Counter.ofList t) a > 1)) ↔ t.count a ≥ 2 := by
        rw [List.mem_filter, Counter.keys_ofList, Counter.count_ofList, Counter.cnt_eq_count, decide_eq_true_eq]
        constructor
        · rintro ⟨_, h⟩; omega
        · intro h
          exact ⟨List.count_pos_iff.1 (by omega), by omega⟩
      by_cases h : t.count a ≥ 2
      · have h1 := Counter.cnt_nodup (k := a) hn
        have h2 := (Counter.cnt_pos a _).2 (hm.2 h)
        rw [if_pos (by simpa using h), List.length_cons]
        omega
      · rw [if_neg (by simpa using h), (Counter.cnt_zero a _).2 (fun h' => h (hm.1 h'))]
        omega
  rw [this]

/-- C75: the rework statistics of a data frame are those of the event log of its cases. -/
theorem C75_rework_df (rows : List (γ × α)) (a : α) : get? (reworkDf rows) a = get? (rework (traces rows)) a := by
  apply Option.ext
  intro n
  rw [C75_rework]
  unfold reworkDf
  simp only
  rw [ofList_get]
  have : Counter.cnt a ((Filter.firstOcc (((rows.foldl (fun acc r => acc ++ [(r, acc.countP fun x => decide (x.1 = r))])
      ([] : List ((γ × α) × Nat))).filter fun x => decide (x.2 > 0)).map Prod.fst)).map Prod.snd) =
      ((traces rows).filter fun t => decide (t.count a ≥ 2)).length := by
    set F := Filter.firstOcc (((rows.foldl (fun acc r => acc ++ [(r, acc.countP fun x => decide (x.1 = r))])
      ([] : List ((γ × α) × Nat))).filter fun x => decide (x.2 > 0)).map Prod.fst) with hF
    have hmem : ∀ r, r ∈ F ↔ Counter.cnt r rows ≥ 2 := by
      intro r
      rw [hF, Filter.firstOcc_mem, List.mem_map]
      constructor
      · rintro ⟨⟨q, n⟩, hq, rfl⟩
        obtain ⟨hq, h0⟩ := List.mem_filter.1 hq
        have : n < Counter.cnt q rows := (reworkDf_cum rows q n).1 hq
        change Counter.cnt q rows ≥ 2
        simp only [decide_eq_true_eq] at h0
        omega
      · intro h
        exact ⟨(r, 1), List.mem_filter.2 ⟨(reworkDf_cum rows r 1).2 (by omega), by simp⟩, rfl⟩
    have hnd : F.Nodup := Filter.firstOcc_nodup _
    unfold traces
    rw [List.filter_map, List.length_map]
    unfold Counter.cnt
    rw [List.countP_map, List.countP_eq_length_filter]
    rw [← List.length_map (f := fun r : γ × α => r.1)]
    apply List.Perm.length_eq
    apply (List.perm_ext_iff_of_nodup ?_ ?_).2
    · intro c
      rw [List.mem_map, List.mem_filter, Filter.firstOcc_mem]
      simp only [Function.comp_def, decide_eq_true_eq]
      constructor
      · rintro ⟨⟨c', a'⟩, hr, rfl⟩
        obtain ⟨hr', ha⟩ := List.mem_filter.1 hr
        simp only [decide_eq_true_eq] at ha
        subst ha
        replace hr := (hmem _).1 hr'
        refine ⟨List.mem_map.2 ⟨_, (Counter.cnt_pos _ rows).1 (by omega), rfl⟩, ?_⟩
        rw [← Counter.cnt_eq_count, cnt_caseTrace]
        exact hr
      · rintro ⟨_, h⟩
        rw [← Counter.cnt_eq_count, cnt_caseTrace] at h
        exact ⟨(c, a), List.mem_filter.2 ⟨(hmem _).2 h, by simp⟩, rfl⟩
    · refine List.Nodup.map_on ?_ (hnd.filter _)
      rintro ⟨c, x⟩ hx ⟨c', y⟩ hy e
      have hx := (List.mem_filter.1 hx).2
      have hy := (List.mem_filter.1 hy).2
      simp only [Function.comp_def, decide_eq_true_eq] at hx hy e
      rw [hx, hy, e]
    · exact (Filter.firstOcc_nodup _).filter _
  rw [this]

/-- C75: the rework of a trace is not negative, and zero exactly if no activity is repeated. -/
theorem C75_rework_case (t : List α) : (reworkCase t).1 = t.length ∧ 0 ≤ (reworkCase t).2 ∧ ((reworkCase t).2 = 0 ↔ t.Nodup) := by
  have hsub : ∀ t : List α, (Filter.firstOcc t).length ≤ t.length := by
    intro t
    induction t using List.reverseRecOn with
    | nil => simp [Filter.firstOcc]
    | append_singleton t a ih =>
      rw [Filter.firstOcc_snoc]
      split
      · simp; omega
      · simp; omega
  refine ⟨rfl, ?_, ?_⟩
  · have := hsub t
    simp only [reworkCase]
    omega
  · simp only [reworkCase]
    constructor
    · intro h
      have hl : (Filter.firstOcc t).length = t.length := by omega
      clear h
      induction t using List.reverseRecOn with
      | nil => simp
      | append_singleton t a ih =>
        rw [Filter.firstOcc_snoc] at hl
        have := hsub t
        split at hl
        · simp at hl; omega
        · next ha =>
          simp at hl
          rw [List.nodup_append]
          refine ⟨ih hl, by simp, ?_⟩
          rintro x hx y hy rfl
          simp only [List.mem_singleton] at hy
          exact ha (hy ▸ hx)
    · intro h
      rw [Filter.firstOcc_of_nodup h]
      omega

end Verif
