import Verif.TraceFilter.Proofs
set_option linter.unusedSectionVars false
namespace Verif.TraceFilter
variable {ε α σ : Type} [DecidableEq α] [DecidableEq σ]

theorem fourEyes_eq (act : ε → Option α) (res : ε → Option σ) (positive : Bool) (A B : α) (log : List (List ε)) :
    fourEyes act res positive A B log = log.filter fun t =>
      decide (0 < (resOf act res t A).length) && decide (0 < (resOf act res t B).length) &&
        (decide (((resOf act res t A).filter fun r => decide (r ∈ resOf act res t B)).length = 0) == positive) := by
  apply foldl_filter
  intro new t
  dsimp only
  cases hAB : decide (0 < (resOf act res t A).length) && decide (0 < (resOf act res t B).length)
  · simp
  · generalize ((resOf act res t A).filter fun r => decide (r ∈ resOf act res t B)).length = n
    cases positive <;> by_cases h : n = 0 <;> simp [h]

theorem attrFound_iff (act : ε → Option α) (values : List α) (t : List ε) :
    attrFound act values t = true ↔ ∃ e ∈ t, ∃ v ∈ values, act e = some v := by
  unfold attrFound
  suffices h : ∀ b, (t.foldl _ b) = true ↔ b = true ∨ ∃ e ∈ t, ∃ v ∈ values, act e = some v by simpa using h false
  · induction t with
    | nil => simp
    | cons e t ih =>
      intro b
      rw [List.foldl_cons, ih]
      cases h : act e with
      | none => simp [h]
      | some v => by_cases hv : v ∈ values <;> simp [h, hv]

theorem attrCases_eq (act : ε → Option α) (positive : Bool) (values : List α) (log : List (List ε)) :
    attrCases act positive values log = log.filter fun t => !t.isEmpty && (attrFound act values t == positive) := by
  apply foldl_filter
  intro new t
  dsimp only
  generalize attrFound act values t = found
  cases t <;> cases found <;> cases positive <;> simp

theorem infix2_cons {β : Type} (a b x y : β) (l : List β) :
    [a, b] <:+: x :: y :: l ↔ (a = x ∧ b = y) ∨ [a, b] <:+: y :: l := by
  rw [List.infix_cons_iff]
  constructor
  · rintro (⟨r, h⟩ | h)
    · simp at h; exact Or.inl ⟨h.1, h.2.1⟩
    · exact Or.inr h
  · rintro (⟨rfl, rfl⟩ | h)
    · exact Or.inl ⟨l, rfl⟩
    · exact Or.inr h

theorem pathFound_iff (act : ε → α) (test : ε → ε → Bool) (paths : List (α × α)) (t : List ε) :
    pathFound act test paths t = true ↔ ∃ e f, DirectlyFollows t e f ∧ (act e, act f) ∈ paths ∧ test e f = true := by
  unfold DirectlyFollows
  induction t with
  | nil => simp [pathFound]
  | cons x t ih =>
    cases t with
    | nil =>
      simp only [pathFound, Bool.false_eq_true, false_iff]
      rintro ⟨e, f, h, _⟩
      have := h.length_le
      simp at this
    | cons y t =>
      simp only [pathFound]
      by_cases h : (decide ((act x, act y) ∈ paths) && test x y) = true
      · simp only [h, if_true, true_iff]
        simp only [Bool.and_eq_true, decide_eq_true_eq] at h
        exact ⟨x, y, (infix2_cons ..).2 (Or.inl ⟨rfl, rfl⟩), h.1, h.2⟩
      · rw [if_neg h, ih]
        constructor
        · rintro ⟨e, f, h1, h2⟩; exact ⟨e, f, (infix2_cons ..).2 (Or.inr h1), h2⟩
        · rintro ⟨e, f, h1, h2, h3⟩
          rcases (infix2_cons ..).1 h1 with ⟨rfl, rfl⟩ | h1
          · exact absurd (by simp [h2, h3]) h
          · exact ⟨e, f, h1, h2, h3⟩

theorem pathsFilter_eq (act : ε → α) (positive : Bool) (paths : List (α × α)) (log : List (List ε)) :
    pathsFilter act positive paths log = log.filter fun t => pathFound act (fun _ _ => true) paths t == positive := by
  apply foldl_filter
  intro new t
  dsimp only
  generalize pathFound act (fun _ _ => true) paths t = found
  cases found <;> cases positive <;> simp

theorem pathsPerformance_eq (act : ε → α) (time : ε → Int) (positive : Bool) (path : α × α) (lo hi : Int)
    (log : List (List ε)) :
    pathsPerformance act time positive path lo hi log = log.filter fun t =>
      pathFound act (fun e f => decide (lo ≤ time f - time e) && decide (time f - time e ≤ hi)) [path] t == positive := by
  apply foldl_filter
  intro new t
  dsimp only
  generalize pathFound act _ [path] t = found
  cases found <;> cases positive <;> simp

theorem rep_count (act : ε → Option α) (v : α) (t : List ε) (n : Nat) :
    t.foldl (fun rep e => if act e = some v then rep + 1 else rep) n = n + (t.map act).count (some v) := by
  induction t generalizing n with
  | nil => simp
  | cons e t ih =>
    rw [List.foldl_cons, ih, List.map_cons, List.count_cons]
    by_cases h : act e = some v <;> simp [h] <;> omega

theorem repetition_eq (act : ε → Option α) (v : α) (lo : Int) (hi : Option Int) (log : List (List ε)) :
    repetition act v lo hi log = log.filter fun t =>
      decide (lo ≤ ((t.map act).count (some v) : Int)) && upTo hi ((t.map act).count (some v)) := by
  apply foldl_filter
  intro new t
  dsimp only
  rw [rep_count, Nat.zero_add]

theorem rework_eq (act : ε → α) (positive : Bool) (v : α) (lo : Int) (log : List (List ε)) :
    rework act positive v lo log = log.filter fun t =>
      (decide (v ∈ t.map act) && decide (lo ≤ ((t.map act).count v : Int))) == positive := by
  apply foldl_filter
  intro new t
  dsimp only
  by_cases h1 : v ∈ t.map act <;> by_cases h2 : lo ≤ ((t.map act).count v : Int) <;> cases positive <;>
    simp [h1, h2, Int.not_lt.2, Int.not_le.1]

theorem hasInTimeframe_iff (act : ε → Option α) (time : ε → Int) (v : α) (dt1 dt2 : Int) (t : List ε) :
    hasInTimeframe act time v dt1 dt2 t = true ↔ ∃ e ∈ t, act e = some v ∧ dt1 ≤ time e ∧ time e ≤ dt2 := by
  induction t with
  | nil => simp [hasInTimeframe]
  | cons e t ih =>
    unfold hasInTimeframe
    split
    · simp_all
    · rename_i h
      rw [ih]
      constructor
      · rintro ⟨x, hx, h'⟩; exact ⟨x, by simp [hx], h'⟩
      · rintro ⟨x, hx, h'⟩
        rcases List.mem_cons.1 hx with rfl | hx
        · exact absurd h' h
        · exact ⟨x, hx, h'⟩

theorem range_filter_head (P : Nat → Bool) (n i : Nat) :
    ((List.range n).filter P).head? = some i ↔ i < n ∧ P i = true ∧ ∀ j < i, P j = false := by
  rw [List.head?_filter, List.find?_range_eq_some]
  simp only [Bool.not_eq_eq_eq_not, Bool.not_true, List.mem_range]
  grind

theorem range_filter_last (P : Nat → Bool) (n i : Nat) :
    ((List.range n).filter P).getLast? = some i ↔ i < n ∧ P i = true ∧ ∀ j, i < j → j < n → P j = false := by
  induction n with
  | zero => simp
  | succ n ih =>
    rw [List.range_succ, List.filter_append]
    by_cases h : P n = true
    · have : List.filter P [n] = [n] := by simp [h]
      rw [this, List.getLast?_concat]
      constructor
      · intro h'
        simp only [Option.some.injEq] at h'
        subst h'
        exact ⟨by omega, h, fun j h1 h2 => by omega⟩
      · rintro ⟨h1, h2, h3⟩
        by_cases hi : i = n
        · rw [hi]
        · exact absurd h (by simp [h3 n (by omega) (by omega)])
    · have : List.filter P [n] = [] := by simp [h]
      rw [this, List.append_nil, ih]
      constructor
      · rintro ⟨h1, h2, h3⟩
        refine ⟨by omega, h2, fun j hj1 hj2 => ?_⟩
        by_cases hj : j = n
        · subst hj; simpa using h
        · exact h3 j hj1 (by omega)
      · rintro ⟨h1, h2, h3⟩
        have hin : i ≠ n := by rintro rfl; exact h h2
        exact ⟨by omega, h2, fun j hj1 hj2 => h3 j hj1 (by omega)⟩

theorem mem_map_act {act : ε → Option α} {a : α} {l : List ε} : some a ∈ l.map act ↔ ∃ e ∈ l, act e = some a := by
  simp [List.mem_map]

theorem cutIdx_first (act : ε → Option α) (a : α) (t : List ε) (i : Nat) :
    cutIdx act true a t = some i ↔ ∃ e, t[i]? = some e ∧ act e = some a ∧ ∀ f ∈ t.take i, act f ≠ some a := by
  unfold cutIdx occ
  simp only [if_true]
  rw [range_filter_head]
  simp only [decide_eq_true_eq, decide_eq_false_iff_not]
  constructor
  · rintro ⟨h1, h2, h3⟩
    refine ⟨t[i], by simp [h1], by simpa [h1] using h2, ?_⟩
    intro f hf hfa
    obtain ⟨j, hj, rfl⟩ := List.mem_take_iff_getElem.1 hf
    have hj' : j < i ∧ j < t.length := by omega
    exact h3 j hj'.1 (by simp [hj'.2, hfa])
  · rintro ⟨e, h1, h2, h3⟩
    obtain ⟨hi, rfl⟩ := List.getElem?_eq_some_iff.1 h1
    refine ⟨hi, by simp [hi, h2], fun j hj hja => ?_⟩
    have hjl : j < t.length := by omega
    simp only [List.getElem?_eq_getElem hjl, Option.bind_some] at hja
    exact h3 t[j] (List.mem_take_iff_getElem.2 ⟨j, by omega, rfl⟩) hja

theorem cutIdx_last (act : ε → Option α) (a : α) (t : List ε) (i : Nat) :
    cutIdx act false a t = some i ↔ ∃ e, t[i]? = some e ∧ act e = some a ∧ ∀ f ∈ t.drop (i + 1), act f ≠ some a := by
  unfold cutIdx occ
  simp only [Bool.false_eq_true, if_false]
  rw [range_filter_last]
  simp only [decide_eq_true_eq, decide_eq_false_iff_not]
  constructor
  · rintro ⟨h1, h2, h3⟩
    refine ⟨t[i], by simp [h1], by simpa [h1] using h2, ?_⟩
    intro f hf hfa
    obtain ⟨j, hj, rfl⟩ := List.mem_drop_iff_getElem.1 hf
    exact h3 (i + 1 + j) (by omega) (by omega) (by simp [show i + 1 + j < t.length by omega, hfa])
  · rintro ⟨e, h1, h2, h3⟩
    obtain ⟨hi, rfl⟩ := List.getElem?_eq_some_iff.1 h1
    refine ⟨hi, by simp [hi, h2], fun j hj1 hj2 hja => ?_⟩
    simp only [List.getElem?_eq_getElem hj2, Option.bind_some] at hja
    refine h3 t[j] (List.mem_drop_iff_getElem.2 ⟨j - (i + 1), by omega, ?_⟩) hja
    congr 1
    omega

theorem cutIdx_none (act : ε → Option α) (first : Bool) (a : α) (t : List ε) :
    cutIdx act first a t = none ↔ ∀ e ∈ t, act e ≠ some a := by
  have : cutIdx act first a t = none ↔ occ act t a = [] := by
    unfold cutIdx; cases first <;> simp
  rw [this, List.eq_nil_iff_forall_not_mem]
  simp only [mem_occ]
  constructor
  · intro h e he ha
    obtain ⟨i, hi, rfl⟩ := List.getElem_of_mem he
    exact h i (by simp [hi, ha])
  · intro h i hi
    rw [List.getElem?_map] at hi
    cases he : t[i]? with
    | none => simp [he] at hi
    | some e =>
      simp [he] at hi
      exact h e (List.mem_of_getElem? he) hi

theorem prefixes_eq (act : ε → Option α) (first strict : Bool) (a : α) (log : List (List ε)) :
    prefixes act first strict a log = log.filterMap fun t =>
      (cutIdx act first a t).map fun i => t.take (if strict then i else i + 1) := by
  unfold prefixes
  suffices h : ∀ init, log.foldl _ init = init ++ log.filterMap fun t =>
      (cutIdx act first a t).map fun i => t.take (if strict then i else i + 1) by simpa using h []
  · induction log with
    | nil => simp
    | cons t log ih =>
      intro init
      rw [List.foldl_cons, ih]
      cases h : cutIdx act first a t <;> cases strict <;> simp [h]

theorem suffixes_eq (act : ε → Option α) (first strict : Bool) (a : α) (log : List (List ε)) :
    suffixes act first strict a log = log.filterMap fun t =>
      (cutIdx act first a t).map fun i => t.drop (if strict then i + 1 else i) := by
  unfold suffixes
  suffices h : ∀ init, log.foldl _ init = init ++ log.filterMap fun t =>
      (cutIdx act first a t).map fun i => t.drop (if strict then i + 1 else i) by simpa using h []
  · induction log with
    | nil => simp
    | cons t log ih =>
      intro init
      rw [List.foldl_cons, ih]
      cases h : cutIdx act first a t <;> simp [h]

end Verif.TraceFilter
