import Verif.DfgFile.Model
set_option linter.unusedSectionVars false
namespace Verif.DfgFile
open Verif

/-! ### Digits -/

theorem digit_toNat {n : Nat} (h : n < 10) : (digit n).toNat = 48 + n := by
  unfold digit
  have : (48 + n).isValidChar := by left; omega
  simp [Char.ofNat, this, Char.toNat, Char.ofNatAux]
  omega

theorem mem_showNat (n : Nat) : ∀ c ∈ showNat n, 48 ≤ c.toNat ∧ c.toNat ≤ 57 := by
  induction n using Nat.strongRecOn with
  | ind n ih =>
    intro c hc
    rw [showNat] at hc
    split at hc
    · rename_i h
      simp at hc; subst hc; rw [digit_toNat h]; omega
    · rename_i h
      rw [List.mem_append] at hc
      rcases hc with hc | hc
      · exact ih (n / 10) (by omega) c hc
      · simp at hc; subst hc; rw [digit_toNat (by omega)]; omega

theorem showNat_ne_nil (n : Nat) : showNat n ≠ [] := by
  rw [showNat]; split <;> simp

theorem natOf_showNat (n : Nat) : natOf? (showNat n) = some n := by
  unfold natOf?
  rw [if_neg (showNat_ne_nil n)]
  induction n using Nat.strongRecOn with
  | ind n ih =>
    rw [showNat]
    split
    · rename_i h
      simp [List.foldlM_cons, digit_toNat h]; omega
    · rename_i h
      rw [List.foldlM_append, ih (n / 10) (by omega)]
      simp [List.foldlM_cons, digit_toNat (show n % 10 < 10 by omega)]; omega

theorem dropWhile_eq_self {p : Char → Bool} {s : Str} (h : ∀ c, s.head? = some c → p c = false) :
    s.dropWhile p = s := by
  cases s with
  | nil => rfl
  | cons c s => simp [List.dropWhile_cons, h c rfl]

/-- No white space at either end. -/
def Tight (s : Str) : Prop := (∀ c, s.head? = some c → isSpace c = false) ∧
  (∀ c, s.getLast? = some c → isSpace c = false)

theorem strip_tight {s : Str} (h : Tight s) : strip s = s := by
  unfold strip
  rw [dropWhile_eq_self h.1, dropWhile_eq_self, List.reverse_reverse]
  intro c hc
  rw [List.head?_reverse] at hc
  exact h.2 c hc

theorem dropWhile_append_last {p : Char → Bool} {x : Char} (hx : p x = true) (s : Str) :
    ((s ++ [x]).dropWhile p).reverse.dropWhile p = (s.dropWhile p).reverse.dropWhile p := by
  induction s with
  | nil => simp [hx]
  | cons c s ih =>
    simp only [List.cons_append, List.dropWhile_cons]
    split
    · exact ih
    · rw [← List.cons_append, List.reverse_append]
      simp [hx]

theorem strip_newline (s : Str) : strip (s ++ ['\n']) = strip s := by
  unfold strip
  rw [dropWhile_append_last (by decide)]

theorem digit_not_space {c : Char} (h : 48 ≤ c.toNat ∧ c.toNat ≤ 57) : isSpace c = false := by
  unfold isSpace
  simp
  omega

/-- The characters of the rows other than the activity names. -/
def RowChar (c : Char) : Prop := (48 ≤ c.toNat ∧ c.toNat ≤ 57) ∨ c = '-' ∨ c = '>' ∨ c = 'x'

theorem rowChar_not_space {c : Char} (h : RowChar c) : isSpace c = false := by
  rcases h with h | rfl | rfl | rfl
  · exact digit_not_space h
  · decide
  · decide
  · decide

theorem tight_of_rowChar {s : Str} (h : ∀ c ∈ s, RowChar c) : Tight s :=
  ⟨fun c hc => rowChar_not_space (h c (List.mem_of_mem_head? hc)),
   fun c hc => rowChar_not_space (h c (List.mem_of_getLast? hc))⟩

theorem mem_showInt (n : Int) : ∀ c ∈ showInt n, (48 ≤ c.toNat ∧ c.toNat ≤ 57) ∨ c = '-' := by
  intro c hc
  unfold showInt at hc
  split at hc
  · rw [List.mem_cons] at hc
    rcases hc with rfl | hc
    · right; rfl
    · left; exact mem_showNat _ c hc
  · left; exact mem_showNat _ c hc

theorem rowChar_showNat (n : Nat) : ∀ c ∈ showNat n, RowChar c := fun c hc => Or.inl (mem_showNat n c hc)

theorem rowChar_showInt (n : Int) : ∀ c ∈ showInt n, RowChar c := fun c hc => by
  rcases mem_showInt n c hc with h | h
  · exact Or.inl h
  · exact Or.inr (Or.inl h)

theorem intOf_pos {s : Str} (hs : ∀ c ∈ s, 48 ≤ c.toNat ∧ c.toNat ≤ 57) :
    intOf? s = (natOf? s).map (fun n => (n : Int)) := by
  unfold intOf?
  rw [strip_tight (tight_of_rowChar fun c hc => Or.inl (hs c hc))]
  split
  · exact absurd (hs '-' (by simp)) (by decide)
  · exact absurd (hs '+' (by simp)) (by decide)
  · rfl

theorem intOf_showNat (n : Nat) : intOf? (showNat n) = some (n : Int) := by
  rw [intOf_pos (mem_showNat n), natOf_showNat]; rfl

theorem intOf_row (n : Nat) : intOf? (showNat n ++ ['\n']) = some (n : Int) := by
  have : intOf? (showNat n ++ ['\n']) = intOf? (showNat n) := by
    unfold intOf?; rw [strip_newline]
  rw [this, intOf_showNat]

theorem intOf_showInt (n : Int) : intOf? (showInt n) = some n := by
  unfold showInt
  split
  · rename_i h
    unfold intOf?
    rw [strip_tight (tight_of_rowChar _)]
    · show (natOf? (showNat n.natAbs)).map (fun n => - (n : Int)) = some n
      rw [natOf_showNat]; simp; omega
    · intro c hc
      rw [List.mem_cons] at hc
      rcases hc with rfl | hc
      · right; left; rfl
      · exact rowChar_showNat _ c hc
  · rename_i h
    rw [intOf_showNat]; simp; omega

/-! ### Splitting -/

theorem split_none {c : Char} {s : Str} (h : c ∉ s) : split c s = [s] := by
  induction s with
  | nil => rfl
  | cons x s ih =>
    simp only [List.mem_cons, not_or] at h
    have hx : x ≠ c := fun e => h.1 e.symm
    simp [split, hx, ih h.2]

theorem split_two {c : Char} {s t : Str} (h : c ∉ s) (h' : c ∉ t) : split c (s ++ c :: t) = [s, t] := by
  induction s with
  | nil => simp [split, split_none h']
  | cons x s ih =>
    simp only [List.mem_cons, not_or] at h
    have hx : x ≠ c := fun e => h.1 e.symm
    simp [split, hx, ih h.2]

theorem readlines_cons {s : Str} (h : '\n' ∉ s) (t : Str) :
    readlines (s ++ '\n' :: t) = (s ++ ['\n']) :: readlines t := by
  induction s with
  | nil => simp [readlines]
  | cons x s ih =>
    simp only [List.mem_cons, not_or] at h
    have hx : x ≠ '\n' := fun e => h.1 e.symm
    simp [readlines, hx, ih h.2]

/-- A row: a text without line feed, followed by one. -/
def IsRow (r : Str) : Prop := ∃ s, '\n' ∉ s ∧ r = s ++ ['\n']

theorem readlines_flatten {rows : List Str} (h : ∀ r ∈ rows, IsRow r) : readlines rows.flatten = rows := by
  induction rows with
  | nil => rfl
  | cons r rows ih =>
    obtain ⟨s, hs, rfl⟩ := h r (by simp)
    simp only [List.flatten_cons, List.append_assoc, List.cons_append, List.nil_append]
    rw [readlines_cons hs, ih fun r hr => h r (by simp [hr])]

theorem universal_id {s : Str} (h : '\r' ∉ s) : universal s = s := by
  fun_induction universal s <;> simp_all

/-! ### Rows -/

theorem idx_get {acts : List Str} {a : Str} {i : Nat} (h : acts.idxOf? a = some i) : acts[i]? = some a := by
  rw [List.idxOf?, List.findIdx?_eq_some_iff_getElem] at h
  obtain ⟨hi, hp, _⟩ := h
  rw [List.getElem?_eq_getElem hi]
  simpa using hp

theorem idx_isSome {acts : List Str} {a : Str} : (acts.idxOf? a).isSome ↔ a ∈ acts := by
  rw [List.isSome_idxOf?]

theorem index_nat {α : Type} (l : List α) (i : Nat) : index? l (i : Int) = l[i]? := by
  unfold index?; rw [if_pos (by omega)]; simp

theorem x_not_showNat {n : Nat} : 'x' ∉ showNat n := fun h => absurd (mem_showNat n _ h) (by decide)

theorem gt_not_showNat {n : Nat} : '>' ∉ showNat n := fun h => absurd (mem_showNat n _ h) (by decide)

theorem nl_not_showNat {n : Nat} : '\n' ∉ showNat n := fun h => absurd (mem_showNat n _ h) (by decide)

theorem x_not_showInt {n : Int} : 'x' ∉ showInt n := fun h => absurd (mem_showInt n _ h) (by decide)

theorem nl_not_showInt {n : Int} : '\n' ∉ showInt n := fun h => absurd (mem_showInt n _ h) (by decide)

theorem readAct_row {acts : List Str} {i : Nat} {a : Str} (ha : acts[i]? = some a) (n : Int) :
    readAct (acts.map strip) (showNat i ++ 'x' :: (showInt n ++ ['\n'])) = some (strip a, n) := by
  unfold readAct
  have hrow : strip (showNat i ++ 'x' :: (showInt n ++ ['\n'])) = showNat i ++ 'x' :: showInt n := by
    have : showNat i ++ 'x' :: (showInt n ++ ['\n']) = (showNat i ++ 'x' :: showInt n) ++ ['\n'] := by simp
    rw [this, strip_newline, strip_tight]
    apply tight_of_rowChar
    intro c hc
    simp only [List.mem_append, List.mem_cons] at hc
    rcases hc with hc | rfl | hc
    · exact rowChar_showNat i c hc
    · right; right; right; rfl
    · exact rowChar_showInt n c hc
  rw [hrow, split_two x_not_showNat x_not_showInt]
  simp [intOf_showNat, intOf_showInt, index_nat, ha]

theorem readEdge_row {acts : List Str} {i j : Nat} {a b : Str} (ha : acts[i]? = some a) (hb : acts[j]? = some b)
    (n : Int) :
    readEdge (acts.map strip) (showNat i ++ '>' :: (showNat j ++ 'x' :: (showInt n ++ ['\n']))) =
      some ((strip a, strip b), n) := by
  unfold readEdge
  have hrow : strip (showNat i ++ '>' :: (showNat j ++ 'x' :: (showInt n ++ ['\n']))) =
      (showNat i ++ '>' :: showNat j) ++ 'x' :: showInt n := by
    have : showNat i ++ '>' :: (showNat j ++ 'x' :: (showInt n ++ ['\n'])) =
      ((showNat i ++ '>' :: showNat j) ++ 'x' :: showInt n) ++ ['\n'] := by simp
    rw [this, strip_newline, strip_tight]
    apply tight_of_rowChar
    intro c hc
    simp only [List.mem_append, List.mem_cons] at hc
    rcases hc with (hc | rfl | hc) | rfl | hc
    · exact rowChar_showNat i c hc
    · right; right; left; rfl
    · exact rowChar_showNat j c hc
    · right; right; right; rfl
    · exact rowChar_showInt n c hc
  have hx : 'x' ∉ showNat i ++ '>' :: showNat j := by
    simp only [List.mem_append, List.mem_cons, not_or]
    exact ⟨x_not_showNat, by decide, x_not_showNat⟩
  rw [hrow, split_two hx x_not_showInt]
  simp [split_two gt_not_showNat gt_not_showNat, intOf_showNat, intOf_showInt, index_nat, ha, hb]

theorem mapM_none_iff {α β : Type} {f : α → Option β} {l : List α} : l.mapM f = none ↔ ∃ a ∈ l, f a = none := by
  induction l with
  | nil => simp
  | cons a l ih =>
    rw [List.mapM_cons]
    cases hf : f a with
    | none => simp [hf]
    | some b =>
      cases hl : l.mapM f with
      | none => simp [hf, ← ih, hl]
      | some bs =>
        have : ¬ ∃ a ∈ l, f a = none := by rw [← ih, hl]; simp
        simp [hf]
        intro x hx e
        exact this ⟨x, hx, e⟩

/-- Writing rows and reading them back. -/
theorem mapM_map {α β γ : Type} {f : α → Option β} {g : β → Option γ} {h : α → γ} {l : List α} {rs : List β}
    (hl : l.mapM f = some rs) (hg : ∀ a ∈ l, ∀ r, f a = some r → g r = some (h a)) :
    rs.mapM g = some (l.map h) ∧ rs.length = l.length ∧ ∀ r ∈ rs, ∃ a ∈ l, f a = some r := by
  induction l generalizing rs with
  | nil =>
    simp at hl; subst hl; simp
  | cons a l ih =>
    rw [List.mapM_cons] at hl
    simp only [Option.bind_eq_bind, Option.bind_eq_some_iff, pure, Option.some.injEq] at hl
    obtain ⟨r, hr, rs', hrs, rfl⟩ := hl
    obtain ⟨h1, h2, h3⟩ := ih hrs fun a ha r hr => hg a (by simp [ha]) r hr
    refine ⟨?_, by simp [h2], ?_⟩
    · simp [List.mapM_cons, hg a (by simp) r hr, h1]
    · intro x hx
      rw [List.mem_cons] at hx
      rcases hx with rfl | hx
      · exact ⟨a, by simp, hr⟩
      · obtain ⟨b, hb, e⟩ := h3 x hx
        exact ⟨b, by simp [hb], e⟩

theorem actRow_isRow {acts : List Str} {e : Str × Int} {r : Str} (h : actRow acts e = some r) :
    IsRow r ∧ '\r' ∉ r ∧ readAct (acts.map strip) r = some (strip e.1, e.2) := by
  unfold actRow at h
  simp only [Option.map_eq_some_iff] at h
  obtain ⟨i, hi, rfl⟩ := h
  refine ⟨⟨showNat i ++ 'x' :: showInt e.2, ?_, by simp⟩, ?_, readAct_row (idx_get hi) _⟩
  · simp only [List.mem_append, List.mem_cons, not_or]
    exact ⟨nl_not_showNat, by decide, nl_not_showInt⟩
  · simp only [List.mem_append, List.mem_cons, not_or]
    exact ⟨fun h => absurd (mem_showNat _ _ h) (by decide), by decide,
      fun h => absurd (mem_showInt _ _ h) (by decide), by decide, by simp⟩

theorem edgeRow_isRow {acts : List Str} {e : (Str × Str) × Int} {r : Str} (h : edgeRow acts e = some r) :
    IsRow r ∧ '\r' ∉ r ∧ readEdge (acts.map strip) r = some ((strip e.1.1, strip e.1.2), e.2) := by
  unfold edgeRow at h
  split at h
  · rename_i i j hi hj
    simp only [Option.some.injEq] at h
    subst h
    refine ⟨⟨showNat i ++ '>' :: (showNat j ++ 'x' :: showInt e.2), ?_, by simp⟩, ?_,
      readEdge_row (idx_get hi) (idx_get hj) _⟩
    · simp only [List.mem_append, List.mem_cons, not_or]
      exact ⟨nl_not_showNat, by decide, nl_not_showNat, by decide, nl_not_showInt⟩
    · simp only [List.mem_append, List.mem_cons, not_or]
      exact ⟨fun h => absurd (mem_showNat _ _ h) (by decide), by decide,
        fun h => absurd (mem_showNat _ _ h) (by decide), by decide,
        fun h => absurd (mem_showInt _ _ h) (by decide), by decide, by simp⟩
  · simp at h

/-- The dictionary with the given assignments, done one after the other. -/
def dictOf {κ ν : Type} [DecidableEq κ] (l : List (κ × ν)) : Dict κ ν := l.foldl (fun d e => Dict.set d e.1 e.2) []

theorem set_new {κ ν : Type} [DecidableEq κ] {d : Dict κ ν} {k : κ} (h : k ∉ Dict.keys d) (v : ν) :
    Dict.set d k v = d ++ [(k, v)] := by
  induction d with
  | nil => rfl
  | cons e d ih =>
    obtain ⟨k0, v0⟩ := e
    simp only [Dict.keys, List.map_cons, List.mem_cons, not_or] at h
    have : k0 ≠ k := fun e => h.1 e.symm
    simp [Dict.set, this, ih h.2]

theorem foldl_set_nodup {κ ν : Type} [DecidableEq κ] (l : List (κ × ν)) (d : Dict κ ν)
    (h : (Dict.keys (d ++ l)).Nodup) : l.foldl (fun d e => Dict.set d e.1 e.2) d = d ++ l := by
  induction l generalizing d with
  | nil => simp
  | cons e l ih =>
    obtain ⟨k, v⟩ := e
    rw [List.foldl_cons, set_new, ih]
    · simp
    · simpa using h
    · simp only [Dict.keys, List.map_append, List.map_cons, List.nodup_append] at h
      intro hk
      exact h.2.2 k hk k (by simp) rfl

theorem dictOf_nodup {κ ν : Type} [DecidableEq κ] {l : List (κ × ν)} (h : (Dict.keys l).Nodup) : dictOf l = l := by
  unfold dictOf; rw [foldl_set_nodup l [] (by simpa using h)]; simp

theorem readBlock_rows {acts : List Str} {d : Dict Str Int} {rs : List Str} (h : d.mapM (actRow acts) = some rs)
    (rest : List Str) :
    readBlock (acts.map strip) ((showNat d.length ++ ['\n']) :: (rs ++ rest)) =
      some (dictOf (d.map fun e => (strip e.1, e.2)), rest) := by
  obtain ⟨h1, h2, _⟩ := mapM_map (g := readAct (acts.map strip)) (h := fun e : Str × Int => (strip e.1, e.2)) h
    fun a _ r hr => (actRow_isRow hr).2.2
  unfold readBlock
  simp only [intOf_row, Option.bind_eq_bind, Option.bind_some, Int.toNat_natCast]
  rw [if_neg (by simp [h2])]
  rw [← h2, List.take_left, List.drop_left, h1]
  rfl

/-- Reading the exported rows: the activities are stripped, the rest is unchanged. -/
theorem importRows_export {acts : List Str} {dfg : Dfg} {sa ea : Dict Str Int} {rows : List Str}
    (h : exportRows acts dfg sa ea = some rows) :
    importRows rows = some (dictOf (dfg.map fun e => ((strip e.1.1, strip e.1.2), e.2)),
      dictOf (sa.map fun e => (strip e.1, e.2)), dictOf (ea.map fun e => (strip e.1, e.2))) := by
  unfold exportRows at h
  split at h
  · simp at h
  split at h
  · simp at h
  simp only [Option.bind_eq_bind, Option.bind_eq_some_iff, pure, Option.some.injEq] at h
  obtain ⟨rs, hrs, re, hre, rd, hrd, rfl⟩ := h
  obtain ⟨h1, _, _⟩ := mapM_map (g := readEdge (acts.map strip))
    (h := fun e : (Str × Str) × Int => ((strip e.1.1, strip e.1.2), e.2)) hrd fun a _ r hr => (edgeRow_isRow hr).2.2
  unfold importRows
  simp only [List.append_assoc, List.cons_append, List.nil_append, intOf_row, Option.bind_eq_bind, Option.bind_some,
    Int.toNat_natCast]
  rw [if_neg (by simp)]
  have ht : ∀ X : List Str, (acts.map (fun a => a ++ ['\n']) ++ X).take acts.length = acts.map (fun a => a ++ ['\n']) :=
    fun X => by
      have := List.take_left (l₁ := acts.map (fun a => a ++ ['\n'])) (l₂ := X)
      simpa using this
  have hd : ∀ X : List Str, (acts.map (fun a => a ++ ['\n']) ++ X).drop acts.length = X := fun X => by
      have := List.drop_left (l₁ := acts.map (fun a => a ++ ['\n'])) (l₂ := X)
      simpa using this
  rw [ht, hd]
  have hs : (acts.map (fun a => a ++ ['\n'])).map strip = acts.map strip := by
    rw [List.map_map]; apply List.map_congr_left; intro a _; exact strip_newline a
  rw [hs, readBlock_rows hrs, Option.bind_some]
  simp only
  rw [readBlock_rows hre, Option.bind_some]
  simp only [h1, Option.bind_some]
  rfl

theorem rows_isRow {acts : List Str} {dfg : Dfg} {sa ea : Dict Str Int} {rows : List Str}
    (h : exportRows acts dfg sa ea = some rows) (hn : ∀ a ∈ acts, '\n' ∉ a) : ∀ r ∈ rows, IsRow r := by
  unfold exportRows at h
  split at h
  · simp at h
  split at h
  · simp at h
  simp only [Option.bind_eq_bind, Option.bind_eq_some_iff, pure, Option.some.injEq] at h
  obtain ⟨rs, hrs, re, hre, rd, hrd, rfl⟩ := h
  obtain ⟨_, _, h1⟩ := mapM_map (g := readEdge (acts.map strip))
    (h := fun e : (Str × Str) × Int => ((strip e.1.1, strip e.1.2), e.2)) hrd fun a _ r hr => (edgeRow_isRow hr).2.2
  obtain ⟨_, _, h2⟩ := mapM_map (g := readAct (acts.map strip)) (h := fun e : Str × Int => (strip e.1, e.2)) hrs
    fun a _ r hr => (actRow_isRow hr).2.2
  obtain ⟨_, _, h3⟩ := mapM_map (g := readAct (acts.map strip)) (h := fun e : Str × Int => (strip e.1, e.2)) hre
    fun a _ r hr => (actRow_isRow hr).2.2
  intro r hr
  simp only [List.mem_append, List.mem_cons, List.not_mem_nil, or_false, List.mem_map] at hr
  rcases hr with (((((rfl | ⟨a, ha, rfl⟩) | rfl) | hr) | rfl) | hr) | hr
  · exact ⟨_, nl_not_showNat, rfl⟩
  · exact ⟨_, hn a ha, rfl⟩
  · exact ⟨_, nl_not_showNat, rfl⟩
  · obtain ⟨e, _, he⟩ := h2 r hr; exact (actRow_isRow he).1
  · exact ⟨_, nl_not_showNat, rfl⟩
  · obtain ⟨e, _, he⟩ := h3 r hr; exact (actRow_isRow he).1
  · obtain ⟨e, _, he⟩ := h1 r hr; exact (edgeRow_isRow he).1

theorem rows_no_cr {acts : List Str} {dfg : Dfg} {sa ea : Dict Str Int} {rows : List Str}
    (h : exportRows acts dfg sa ea = some rows) (hn : ∀ a ∈ acts, '\r' ∉ a) : '\r' ∉ rows.flatten := by
  unfold exportRows at h
  split at h
  · simp at h
  split at h
  · simp at h
  simp only [Option.bind_eq_bind, Option.bind_eq_some_iff, pure, Option.some.injEq] at h
  obtain ⟨rs, hrs, re, hre, rd, hrd, rfl⟩ := h
  obtain ⟨_, _, h1⟩ := mapM_map (g := readEdge (acts.map strip))
    (h := fun e : (Str × Str) × Int => ((strip e.1.1, strip e.1.2), e.2)) hrd fun a _ r hr => (edgeRow_isRow hr).2.2
  obtain ⟨_, _, h2⟩ := mapM_map (g := readAct (acts.map strip)) (h := fun e : Str × Int => (strip e.1, e.2)) hrs
    fun a _ r hr => (actRow_isRow hr).2.2
  obtain ⟨_, _, h3⟩ := mapM_map (g := readAct (acts.map strip)) (h := fun e : Str × Int => (strip e.1, e.2)) hre
    fun a _ r hr => (actRow_isRow hr).2.2
  have hnum : ∀ n, '\r' ∉ showNat n ++ ['\n'] := fun n => by
    simp only [List.mem_append, not_or]
    exact ⟨fun h => absurd (mem_showNat _ _ h) (by decide), by decide⟩
  rw [List.mem_flatten]
  rintro ⟨r, hr, hc⟩
  simp only [List.mem_append, List.mem_cons, List.not_mem_nil, or_false, List.mem_map] at hr
  rcases hr with (((((rfl | ⟨a, ha, rfl⟩) | rfl) | hr) | rfl) | hr) | hr
  · exact hnum _ hc
  · simp only [List.mem_append] at hc
    rcases hc with hc | hc
    · exact hn a ha hc
    · exact absurd hc (by decide)
  · exact hnum _ hc
  · obtain ⟨e, _, he⟩ := h2 r hr; exact (actRow_isRow he).2.1 hc
  · exact hnum _ hc
  · obtain ⟨e, _, he⟩ := h3 r hr; exact (actRow_isRow he).2.1 hc
  · obtain ⟨e, _, he⟩ := h1 r hr; exact (edgeRow_isRow he).2.1 hc

theorem actRow_none {acts : List Str} {e : Str × Int} : actRow acts e = none ↔ e.1 ∉ acts := by
  unfold actRow
  rw [Option.map_eq_none_iff, ← idx_isSome, Option.not_isSome_iff_eq_none]

theorem edgeRow_none {acts : List Str} {e : (Str × Str) × Int} :
    edgeRow acts e = none ↔ e.1.1 ∉ acts ∨ e.1.2 ∉ acts := by
  unfold edgeRow
  rw [← idx_isSome, ← idx_isSome]
  cases h1 : acts.idxOf? e.1.1 <;> cases h2 : acts.idxOf? e.1.2 <;> simp

end Verif.DfgFile
