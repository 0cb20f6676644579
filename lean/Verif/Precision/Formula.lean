import Verif.Precision.Model
/-
C66: what the sums of ETConformance precision mean.
-/
namespace Verif
open Dict
namespace Precision

/-! ### Specification -/

/-- after the prefix `p`, some trace of the log continues with `a` -/
def Follows (log : List (List Str)) (p : List Str) (a : Str) : Prop := ∃ τ ∈ log, (p ++ [a]) <+: τ

/-- the proper non-empty prefixes of a trace, one for every position -/
def properPrefixes (tr : List Str) : List (List Str) := (List.range' 1 (tr.length - 1)).map fun i => tr.take i

open Classical in
/-- number of labels of `en` the log does not take after `p` -/
noncomputable def escaping (log : List (List Str)) (p : List Str) (en : List Str) : Nat :=
  (en.filter fun a => decide (¬ Follows log p a)).length

/-- all non-initial states the log visits: one prefix per trace and position -/
def visited (log : List (List Str)) : List (List Str) := log.flatMap properPrefixes

/-- the activities allowed by the model, summed over the states the log visits -/
def allowed (log : List (List Str)) (act : List Str → Option (List Str)) (ini : List Str) : Nat :=
  log.length * ini.length + ((visited log).map fun p => ((act p).getD []).length).sum

/-- the activities allowed by the model and not taken by the log in the same state -/
noncomputable def escapingTotal (log : List (List Str)) (act : List Str → Option (List Str)) (ini : List Str) : Nat :=
  log.length * escaping log [] ini + ((visited log).map fun p => escaping log p ((act p).getD [])).sum

/-- no activity of the log contains the separator -/
def NoSep (log : List (List Str)) : Prop := ∀ tr ∈ log, ∀ a ∈ tr, sep ∉ a

/-! ### Joining and splitting -/

theorem split_noSep (a : Str) (h : sep ∉ a) : split a = [a] := by
  induction a with
  | nil => rfl
  | cons c a ih =>
    simp only [List.mem_cons, not_or] at h
    rw [split, if_neg (fun e => h.1 e.symm), ih h.2]

theorem split_append (a s : Str) (h : sep ∉ a) : split (a ++ sep :: s) = a :: split s := by
  induction a with
  | nil => simp [split]
  | cons c a ih =>
    simp only [List.mem_cons, not_or] at h
    rw [List.cons_append, split, if_neg (fun e => h.1 e.symm), ih h.2]

theorem split_join (l : List Str) (hne : l ≠ []) (h : ∀ a ∈ l, sep ∉ a) : split (join l) = l := by
  induction l with
  | nil => exact absurd rfl hne
  | cons a l ih =>
    cases l with
    | nil => exact split_noSep a (h a (by simp))
    | cons b l =>
      rw [join, split_append _ _ (h a (by simp)), ih (by simp) (fun x hx => h x (List.mem_cons_of_mem _ hx))]

/-! ### The dictionaries -/

/-- the additions made by the two loops, in order -/
def occ (log : List (List Str)) : List (Str × Str) :=
  log.flatMap fun tr => (List.range' 1 (tr.length - 1)).map fun i => (join (tr.take i), tr.getD i [])

/-- one addition -/
def addOcc (acc : Acc) (e : Str × Str) : Acc :=
  { prefixes := Dict.set acc.prefixes e.1 (sadd ((get? acc.prefixes e.1).getD []) e.2)
    count := Dict.set acc.count e.1 ((get? acc.count e.1).getD 0 + 1) }

theorem getLogPrefixes_eq (log : List (List Str)) : getLogPrefixes log = (occ log).foldl addOcc ⟨[], []⟩ := by
  unfold getLogPrefixes occ
  generalize (⟨[], []⟩ : Acc) = acc
  induction log generalizing acc with
  | nil => rfl
  | cons tr log ih =>
    rw [List.foldl_cons, List.flatMap_cons, List.foldl_append, ih, List.foldl_map]
    rfl

theorem mem_sadd {X : Type} [DecidableEq X] (s : List X) (x y : X) : y ∈ sadd s x ↔ y ∈ s ∨ y = x := by
  unfold sadd; split
  · constructor
    · exact .inl
    · rintro (h | rfl) <;> assumption
  · simp

/-- invariant of the loops -/
structure AInv (os : List (Str × Str)) (acc : Acc) : Prop where
  nodup : (keys acc.prefixes).Nodup
  mem : ∀ k, k ∈ keys acc.prefixes ↔ ∃ a, (k, a) ∈ os
  next : ∀ k a, a ∈ (get? acc.prefixes k).getD [] ↔ (k, a) ∈ os
  count : ∀ k, (get? acc.count k).getD 0 = os.countP fun e => decide (e.1 = k)

theorem ainv (os : List (Str × Str)) : AInv os (os.foldl addOcc ⟨[], []⟩) := by
  induction os using snocInduct with
  | nil => exact ⟨by simp [keys], by simp [keys], by simp [get?], by simp [get?]⟩
  | snoc os e ih =>
    rw [List.foldl_append, List.foldl_cons, List.foldl_nil]
    generalize os.foldl addOcc ⟨[], []⟩ = acc at ih
    obtain ⟨k0, a0⟩ := e
    refine ⟨nodup_set ih.nodup _ _, ?_, ?_, ?_⟩
    · intro k
      simp only [addOcc, keys_set, ih.mem, List.mem_append, List.mem_singleton, Prod.mk.injEq]
      constructor
      · rintro (rfl | ⟨a, h⟩)
        · exact ⟨a0, .inr ⟨rfl, rfl⟩⟩
        · exact ⟨a, .inl h⟩
      · rintro ⟨a, h | ⟨h, _⟩⟩
        · exact .inr ⟨a, h⟩
        · exact .inl h
    · intro k a
      simp only [addOcc, get?_set, List.mem_append, List.mem_singleton, Prod.mk.injEq]
      by_cases hk : k0 = k
      · subst hk; simp [mem_sadd, ih.next]
      · simp [hk, ih.next, Ne.symm hk]
    · intro k
      simp only [addOcc, get?_set, List.countP_append, List.countP_singleton]
      by_cases hk : k0 = k
      · subst hk; simp [ih.count]
      · simp [hk, ih.count]

/-! ### Sums over the dictionary are sums over the log -/

theorem sum_keys (f : Str → Nat) (os : List (Str × Str)) (K : List Str) (hn : K.Nodup) (hK : ∀ e ∈ os, e.1 ∈ K) :
    (K.map fun k => f k * os.countP fun e => decide (e.1 = k)).sum = (os.map fun e => f e.1).sum := by
  induction os with
  | nil =>
    simp only [List.countP_nil, Nat.mul_zero, List.map_nil, List.sum_nil]
    induction K with
    | nil => rfl
    | cons k K ih => simp [ih (List.nodup_cons.1 hn).2 (by simp)]
  | cons e os ih =>
    have h1 := ih fun e' he' => hK e' (List.mem_cons_of_mem _ he')
    rw [List.map_cons, List.sum_cons, ← h1]
    have he := hK e List.mem_cons_self
    clear ih h1 hK
    have key : ∀ K : List Str, K.Nodup → (K.map fun k => f k * (e :: os).countP fun e => decide (e.1 = k)).sum =
        (if e.1 ∈ K then f e.1 else 0) + (K.map fun k => f k * os.countP fun e => decide (e.1 = k)).sum := by
      intro K hn
      induction K with
      | nil => simp
      | cons k K ih =>
        rw [List.nodup_cons] at hn
        rw [List.map_cons, List.sum_cons, ih hn.2, List.map_cons, List.sum_cons, List.countP_cons]
        by_cases hk : e.1 = k
        · subst hk; simp [hn.1, Nat.mul_add]; omega
        · simp [hk]; split <;> omega
    rw [key K hn, if_pos he]

theorem sums_foldl (act : List Str → Option (List Str)) (acc : Acc) (es : List (Str × List Str)) (s : Sums) :
    es.foldl (addSums act acc) s =
    { at_ := s.at_ + (es.map fun e => ((act e.2).getD []).length * (get? acc.count e.1).getD 0).sum
      ee := s.ee + (es.map fun e => (diff ((act e.2).getD []) ((get? acc.prefixes e.1).getD [])).length *
        (get? acc.count e.1).getD 0).sum } := by
  induction es generalizing s with
  | nil => simp
  | cons e es ih =>
    rw [List.foldl_cons, ih]
    cases h : act e.2 with
    | none => simp [addSums, diff, h]
    | some l => simp [addSums, h, Nat.add_assoc]

theorem visited_occ (log : List (List Str)) (p : List Str) (a : Str) (hp : p ≠ []) :
    Follows log p a ↔ ∃ tr ∈ log, ∃ i ∈ List.range' 1 (tr.length - 1), tr.take i = p ∧ tr.getD i [] = a := by
  constructor
  · rintro ⟨τ, hτ, r, hr⟩
    have hp' := List.length_pos_iff.2 hp
    have hl : τ.length = p.length + 1 + r.length := by rw [← hr]; simp; omega
    refine ⟨τ, hτ, p.length, ?_, ?_, ?_⟩
    · rw [List.mem_range'_1]; omega
    · rw [← hr]; simp
    · rw [← hr, List.getD_eq_getElem?_getD]; simp
  · rintro ⟨tr, htr, i, hi, rfl, rfl⟩
    rw [List.mem_range'_1] at hi
    have hlt : i < tr.length := by omega
    refine ⟨tr, htr, tr.drop (i + 1), ?_⟩
    rw [List.getD_eq_getElem?_getD, List.getElem?_eq_getElem hlt, Option.getD_some, List.append_assoc, List.singleton_append,
      ← List.drop_eq_getElem_cons hlt, List.take_append_drop]

theorem mem_visited (log : List (List Str)) (p : List Str) :
    p ∈ visited log ↔ ∃ tr ∈ log, ∃ i ∈ List.range' 1 (tr.length - 1), tr.take i = p := by
  simp only [visited, List.mem_flatMap, properPrefixes, List.mem_map]

theorem visited_ne_nil {log : List (List Str)} {p : List Str} (h : p ∈ visited log) : p ≠ [] := by
  obtain ⟨tr, _, i, hi, rfl⟩ := (mem_visited _ _).1 h
  rw [List.mem_range'_1] at hi
  intro e
  have := congrArg List.length e
  rw [List.length_take] at this
  simp only [List.length_nil] at this; omega

theorem visited_noSep {log : List (List Str)} (hs : NoSep log) {p : List Str} (h : p ∈ visited log) : ∀ a ∈ p, sep ∉ a := by
  obtain ⟨tr, htr, i, hi, rfl⟩ := (mem_visited _ _).1 h
  exact fun a ha => hs tr htr a (List.mem_of_mem_take ha)

theorem split_join_visited {log : List (List Str)} (hs : NoSep log) {p : List Str} (h : p ∈ visited log) : split (join p) = p :=
  split_join p (visited_ne_nil h) (visited_noSep hs h)

theorem occ_fst (log : List (List Str)) : (occ log).map Prod.fst = (visited log).map join := by
  simp [occ, visited, properPrefixes, List.map_flatMap, Function.comp_def]

theorem occ_iff {log : List (List Str)} (hs : NoSep log) {p : List Str} (h : p ∈ visited log) (a : Str) :
    (join p, a) ∈ occ log ↔ Follows log p a := by
  rw [visited_occ log p a (visited_ne_nil h)]
  simp only [occ, List.mem_flatMap, List.mem_map, Prod.mk.injEq]
  constructor
  · rintro ⟨tr, htr, i, hi, h1, h2⟩
    refine ⟨tr, htr, i, hi, ?_, h2⟩
    have hv : tr.take i ∈ visited log := (mem_visited _ _).2 ⟨tr, htr, i, hi, rfl⟩
    rw [← split_join_visited hs hv, h1, split_join_visited hs h]
  · rintro ⟨tr, htr, i, hi, h1, h2⟩
    exact ⟨tr, htr, i, hi, by rw [h1], h2⟩

theorem diff_length (log : List (List Str)) (p : List Str) (en b : List Str) (h : ∀ a, a ∈ b ↔ Follows log p a) :
    (diff en b).length = escaping log p en := by
  unfold diff escaping
  congr 1
  apply List.filter_congr
  intro a _
  by_cases hf : Follows log p a
  · have hb := (h a).2 hf; simp [hf, hb]
  · have hb : a ∉ b := fun hb => hf ((h a).1 hb)
    simp [hf, hb]

theorem start_iff (log : List (List Str)) (a : Str) : a ∈ startActivities log ↔ Follows log [] a := by
  simp only [startActivities, List.mem_filterMap, Follows, List.nil_append]
  constructor
  · rintro ⟨tr, h, h1⟩
    cases tr with
    | nil => cases h1
    | cons b tr => simp at h1; subst h1; exact ⟨_, h, tr, rfl⟩
  · rintro ⟨τ, h, r, rfl⟩
    exact ⟨_, h, rfl⟩

/-- C66: for every event log whose activity names do not contain a comma, whatever the model allows (`act`, `ini`), the
sums that ETConformance divides are the number of activities the model allows, and the number of those the log never
takes in the same state, both summed over every trace of the log and every position in it. -/
theorem _root_.Verif.C66_formula (log : List (List Str)) (hs : NoSep log) (act : List Str → Option (List Str)) (ini : List Str) :
    (sums log act ini log.length).at_ = allowed log act ini ∧
    (sums log act ini log.length).ee = escapingTotal log act ini := by
  have hi := ainv (occ log)
  rw [← getLogPrefixes_eq] at hi
  unfold sums
  simp only
  rw [sums_foldl]
  have hzip : ∀ (K : List Str) (g : Str × List Str → Nat),
      ((K.zip (formFakeLog K)).map g).sum = (K.map fun k => g (k, split k)).sum := by
    intro K g
    induction K with
    | nil => rfl
    | cons k K ih => simp only [formFakeLog, List.map_cons, List.zip_cons_cons, List.sum_cons]; rw [← ih]; rfl
  rw [hzip, hzip]
  simp only [hi.count, Nat.zero_add]
  have hcov : ∀ e ∈ occ log, e.1 ∈ keys (getLogPrefixes log).prefixes := fun e he => (hi.mem _).2 ⟨e.2, he⟩
  have e1 := sum_keys (fun k => ((act (split k)).getD []).length) (occ log) _ hi.nodup hcov
  have e2 := sum_keys (fun k => (diff ((act (split k)).getD []) ((get? (getLogPrefixes log).prefixes k).getD [])).length)
    (occ log) _ hi.nodup hcov
  rw [e1, e2]
  have hmap : ∀ g : Str → Nat, ((occ log).map fun e => g e.1) = (visited log).map fun p => g (join p) := by
    intro g
    have := congrArg (List.map g) (occ_fst log)
    simpa [Function.comp_def] using this
  rw [hmap fun k => ((act (split k)).getD []).length,
    hmap fun k => (diff ((act (split k)).getD []) ((get? (getLogPrefixes log).prefixes k).getD [])).length]
  constructor
  · rw [Nat.add_comm]
    unfold allowed
    congr 2
    exact List.map_congr_left fun p hp => by rw [split_join_visited hs hp]
  · rw [Nat.add_comm]
    unfold escapingTotal
    congr 1
    · rw [diff_length log [] ini _ (start_iff log)]
    · congr 1
      apply List.map_congr_left
      intro p hp
      rw [split_join_visited hs hp, diff_length log p]
      intro a
      rw [hi.next, occ_iff hs hp]

theorem escaping_le (log : List (List Str)) (p en : List Str) : escaping log p en ≤ en.length := List.length_filter_le _ _

theorem escaping_zero (log : List (List Str)) (p en : List Str) : escaping log p en = 0 ↔ ∀ a ∈ en, Follows log p a := by
  unfold escaping
  rw [List.length_eq_zero_iff, List.filter_eq_nil_iff]
  simp

theorem sum_le {X : Type} (l : List X) (f g : X → Nat) (h : ∀ x ∈ l, f x ≤ g x) : (l.map f).sum ≤ (l.map g).sum := by
  induction l with
  | nil => simp
  | cons x l ih =>
    have := h x List.mem_cons_self
    have := ih fun y hy => h y (List.mem_cons_of_mem _ hy)
    simp only [List.map_cons, List.sum_cons]; omega

theorem sum_zero {X : Type} (l : List X) (f : X → Nat) : (l.map f).sum = 0 ↔ ∀ x ∈ l, f x = 0 := by
  induction l with
  | nil => simp
  | cons x l ih => simp [ih]

/-- C66: precision is a number between 0 and 1, and it is 1 exactly if the log takes, in every state it visits, all the
activities the model allows there. -/
theorem _root_.Verif.C66_range (log : List (List Str)) (hs : NoSep log) (act : List Str → Option (List Str)) (ini : List Str) :
    0 ≤ value (sums log act ini log.length) ∧ value (sums log act ini log.length) ≤ 1 ∧
    (value (sums log act ini log.length) = 1 ↔
      (log ≠ [] → ∀ a ∈ ini, Follows log [] a) ∧
      ∀ p ∈ visited log, ∀ en, act p = some en → ∀ a ∈ en, Follows log p a) := by
  obtain ⟨h1, h2⟩ := C66_formula log hs act ini
  have hle : (sums log act ini log.length).ee ≤ (sums log act ini log.length).at_ := by
    rw [h1, h2]
    unfold allowed escapingTotal
    exact Nat.add_le_add (Nat.mul_le_mul_left _ (escaping_le _ _ _)) (sum_le _ _ _ fun p _ => escaping_le _ _ _)
  have hz : (sums log act ini log.length).ee = 0 ↔
      (log ≠ [] → ∀ a ∈ ini, Follows log [] a) ∧
      ∀ p ∈ visited log, ∀ en, act p = some en → ∀ a ∈ en, Follows log p a := by
    rw [h2]
    unfold escapingTotal
    rw [Nat.add_eq_zero_iff, Nat.mul_eq_zero, sum_zero]
    constructor
    · rintro ⟨h3, h4⟩
      constructor
      · intro hne
        rcases h3 with h3 | h3
        · exact absurd (List.length_eq_zero_iff.1 h3) hne
        · exact (escaping_zero _ _ _).1 h3
      · intro p hp en he
        have := h4 p hp
        rw [he, Option.getD_some] at this
        exact (escaping_zero _ _ _).1 this
    · rintro ⟨h3, h4⟩
      constructor
      · by_cases hne : log = []
        · left; simp [hne]
        · right; exact (escaping_zero _ _ _).2 (h3 hne)
      · intro p hp
        rw [escaping_zero]
        cases he : act p with
        | none => simp
        | some en => simpa using h4 p hp en he
  generalize sums log act ini log.length = s at hle hz
  rw [← hz]
  unfold value
  split
  · rename_i hpos
    have hposR : (0 : Rat) < (s.at_ : Rat) := by exact_mod_cast hpos
    have hleR : (s.ee : Rat) ≤ (s.at_ : Rat) := by exact_mod_cast hle
    have h0 : (0 : Rat) ≤ (s.ee : Rat) := by exact_mod_cast Nat.zero_le _
    have hd : (s.ee : Rat) / (s.at_ : Rat) ≤ 1 := by
      rw [← Rat.not_lt, Rat.lt_div_iff hposR, Rat.not_lt]; simpa using hleR
    have hd0 : (0 : Rat) ≤ (s.ee : Rat) / (s.at_ : Rat) := by
      rw [← Rat.not_lt, Rat.div_lt_iff hposR, Rat.not_lt]; simpa using h0
    refine ⟨by grind, by grind, ?_⟩
    constructor
    · intro h
      have h3 : (s.ee : Rat) / (s.at_ : Rat) = 0 := by grind
      have h4 : (s.ee : Rat) = 0 := by
        have := Rat.div_mul_cancel (a := (s.ee : Rat)) (b := (s.at_ : Rat)) (by grind)
        rw [h3] at this; grind
      exact_mod_cast h4
    · intro h; rw [h]; grind
  · rename_i h
    have : s.at_ = 0 := by omega
    refine ⟨by decide, Rat.le_refl, ?_⟩
    constructor
    · intro _; omega
    · intro _; rfl

/-! ### A log that meets the hypotheses, and the two ways the formula fails -/

/-- activities allowed in the example: after `a`, the activity `b` -/
def exAct (p : List Str) : Option (List Str) := if p = [['a']] then some [['b']] else none

example : NoSep [[['a'], ['b']]] := by intro tr htr a ha; simp at htr; subst htr; simp at ha; rcases ha with rfl | rfl <;> decide

/-- C66: a data frame gives `len(log)` = number of rows, so the same log (one trace ⟨a, b⟩, model allowing `a` and `x` at
the start and `b` after `a`) has precision 2/3 as an event log and 3/5 as a data frame. -/
theorem _root_.Verif.C66_dataframe_refuted :
    value (sums [[['a'], ['b']]] exAct [['a'], ['x']] 1) = 2 / 3 ∧
    value (sums [[['a'], ['b']]] exAct [['a'], ['x']] 2) = 3 / 5 := by
  have h1 : sums [[['a'], ['b']]] exAct [['a'], ['x']] 1 = ⟨3, 1⟩ := by decide
  have h2 : sums [[['a'], ['b']]] exAct [['a'], ['x']] 2 = ⟨5, 2⟩ := by decide
  rw [h1, h2]
  unfold value
  constructor <;> (simp; grind)

/-- the activity `a,b` of the example below -/
def ab : Str := ['a', ',', 'b']

/-- activities allowed in the second example: after `a,b` the activity `c`, after `a` then `b` nothing -/
def exAct2 (p : List Str) : Option (List Str) := if p = [ab] then some [['c'], ['d']] else if p = [['a'], ['b']] then some [] else some []

/-- C66: with an activity called `a,b` the prefix is looked up as ⟨a, b⟩: the sums are not those of the formula (the model
allows two activities after ⟨a,b⟩, one of them escaping, and none is counted). -/
theorem _root_.Verif.C66_separator_refuted :
    allowed [[ab, ['c']]] exAct2 [] = 2 ∧ (sums [[ab, ['c']]] exAct2 [] 1).at_ = 0 := by decide

end Precision
end Verif
