import Verif.Replay.Model
import Verif.Petri.Proofs
import Verif.Common.ListX
import Mathlib.Algebra.BigOperators.Group.List.Basic
import Mathlib.Algebra.Order.Ring.Int
import Mathlib.Tactic.Linarith
set_option linter.unusedSectionVars false
/-
Counting tokens.
-/
namespace Verif
open Dict
namespace Replay
variable {P T A : Type} [DecidableEq P] [DecidableEq T] [DecidableEq A]

theorem foldl_add_sum {X : Type} (f : X → Int) (l : List X) (z : Int) :
    l.foldl (fun acc x => acc + f x) z = z + (l.map f).sum := by
  induction l generalizing z with
  | nil => simp
  | cons x xs ih => simp only [List.foldl_cons, ih, List.map_cons, List.sum_cons]; omega

theorem tokens_eq (m : Marking P) : tokens m = (m.map Prod.snd).sum := by
  unfold tokens; rw [foldl_add_sum]; simp

theorem consumedTokens_eq (net : Net P T) (t : T) : consumedTokens net t = ((net.inArcs t).map Prod.snd).sum := by
  unfold consumedTokens; rw [foldl_add_sum]; simp

theorem producedTokens_eq (net : Net P T) (t : T) : producedTokens net t = ((net.outArcs t).map Prod.snd).sum := by
  unfold producedTokens; rw [foldl_add_sum]; simp

theorem count_of_not_mem {m : Marking P} {p : P} (h : p ∉ keys m) : count m p = 0 := by
  unfold count
  have : get? m p = none := by
    cases hg : get? m p with
    | none => rfl
    | some v => exact absurd ((mem_keys_iff m p).2 (by simp [hg])) h
  simp [this]

theorem tokens_set (m : Marking P) (h : (keys m).Nodup) (p : P) (v : Int) :
    tokens (Dict.set m p v) = tokens m - count m p + v := by
  simp only [tokens_eq]
  induction m with
  | nil => simp [Dict.set, count]
  | cons x xs ih =>
    obtain ⟨k, u⟩ := x
    have h' : k ∉ keys xs ∧ (keys xs).Nodup := List.nodup_cons.1 h
    by_cases hk : k = p
    · subst hk
      simp [Dict.set, count, get?]
      omega
    · have := ih h'.2
      simp only [Dict.set, hk, if_false, List.map_cons, List.sum_cons, this]
      simp [count, get?, hk]
      omega

theorem tokens_del (m : Marking P) (h : (keys m).Nodup) (p : P) :
    tokens (Dict.del m p) = tokens m - count m p := by
  simp only [tokens_eq]
  induction m with
  | nil => simp [Dict.del, count]
  | cons x xs ih =>
    obtain ⟨k, u⟩ := x
    have h' : k ∉ keys xs ∧ (keys xs).Nodup := List.nodup_cons.1 h
    have := ih h'.2
    unfold Dict.del at this ⊢
    by_cases hk : k = p
    · subst hk
      have hc := count_of_not_mem h'.1
      simp [count, get?] at this hc ⊢
      rw [this, hc]; omega
    · simp [hk, count, get?] at this ⊢
      rw [this]; omega

theorem consume_nodup {m : Marking P} (h : (keys m).Nodup) (a : P × Int) : (keys (Net.consume m a)).Nodup := by
  unfold Net.consume
  simp only
  split
  · exact nodup_del (nodup_set h _ _) _
  · exact nodup_set h _ _

theorem produce_nodup {m : Marking P} (h : (keys m).Nodup) (a : P × Int) : (keys (Net.produce m a)).Nodup :=
  nodup_set h _ _

theorem tokens_consume {m : Marking P} (h : (keys m).Nodup) (a : P × Int) : tokens (Net.consume m a) = tokens m - a.2 := by
  unfold Net.consume
  simp only
  split
  · next hz =>
    rw [tokens_del _ (nodup_set h _ _), tokens_set _ h, hz]; omega
  · rw [tokens_set _ h]; omega

theorem tokens_produce {m : Marking P} (h : (keys m).Nodup) (a : P × Int) : tokens (Net.produce m a) = tokens m + a.2 := by
  unfold Net.produce
  rw [tokens_set _ h]; omega

theorem foldl_consume_tokens (as : List (P × Int)) (m : Marking P) (h : (keys m).Nodup) :
    (keys (as.foldl Net.consume m)).Nodup ∧ tokens (as.foldl Net.consume m) = tokens m - (as.map Prod.snd).sum := by
  induction as generalizing m with
  | nil => simpa using h
  | cons a as ih =>
    have := ih (Net.consume m a) (consume_nodup h a)
    simp only [List.foldl_cons, List.map_cons, List.sum_cons]
    exact ⟨this.1, by rw [this.2, tokens_consume h]; omega⟩

theorem foldl_produce_tokens (as : List (P × Int)) (m : Marking P) (h : (keys m).Nodup) :
    (keys (as.foldl Net.produce m)).Nodup ∧ tokens (as.foldl Net.produce m) = tokens m + (as.map Prod.snd).sum := by
  induction as generalizing m with
  | nil => simpa using h
  | cons a as ih =>
    have := ih (Net.produce m a) (produce_nodup h a)
    simp only [List.foldl_cons, List.map_cons, List.sum_cons]
    exact ⟨this.1, by rw [this.2, tokens_produce h]; omega⟩

theorem execute_tokens {net : Net P T} {t : T} {m m' : Marking P} (h : (keys m).Nodup) (he : net.execute t m = some m') :
    (keys m').Nodup ∧ tokens m' = tokens m - consumedTokens net t + producedTokens net t := by
  obtain ⟨_, rfl⟩ := (Net.execute_some_iff _ _ _ _).1 he
  have h1 := foldl_consume_tokens (net.inArcs t) m h
  have h2 := foldl_produce_tokens (net.outArcs t) _ h1.1
  exact ⟨h2.1, by rw [h2.2, h1.2, consumedTokens_eq, producedTokens_eq]⟩

/-! ### Missing tokens -/

/-- one arc of `add_missing_tokens` -/
def addArc (acc : Int × Marking P) (a : P × Int) : Int × Marking P :=
  if Dict.count acc.2 a.1 < a.2 then
    (acc.1 + (a.2 - Dict.count acc.2 a.1), Dict.set acc.2 a.1 (Dict.count acc.2 a.1 + a.2))
  else acc

theorem addMissing_eq (net : Net P T) (t : T) (m : Marking P) : addMissing net t m = (net.inArcs t).foldl addArc (0, m) := rfl

/-- What `add_missing_tokens` does, arc by arc: `ad` tokens were added in reality. -/
theorem foldl_addArc (as : List (P × Int)) (hpos : ∀ a ∈ as, 1 ≤ a.2) (c : Int) (m : Marking P) (h : (keys m).Nodup) (hm : Pos m) :
    (keys (as.foldl addArc (c, m)).2).Nodup ∧ Pos (as.foldl addArc (c, m)).2 ∧
    c ≤ (as.foldl addArc (c, m)).1 ∧
    (∀ p, count m p ≤ count (as.foldl addArc (c, m)).2 p) ∧
    ((as.map Prod.fst).Nodup → ∀ a ∈ as, a.2 ≤ count (as.foldl addArc (c, m)).2 a.1) ∧
    ((∃ a ∈ as, count m a.1 < a.2) → c < (as.foldl addArc (c, m)).1) ∧
    tokens m ≤ tokens (as.foldl addArc (c, m)).2 ∧
    (as.foldl addArc (c, m)).1 - c ≤ tokens (as.foldl addArc (c, m)).2 - tokens m ∧
    tokens (as.foldl addArc (c, m)).2 - tokens m ≤ (as.map Prod.snd).sum ∧
    ((∀ a ∈ as, a.2 = 1) → (as.foldl addArc (c, m)).1 - c = tokens (as.foldl addArc (c, m)).2 - tokens m) := by
  induction as generalizing c m with
  | nil => simp [h, hm]
  | cons a as ih =>
    have ha := hpos a (by simp)
    simp only [List.foldl_cons, List.map_cons, List.sum_cons]
    by_cases hlt : count m a.1 < a.2
    · have hnn := hm.count_nonneg a.1
      have hstep : addArc (c, m) a = (c + (a.2 - count m a.1), Dict.set m a.1 (count m a.1 + a.2)) := by simp [addArc, hlt]
      have htk := tokens_set m h a.1 (count m a.1 + a.2)
      obtain ⟨i1, i2, i3, i4, i5, i6, i6b, i7, i8, i9⟩ := ih (fun b hb => hpos b (by simp [hb])) (c + (a.2 - count m a.1))
        (Dict.set m a.1 (count m a.1 + a.2)) (nodup_set h _ _) (Net.pos_set hm _ _ (by omega))
      rw [hstep]
      refine ⟨i1, i2, by omega, ?_, ?_, fun _ => by omega, by omega, by omega, by omega, ?_⟩
      · intro p
        have := i4 p
        rw [count_set] at this
        split at this <;> simp_all <;> omega
      · intro hn b hb
        rcases List.mem_cons.1 hb with rfl | hb
        · have := i4 b.1
          rw [count_set] at this; simp at this; omega
        · exact i5 (List.nodup_cons.1 hn).2 b hb
      · intro hu
        have h1 := hu a (by simp)
        have := i9 (fun b hb => hu b (by simp [hb]))
        omega
    · have hstep : addArc (c, m) a = (c, m) := by simp [addArc, hlt]
      obtain ⟨i1, i2, i3, i4, i5, i6, i6b, i7, i8, i9⟩ := ih (fun b hb => hpos b (by simp [hb])) c m h hm
      rw [hstep]
      refine ⟨i1, i2, i3, i4, ?_, ?_, i6b, i7, by omega, fun hu => i9 (fun b hb => hu b (by simp [hb]))⟩
      · intro hn b hb
        rcases List.mem_cons.1 hb with rfl | hb
        · have := i4 b.1; omega
        · exact i5 (List.nodup_cons.1 hn).2 b hb
      · rintro ⟨b, hb, hlt'⟩
        rcases List.mem_cons.1 hb with rfl | hb
        · exact absurd hlt' hlt
        · exact i6 ⟨b, hb, hlt'⟩

/-! ### Final marking -/

theorem sum_filter_mem (l k : List P) (f : P → Int) (hf : ∀ p, p ∈ l → p ∉ k → f p = 0) :
    (l.map f).sum = ((l.filter fun p => decide (p ∈ k)).map f).sum := by
  induction l with
  | nil => rfl
  | cons x xs ih =>
    have := ih (fun p hp hk => hf p (by simp [hp]) hk)
    by_cases hx : x ∈ k
    · simp [hx, this]
    · simp [hx, this, hf x (by simp) hx]

theorem sum_comm_keys (l k : List P) (hl : l.Nodup) (hk : k.Nodup) (f : P → Int)
    (h1 : ∀ p, p ∈ l → p ∉ k → f p = 0) (h2 : ∀ p, p ∈ k → p ∉ l → f p = 0) : (l.map f).sum = (k.map f).sum := by
  rw [sum_filter_mem l k f h1, sum_filter_mem k l f h2]
  have : (l.filter fun p => decide (p ∈ k)).Perm (k.filter fun p => decide (p ∈ l)) := by
    rw [List.perm_ext_iff_of_nodup (hl.filter _) (hk.filter _)]
    intro a; simp [and_comm]
  exact (this.map f).sum_eq

theorem map_sum_eq_keys (m : Marking P) (h : (keys m).Nodup) (g : P → Int → Int) :
    (m.map fun x => g x.1 x.2).sum = ((keys m).map fun p => g p (count m p)).sum := by
  unfold keys
  rw [List.map_map]
  congr 1
  apply List.map_congr_left
  intro x hx
  have : get? m x.1 = some x.2 := get?_of_mem_nodup h (by simpa using hx)
  simp [count, this]

theorem sum_add_map {X : Type} (l : List X) (f g : X → Int) : (l.map fun x => f x + g x).sum = (l.map f).sum + (l.map g).sum := by
  induction l with
  | nil => rfl
  | cons x xs ih => simp only [List.map_cons, List.sum_cons, ih]; omega

theorem sum_sub_map {X : Type} (l : List X) (f g : X → Int) : (l.map fun x => f x - g x).sum = (l.map f).sum - (l.map g).sum := by
  induction l with
  | nil => rfl
  | cons x xs ih => simp only [List.map_cons, List.sum_cons, ih]; omega

theorem finalDeficit_eq (fm m : Marking P) (hf : (keys fm).Nodup) :
    finalDeficit fm m = ((keys fm).map fun p => max 0 (count fm p - count m p)).sum := by
  rw [← map_sum_eq_keys fm hf fun p v => max 0 (v - count m p), ← zero_add ((List.map _ fm).sum), ← foldl_add_sum]
  unfold finalDeficit
  congr 1
  funext acc x
  split <;> omega

theorem remaining_eq (fm m : Marking P) (hn : (keys m).Nodup) (hm : Pos m) :
    remaining fm m = ((keys m).map fun p => max 0 (count m p - count fm p)).sum := by
  unfold remaining
  rw [foldl_add_sum, map_sum_eq_keys m hn fun p v => if has fm p then max 0 (v - count fm p) else v]
  simp only [zero_add]
  congr 1
  apply List.map_congr_left
  intro p _
  have := hm.count_nonneg p
  by_cases hh : p ∈ keys fm
  · simp [(has_iff fm p).2 hh]
  · have h1 : has fm p = false := by
      rw [Bool.eq_false_iff]; exact fun h => hh ((has_iff fm p).1 h)
    simp [h1, count_of_not_mem hh]; omega

theorem tokens_keys (m : Marking P) (h : (keys m).Nodup) : tokens m = ((keys m).map fun p => count m p).sum := by
  rw [tokens_eq]; exact map_sum_eq_keys m h fun _ v => v

/-- Tokens beyond the final marking and tokens missing in it balance. -/
theorem remaining_deficit (fm m : Marking P) (hn : (keys m).Nodup) (hm : Pos m) (hfn : (keys fm).Nodup) (hf : Pos fm) :
    tokens m + finalDeficit fm m = tokens fm + remaining fm m := by
  rw [finalDeficit_eq fm m hfn, remaining_eq fm m hn hm, tokens_keys m hn, tokens_keys fm hfn]
  have hmin := sum_comm_keys (keys m) (keys fm) hn hfn (fun p => min (count m p) (count fm p))
    (fun p _ h => by have := hm.count_nonneg p; simp only [count_of_not_mem h]; omega)
    (fun p _ h => by have := hf.count_nonneg p; simp only [count_of_not_mem h]; omega)
  have e1 : ((keys m).map fun p => max 0 (count m p - count fm p)) = ((keys m).map fun p => count m p - min (count m p) (count fm p)) := by
    apply List.map_congr_left; intro p _; omega
  have e2 : ((keys fm).map fun p => max 0 (count fm p - count m p)) = ((keys fm).map fun p => count fm p - min (count m p) (count fm p)) := by
    apply List.map_congr_left; intro p _; omega
  rw [e1, e2, sum_sub_map _ (fun p => count m p), sum_sub_map _ (fun p => count fm p)]
  omega

theorem sum_nonneg' {X : Type} (l : List X) (f : X → Int) (h : ∀ x ∈ l, 0 ≤ f x) : 0 ≤ (l.map f).sum := by
  induction l with
  | nil => simp
  | cons x xs ih =>
    have h1 := h x (by simp)
    have h2 := ih fun y hy => h y (by simp [hy])
    simp only [List.map_cons, List.sum_cons]; omega

theorem sum_le' {X : Type} (l : List X) (f g : X → Int) (h : ∀ x ∈ l, f x ≤ g x) : (l.map f).sum ≤ (l.map g).sum := by
  induction l with
  | nil => simp
  | cons x xs ih =>
    have h1 := h x (by simp)
    have h2 := ih fun y hy => h y (by simp [hy])
    simp only [List.map_cons, List.sum_cons]; omega

theorem sum_zero' {X : Type} (l : List X) (f : X → Int) (h : ∀ x ∈ l, 0 ≤ f x) (hz : (l.map f).sum = 0) : ∀ x ∈ l, f x = 0 := by
  induction l with
  | nil => simp
  | cons x xs ih =>
    have h1 := h x (by simp)
    have h2 := sum_nonneg' xs f fun y hy => h y (by simp [hy])
    simp only [List.map_cons, List.sum_cons] at hz
    intro y hy
    rcases List.mem_cons.1 hy with rfl | hy
    · omega
    · exact ih (fun z hz => h z (by simp [hz])) (by omega) y hy

theorem finalDeficit_bounds (fm m : Marking P) (hfn : (keys fm).Nodup) (hf : Pos fm) (hm : Pos m) :
    0 ≤ finalDeficit fm m ∧ finalDeficit fm m ≤ tokens fm := by
  rw [finalDeficit_eq fm m hfn, tokens_keys fm hfn]
  refine ⟨sum_nonneg' _ _ fun p _ => by omega, sum_le' _ _ _ fun p _ => ?_⟩
  have := hm.count_nonneg p; have := hf.count_nonneg p; omega

theorem remaining_bounds (fm m : Marking P) (hn : (keys m).Nodup) (hm : Pos m) (hf : Pos fm) :
    0 ≤ remaining fm m ∧ remaining fm m ≤ tokens m := by
  rw [remaining_eq fm m hn hm, tokens_keys m hn]
  refine ⟨sum_nonneg' _ _ fun p _ => by omega, sum_le' _ _ _ fun p _ => ?_⟩
  have := hm.count_nonneg p; have := hf.count_nonneg p; omega

theorem tokens_nonneg (m : Marking P) (hn : (keys m).Nodup) (hm : Pos m) : 0 ≤ tokens m := by
  rw [tokens_keys m hn]; exact sum_nonneg' _ _ fun p _ => hm.count_nonneg p

theorem finalDeficit_zero (fm m : Marking P) (hfn : (keys fm).Nodup) (hm : Pos m) :
    finalDeficit fm m = 0 ↔ ∀ p, count fm p ≤ count m p := by
  rw [finalDeficit_eq fm m hfn]
  constructor
  · intro h p
    by_cases hp : p ∈ keys fm
    · have := sum_zero' _ _ (fun p _ => by omega) h p hp; omega
    · rw [count_of_not_mem hp]; exact hm.count_nonneg p
  · intro h
    rw [List.map_congr_left (g := fun _ => (0 : Int)) fun p _ => by have := h p; omega]
    simp

theorem remaining_zero (fm m : Marking P) (hn : (keys m).Nodup) (hm : Pos m) (hf : Pos fm) :
    remaining fm m = 0 ↔ ∀ p, count m p ≤ count fm p := by
  rw [remaining_eq fm m hn hm]
  constructor
  · intro h p
    by_cases hp : p ∈ keys m
    · have := sum_zero' _ _ (fun p _ => by omega) h p hp; omega
    · rw [count_of_not_mem hp]; exact hf.count_nonneg p
  · intro h
    rw [List.map_congr_left (g := fun _ => (0 : Int)) fun p _ => by have := h p; omega]
    simp

end Replay
end Verif
