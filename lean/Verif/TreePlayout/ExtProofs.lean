import Verif.TreePlayout.Extensive
import Verif.TreePlayout.Proofs
import Mathlib.Data.List.Forall2
set_option linter.unusedSectionVars false
namespace Verif.TreePlayout
open Lang
variable {α β : Type}

/-! ### sorting by length -/

theorem insLen_perm (x : List α) (l : List (List α)) : (insLen x l).Perm (x :: l) := by
  induction l with
  | nil => exact .refl _
  | cons y ys ih =>
    rw [insLen]
    split
    · exact .refl _
    · exact (ih.cons y).trans (.swap ..)

theorem byLen_perm (l : List (List α)) : (byLen l).Perm l := by
  induction l with
  | nil => exact .refl _
  | cons x l ih => exact (insLen_perm x _).trans (ih.cons x)

theorem mem_byLen {l : List (List α)} {x : List α} : x ∈ byLen l ↔ x ∈ l := (byLen_perm l).mem_iff

theorem insLen_sorted (x : List α) (l : List (List α)) (h : l.Pairwise fun a b => a.length ≤ b.length) :
    (insLen x l).Pairwise fun a b => a.length ≤ b.length := by
  induction l with
  | nil => simp [insLen]
  | cons y ys ih =>
    rw [List.pairwise_cons] at h
    rw [insLen]
    split
    · rw [List.pairwise_cons, List.pairwise_cons]
      refine ⟨?_, h⟩
      intro z hz
      rcases List.mem_cons.1 hz with rfl | hz
      · assumption
      · have := h.1 z hz; omega
    · rw [List.pairwise_cons]
      refine ⟨?_, ih h.2⟩
      intro z hz
      rcases List.mem_cons.1 ((insLen_perm x ys).mem_iff.1 hz) with rfl | hz
      · omega
      · exact h.1 z hz

theorem byLen_sorted (l : List (List α)) : (byLen l).Pairwise fun a b => a.length ≤ b.length := by
  induction l with
  | nil => simp [byLen]
  | cons x l ih => exact insLen_sorted x _ ih

theorem firstLen_le {l : List (List α)} (h : l.Pairwise fun a b => a.length ≤ b.length) {x : List α} (hx : x ∈ l) :
    firstLen l ≤ x.length := by
  cases l with
  | nil => simp at hx
  | cons a l =>
    simp only [firstLen]
    rcases List.mem_cons.1 hx with rfl | hx
    · omega
    · have := List.rel_of_pairwise_cons h hx
      omega

theorem le_lastLen {l : List (List α)} (h : l.Pairwise fun a b => a.length ≤ b.length) {x : List α} (hx : x ∈ l) :
    (x.length : Int) ≤ lastLen l := by
  induction l using snocInduct with
  | nil => simp at hx
  | snoc l a _ =>
    simp only [lastLen, List.getLast?_append, List.getLast?_singleton]
    rw [List.pairwise_append] at h
    rcases List.mem_append.1 hx with hx | hx
    · have := h.2.2 x hx a (by simp)
      simp; omega
    · simp at hx; subst hx; simp

theorem takeWhile_sorted {l : List (List α)} (h : l.Pairwise fun a b => a.length ≤ b.length) (P : List α → Bool)
    (hP : ∀ a b, a.length ≤ b.length → P b = true → P a = true) {x : List α} (hx : x ∈ l) (hp : P x = true) :
    x ∈ l.takeWhile P := by
  induction l with
  | nil => simp at hx
  | cons a l ih =>
    have ha : P a = true := by
      rcases List.mem_cons.1 hx with rfl | hx
      · exact hp
      · exact hP _ _ (List.rel_of_pairwise_cons h hx) hp
    rw [List.takeWhile_cons, if_pos ha]
    rcases List.mem_cons.1 hx with rfl | hx
    · simp
    · exact List.mem_cons_of_mem _ (ih (List.pairwise_cons.1 h).2 hx)

/-! ### compositions -/

/-- total length -/
def tot (xs : List (List α)) : Nat := (xs.map List.length).sum

theorem tot_append (xs ys : List (List α)) : tot (xs ++ ys) = tot xs + tot ys := by simp [tot]
theorem tot_flatten (xs : List (List α)) : xs.flatten.length = tot xs := by simp [tot, List.length_flatten]

theorem composeFrom_sound (d d2 : Int) (ts : List (List (List α))) : ∀ (curr : List (List (List α))) (xs : List (List α)),
    xs ∈ composeFrom d d2 curr ts →
    (∃ x ∈ curr, ∃ ys, List.Forall₂ (fun y t => y ∈ t) ys ts ∧ xs = x ++ ys) ∧
      (ts ≠ [] → d2 ≤ (tot xs : Int) ∧ (tot xs : Int) ≤ d) := by
  induction ts with
  | nil =>
    intro curr xs h
    exact ⟨⟨xs, h, [], .nil, by simp⟩, by simp⟩
  | cons t ts ih =>
    intro curr xs h
    obtain ⟨⟨x, hx, ys, hys, rfl⟩, hb⟩ := ih _ _ h
    simp only [List.mem_flatMap, List.mem_filter, List.mem_map, Bool.and_eq_true, decide_eq_true_eq] at hx
    obtain ⟨x0, hx0, ⟨y, hy, rfl⟩, h1, h2⟩ := hx
    refine ⟨⟨x0, hx0, y :: ys, .cons hy hys, by simp⟩, fun _ => ?_⟩
    cases ts with
    | nil =>
      cases hys
      simp [tot] at h1 h2 ⊢
      omega
    | cons t' ts' => exact hb (by simp)

theorem composeFrom_complete (d d2 : Int) (ts : List (List (List α)))
    (hs : ∀ t ∈ ts, t.Pairwise fun a b => a.length ≤ b.length) : ∀ (curr : List (List (List α))) (x ys : List (List α)),
    x ∈ curr → List.Forall₂ (fun y t => y ∈ t) ys ts → (tot (x ++ ys) : Int) ≤ d → d2 ≤ (tot (x ++ ys) : Int) →
    x ++ ys ∈ composeFrom d d2 curr ts := by
  induction ts with
  | nil =>
    intro curr x ys hx hy _ _
    cases hy
    simpa [composeFrom] using hx
  | cons t ts ih =>
    intro curr x ys hx hy h1 h2
    cases hy with
    | @cons y _ ys _ hy hys =>
      have e : x ++ y :: ys = (x ++ [y]) ++ ys := by simp
      rw [e] at h1 h2 ⊢
      refine ih (fun t' ht' => hs t' (by simp [ht'])) _ _ _ ?_ hys h1 h2
      have hb : (ts.map firstLen).sum ≤ (tot ys : Int) ∧ (tot ys : Int) ≤ (ts.map lastLen).sum := by
        clear ih h1 h2 e
        have hs' : ∀ t ∈ ts, t.Pairwise fun a b => a.length ≤ b.length := fun t' ht' => hs t' (by simp [ht'])
        clear hs
        induction hys with
        | nil => simp [tot]
        | @cons a t a' ts' h _ ih =>
          have := ih (fun t' ht' => hs' t' (by simp [ht']))
          have h3 := firstLen_le (hs' t (by simp)) h
          have h4 := le_lastLen (hs' t (by simp)) h
          simp [tot] at this ⊢
          omega
      simp only [List.mem_flatMap, List.mem_filter, List.mem_map, Bool.and_eq_true, decide_eq_true_eq]
      refine ⟨x, hx, ⟨y, hy, rfl⟩, ?_, ?_⟩
      · have : ((x ++ [y]).map List.length).sum = tot (x ++ [y]) := rfl
        rw [this]; rw [tot_append] at h1; omega
      · have : ((x ++ [y]).map List.length).sum = tot (x ++ [y]) := rfl
        rw [this]; rw [tot_append] at h2; omega

theorem compositions_sound {d d2 : Int} {ts : List (List (List α))} {X : List (List (List α))}
    (h : compositions d d2 ts = some X) {xs : List (List α)} (hx : xs ∈ X) :
    List.Forall₂ (fun y t => y ∈ t) xs ts ∧ d2 ≤ (tot xs : Int) ∧ (tot xs : Int) ≤ d := by
  match ts, h with
  | t :: t' :: ts, h =>
    simp only [compositions, Option.some.injEq] at h
    subst h
    obtain ⟨⟨x, hx', ys, hys, rfl⟩, hb⟩ := composeFrom_sound _ _ _ _ _ hx
    obtain ⟨y, hy, rfl⟩ := List.mem_map.1 hx'
    exact ⟨.cons hy hys, hb (by simp)⟩

theorem compositions_some (d d2 : Int) (ts : List (List (List α))) (h2 : 2 ≤ ts.length)
    (hs : ∀ t ∈ ts, t.Pairwise fun a b => a.length ≤ b.length) :
    ∃ X, compositions d d2 ts = some X ∧ ∀ xs, List.Forall₂ (fun y t => y ∈ t) xs ts → (tot xs : Int) ≤ d → d2 ≤ (tot xs : Int) →
      xs ∈ X := by
  match ts, h2 with
  | t :: t' :: ts, _ =>
    refine ⟨_, rfl, ?_⟩
    intro xs hx h1 h2
    cases hx with
    | @cons y _ ys _ hy hys =>
      have := composeFrom_complete d d2 (t' :: ts) (fun t ht => hs t (by simp [ht])) (t.map fun x => [x]) [y] ys
        (List.mem_map.2 ⟨y, hy, rfl⟩) hys (by simpa using h1) (by simpa using h2)
      simpa using this

/-! ### interleavings -/

/-- an entry of the queue with the remaining words in full -/
def enc (g : List α × List (List α)) : List α × List Nat := (g.1, g.2.map List.length)

/-- the remaining words are suffixes -/
def Suf (x ss : List (List α)) : Prop := List.Forall₂ (fun a s => s <:+ a) x ss

theorem suf_get {x ss : List (List α)} (h : Suf x ss) {j : Nat} {s : List α} (hj : ss[j]? = some s) :
    ∃ a, x[j]? = some a ∧ s <:+ a := by
  induction h generalizing j with
  | nil => simp at hj
  | @cons a b l1 l2 h1 _ ih =>
    cases j with
    | zero => simp at hj; subst hj; exact ⟨a, rfl, h1⟩
    | succ j => simpa using ih (by simpa using hj)

theorem suf_set {x ss : List (List α)} (h : Suf x ss) {j : Nat} {a : α} {r : List α} (hj : ss[j]? = some (a :: r)) :
    Suf x (ss.set j r) := by
  induction h generalizing j with
  | nil => simp at hj
  | @cons b c l1 l2 h1 h2 ih =>
    cases j with
    | zero =>
      simp at hj; subst hj
      exact .cons ((List.suffix_cons a r).trans h1) h2
    | succ j => exact .cons h1 (ih (by simpa using hj))

theorem mem_choicesOf {ss : List (List α)} {j : Nat} :
    j ∈ choicesOf (ss.map List.length) ↔ ∃ a r, ss[j]? = some (a :: r) := by
  simp only [choicesOf, List.length_map, List.mem_filter, List.mem_range, List.getElem?_map, decide_eq_true_eq]
  constructor
  · rintro ⟨h1, h2⟩
    rw [List.getElem?_eq_getElem h1] at h2 ⊢
    cases h : ss[j] with
    | nil => rw [h] at h2; simp at h2
    | cons a r => exact ⟨a, r, rfl⟩
  · rintro ⟨a, r, h⟩
    refine ⟨(List.getElem?_eq_some_iff.1 h).1, ?_⟩
    rw [h]; simp

theorem advance_enc {x : List (List α)} {g : List α × List (List α)} (h : Suf x g.2) {j : Nat} {a : α} {r : List α}
    (hj : g.2[j]? = some (a :: r)) : advance x (enc g) j = enc (g.1 ++ [a], g.2.set j r) := by
  obtain ⟨w, hw, p, rfl⟩ := suf_get h hj
  simp only [advance, enc, List.getElem?_map, hj, hw, Option.map_some, Option.getD_some, List.map_set]
  congr 1
  congr 1
  simp

/-- the entry after taking component `j` -/
def gadv (g : List α × List (List α)) (j : Nat) : List α × List (List α) :=
  match g.2[j]? with
  | some (a :: r) => (g.1 ++ [a], g.2.set j r)
  | _ => g

theorem gadv_eq {g : List α × List (List α)} {j : Nat} {a : α} {r : List α} (h : g.2[j]? = some (a :: r)) :
    gadv g j = (g.1 ++ [a], g.2.set j r) := by rw [gadv, h]

theorem next_enc {x : List (List α)} {g : List α × List (List α)} (h : Suf x g.2) :
    (choicesOf (enc g).2).map (advance x (enc g)) = ((choicesOf (enc g).2).map (gadv g)).map enc := by
  rw [List.map_map]
  apply List.map_congr_left
  intro j hj
  obtain ⟨a, r, hj⟩ := mem_choicesOf.1 hj
  rw [advance_enc h hj, Function.comp, gadv_eq hj]

theorem next_suf {x : List (List α)} {g : List α × List (List α)} (h : Suf x g.2) {g' : List α × List (List α)}
    (hg : g' ∈ (choicesOf (enc g).2).map (gadv g)) : Suf x g'.2 := by
  obtain ⟨j, hj, rfl⟩ := List.mem_map.1 hg
  obtain ⟨a, r, hj⟩ := mem_choicesOf.1 hj
  rw [gadv_eq hj]
  exact suf_set h hj

/-- what an entry stands for -/
def Den (g : List α × List (List α)) (z : List α) : Prop := ∃ s, Sh g.2 s ∧ z = g.1 ++ s

theorem den_next {g : List α × List (List α)} {z : List α} {j : Nat} (hj : j ∈ choicesOf (enc g).2) (h : Den (gadv g j) z) :
    Den g z := by
  obtain ⟨a, r, hj⟩ := mem_choicesOf.1 hj
  rw [gadv_eq hj] at h
  obtain ⟨s, hs, rfl⟩ := h
  exact ⟨a :: s, sh_step hj hs, by simp⟩

theorem den_done {g : List α × List (List α)} (h : (choicesOf (enc g).2).isEmpty = true) : Den g g.1 := by
  refine ⟨[], sh_empty _ ?_, by simp⟩
  intro t ht
  obtain ⟨j, hj⟩ := List.getElem?_of_mem ht
  cases t with
  | nil => rfl
  | cons a r =>
    have := mem_choicesOf.2 ⟨a, r, hj⟩
    rw [List.isEmpty_iff] at h
    simp only [enc] at h
    rw [h] at this
    simp at this

theorem den_split {g : List α × List (List α)} {z : List α} (h : Den g z) :
    ((choicesOf (enc g).2).isEmpty = true ∧ z = g.1) ∨ ∃ j ∈ choicesOf (enc g).2, Den (gadv g j) z := by
  obtain ⟨s, hs, rfl⟩ := h
  cases s with
  | nil =>
    left
    refine ⟨?_, by simp⟩
    rw [List.isEmpty_iff, List.eq_nil_iff_forall_not_mem]
    intro j hj
    obtain ⟨a, r, hj⟩ := mem_choicesOf.1 hj
    have := sh_nil hs _ (List.mem_of_getElem? hj)
    simp at this
  | cons a s =>
    right
    obtain ⟨c, r, hc, hs⟩ := sh_unstep hs
    exact ⟨c, mem_choicesOf.2 ⟨a, r, hc⟩, by rw [gadv_eq hc]; exact ⟨s, hs, by simp⟩⟩

theorem interleave_sound {limit : Nat} {x : List (List α)} : ∀ (n : Nat) (gq : List (List α × List (List α))) (final L : List (List α)),
    (∀ g ∈ gq, Suf x g.2) → interleave limit x n (gq.map enc) final = some L →
    ∀ z ∈ L, z ∈ final ∨ ∃ g ∈ gq, Den g z := by
  intro n
  induction n with
  | zero =>
    intro gq final L hs h z hz
    cases gq with
    | nil => simp [interleave] at h; subst h; exact .inl hz
    | cons g gq => simp [interleave] at h
  | succ n ih =>
    intro gq final L hs h z hz
    cases gq with
    | nil => simp [interleave] at h; subst h; exact .inl hz
    | cons g gq =>
      rw [List.map_cons, interleave, next_enc (hs g (by simp)), ← List.map_append] at h
      have hs' : ∀ g' ∈ gq ++ (choicesOf (enc g).2).map (gadv g), Suf x g'.2 := by
        intro g' hg'
        rcases List.mem_append.1 hg' with h' | h'
        · exact hs g' (by simp [h'])
        · exact next_suf (hs g (by simp)) h'
      have back : (∃ g' ∈ gq ++ (choicesOf (enc g).2).map (gadv g), Den g' z) → ∃ g' ∈ g :: gq, Den g' z := by
        rintro ⟨g', hg', hd⟩
        rcases List.mem_append.1 hg' with h' | h'
        · exact ⟨g', by simp [h'], hd⟩
        · obtain ⟨j, hj, rfl⟩ := List.mem_map.1 h'
          exact ⟨g, by simp, den_next hj hd⟩
      dsimp only at h
      by_cases hE : (choicesOf (enc g).2).isEmpty = true
      · rw [if_pos hE] at h
        have fin : z ∈ final ++ [(enc g).1] → z ∈ final ∨ ∃ g' ∈ g :: gq, Den g' z := by
          intro h'
          rcases List.mem_append.1 h' with h' | h'
          · exact .inl h'
          · simp at h'; subst h'
            exact .inr ⟨g, by simp, den_done hE⟩
        by_cases hl : (final ++ [(enc g).1]).length ≥ limit
        · rw [if_pos hl] at h
          simp only [Option.some.injEq] at h
          subst h
          exact fin hz
        · rw [if_neg hl] at h
          rcases ih _ _ _ hs' h z hz with h' | h'
          · exact fin h'
          · exact .inr (back h')
      · rw [if_neg hE] at h
        rcases ih _ _ _ hs' h z hz with h' | h'
        · exact .inl h'
        · exact .inr (back h')

/-- number of rounds for an entry with `m` letters left -/
def wgt (n : Nat) : Nat → Nat
  | 0 => 1
  | m + 1 => 1 + n * wgt n m

/-- number of rounds for a queue -/
def wsum (n : Nat) (gq : List (List α × List (List α))) : Nat := (gq.map fun g => wgt n (tot g.2)).sum

theorem suf_length {x ss : List (List α)} (h : Suf x ss) : ss.length = x.length := by
  induction h with
  | nil => rfl
  | cons _ _ ih => simp [ih]

theorem tot_set {ss : List (List α)} {j : Nat} {a : α} {r : List α} (h : ss[j]? = some (a :: r)) :
    tot (ss.set j r) + 1 = tot ss := by
  induction ss generalizing j with
  | nil => simp at h
  | cons s ss ih =>
    cases j with
    | zero => simp at h; subst h; simp [tot]; omega
    | succ j =>
      have := ih (j := j) (by simpa using h)
      simp [tot] at this ⊢; omega

theorem wsum_append (n : Nat) (a b : List (List α × List (List α))) : wsum n (a ++ b) = wsum n a + wsum n b := by simp [wsum]

theorem wsum_next {x : List (List α)} {g : List α × List (List α)} (h : Suf x g.2) :
    wsum x.length ((choicesOf (enc g).2).map (gadv g)) + 1 ≤ wgt x.length (tot g.2) := by
  cases ht : tot g.2 with
  | zero =>
    have : choicesOf (enc g).2 = [] := by
      rw [List.eq_nil_iff_forall_not_mem]
      intro j hj
      obtain ⟨a, r, hj⟩ := mem_choicesOf.1 hj
      have := tot_set hj
      omega
    rw [this]; simp [wsum, wgt]
  | succ m =>
    have key : ∀ js : List Nat, (∀ j ∈ js, j ∈ choicesOf (enc g).2) →
        wsum x.length (js.map (gadv g)) = js.length * wgt x.length m := by
      intro js hjs
      induction js with
      | nil => simp [wsum]
      | cons j js ih =>
        obtain ⟨a, r, hj⟩ := mem_choicesOf.1 (hjs j (by simp))
        have h1 := ih (fun j hj => hjs j (by simp [hj]))
        simp only [wsum, List.map_cons, List.sum_cons, List.length_cons] at h1 ⊢
        rw [h1, gadv_eq hj]
        have : tot (g.2.set j r) = m := by have := tot_set hj; omega
        simp only [this]
        rw [Nat.add_mul]; omega
    rw [key _ (fun _ h => h)]
    have hl : (choicesOf (enc g).2).length ≤ x.length := by
      refine Nat.le_trans (List.length_filter_le ..) ?_
      simp [enc, suf_length h]
    have := Nat.mul_le_mul_right (wgt x.length m) hl
    simp only [wgt]; omega

/-- With enough rounds the loop ends, for every limit; the result does not depend on the number of rounds. -/
theorem interleave_term (limit : Nat) (x : List (List α)) : ∀ (W : Nat) (gq : List (List α × List (List α))) (final : List (List α)),
    (∀ g ∈ gq, Suf x g.2) → wsum x.length gq ≤ W → ∃ L, ∀ n, W ≤ n → interleave limit x n (gq.map enc) final = some L := by
  intro W
  induction W with
  | zero =>
    intro gq final hs hw
    cases gq with
    | nil => exact ⟨final, fun n _ => by simp [interleave]⟩
    | cons g gq =>
      have := wsum_next (hs g (by simp))
      simp [wsum] at hw this
      omega
  | succ W ih =>
    intro gq final hs hw
    cases gq with
    | nil => exact ⟨final, fun n _ => by simp [interleave]⟩
    | cons g gq =>
      have hs' : ∀ g' ∈ gq ++ (choicesOf (enc g).2).map (gadv g), Suf x g'.2 := by
        intro g' hg'
        rcases List.mem_append.1 hg' with h' | h'
        · exact hs g' (by simp [h'])
        · exact next_suf (hs g (by simp)) h'
      have hw' : wsum x.length (gq ++ (choicesOf (enc g).2).map (gadv g)) ≤ W := by
        have h1 := wsum_next (hs g (by simp))
        rw [wsum_append]
        simp only [wsum, List.map_cons, List.sum_cons] at hw h1 ⊢
        omega
      by_cases hE : (choicesOf (enc g).2).isEmpty = true
      · by_cases hl : (final ++ [(enc g).1]).length ≥ limit
        · refine ⟨final ++ [(enc g).1], fun n hn => ?_⟩
          obtain ⟨n, rfl⟩ := Nat.exists_eq_succ_of_ne_zero (n := n) (by omega)
          rw [List.map_cons, interleave]
          simp only [hE, if_true, if_pos hl]
        · obtain ⟨L, hL⟩ := ih _ (final ++ [(enc g).1]) hs' hw'
          refine ⟨L, fun n hn => ?_⟩
          obtain ⟨n, rfl⟩ := Nat.exists_eq_succ_of_ne_zero (n := n) (by omega)
          rw [List.map_cons, interleave, next_enc (hs g (by simp)), ← List.map_append]
          simp only [hE, if_true, if_neg hl]
          exact hL n (by omega)
      · obtain ⟨L, hL⟩ := ih _ final hs' hw'
        refine ⟨L, fun n hn => ?_⟩
        obtain ⟨n, rfl⟩ := Nat.exists_eq_succ_of_ne_zero (n := n) (by omega)
        rw [List.map_cons, interleave, next_enc (hs g (by simp)), ← List.map_append]
        simp only [if_neg hE]
        exact hL n (by omega)

/-- With enough rounds and a high limit the loop finds all interleavings. -/
theorem interleave_complete (x : List (List α)) : ∀ (W : Nat) (gq : List (List α × List (List α))) (final : List (List α)),
    (∀ g ∈ gq, Suf x g.2) → wsum x.length gq ≤ W →
    ∃ L, (∀ n limit, W ≤ n → final.length + W < limit → interleave limit x n (gq.map enc) final = some L) ∧
      L.length ≤ final.length + W ∧ (∀ z ∈ final, z ∈ L) ∧ ∀ g ∈ gq, ∀ z, Den g z → z ∈ L := by
  intro W
  induction W with
  | zero =>
    intro gq final hs hw
    cases gq with
    | nil => exact ⟨final, fun n _ _ _ => by simp [interleave], by omega, fun z h => h, by simp⟩
    | cons g gq =>
      have := wsum_next (hs g (by simp))
      simp [wsum] at hw this
      omega
  | succ W ih =>
    intro gq final hs hw
    cases gq with
    | nil => exact ⟨final, fun n _ _ _ => by simp [interleave], by omega, fun z h => h, by simp⟩
    | cons g gq =>
      have hs' : ∀ g' ∈ gq ++ (choicesOf (enc g).2).map (gadv g), Suf x g'.2 := by
        intro g' hg'
        rcases List.mem_append.1 hg' with h' | h'
        · exact hs g' (by simp [h'])
        · exact next_suf (hs g (by simp)) h'
      have hw' : wsum x.length (gq ++ (choicesOf (enc g).2).map (gadv g)) ≤ W := by
        have h1 := wsum_next (hs g (by simp))
        rw [wsum_append]
        simp only [wsum, List.map_cons, List.sum_cons] at hw h1 ⊢
        omega
      have back : ∀ (L : List (List α)), (∀ g' ∈ gq ++ (choicesOf (enc g).2).map (gadv g), ∀ z, Den g' z → z ∈ L) →
          ((choicesOf (enc g).2).isEmpty = true → g.1 ∈ L) → ∀ g' ∈ g :: gq, ∀ z, Den g' z → z ∈ L := by
        intro L h1 h2 g' hg' z hz
        rcases List.mem_cons.1 hg' with rfl | hg'
        · rcases den_split hz with ⟨he, rfl⟩ | ⟨j, hj, hd⟩
          · exact h2 he
          · exact h1 _ (List.mem_append_right _ (List.mem_map.2 ⟨j, hj, rfl⟩)) z hd
        · exact h1 _ (List.mem_append_left _ hg') z hz
      by_cases hE : (choicesOf (enc g).2).isEmpty = true
      · obtain ⟨L, hL, hlen, hf, hd⟩ := ih _ (final ++ [(enc g).1]) hs' hw'
        simp only [List.length_append, List.length_singleton] at hlen hL
        refine ⟨L, fun n limit hn hlim => ?_, by omega, fun z hz => hf z (by simp [hz]), back L hd (fun _ => hf _ (by simp [enc]))⟩
        obtain ⟨n, rfl⟩ := Nat.exists_eq_succ_of_ne_zero (n := n) (by omega)
        rw [List.map_cons, interleave, next_enc (hs g (by simp)), ← List.map_append]
        have hl : ¬ (final ++ [(enc g).1]).length ≥ limit := by simp; omega
        simp only [hE, if_true, if_neg hl]
        exact hL n limit (by omega) (by omega)
      · obtain ⟨L, hL, hlen, hf, hd⟩ := ih _ final hs' hw'
        refine ⟨L, fun n limit hn hlim => ?_, by omega, hf, back L hd (fun h => absurd h hE)⟩
        obtain ⟨n, rfl⟩ := Nat.exists_eq_succ_of_ne_zero (n := n) (by omega)
        rw [List.map_cons, interleave, next_enc (hs g (by simp)), ← List.map_append]
        simp only [if_neg hE]
        exact hL n limit (by omega) (by omega)

theorem suf_self (x : List (List α)) : Suf x x := by
  induction x with
  | nil => exact .nil
  | cons a x ih => exact .cons (List.suffix_refl a) ih

theorem interleaveAll_sound {limit n : Nat} : ∀ (X : List (List (List α))) (final L : List (List α)),
    interleaveAll limit n X final = some L → ∀ z ∈ L, z ∈ final ∨ ∃ x ∈ X, Sh x z := by
  intro X
  induction X with
  | nil => intro final L h z hz; simp [interleaveAll] at h; subst h; exact .inl hz
  | cons x X ih =>
    intro final L h z hz
    rw [interleaveAll] at h
    split at h
    · simp at h; subst h; exact .inl hz
    · rw [Option.bind_eq_some_iff] at h
      obtain ⟨f1, h1, h2⟩ := h
      rcases ih _ _ h2 z hz with h3 | ⟨y, hy, hs⟩
      · rcases interleave_sound n [([], x)] final f1 (by simpa using suf_self x) h1 z h3 with h4 | ⟨g, hg, s, hs, rfl⟩
        · exact .inl h4
        · simp at hg; subst hg
          exact .inr ⟨x, by simp, by simpa using hs⟩
      · exact .inr ⟨y, by simp [hy], hs⟩

theorem interleaveAll_term (limit : Nat) : ∀ (X : List (List (List α))) (final : List (List α)),
    ∃ F L, ∀ n, F ≤ n → interleaveAll limit n X final = some L := by
  intro X
  induction X with
  | nil => intro final; exact ⟨0, final, fun n _ => rfl⟩
  | cons x X ih =>
    intro final
    by_cases hl : final.length ≥ limit
    · exact ⟨0, final, fun n _ => by rw [interleaveAll, if_pos hl]⟩
    · obtain ⟨L, hL⟩ := interleave_term limit x _ [([], x)] final (by simpa using suf_self x) (Nat.le_refl _)
      obtain ⟨F, L', hL'⟩ := ih L
      refine ⟨F + wsum x.length [(([] : List α), x)], L', fun n hn => ?_⟩
      rw [interleaveAll, if_neg hl]
      have := hL n (by omega)
      simp only [enc, List.map_cons, List.map_nil] at this
      rw [this]
      exact hL' n (by omega)

theorem interleaveAll_complete : ∀ (X : List (List (List α))) (final : List (List α)),
    ∃ N L, (∀ n limit, N ≤ n → N ≤ limit → interleaveAll limit n X final = some L) ∧ (∀ z ∈ final, z ∈ L) ∧
      ∀ x ∈ X, ∀ z, Sh x z → z ∈ L := by
  intro X
  induction X with
  | nil => intro final; exact ⟨0, final, fun n _ _ _ => rfl, fun z h => h, by simp⟩
  | cons x X ih =>
    intro final
    obtain ⟨L, hL, hlen, hf, hd⟩ := interleave_complete x _ [([], x)] final (by simpa using suf_self x) (Nat.le_refl _)
    obtain ⟨N, L', hL', hf', hd'⟩ := ih L
    refine ⟨N + final.length + wsum x.length [(([] : List α), x)] + 1, L', fun n limit hn hlim => ?_, fun z hz => hf' z (hf z hz), ?_⟩
    · have hl : ¬ final.length ≥ limit := by omega
      rw [interleaveAll, if_neg hl]
      have := hL n limit (by omega) (by omega)
      simp only [enc, List.map_cons, List.map_nil] at this
      rw [this]
      exact hL' n limit (by omega) (by omega)
    · intro y hy z hz
      rcases List.mem_cons.1 hy with rfl | hy
      · exact hf' z (hd ([], y) (by simp) z ⟨z, hz, by simp⟩)
      · exact hd' y hy z hz

end Verif.TreePlayout
