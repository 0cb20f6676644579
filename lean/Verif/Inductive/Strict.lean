import Verif.Inductive.Seq
/-
Inductive miner: the strict sequence cut merges neighbouring groups only and never merges all of them.
-/
namespace Verif.IM
open Verif Dict Counter Dfg
variable {α : Type} [DecidableEq α]

/-! ### `mf` and `mt` -/

theorem getD_modify (l : List Int) (i : Nat) (f : Int → Int) (j : Nat) :
    (l.modify i f).getD j 0 = if i = j ∧ j < l.length then f (l.getD j 0) else l.getD j 0 := by
  simp only [List.getD_eq_getElem?_getD, List.getElem?_modify]
  by_cases hj : j < l.length
  · by_cases hij : i = j
    · simp [hij, hj]
    · simp [hij]
  · simp [hj]

theorem foldl_modify_length {β : Type} (l : List β) (i : β → Nat) (f : β → Int → Int) (m : List Int) :
    (l.foldl (fun m e => m.modify (i e) (f e)) m).length = m.length := by
  induction l generalizing m with
  | nil => rfl
  | cons e l ih => rw [List.foldl_cons, ih, List.length_modify]

theorem foldl_min {β : Type} (l : List β) (i : β → Nat) (w : β → Int) (m : List Int) (j : Nat) (hj : j < m.length) :
    (l.foldl (fun m e => m.modify (i e) fun v => min v (w e)) m).getD j 0 ≤ m.getD j 0 ∧
      ∀ e ∈ l, i e = j → (l.foldl (fun m e => m.modify (i e) fun v => min v (w e)) m).getD j 0 ≤ w e := by
  induction l generalizing m with
  | nil => simp
  | cons e l ih =>
    rw [List.foldl_cons]
    obtain ⟨h1, h2⟩ := ih (m.modify (i e) fun v => min v (w e)) (by simpa using hj)
    rw [getD_modify] at h1
    refine ⟨?_, ?_⟩
    · split at h1 <;> omega
    · intro e' he'
      rcases List.mem_cons.1 he' with rfl | he'
      · intro hi
        rw [if_pos ⟨hi, hj⟩] at h1; omega
      · exact h2 e' he'

theorem foldl_max {β : Type} (l : List β) (i : β → Nat) (w : β → Int) (m : List Int) (j : Nat) (hj : j < m.length) :
    m.getD j 0 ≤ (l.foldl (fun m e => m.modify (i e) fun v => max v (w e)) m).getD j 0 := by
  induction l generalizing m with
  | nil => simp
  | cons e l ih =>
    rw [List.foldl_cons]
    have h1 := ih (m.modify (i e) fun v => max v (w e)) (by simpa using hj)
    rw [getD_modify] at h1
    split at h1 <;> omega

theorem cmap_eq {V : α → Prop} {c : List (List α)} (hp : Partn V c) {x : Nat} {a : α} (ha : a ∈ c.getD x []) :
    cmap c a = x := by
  have hx : x < c.length := by
    rcases Nat.lt_or_ge x c.length with h | h
    · exact h
    · simp [List.getD_eq_getElem?_getD, List.getElem?_eq_none h] at ha
  have hax : a ∈ c[x] := by simpa [List.getD_eq_getElem?_getD, hx] using ha
  unfold cmap
  rw [List.findIdx_eq hx]
  refine ⟨by simpa using hax, ?_⟩
  intro j hj
  have hjl : j < c.length := by omega
  rw [decide_eq_false_iff_not]
  intro haj
  have := hp.unique (i := j) (j := x) (List.getElem?_eq_getElem hjl) (List.getElem?_eq_getElem hx) haj hax
  omega

/-- the facts about `mf` and `mt` that are used -/
structure Bounds (g : DFG α) (c : List (List α)) (mf mt : List Int) : Prop where
  lenf : mf.length = c.length
  edge : ∀ x y a b, a ∈ c.getD x [] → b ∈ c.getD y [] → edge g a b = true → mf.getD y 0 ≤ x
  start : ∀ y a, a ∈ c.getD y [] → a ∈ keys g.starts → mf.getD y 0 ≤ -maxsize
  stop : ∀ x a, a ∈ c.getD x [] → a ∈ keys g.ends → maxsize ≤ mt.getD x 0

theorem lt_of_mem_getD {c : List (List α)} {x : Nat} {a : α} (ha : a ∈ c.getD x []) : x < c.length := by
  rcases Nat.lt_or_ge x c.length with h | h
  · exact h
  · simp [List.getD_eq_getElem?_getD, List.getElem?_eq_none h] at ha

theorem bounds {V : α → Prop} (g : DFG α) {c : List (List α)} (hp : Partn V c) : Bounds g c (mfOf g c) (mtOf g c) where
  lenf := by unfold mfOf; rw [foldl_modify_length]; simp
  edge x y a b ha hb he := by
    have hy := lt_of_mem_getD hb
    unfold mfOf
    have := (foldl_min (keys g.graph) (fun e => cmap c e.2) (fun e => (cmap c e.1 : Int)) (c.map fun grp =>
      if grp.any fun a => decide (a ∈ keys g.starts) then -maxsize else maxsize) y (by simpa using hy)).2 (a, b)
      (by unfold IM.edge at he; simpa using he) (cmap_eq hp hb)
    rwa [show cmap c (a, b).1 = x from cmap_eq hp ha] at this
  start y a ha hs := by
    have hy := lt_of_mem_getD ha
    unfold mfOf
    have := (foldl_min (keys g.graph) (fun e => cmap c e.2) (fun e => (cmap c e.1 : Int)) (c.map fun grp =>
      if grp.any fun a => decide (a ∈ keys g.starts) then -maxsize else maxsize) y (by simpa using hy)).1
    refine Int.le_trans this ?_
    have hay : a ∈ c[y] := by simpa [List.getD_eq_getElem?_getD, hy] using ha
    have hany : (c[y].any fun a => decide (a ∈ keys g.starts)) = true := by
      rw [List.any_eq_true]; exact ⟨a, hay, by simpa using hs⟩
    simp only [List.getD_eq_getElem?_getD, List.getElem?_map, List.getElem?_eq_getElem hy, Option.map_some,
      Option.getD_some, hany, if_true]
    exact Int.le_refl _
  stop x a ha hs := by
    have hx := lt_of_mem_getD ha
    unfold mtOf
    have := foldl_max (keys g.graph) (fun e => cmap c e.1) (fun e => (cmap c e.2 : Int)) (c.map fun grp =>
      if grp.any fun a => decide (a ∈ keys g.ends) then maxsize else -maxsize) x (by simpa using hx)
    refine Int.le_trans ?_ this
    have hax : a ∈ c[x] := by simpa [List.getD_eq_getElem?_getD, hx] using ha
    have hany : (c[x].any fun a => decide (a ∈ keys g.ends)) = true := by
      rw [List.any_eq_true]; exact ⟨a, hax, by simpa using hs⟩
    simp only [List.getD_eq_getElem?_getD, List.getElem?_map, List.getElem?_eq_getElem hx, Option.map_some,
      Option.getD_some, hany, if_true]
    exact Int.le_refl _

/-! ### the current groups as a map of the original groups -/

/-- position `r` of `c` is the union of the original groups `x` with `f x = r` -/
structure Rep (c0 c : List (List α)) (f : Nat → Nat) : Prop where
  len : c.length = c0.length
  mem : ∀ r a, a ∈ c.getD r [] ↔ ∃ x, f x = r ∧ a ∈ c0.getD x []
  lt : ∀ x, x < c0.length → f x < c0.length

theorem getD_set (c : List (List α)) (p : Nat) (v : List α) (r : Nat) (hp : p < c.length) :
    (c.set p v).getD r [] = if p = r then v else c.getD r [] := by
  simp only [List.getD_eq_getElem?_getD, List.getElem?_set]
  by_cases h : p = r
  · simp [h]; subst h; simp [hp]
  · simp [h]

theorem absorb_rep {c0 c : List (List α)} {f : Nat → Nat} (h : Rep c0 c f) {p q : Nat} (hp : p < c0.length)
    (hq : q < c0.length) (hpq : p ≠ q) : Rep c0 (absorb c p q) (fun x => if f x = q then p else f x) where
  len := by unfold absorb; simp [h.len]
  mem r a := by
    unfold absorb
    rw [getD_set _ _ _ _ (by simpa [h.len] using hq), getD_set _ _ _ _ (by simpa [h.len] using hp)]
    by_cases hqr : q = r
    · subst hqr
      simp only [if_true, List.not_mem_nil, false_iff]
      rintro ⟨x, hx, _⟩
      split at hx
      · exact hpq hx
      · rename_i hn; exact hn hx
    · simp only [hqr, if_false]
      by_cases hpr : p = r
      · subst hpr
        simp only [if_true, mem_union, h.mem]
        constructor
        · rintro (⟨x, hx, ha⟩ | ⟨x, hx, ha⟩)
          · exact ⟨x, by simp [hx], ha⟩
          · exact ⟨x, by simp [hx], ha⟩
        · rintro ⟨x, hx, ha⟩
          split at hx
          · rename_i hf; exact .inr ⟨x, hf, ha⟩
          · exact .inl ⟨x, hx, ha⟩
      · simp only [hpr, if_false, h.mem]
        constructor
        · rintro ⟨x, hx, ha⟩
          exact ⟨x, by rw [hx, if_neg (fun e => hqr e.symm)], ha⟩
        · rintro ⟨x, hx, ha⟩
          split at hx
          · exact absurd hx hpr
          · exact ⟨x, hx, ha⟩
  lt x hx := by
    have := h.lt x hx
    split <;> omega

theorem Rep.congr {c0 c : List (List α)} {f f' : Nat → Nat} (h : Rep c0 c f) (he : ∀ x, f' x = f x) : Rep c0 c f' := by
  have : f' = f := funext he
  rw [this]; exact h

theorem mergeDown_rep {c0 : List (List α)} (mt : List Int) (p : Nat) (hp : p < c0.length) (n : Nat) (hn : n ≤ p)
    (c : List (List α)) (f : Nat → Nat) (h : Rep c0 c f) :
    ∃ lo, lo ≤ n ∧ (∀ q, lo ≤ q → q < n → mt.getD q 0 ≤ (p : Int)) ∧
      Rep c0 (mergeDown mt p n c) (fun x => if lo ≤ f x ∧ f x < n then p else f x) := by
  induction n generalizing c f with
  | zero => exact ⟨0, Nat.le_refl _, by omega, h.congr fun x => by simp⟩
  | succ q ih =>
    rw [mergeDown]
    split
    · rename_i hm
      obtain ⟨lo, h1, h2, h3⟩ := ih (by omega) (absorb c p q) _ (absorb_rep h hp (by omega) (by omega : p ≠ q))
      refine ⟨lo, by omega, ?_, h3.congr ?_⟩
      · intro r hr1 hr2
        by_cases hrq : r = q
        · subst hrq; exact hm
        · exact h2 r hr1 (by omega)
      · intro x
        by_cases hf : f x = q
        · rw [if_pos (by omega), if_pos hf, if_neg (by omega)]
        · rw [if_neg hf]
          by_cases hc : lo ≤ f x ∧ f x < q
          · rw [if_pos (by omega), if_pos hc]
          · rw [if_neg (by omega), if_neg hc]
    · exact ⟨q + 1, Nat.le_refl _, by omega, h.congr fun x => by rw [if_neg (by omega)]⟩

theorem mergeUp_rep {c0 : List (List α)} (mf : List Int) (hl : mf.length = c0.length) (p : Nat) (hp : p < c0.length) (n q : Nat)
    (hn : c0.length ≤ q + n) (hq : p < q) (c : List (List α)) (f : Nat → Nat) (h : Rep c0 c f) :
    ∃ hi, q ≤ hi ∧ (∀ r, q ≤ r → r < hi → r < c0.length ∧ (p : Int) ≤ mf.getD r 0) ∧
      (hi < c0.length → mf.getD hi 0 < p) ∧
      Rep c0 (mergeUp mf p n q c) (fun x => if q ≤ f x ∧ f x < hi then p else f x) := by
  induction n generalizing c f q with
  | zero => exact ⟨q, Nat.le_refl _, by omega, by omega, h.congr fun x => by rw [if_neg (by omega)]⟩
  | succ n ih =>
    rw [mergeUp]
    split
    · rename_i hm
      obtain ⟨hi, h1, h2, h3, h4⟩ := ih (q + 1) (by omega) (by omega) (absorb c p q) _
        (absorb_rep h hp (by omega) (by omega : p ≠ q))
      refine ⟨hi, by omega, ?_, h3, h4.congr ?_⟩
      · intro r hr1 hr2
        by_cases hrq : r = q
        · subst hrq; exact ⟨by omega, hm.2⟩
        · exact h2 r (by omega) hr2
      · intro x
        by_cases hf : f x = q
        · rw [if_pos (by omega), if_pos hf, if_neg (by omega)]
        · rw [if_neg hf]
          by_cases hc : q + 1 ≤ f x ∧ f x < hi
          · rw [if_pos (by omega), if_pos hc]
          · rw [if_neg (by omega), if_neg hc]
    · rename_i hm
      refine ⟨q, Nat.le_refl _, by omega, ?_, h.congr fun x => by rw [if_neg (by omega)]⟩
      intro hqc
      rw [hl] at hm
      have : ¬ mf.getD q 0 ≥ (p : Int) := fun h => hm ⟨hqc, h⟩
      omega

/-! ### the invariant -/

/-- before step `p` -/
structure Inv (k : Nat) (mf mt : List Int) (p : Nat) (f : Nat → Nat) : Prop where
  mono : ∀ x y, x ≤ y → f x ≤ f y
  moved : ∀ x, f x ≠ x → f x < p
  up : ∀ x, x < f x → mt.getD x 0 ≤ (f x : Int)
  barrier : ∀ h, p ≤ h → f h < p → h + 1 < k → p ≤ f (h + 1) → mf.getD (h + 1) 0 < p
  last : f (k - 1) ≠ k - 1 → ∃ i0, i0 < p ∧ maxsize ≤ mt.getD i0 0 ∧ f i0 ≠ f (k - 1)
  sep : f 0 ≠ f (k - 1)

/-- why position `p` is skippable, in terms of the original groups -/
theorem skippable_cases {g : DFG α} {c0 c : List (List α)} {mf mt : List Int} {f : Nat → Nat} (hb : Bounds g c0 mf mt)
    (hr : Rep c0 c f) {p : Nat} (hs : skippable g c p = true) :
    (∃ x y, f x < p ∧ p < f y ∧ y < c0.length ∧ mf.getD y 0 ≤ (x : Int)) ∨
    (∃ y, p < f y ∧ y < c0.length ∧ mf.getD y 0 ≤ -maxsize) ∨
    (∃ x, f x < p ∧ x < c0.length ∧ maxsize ≤ mt.getD x 0) := by
  unfold skippable at hs
  rw [Bool.or_eq_true, Bool.or_eq_true] at hs
  simp only [List.any_eq_true, List.mem_range, List.mem_range', decide_eq_true_iff] at hs
  rcases hs with (⟨i, hi, j, ⟨j', hj', rfl⟩, a, ha, b, hb', he⟩ | ⟨j, ⟨j', hj', rfl⟩, a, ha, hs⟩) | ⟨i, hi, a, ha, hs⟩
  · rw [hr.mem] at ha hb'
    obtain ⟨x, hx, ha⟩ := ha
    obtain ⟨y, hy, hb'⟩ := hb'
    exact .inl ⟨x, y, by omega, by omega, lt_of_mem_getD hb', hb.edge x y a b ha hb' he⟩
  · rw [hr.mem] at ha
    obtain ⟨y, hy, ha⟩ := ha
    exact .inr (.inl ⟨y, by omega, lt_of_mem_getD ha, hb.start y a ha hs⟩)
  · rw [hr.mem] at ha
    obtain ⟨x, hx, ha⟩ := ha
    exact .inr (.inr ⟨x, by omega, lt_of_mem_getD ha, hb.stop x a ha hs⟩)

theorem strictStep_inv {g : DFG α} {c0 c : List (List α)} {mf mt : List Int} {f : Nat → Nat} (hb : Bounds g c0 mf mt)
    (hk : 2 ≤ c0.length) (hkm : (c0.length : Int) ≤ maxsize) (hr : Rep c0 c f) {p : Nat} (hp : p < c0.length)
    (hi : Inv c0.length mf mt p f) :
    ∃ f', Rep c0 (strictStep g mf mt c p) f' ∧ Inv c0.length mf mt (p + 1) f' := by
  have hmax : (0 : Int) < maxsize := by unfold maxsize; decide
  unfold strictStep
  split
  case isFalse =>
    refine ⟨f, hr, hi.mono, fun x hx => by have := hi.moved x hx; omega, hi.up, ?_, ?_, hi.sep⟩
    · intro h h1 h2 h3 h4
      by_cases hfp : f h < p
      · have := hi.barrier h (by omega) hfp h3 (by omega); omega
      · have hne : f h ≠ h := by omega
        have := hi.moved h hne; omega
    · intro hl; obtain ⟨i0, h1, h2⟩ := hi.last hl; exact ⟨i0, by omega, h2⟩
  rename_i hs
  obtain ⟨lo, l1, l2, l3⟩ := mergeDown_rep mt p hp p (Nat.le_refl _) c f hr
  obtain ⟨hi', u1, u2, u3, u4⟩ := mergeUp_rep mf hb.lenf p hp mf.length (p + 1) (by have := hb.lenf; omega) (by omega) _ _ l3
  let f' : Nat → Nat := fun x => if lo ≤ f x ∧ f x < hi' then p else f x
  have hrep : Rep c0 (mergeUp mf p mf.length (p + 1) (mergeDown mt p p c)) f' := by
    refine u4.congr ?_
    intro x
    simp only [f']
    by_cases hc : lo ≤ f x ∧ f x < p
    · rw [if_pos (by omega), if_pos hc, if_neg (by omega)]
    · rw [if_neg hc]
      by_cases hc2 : p + 1 ≤ f x ∧ f x < hi'
      · rw [if_pos (by omega), if_pos hc2]
      · rw [if_neg hc2]
        by_cases hfp : f x = p
        · rw [if_pos (by omega), hfp]
        · rw [if_neg (by omega)]
  have fdef : ∀ x, (f' x = p ∧ lo ≤ f x ∧ f x < hi') ∨ (f' x = f x ∧ (f x < lo ∨ hi' ≤ f x)) := by
    intro x
    simp only [f']
    by_cases hc : lo ≤ f x ∧ f x < hi'
    · left; rw [if_pos hc]; exact ⟨rfl, hc⟩
    · right; rw [if_neg hc]; exact ⟨rfl, by omega⟩
  have hcase := skippable_cases hb hr hs
  -- an original group that contains an end activity stays below
  have stay : ∀ x, x < c0.length → maxsize ≤ mt.getD x 0 → x < p → f x ≤ x ∧ x < lo ∧ f' x = f x := by
    intro x hx hm hxp
    have h1 : f x ≤ x := by
      rcases Nat.lt_or_ge x (f x) with h | h
      · have := hi.up x h
        have := hr.lt x hx
        omega
      · exact h
    have h2 : x < lo := by
      rcases Nat.lt_or_ge x lo with h | h
      · exact h
      · have := l2 x h hxp; omega
    refine ⟨h1, h2, ?_⟩
    rcases fdef x with h | h
    · omega
    · exact h.1
  have hkpos : c0.length - 1 < c0.length := by omega
  refine ⟨f', hrep, ?_, ?_, ?_, ?_, ?_, ?_⟩
  · intro x y hxy
    have := hi.mono x y hxy
    rcases fdef x with hx | hx <;> rcases fdef y with hy | hy <;> omega
  · intro x hx
    rcases fdef x with h | h
    · omega
    · have := hi.moved x (by omega); omega
  · intro x hx
    rcases fdef x with h | h
    · rw [h.1] at hx ⊢
      by_cases hxl : lo ≤ x
      · exact l2 x hxl hx
      · have := hi.up x (by omega)
        rcases Nat.lt_or_ge p (f x) with h2 | h2
        · by_cases h3 : f x = x
          · omega
          · have := hi.moved x h3; omega
        · omega
    · rw [h.1] at hx ⊢; exact hi.up x hx
  · intro h h1 h2 h3 h4
    have hn : f (h + 1) = h + 1 := by
      by_cases h5 : f (h + 1) = h + 1
      · exact h5
      · have := hi.moved _ h5
        rcases fdef (h + 1) with h6 | h6 <;> omega
    have hn2 : hi' ≤ h + 1 := by rcases fdef (h + 1) with h6 | h6 <;> omega
    by_cases hfp : f h < p
    · have := hi.barrier h (by omega) hfp h3 (by omega); omega
    · have hfh : f h = h := by
        by_cases h5 : f h = h
        · exact h5
        · have := hi.moved _ h5; omega
      have : h < hi' := by rcases fdef h with h6 | h6 <;> omega
      have he : hi' = h + 1 := by omega
      have := u3 (by omega)
      rw [he] at this; omega
  · -- `last`
    intro hl
    by_cases hfl : f (c0.length - 1) = c0.length - 1
    · -- merged in this step
      have hm : f' (c0.length - 1) = p ∧ c0.length - 1 < hi' := by
        rcases fdef (c0.length - 1) with h | h
        · exact ⟨h.1, by omega⟩
        · omega
      have hpl : p < c0.length - 1 := by omega
      have hmf : ∀ r, p < r → r < c0.length → (p : Int) ≤ mf.getD r 0 := fun r h1 h2 => (u2 r (by omega) (by omega)).2
      -- nothing at or behind `p` has been merged before
      have hfree : ∀ x, p ≤ x → x < c0.length → p ≤ f x := by
        intro x hx hxc
        rcases Nat.lt_or_ge (f x) p with hlt | hge
        · exfalso
          -- the largest such `x`
          have key : ∀ d y, y + d = c0.length - 1 → p ≤ y → f y < p → False := by
            intro d
            induction d with
            | zero => intro y hy _ h2; have : y = c0.length - 1 := by omega
                      subst this; omega
            | succ d ih =>
              intro y hy h1 h2
              rcases Nat.lt_or_ge (f (y + 1)) p with h3 | h3
              · exact ih (y + 1) (by omega) (by omega) h3
              · have := hi.barrier y h1 h2 (by omega) h3
                have := hmf (y + 1) (by omega) (by omega)
                omega
          exact key (c0.length - 1 - x) x (by omega) hx hlt
        · exact hge
      rcases hcase with ⟨x, y, hx, hy, hyc, hxy⟩ | ⟨y, hy, hyc, hym⟩ | ⟨x, hx, hxc, hxm⟩
      · exfalso
        have hyy : f y = y := by
          by_cases h5 : f y = y
          · exact h5
          · have := hi.moved _ h5; omega
        have := hmf y (by omega) hyc
        have hxp : ¬ p ≤ x := by
          intro hpx
          rcases Nat.lt_or_ge x c0.length with hxl | hxl
          · have := hfree x hpx hxl; omega
          · have := hi.mono (c0.length - 1) x (by omega); omega
        omega
      · exfalso
        have hyy : f y = y := by
          by_cases h5 : f y = y
          · exact h5
          · have := hi.moved _ h5; omega
        have := hmf y (by omega) hyc
        omega
      · have hxp : x < p := by
          rcases Nat.lt_or_ge x p with h | h
          · exact h
          · have := hfree x h hxc; omega
        obtain ⟨s1, s2, s3⟩ := stay x hxc hxm hxp
        exact ⟨x, by omega, hxm, by omega⟩
    · obtain ⟨i0, h1, h2, h3⟩ := hi.last hfl
      obtain ⟨s1, s2, s3⟩ := stay i0 (by omega) h2 h1
      refine ⟨i0, by omega, h2, ?_⟩
      rcases fdef (c0.length - 1) with h | h
      · omega
      · omega
  · -- `sep`
    have h0 : f 0 ≤ f (c0.length - 1) := hi.mono 0 _ (by omega)
    have hsep := hi.sep
    by_cases hfl : f (c0.length - 1) = c0.length - 1
    · by_cases hm : c0.length - 1 < hi' ∧ lo ≤ c0.length - 1
      · -- the last group is in the new group
        by_cases hpl : p < c0.length - 1
        · have hmf : ∀ r, p < r → r < c0.length → (p : Int) ≤ mf.getD r 0 := fun r h1 h2 => (u2 r (by omega) (by omega)).2
          have key : ∀ d y, y + d = c0.length - 1 → p ≤ y → f y < p → False := by
            intro d
            induction d with
            | zero => intro y hy _ h2; have : y = c0.length - 1 := by omega
                      subst this; omega
            | succ d ih =>
              intro y hy h1 h2
              rcases Nat.lt_or_ge (f (y + 1)) p with h3 | h3
              · exact ih (y + 1) (by omega) (by omega) h3
              · have := hi.barrier y h1 h2 (by omega) h3
                have := hmf (y + 1) (by omega) (by omega)
                omega
          rcases hcase with ⟨x, y, hx, hy, hyc, hxy⟩ | ⟨y, hy, hyc, hym⟩ | ⟨x, hx, hxc, hxm⟩
          · exfalso
            have hyy : f y = y := by
              by_cases h5 : f y = y
              · exact h5
              · have := hi.moved _ h5; omega
            have := hmf y (by omega) hyc
            have hxp : ¬ p ≤ x := by
              intro hpx
              rcases Nat.lt_or_ge x c0.length with hxl | hxl
              · exact key (c0.length - 1 - x) x (by omega) hpx hx
              · have := hi.mono (c0.length - 1) x (by omega); omega
            omega
          · exfalso
            have hyy : f y = y := by
              by_cases h5 : f y = y
              · exact h5
              · have := hi.moved _ h5; omega
            have := hmf y (by omega) hyc
            omega
          · have hxp : x < p := by
              rcases Nat.lt_or_ge x p with h | h
              · exact h
              · exact absurd hx (fun hx => key (c0.length - 1 - x) x (by omega) h hx)
            obtain ⟨s1, s2, s3⟩ := stay x hxc hxm hxp
            have := hi.mono 0 x (by omega)
            rcases fdef 0 with h | h <;> rcases fdef (c0.length - 1) with h' | h' <;> omega
        · -- `p` is the last position
          have hpe : p = c0.length - 1 := by omega
          rcases hcase with ⟨x, y, hx, hy, hyc, hxy⟩ | ⟨y, hy, hyc, hym⟩ | ⟨x, hx, hxc, hxm⟩
          · have := hr.lt y hyc; omega
          · have := hr.lt y hyc; omega
          · have hxp : x < p := by
              rcases Nat.lt_or_ge x p with h | h
              · exact h
              · have : x = c0.length - 1 := by omega
                subst this; omega
            obtain ⟨s1, s2, s3⟩ := stay x hxc hxm hxp
            have := hi.mono 0 x (by omega)
            rcases fdef 0 with h | h <;> rcases fdef (c0.length - 1) with h' | h' <;> omega
      · rcases fdef 0 with h | h <;> rcases fdef (c0.length - 1) with h' | h' <;> omega
    · obtain ⟨i0, h1, h2, h3⟩ := hi.last hfl
      obtain ⟨s1, s2, s3⟩ := stay i0 (by omega) h2 h1
      have := hi.mono 0 i0 (by omega)
      have := hi.mono i0 (c0.length - 1) (by omega)
      rcases fdef 0 with h | h <;> rcases fdef (c0.length - 1) with h' | h' <;> omega

theorem strict_loop {g : DFG α} {c0 : List (List α)} {mf mt : List Int} (hb : Bounds g c0 mf mt)
    (hk : 2 ≤ c0.length) (hkm : (c0.length : Int) ≤ maxsize) (n : Nat) (hn : n ≤ c0.length) :
    ∃ f, Rep c0 ((List.range n).foldl (strictStep g mf mt) c0) f ∧ Inv c0.length mf mt n f := by
  induction n with
  | zero =>
    refine ⟨id, ⟨rfl, ?_, fun x hx => hx⟩, fun x y h => h, by simp, by intro x hx; simp at hx, by intro h h1 h2; omega,
      by simp, by simp; omega⟩
    intro r a
    constructor
    · intro h; exact ⟨r, rfl, h⟩
    · rintro ⟨x, rfl, h⟩; exact h
  | succ n ih =>
    obtain ⟨f, h1, h2⟩ := ih (by omega)
    rw [List.range_succ, List.foldl_append]
    exact strictStep_inv hb hk hkm h1 (by omega) h2

theorem two_of_filter {β : Type} (l : List β) (P : β → Bool) (i j : Nat) (hij : i < j) (x y : β) (hi : l[i]? = some x)
    (hj : l[j]? = some y) (hx : P x = true) (hy : P y = true) : 1 < (l.filter P).length := by
  have h1 : x ∈ l.take j := by
    rw [List.mem_iff_getElem?]; exact ⟨i, by rw [List.getElem?_take]; simp [hij, hi]⟩
  have h2 : y ∈ l.drop j := by
    rw [List.mem_iff_getElem?]; exact ⟨0, by rw [List.getElem?_drop]; simpa using hj⟩
  have e : (l.filter P).length = ((l.take j).filter P).length + ((l.drop j).filter P).length := by
    rw [← List.length_append, ← List.filter_append, List.take_append_drop]
  have := List.length_pos_of_mem (List.mem_filter.2 ⟨h1, hx⟩)
  have := List.length_pos_of_mem (List.mem_filter.2 ⟨h2, hy⟩)
  omega

/-- a partition has no more groups than activities -/
theorem Partn.length_le {V : α → Prop} {gs : List (List α)} (h : Partn V gs) (l : List α) (hl : ∀ a, V a → a ∈ l) :
    gs.length ≤ l.length := by
  have key : ∀ (gs : List (List α)), gs.Pairwise (fun g h => ∀ a ∈ g, a ∉ h) → (∀ g ∈ gs, g ≠ []) →
      (gs.filterMap List.head?).Nodup ∧ (gs.filterMap List.head?).length = gs.length ∧
      ∀ a ∈ gs.filterMap List.head?, ∃ g ∈ gs, a ∈ g := by
    intro gs
    induction gs with
    | nil => simp
    | cons g gs ih =>
      intro hd hne
      rw [List.pairwise_cons] at hd
      obtain ⟨h1, h2, h3⟩ := ih hd.2 fun x hx => hne x (by simp [hx])
      cases g with
      | nil => exact absurd rfl (hne [] (by simp))
      | cons a g =>
        simp only [List.filterMap_cons, List.head?_cons]
        refine ⟨?_, by simp [h2], ?_⟩
        · rw [List.nodup_cons]
          refine ⟨?_, h1⟩
          intro ha
          obtain ⟨x, hx, hax⟩ := h3 a ha
          exact hd.1 x hx a (by simp) hax
        · intro b hb
          rcases List.mem_cons.1 hb with rfl | hb
          · exact ⟨_, List.mem_cons_self, by simp⟩
          · obtain ⟨x, hx, hax⟩ := h3 b hb
            exact ⟨x, by simp [hx], hax⟩
  obtain ⟨h1, h2, h3⟩ := key gs h.disj h.ne
  rw [← h2]
  exact length_le_of_subset h1 fun a ha => hl a ((h.cover a).2 (h3 a ha))

/-- The groups are in order, no activity of a later group is directly followed by one of an earlier group. -/
def Ordered (L : UVCL α) (gs : List (List α)) : Prop := gs.Pairwise fun g h => ∀ a ∈ g, ∀ b ∈ h, ¬ Fol L b a

theorem holdsSeq_ordered {env : Env α} (henv : env.Lawful) {L : UVCL α} {gs : List (List α)}
    (h : holdsSeq env (discoverUvcl L) = some gs) : Partn (Occ L) gs ∧ 1 < gs.length ∧ Ordered L gs := by
  obtain ⟨h1, h2, h3⟩ := holdsSeq_spec henv h
  refine ⟨h1, h2, List.Pairwise.imp_of_mem ?_ (h3.and h1.disj)⟩
  rintro x y hx hy ⟨hxy, hd⟩ a ha b hb hf
  have hs := (hxy a ha b hb).2
  have hbV : b ∈ verts env (discoverUvcl L) := (vert_iff env henv L b).2 (occ_of_fol hf).1
  have haV : a ∈ verts env (discoverUvcl L) := (vert_iff env henv L a).2 (occ_of_fol hf).2
  rw [Bool.eq_false_iff] at hs
  apply hs
  rw [succ_iff hbV]
  exact ⟨fun e => hd a ha (e ▸ hb), (Path.refl).step ((edge_iff L b a).2 hf) haV⟩

theorem holdsStrict_spec {env : Env α} (henv : env.Lawful) {L : UVCL α} {gs : List (List α)}
    (hsz : ((alphabet (keys L)).length : Int) ≤ maxsize)
    (h : holdsStrict env (discoverUvcl L) = some gs) : Partn (Occ L) gs ∧ 1 < gs.length ∧ Ordered L gs := by
  unfold holdsStrict at h
  split at h
  · cases h
  · rename_i c hc
    cases h
    obtain ⟨h1, h2, h3⟩ := holdsSeq_ordered henv hc
    have hle := h1.length_le (alphabet (keys L)) (fun a ha => (mem_alphabet _ a).2 ha)
    obtain ⟨f, hr, hi⟩ := strict_loop (bounds (discoverUvcl L) h1) (by omega) (by omega) c.length (Nat.le_refl _)
    generalize hc' : (List.range c.length).foldl (strictStep (discoverUvcl L) (mfOf (discoverUvcl L) c)
      (mtOf (discoverUvcl L) c)) c = c' at *
    have hget : ∀ i (hi : i < c'.length), c'.getD i [] = c'[i] := by
      intro i hi; simp [List.getD_eq_getElem?_getD, hi]
    have hget0 : ∀ i (hi : i < c.length), c.getD i [] = c[i] := by
      intro i hi; simp [List.getD_eq_getElem?_getD, hi]
    have hlt : ∀ {i j x y : Nat}, f x = i → f y = j → i < j → x < y := by
      intro i j x y hx hy hij
      rcases Nat.lt_or_ge x y with h | h
      · exact h
      · have := hi.mono y x h; omega
    have hdisj : c'.Pairwise fun g h => ∀ a ∈ g, a ∉ h := by
      rw [List.pairwise_iff_getElem]
      intro i j hil hjl hij a ha hb
      rw [← hget, hr.mem] at ha hb
      obtain ⟨x, hx, ha⟩ := ha
      obtain ⟨y, hy, hb⟩ := hb
      have hxy := hlt hx hy hij
      have := cmap_eq h1 ha
      have := cmap_eq h1 hb
      omega
    have hord : Ordered L c' := by
      unfold Ordered
      rw [List.pairwise_iff_getElem]
      intro i j hil hjl hij a ha b hb
      rw [← hget, hr.mem] at ha hb
      obtain ⟨x, hx, ha⟩ := ha
      obtain ⟨y, hy, hb⟩ := hb
      have hxl := lt_of_mem_getD ha
      have hyl := lt_of_mem_getD hb
      rw [hget0 _ hxl] at ha
      rw [hget0 _ hyl] at hb
      exact (List.pairwise_iff_getElem.1 h3) x y hxl hyl (hlt hx hy hij) a ha b hb
    refine ⟨⟨?_, hdisj.filter _, ?_⟩, ?_, List.Pairwise.filter _ hord⟩
    · intro a
      rw [h1.cover]
      constructor
      · rintro ⟨g, hg, ha⟩
        obtain ⟨x, hxl, rfl⟩ := List.mem_iff_getElem.1 hg
        have hm := (hr.mem (f x) a).2 ⟨x, rfl, by rw [hget0 _ hxl]; exact ha⟩
        have hfl := lt_of_mem_getD hm
        rw [hget _ hfl] at hm
        refine ⟨c'[f x], List.mem_filter.2 ⟨List.getElem_mem hfl, ?_⟩, hm⟩
        simpa using List.length_pos_of_mem hm
      · rintro ⟨g, hg, ha⟩
        obtain ⟨i, hil, rfl⟩ := List.mem_iff_getElem.1 (List.mem_filter.1 hg).1
        rw [← hget, hr.mem] at ha
        obtain ⟨x, _, ha⟩ := ha
        have hxl := lt_of_mem_getD ha
        rw [hget0 _ hxl] at ha
        exact ⟨_, List.getElem_mem hxl, ha⟩
    · intro g hg e
      have := (List.mem_filter.1 hg).2
      rw [e] at this; simp at this
    · have hne : ∀ x, x < c.length → ∃ g, c'[f x]? = some g ∧ 0 < g.length := by
        intro x hx
        obtain ⟨a, ha⟩ := h1.pos (List.getElem_mem hx)
        have hm := (hr.mem (f x) a).2 ⟨x, rfl, by rw [hget0 _ hx]; exact ha⟩
        have hfl := lt_of_mem_getD hm
        rw [hget _ hfl] at hm
        exact ⟨_, List.getElem?_eq_getElem hfl, List.length_pos_of_mem hm⟩
      obtain ⟨g1, e1, p1⟩ := hne 0 (by omega)
      obtain ⟨g2, e2, p2⟩ := hne (c.length - 1) (by omega)
      have hle2 := hi.mono 0 (c.length - 1) (by omega)
      have := hi.sep
      exact two_of_filter c' _ (f 0) (f (c.length - 1)) (by omega) g1 g2 e1 e2 (by simpa using p1) (by simpa using p2)

end Verif.IM
