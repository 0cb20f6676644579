import Verif.Powl.Lang
/-
Languages of partial orders over arbitrary index types: nesting and renaming of indices (C49).
-/
namespace Verif
namespace Lang
variable {α ι κ : Type}

/-- the events with tag `k`, in order -/
def projG [DecidableEq ι] (k : ι) (es : List (ι × α)) : List α := (es.filter fun e => decide (e.1 = k)).map Prod.snd

/-- `poL` for an arbitrary set `I` of indices -/
def poG [DecidableEq ι] (I : ι → Prop) (L : ι → Lang α) (R : ι → ι → Prop) : Lang α := fun w =>
  ∃ es : List (ι × α), es.map Prod.snd = w ∧ (∀ e ∈ es, I e.1) ∧ (∀ k, I k → L k (projG k es)) ∧
    es.Pairwise fun e f => ¬ R f.1 e.1

theorem proj_eq (k : Nat) (es : List (Nat × α)) : proj k es = projG k es := by
  unfold proj projG
  congr 1

theorem poL_poG (R : Nat → Nat → Prop) (Ls : List (Lang α)) (L : Nat → Lang α) (hL : ∀ k l, Ls[k]? = some l → L k = l) (w : List α) :
    poL R Ls w ↔ poG (· < Ls.length) L R w := by
  unfold poL poG
  refine exists_congr fun es => and_congr_right fun _ => and_congr_right fun _ => and_congr ?_ ?_
  · constructor
    · intro h k hk
      rw [hL k _ (List.getElem?_eq_getElem hk), ← proj_eq]
      exact h k _ (List.getElem?_eq_getElem hk)
    · intro h k l hl
      have := h k (List.getElem?_eq_some_iff.1 hl).1
      rwa [hL k l hl, ← proj_eq] at this
  · constructor
    · intro h
      rw [List.pairwise_iff_getElem]
      intro i j hi hj hij hR
      exact List.pairwise_iff_getElem.1 (h _ _ hR) i j hi hj hij ⟨rfl, rfl⟩
    · intro h i j hR
      refine h.imp ?_
      rintro e f h1 ⟨rfl, rfl⟩; exact h1 hR

theorem poG_congr [DecidableEq ι] {I : ι → Prop} {L L' : ι → Lang α} {R R' : ι → ι → Prop} (hL : ∀ k, I k → ∀ w, L k w ↔ L' k w)
    (hR : ∀ i j, I i → I j → (R i j ↔ R' i j)) (w : List α) : poG I L R w ↔ poG I L' R' w := by
  unfold poG
  refine exists_congr fun es => and_congr_right fun _ => and_congr_right fun hI => and_congr ?_ ?_
  · exact forall_congr' fun k => forall_congr' fun hk => hL k hk _
  · refine List.Pairwise.iff_of_mem ?_
    intro e f he hf
    rw [hR _ _ (hI f hf) (hI e he)]

/-- renaming of the indices -/
theorem poG_rename [DecidableEq ι] [DecidableEq κ] {I : ι → Prop} {J : κ → Prop} (f : ι → κ) (g : κ → ι) (h1 : ∀ i, I i → J (f i) ∧ g (f i) = i)
    (h2 : ∀ j, J j → I (g j) ∧ f (g j) = j) (L : ι → Lang α) (R : ι → ι → Prop) (w : List α) :
    poG I L R w ↔ poG J (fun j => L (g j)) (fun a b => R (g a) (g b)) w := by
  constructor
  · rintro ⟨es, e1, e2, e3, e4⟩
    refine ⟨es.map fun e => (f e.1, e.2), by simp [Function.comp_def, e1], ?_, ?_, ?_⟩
    · intro e he
      obtain ⟨x, hx, rfl⟩ := List.mem_map.1 he
      exact (h1 _ (e2 x hx)).1
    · intro k hk
      have := e3 _ (h2 k hk).1
      have e : projG k (es.map fun e => (f e.1, e.2)) = projG (g k) es := by
        unfold projG
        rw [List.filter_map, List.map_map]
        have : es.filter ((fun e => decide (e.1 = k)) ∘ fun e => (f e.1, e.2)) = es.filter fun e => decide (e.1 = g k) := by
          refine List.filter_congr fun x hx => ?_
          simp only [Function.comp_apply, decide_eq_decide]
          constructor
          · intro h; rw [← h, (h1 _ (e2 x hx)).2]
          · intro h; rw [h, (h2 k hk).2]
        rw [this]; rfl
      rwa [e]
    · rw [List.pairwise_map]
      refine e4.imp_of_mem ?_
      intro a b ha hb h
      simp only
      rwa [(h1 _ (e2 a ha)).2, (h1 _ (e2 b hb)).2]
  · rintro ⟨es, e1, e2, e3, e4⟩
    refine ⟨es.map fun e => (g e.1, e.2), by simp [Function.comp_def, e1], ?_, ?_, ?_⟩
    · intro e he
      obtain ⟨x, hx, rfl⟩ := List.mem_map.1 he
      exact (h2 _ (e2 x hx)).1
    · intro k hk
      have := e3 _ (h1 k hk).1
      simp only [(h1 k hk).2] at this
      have e : projG k (es.map fun e => (g e.1, e.2)) = projG (f k) es := by
        unfold projG
        rw [List.filter_map, List.map_map]
        have : es.filter ((fun e => decide (e.1 = k)) ∘ fun e => (g e.1, e.2)) = es.filter fun e => decide (e.1 = f k) := by
          refine List.filter_congr fun x hx => ?_
          simp only [Function.comp_apply, decide_eq_decide]
          constructor
          · intro h; rw [← h, (h2 _ (e2 x hx)).2]
          · intro h; rw [h, (h1 k hk).2]
        rw [this]; rfl
      rwa [e]
    · rw [List.pairwise_map]
      exact e4

/-- a partial order with one child -/
theorem poG_single [DecidableEq ι] (a : ι) (L : ι → Lang α) (R : ι → ι → Prop) (hR : ¬ R a a) (w : List α) :
    poG (· = a) L R w ↔ L a w := by
  constructor
  · rintro ⟨es, rfl, h2, h3, _⟩
    have := h3 a rfl
    unfold projG at this
    rwa [List.filter_eq_self.2 (by simpa using h2)] at this
  · intro h
    refine ⟨w.map fun x => (a, x), by simp [Function.comp_def], by simp, ?_, ?_⟩
    · rintro k rfl
      unfold projG
      rw [List.filter_eq_self.2 (by simp), List.map_map]
      simpa [Function.comp_def] using h
    · rw [List.pairwise_map]
      exact List.pairwise_iff_getElem.2 fun _ _ _ _ _ => hR

/-! ### nesting -/

/-- tags of both levels: every event gets the tag that its own sequence has for it -/
theorem refine_tags [DecidableEq ι] (es : List (ι × α)) : ∀ (f : ι → List (κ × α)), (∀ e ∈ es, True) → (∀ i, (f i).map Prod.snd = projG i es) →
    ∃ fs : List ((ι × κ) × α), fs.map (fun e => (e.1.1, e.2)) = es ∧
      ∀ i, (fs.filter fun e => decide (e.1.1 = i)).map (fun e => (e.1.2, e.2)) = f i := by
  induction es with
  | nil =>
    intro f _ h
    refine ⟨[], rfl, fun i => ?_⟩
    have := h i
    simp [projG] at this
    simp [this]
  | cons e es ih =>
    intro f _ h
    have he := h e.1
    simp only [projG, List.filter_cons, decide_true, if_true, List.map_cons] at he
    obtain ⟨x, l, hx, h1, h2⟩ := List.map_eq_cons_iff.1 he
    obtain ⟨fs, g1, g2⟩ := ih (fun i => if i = e.1 then l else f i) (by simp) (by
      intro i
      by_cases hi : i = e.1
      · simp only [hi, if_true]; exact h2
      · simp only [hi, if_false]
        have := h i
        simpa [projG, List.filter_cons, Ne.symm hi] using this)
    refine ⟨((e.1, x.1), x.2) :: fs, ?_, fun i => ?_⟩
    · simp [g1, h1]
    · by_cases hi : i = e.1
      · have := g2 e.1
        simp only [if_true] at this
        subst hi
        simp [this, hx]
      · have := g2 i
        simp only [hi, if_false] at this
        simp [Ne.symm hi, this]

theorem pairwise_of_filters [DecidableEq ι] {β : Type} (t : β → ι) {Q : β → β → Prop} (l : List β)
    (h : ∀ i, (l.filter fun e => decide (t e = i)).Pairwise Q) : l.Pairwise fun a b => t a = t b → Q a b := by
  induction l with
  | nil => exact .nil
  | cons x l ih =>
    refine .cons ?_ (ih fun i => ?_)
    · intro y hy e
      have := h (t x)
      rw [List.filter_cons_of_pos (by simp)] at this
      exact (List.pairwise_cons.1 this).1 y (List.mem_filter.2 ⟨hy, by simp [e]⟩)
    · have := h i
      by_cases hi : t x = i
      · rw [List.filter_cons_of_pos (by simpa using hi)] at this
        exact (List.pairwise_cons.1 this).2
      · rwa [List.filter_cons_of_neg (by simpa using hi)] at this

/-- order of a nested partial order -/
def Lex (R : ι → ι → Prop) (S : ι → κ → κ → Prop) (p q : ι × κ) : Prop := (p.1 ≠ q.1 ∧ R p.1 q.1) ∨ (p.1 = q.1 ∧ S p.1 p.2 q.2)

theorem poG_nested [DecidableEq ι] [DecidableEq κ] (I : ι → Prop) (J : ι → κ → Prop) (L : ι × κ → Lang α) (R : ι → ι → Prop) (S : ι → κ → κ → Prop)
    (hR : ∀ i, ¬ R i i) (w : List α) :
    poG I (fun i => poG (J i) (fun a => L (i, a)) (S i)) R w ↔ poG (fun k => I k.1 ∧ J k.1 k.2) L (Lex R S) w := by
  classical
  constructor
  · rintro ⟨es, e1, e2, e3, e4⟩
    -- the inner sequences
    have : ∀ i, ∃ f : List (κ × α), f.map Prod.snd = projG i es ∧ (I i → (∀ e ∈ f, J i e.1) ∧ (∀ a, J i a → L (i, a) (projG a f)) ∧
        f.Pairwise fun e f => ¬ S i f.1 e.1) := by
      intro i
      by_cases hi : I i
      · obtain ⟨f, f1, f2, f3, f4⟩ := e3 i hi
        exact ⟨f, f1, fun _ => ⟨f2, f3, f4⟩⟩
      · refine ⟨[], ?_, fun h => absurd h hi⟩
        unfold projG
        rw [List.filter_eq_nil_iff.2]; rfl
        intro e he h
        simp at h
        exact hi (h ▸ e2 e he)
    obtain ⟨f, hf⟩ := Classical.axiomOfChoice this
    obtain ⟨fs, g1, g2⟩ := refine_tags es f (by simp) fun i => (hf i).1
    have mem : ∀ e ∈ fs, I e.1.1 ∧ J e.1.1 e.1.2 := by
      intro e he
      have hi : I e.1.1 := e2 (e.1.1, e.2) (by rw [← g1]; exact List.mem_map.2 ⟨e, he, rfl⟩)
      refine ⟨hi, ((hf e.1.1).2 hi).1 (e.1.2, e.2) ?_⟩
      rw [← g2 e.1.1]
      exact List.mem_map.2 ⟨e, List.mem_filter.2 ⟨he, by simp⟩, rfl⟩
    refine ⟨fs, ?_, mem, ?_, ?_⟩
    · rw [← e1, ← g1, List.map_map]; rfl
    · rintro ⟨i, a⟩ ⟨hi, ha⟩
      have := ((hf i).2 hi).2.1 a ha
      rw [← g2 i] at this
      unfold projG at this ⊢
      rw [List.filter_map, List.filter_filter, List.map_map] at this
      have e : fs.filter (fun e => decide (e.1 = (i, a))) =
          fs.filter fun x => ((fun e : κ × α => decide (e.1 = a)) ∘ fun e : (ι × κ) × α => (e.1.2, e.2)) x && decide (x.1.1 = i) := by
        refine List.filter_congr fun x _ => ?_
        obtain ⟨⟨p, q⟩, y⟩ := x
        simp [Bool.and_comm]
      rw [e]; exact this
    · have p1 : fs.Pairwise fun e f => ¬ R f.1.1 e.1.1 := by
        rw [← g1, List.pairwise_map] at e4; exact e4
      have p2 : fs.Pairwise fun e f => e.1.1 = f.1.1 → ¬ S e.1.1 f.1.2 e.1.2 := by
        refine pairwise_of_filters (fun e => e.1.1) fs fun i => ?_
        by_cases hi : I i
        · have := ((hf i).2 hi).2.2
          rw [← g2 i, List.pairwise_map] at this
          refine this.imp_of_mem ?_
          intro a b ha hb h
          have := (List.mem_filter.1 ha).2
          simp at this
          rw [this]; exact h
        · rw [List.filter_eq_nil_iff.2]
          · exact .nil
          · intro e he h
            simp at h
            exact hi (h ▸ (mem e he).1)
      refine (p1.and p2).imp ?_
      rintro e f ⟨h1, h2⟩ (⟨_, h⟩ | ⟨h, h'⟩)
      · exact h1 h
      · refine h2 h.symm ?_
        rw [← h]; exact h'
  · rintro ⟨fs, e1, e2, e3, e4⟩
    refine ⟨fs.map fun e => (e.1.1, e.2), by rw [List.map_map]; exact e1, ?_, ?_, ?_⟩
    · intro e he
      obtain ⟨x, hx, rfl⟩ := List.mem_map.1 he
      exact (e2 x hx).1
    · intro i hi
      refine ⟨(fs.filter fun e => decide (e.1.1 = i)).map fun e => (e.1.2, e.2), ?_, ?_, ?_, ?_⟩
      · unfold projG
        rw [List.filter_map, List.map_map, List.map_map]; rfl
      · intro e he
        obtain ⟨x, hx, rfl⟩ := List.mem_map.1 he
        obtain ⟨hx, h⟩ := List.mem_filter.1 hx
        simp at h
        exact h ▸ (e2 x hx).2
      · intro a ha
        have := e3 (i, a) ⟨hi, ha⟩
        unfold projG at this ⊢
        rw [List.filter_map, List.filter_filter, List.map_map]
        have e : fs.filter (fun e => decide (e.1 = (i, a))) =
            fs.filter fun x => ((fun e : κ × α => decide (e.1 = a)) ∘ fun e : (ι × κ) × α => (e.1.2, e.2)) x && decide (x.1.1 = i) := by
          refine List.filter_congr fun x _ => ?_
          obtain ⟨⟨p, q⟩, y⟩ := x
          simp [Bool.and_comm]
        rw [e] at this; exact this
      · rw [List.pairwise_map]
        refine (e4.filter _).imp_of_mem ?_
        intro a b ha hb h hs
        have h1 := (List.mem_filter.1 ha).2; have h2 := (List.mem_filter.1 hb).2
        simp at h1 h2
        exact h (.inr ⟨by rw [h1, h2], by rw [h2]; exact hs⟩)
    · rw [List.pairwise_map]
      refine e4.imp ?_
      intro a b h hr
      refine h (.inl ⟨?_, hr⟩)
      intro e; simp only at hr; rw [e] at hr; exact hR _ hr

end Lang
end Verif
