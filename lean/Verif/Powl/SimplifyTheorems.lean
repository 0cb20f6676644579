import Verif.Powl.Simplify
import Verif.Powl.NetTheorems
import Mathlib.Data.List.Forall2
/-
Property theorems C49: `POWL.simplify`.
-/
set_option linter.unusedSectionVars false
namespace Verif
namespace Powl
open BinRel
variable {α : Type}

/-! ### sizes and labels -/

theorem sizeL_eq (l : List (Powl α)) : sizeL l = (l.map size).sum := by
  induction l with
  | nil => simp [sizeL]
  | cons x l ih => simp [sizeL, ih]

theorem labelsL_eq (l : List (Powl α)) : labelsL l = l.flatMap labels := by
  induction l with
  | nil => simp [labelsL]
  | cons x l ih => simp [labelsL, ih]

theorem size_pos (t : Powl α) : 0 < size t := by
  cases t <;> simp [size] <;> omega

theorem size_lt_of_mem {l : List (Powl α)} {x : Powl α} (h : x ∈ l) : size x ≤ sizeL l := by
  induction l with
  | nil => simp at h
  | cons y l ih =>
    rw [sizeL]
    rcases List.mem_cons.1 h with rfl | h
    · omega
    · have := ih h; omega

/-- what child `i` contributes to the merged order -/
def parts (E : Edges) (ss : List (Powl α)) (i : Nat) : List (Powl α) := (keysOf E ss i).map (nodeAt E ss)

theorem parts_eq (E : Edges) (ss : List (Powl α)) (i : Nat) (hi : i < ss.length) :
    parts E ss i = [ss[i]] ∨ ∃ d F, ss[i] = .po d F ∧ parts E ss i = d := by
  unfold parts keysOf
  cases hs : subNodes E ss i with
  | none => left; simp [nodeAt, List.getElem?_eq_getElem hi]
  | some d =>
    right
    have := (subNodes_eq hs).1
    rw [List.getElem?_eq_getElem hi] at this
    refine ⟨d.1, d.2, Option.some.inj this, ?_⟩
    rw [List.map_map]
    refine List.ext_getElem (by simp) ?_
    intro a h1 h2
    simp [nodeAt, hs, h2]

theorem merged_perm (E : Edges) (ss : List (Powl α)) : ((keyList E ss).map (nodeAt E ss)).Perm ((List.range ss.length).flatMap (parts E ss)) := by
  have := (keyList_perm E ss).map (nodeAt E ss)
  rw [List.map_flatMap] at this
  exact this

theorem range_flatMap_get {β γ : Type} (f : β → List γ) : ∀ (l : List β) (g : Nat → List γ), (∀ i (h : i < l.length), (g i).Perm (f l[i])) →
    ((List.range l.length).flatMap g).Perm (l.flatMap f) := by
  intro l
  induction l with
  | nil => intro g _; simp
  | cons x l ih =>
    intro g h
    rw [List.length_cons, List.range_succ_eq_map, List.flatMap_cons, List.flatMap_cons, List.flatMap_map]
    refine List.Perm.append (h 0 (by simp)) (ih (g ∘ Nat.succ) ?_)
    intro i hi
    exact h (i + 1) (by simpa using hi)

theorem range_sum_le {β : Type} (f : β → Nat) : ∀ (l : List β) (g : Nat → Nat), (∀ i (h : i < l.length), g i ≤ f l[i]) →
    ((List.range l.length).map g).sum ≤ (l.map f).sum := by
  intro l
  induction l with
  | nil => intro g _; simp
  | cons x l ih =>
    intro g h
    rw [List.length_cons, List.range_succ_eq_map, List.map_cons, List.map_cons, List.map_map, List.sum_cons, List.sum_cons]
    refine Nat.add_le_add (h 0 (by simp)) (ih (g ∘ Nat.succ) ?_)
    intro i hi
    exact h (i + 1) (by simpa using hi)

theorem sum_flatMap (l : List Nat) (g : Nat → List (Powl α)) : ((l.flatMap g).map size).sum = (l.map fun i => sizeL (g i)).sum := by
  induction l with
  | nil => rfl
  | cons x l ih => rw [List.flatMap_cons, List.map_append, List.sum_append, ih, List.map_cons, List.sum_cons, sizeL_eq]

theorem mergePo_size (E : Edges) (ss : List (Powl α)) : size (mergePo E ss) ≤ size (.po ss E) := by
  unfold mergePo
  simp only [size]
  rw [sizeL_eq, ((merged_perm E ss).map size).sum_nat, sum_flatMap, sizeL_eq]
  refine Nat.add_le_add_left (range_sum_le size ss _ ?_) 1
  intro i hi
  rcases parts_eq E ss i hi with h | ⟨d, F, h1, h2⟩
  · rw [h]; simp [sizeL]
  · rw [h2, h1, size]; omega

theorem mergePo_labels (E : Edges) (ss : List (Powl α)) : (mergePo E ss).labels.Perm (labels (.po ss E)) := by
  unfold mergePo
  simp only [labels]
  rw [labelsL_eq, labelsL_eq]
  refine ((merged_perm E ss).flatMap_right _).trans ?_
  rw [List.flatMap_assoc]
  refine range_flatMap_get labels ss _ ?_
  intro i hi
  rcases parts_eq E ss i hi with h | ⟨d, F, h1, h2⟩
  · rw [h]; simp
  · rw [h2, h1, labels, labelsL_eq]

theorem mergePo_valid {E : Edges} {ss : List (Powl α)} (h0 : ss ≠ []) (hE : ∀ i, ¬ Before ss.length E i i) (hV : ∀ s ∈ ss, s.Valid) :
    (mergePo E ss).Valid := by
  have hI := innerOk_of_valid (E := E) hV
  have mem : ∀ c, c ∈ (keyList E ss).map (nodeAt E ss) ↔ ∃ i, ∃ h : i < ss.length, c ∈ parts E ss i := by
    intro c
    rw [(merged_perm E ss).mem_iff, List.mem_flatMap]
    constructor
    · rintro ⟨i, hi, h⟩; exact ⟨i, by simpa using hi, h⟩
    · rintro ⟨i, hi, h⟩; exact ⟨i, by simpa using hi, h⟩
  refine .po _ _ ?_ ?_ ?_
  · have hl : 0 < ss.length := by cases ss with | nil => exact absurd rfl h0 | cons => simp
    have : parts E ss 0 ≠ [] := by
      rcases parts_eq E ss 0 hl with h | ⟨d, F, h1, h2⟩
      · rw [h]; simp
      · rw [h2]
        have := hV _ (List.getElem_mem hl)
        rw [h1] at this
        cases this; assumption
    obtain ⟨c, hc⟩ := List.exists_mem_of_ne_nil _ this
    exact List.ne_nil_of_mem ((mem c).2 ⟨0, hl, hc⟩)
  · rw [List.length_map]; exact mergePo_acyclic hI hE
  · intro c hc
    obtain ⟨i, hi, hc⟩ := (mem c).1 hc
    have hv := hV _ (List.getElem_mem hi)
    rcases parts_eq E ss i hi with h | ⟨d, F, h1, h2⟩
    · rw [h] at hc; simp at hc; rw [hc]; exact hv
    · rw [h2] at hc
      rw [h1] at hv
      cases hv with
      | po _ _ _ _ h => exact h c hc

/-! ### choices and loops -/

theorem mergeWith_spec {c d b r : Powl α} (h : mergeWith c d = some (b, r)) :
    (∀ w, (Powl.loop b r).lang w ↔ c.lang w ∨ d.lang w) ∧ (c.Valid → d.Valid → b.Valid ∧ r.Valid) ∧
    size b + size r < size d ∧ (labels b ++ labels r).Perm (labels c ++ labels d) := by
  unfold mergeWith at h
  split at h
  · cases h
    refine ⟨?_, ?_, ?_, ?_⟩
    · intro w
      simp only [lang]
      constructor
      · exact .inr
      · rintro (h | h)
        · cases h; exact .exit rfl
        · exact h
    · intro _ hd; cases hd; exact ⟨by assumption, by assumption⟩
    · simp [size]
    · simp [labels]
  · cases h
    refine ⟨?_, ?_, ?_, ?_⟩
    · intro w
      simp only [lang]
      constructor
      · intro h
        induction h with
        | exit h => exact .inl h
        | @again d' r' w' L hd hL hr _ ih =>
          cases hd
          simp only [List.mem_singleton] at hL
          subst hL
          right
          rcases ih with h | h
          · cases h; simp only [List.nil_append, List.append_nil]; exact .exit hr
          · simpa using Lang.loopL.again (d := r') (r := []) (w := w') Lang.eps hr (by simp) rfl h
      · rintro (h | h)
        · cases h; exact .exit rfl
        · induction h with
          | @exit w h =>
            have := Lang.loopL.again (D := Lang.eps) (Rs := [lang r]) (d := []) (r := w) (w := []) (lang r) rfl (by simp) h (.exit rfl)
            simpa using this
          | @again d' r' w' L hd hL hr _ ih =>
            simp only [List.mem_singleton] at hL
            subst hL
            cases hr
            simpa using Lang.loopL.again (D := Lang.eps) (Rs := [lang r]) (d := []) (r := d') (w := w') (lang r) rfl (by simp) hd ih
    · intro hc hd; cases hd; exact ⟨by assumption, by assumption⟩
    · simp [size]
    · simp [labels]
  · cases h

theorem mergeLoop_spec {cs : List (Powl α)} {b r : Powl α} (h : mergeLoop cs = some (b, r)) :
    (∀ w, (Powl.loop b r).lang w ↔ (Powl.xor cs).lang w) ∧ ((∀ c ∈ cs, c.Valid) → b.Valid ∧ r.Valid) ∧
    1 + (size b + size r) ≤ sizeL cs ∧ (labels b ++ labels r).Perm (labelsL cs) := by
  unfold mergeLoop at h
  split at h
  · rename_i c d
    have hx : ∀ w, (Powl.xor [c, d]).lang w ↔ c.lang w ∨ d.lang w := by
      intro w; simp [lang, langs, Lang.xorL]
    rcases Option.or_eq_some_iff.1 h with h | ⟨_, h⟩
    · obtain ⟨h1, h2, h3, h4⟩ := mergeWith_spec h
      refine ⟨fun w => (h1 w).trans (hx w).symm, fun hv => h2 (hv c (by simp)) (hv d (by simp)), ?_, ?_⟩
      · simp [sizeL]; omega
      · simpa [labelsL] using h4
    · obtain ⟨h1, h2, h3, h4⟩ := mergeWith_spec h
      refine ⟨fun w => (h1 w).trans (Or.comm.trans (hx w).symm), fun hv => h2 (hv d (by simp)) (hv c (by simp)), ?_, ?_⟩
      · simp [sizeL]; omega
      · simp only [labelsL, List.append_nil]; exact h4.trans List.perm_append_comm
  · cases h

theorem loopL_mono {D D' R R' : Lang α} (hD : ∀ w, D w → D' w) (hR : ∀ w, R w → R' w) {w : List α} (h : Lang.loopL D [R] w) :
    Lang.loopL D' [R'] w := by
  induction h with
  | exit h => exact .exit (hD _ h)
  | again L hd hL hr _ ih =>
    simp only [List.mem_singleton] at hL
    subst hL
    exact .again R' (hD _ hd) (by simp) (hR _ hr) ih

theorem mapM_forall2 {β γ : Type} {f : β → Option γ} {P : β → γ → Prop} : ∀ {l : List β}, (∀ x ∈ l, ∃ y, f x = some y ∧ P x y) →
    ∃ ys, l.mapM f = some ys ∧ List.Forall₂ P l ys := by
  intro l
  induction l with
  | nil => intro _; exact ⟨[], rfl, .nil⟩
  | cons x l ih =>
    intro h
    obtain ⟨y, h1, h2⟩ := h x (by simp)
    obtain ⟨ys, h3, h4⟩ := ih fun z hz => h z (by simp [hz])
    exact ⟨y :: ys, by simp [List.mapM_cons, h1, h3], .cons h2 h4⟩

/-- what `simplify` guarantees -/
structure Simp (t s : Powl α) : Prop where
  valid : s.Valid
  size : size s ≤ size t
  labels : s.labels.Perm t.labels
  lang : ∀ w, s.lang w ↔ t.lang w

theorem simp_list {l l' : List (Powl α)} (h : List.Forall₂ Simp l l') : sizeL l' ≤ sizeL l ∧ (labelsL l').Perm (labelsL l) ∧
    (∀ s ∈ l', s.Valid) ∧ l'.length = l.length := by
  induction h with
  | nil => simp
  | cons h1 _ ih =>
    obtain ⟨i1, i2, i3, i4⟩ := ih
    refine ⟨?_, ?_, ?_, by simp [i4]⟩
    · have := h1.size; simp only [sizeL]; omega
    · simp only [labelsL]; exact h1.labels.append i2
    · intro s hs
      rcases List.mem_cons.1 hs with rfl | hs
      · exact h1.valid
      · exact i3 s hs

theorem po_lang_congr {l l' : List (Powl α)} (h : List.Forall₂ Simp l l') (E : Edges) (w : List α) :
    (Powl.po l' E).lang w ↔ (Powl.po l E).lang w := by
  have hl := h.length_eq
  simp only [lang, Lang.poL, langs_eq_map, List.length_map, hl]
  refine exists_congr fun es => and_congr_right fun _ => and_congr_right fun _ => and_congr ?_ Iff.rfl
  have get : ∀ k (h1 : k < l.length) (h2 : k < l'.length), Simp l[k] l'[k] := fun k h1 h2 => List.Forall₂.get h h1 h2
  constructor
  · intro hh k L hL
    rw [List.getElem?_map] at hL
    obtain ⟨c, hc, rfl⟩ := Option.map_eq_some_iff.1 hL
    obtain ⟨hk, rfl⟩ := List.getElem?_eq_some_iff.1 hc
    have hk' : k < l'.length := hl ▸ hk
    exact ((get k hk hk').lang _).1 (hh k _ (by rw [List.getElem?_map, List.getElem?_eq_getElem hk']; rfl))
  · intro hh k L hL
    rw [List.getElem?_map] at hL
    obtain ⟨c, hc, rfl⟩ := Option.map_eq_some_iff.1 hL
    obtain ⟨hk', rfl⟩ := List.getElem?_eq_some_iff.1 hc
    have hk : k < l.length := hl.symm ▸ hk'
    exact ((get k hk hk').lang _).2 (hh k _ (by rw [List.getElem?_map, List.getElem?_eq_getElem hk]; rfl))

/-- what one child of a choice becomes -/
structure SimpX (c : Powl α) (ds : List (Powl α)) : Prop where
  ne : ds ≠ []
  valid : ∀ d ∈ ds, d.Valid
  size : sizeL ds ≤ Powl.size c
  labels : (labelsL ds).Perm c.labels
  lang : ∀ w, (∃ d ∈ ds, d.lang w) ↔ c.lang w

theorem simpX_list {l : List (Powl α)} {l' : List (List (Powl α))} (h : List.Forall₂ SimpX l l') : sizeL l'.flatten ≤ sizeL l ∧
    (labelsL l'.flatten).Perm (labelsL l) ∧ (∀ s ∈ l'.flatten, s.Valid) ∧ l.length ≤ l'.flatten.length ∧
    ∀ w, (∃ d ∈ l'.flatten, d.lang w) ↔ ∃ d ∈ l, d.lang w := by
  induction h with
  | nil => simp
  | @cons c ds l l' h1 _ ih =>
    obtain ⟨i1, i2, i3, i4, i5⟩ := ih
    rw [List.flatten_cons]
    refine ⟨?_, ?_, ?_, ?_, ?_⟩
    · have := h1.size
      rw [sizeL_eq, List.map_append, List.sum_append, ← sizeL_eq, ← sizeL_eq]
      simp only [sizeL]; omega
    · rw [labelsL_eq, List.flatMap_append, ← labelsL_eq, ← labelsL_eq]
      simp only [labelsL]; exact h1.labels.append i2
    · intro s hs
      rcases List.mem_append.1 hs with hs | hs
      · exact h1.valid s hs
      · exact i3 s hs
    · have : 0 < ds.length := by
        have := h1.ne
        cases ds with | nil => exact absurd rfl this | cons => simp
      simp only [List.length_cons, List.length_append]; omega
    · intro w
      constructor
      · rintro ⟨d, hd, h⟩
        rcases List.mem_append.1 hd with hd | hd
        · exact ⟨c, by simp, (h1.lang w).1 ⟨d, hd, h⟩⟩
        · obtain ⟨e, he, h⟩ := (i5 w).1 ⟨d, hd, h⟩
          exact ⟨e, by simp [he], h⟩
      · rintro ⟨e, he, h⟩
        rcases List.mem_cons.1 he with rfl | he
        · obtain ⟨d, hd, h⟩ := (h1.lang w).2 h
          exact ⟨d, by simp [hd], h⟩
        · obtain ⟨d, hd, h⟩ := (i5 w).2 ⟨e, he, h⟩
          exact ⟨d, by simp [hd], h⟩

theorem xor_lang (cs : List (Powl α)) (w : List α) : (Powl.xor cs).lang w ↔ ∃ c ∈ cs, c.lang w := by
  simp only [lang, Lang.xorL, langs_eq_map, List.mem_map]
  constructor
  · rintro ⟨_, ⟨c, hc, rfl⟩, h⟩; exact ⟨c, hc, h⟩
  · rintro ⟨c, hc, h⟩; exact ⟨_, ⟨c, hc, rfl⟩, h⟩

theorem simplify_spec : ∀ (n : Nat) (t : Powl α), size t ≤ n → t.Valid → ∃ s, simplify n t = some s ∧ Simp t s := by
  intro n
  induction n with
  | zero => intro t h; have := size_pos t; omega
  | succ n ih =>
    intro t hn hV
    cases t with
    | leaf l => exact ⟨.leaf l, rfl, hV, Nat.le_refl _, .refl _, fun _ => .rfl⟩
    | loop b r =>
      simp only [size] at hn
      cases hV with
      | loop _ _ hb hr =>
      obtain ⟨b', hb1, hb2⟩ := ih b (by omega) hb
      obtain ⟨r', hr1, hr2⟩ := ih r (by omega) hr
      refine ⟨.loop b' r', by simp [simplify, hb1, hr1], .loop _ _ hb2.valid hr2.valid, ?_, ?_, ?_⟩
      · have := hb2.size; have := hr2.size; simp only [size]; omega
      · simp only [labels]; exact hb2.labels.append hr2.labels
      · intro w
        simp only [lang]
        exact ⟨loopL_mono (fun w => (hb2.lang w).1) (fun w => (hr2.lang w).1), loopL_mono (fun w => (hb2.lang w).2) (fun w => (hr2.lang w).2)⟩
    | po cs E =>
      simp only [size] at hn
      cases hV with
      | po _ _ h0 hE hc =>
      obtain ⟨ss, h1, h2⟩ := mapM_forall2 (f := simplify n) (P := Simp) (l := cs) fun c hm => ih c (by have := size_lt_of_mem hm; omega) (hc c hm)
      obtain ⟨s1, s2, s3, s4⟩ := simp_list h2
      have hE' : ∀ i, ¬ Before ss.length E i i := by rw [s4]; exact hE
      refine ⟨mergePo E ss, by simp [simplify, h1], mergePo_valid ?_ hE' s3, ?_, ?_, ?_⟩
      · rintro rfl; exact h0 (List.length_eq_zero_iff.1 s4.symm)
      · refine Nat.le_trans (mergePo_size E ss) ?_
        simp only [size]; omega
      · exact (mergePo_labels E ss).trans (by simpa only [labels] using s2)
      · intro w
        rw [mergePo_lang (innerOk_of_valid s3) hE', po_lang_congr h2]
    | xor cs =>
      simp only [size] at hn
      cases hV with
      | xor _ h0 hc =>
      rw [simplify]
      cases hm : mergeLoop cs with
      | some br =>
        obtain ⟨b, r⟩ := br
        obtain ⟨m1, m2, m3, m4⟩ := mergeLoop_spec hm
        obtain ⟨hb, hr⟩ := m2 hc
        obtain ⟨b', hb1, hb2⟩ := ih b (by omega) hb
        obtain ⟨r', hr1, hr2⟩ := ih r (by omega) hr
        refine ⟨.loop b' r', by simp [hb1, hr1], .loop _ _ hb2.valid hr2.valid, ?_, ?_, ?_⟩
        · have := hb2.size; have := hr2.size; simp only [size]; omega
        · simp only [labels]; exact (hb2.labels.append hr2.labels).trans m4
        · intro w
          rw [← m1]
          simp only [lang]
          exact ⟨loopL_mono (fun w => (hb2.lang w).1) (fun w => (hr2.lang w).1), loopL_mono (fun w => (hb2.lang w).2) (fun w => (hr2.lang w).2)⟩
      | none =>
        obtain ⟨css, h1, h2⟩ := mapM_forall2 (P := SimpX) (l := cs) (f := fun c => (simplify n c).bind (expandXor (simplify n))) (by
          intro c hm
          obtain ⟨s, s1, s2⟩ := ih c (by have := size_lt_of_mem hm; omega) (hc c hm)
          have plain : SimpX c [s] := by
            refine ⟨by simp, ?_, ?_, ?_, ?_⟩
            · intro d hd; simp at hd; rw [hd]; exact s2.valid
            · have := s2.size; simp only [sizeL]; omega
            · simpa [labelsL] using s2.labels
            · intro w; simpa using s2.lang w
          cases s with
          | leaf l => exact ⟨_, by simp [s1, expandXor], plain⟩
          | loop b r => exact ⟨_, by simp [s1, expandXor], plain⟩
          | po ds F => exact ⟨_, by simp [s1, expandXor], plain⟩
          | xor ds =>
            have hv := s2.valid
            have hs := s2.size
            simp only [size] at hs
            have hcs := size_lt_of_mem hm
            cases hv with
            | xor _ hd0 hdv =>
            obtain ⟨es, e1, e2⟩ := mapM_forall2 (f := simplify n) (P := Simp) (l := ds) fun d hd => ih d (by have := size_lt_of_mem hd; omega) (hdv d hd)
            obtain ⟨t1, t2, t3, t4⟩ := simp_list e2
            refine ⟨es, by simp [s1, e1, expandXor], ?_, t3, by omega, ?_, ?_⟩
            · rintro rfl; simp at t4; omega
            · refine t2.trans ?_
              have := s2.labels
              simpa only [labels] using this
            · intro w
              rw [← s2.lang w, xor_lang]
              clear plain s1 s2 hs hd0 hdv e1 t1 t2 t3 t4
              induction e2 with
              | nil => simp
              | cons h _ ih2 => simp [h.lang w, ih2])
        obtain ⟨t1, t2, t3, t4, t5⟩ := simpX_list h2
        refine ⟨.xor css.flatten, ?_, .xor _ (by omega) t3, ?_, ?_, ?_⟩
        · simp only [h1, Option.map_some]
        · simp only [size]; omega
        · simpa only [labels] using t2
        · intro w; rw [xor_lang, xor_lang]; exact t5 w

end Powl

open Conv Powl
variable {α : Type}

/-- C49: `simplify` terminates on every model (recursion depth at most the number of nodes), and the simplified model has the same
traces, is again a model whose partial orders are acyclic, has the same visible leaves and is not larger. -/
theorem C49_simplify (t : Powl α) (ht : t.Valid) (fuel : Nat) (hf : t.size ≤ fuel) :
    ∃ s, Powl.simplify fuel t = some s ∧ (∀ w, s.lang w ↔ t.lang w) ∧ s.Valid ∧ s.labels.Perm t.labels ∧ s.size ≤ t.size := by
  obtain ⟨s, h1, h2⟩ := Powl.simplify_spec fuel t hf ht
  exact ⟨s, h1, h2.lang, h2.valid, h2.labels, h2.size⟩

/-- C49: for whatever depth `simplify` returns a model, it is one with the same traces. -/
theorem C49_language (t s : Powl α) (ht : t.Valid) (fuel : Nat) (hf : t.size ≤ fuel) (h : Powl.simplify fuel t = some s) (w : List α) :
    s.lang w ↔ t.lang w := by
  obtain ⟨s', h1, h2⟩ := Powl.simplify_spec fuel t hf ht
  rw [h] at h1; cases h1
  exact h2.lang w

/-- C49: the nets of a model and of the simplified model accept the same traces, and both are sound (`C48_sound`). -/
theorem C49_nets {ord : Gr α → List (Nat × Option α)} (hord : IterOrder ord) (ordP : List Nat → List Nat) (t s : Powl α) (ht : t.Valid)
    (fuel : Nat) (hf : t.size ≤ fuel) (h : Powl.simplify fuel t = some s) (w : List α) :
    Accepts (PowlNet.apply ord ordP s) initialMarking finalMarking w ↔ Accepts (PowlNet.apply ord ordP t) initialMarking finalMarking w := by
  obtain ⟨s', h1, h2⟩ := Powl.simplify_spec fuel t hf ht
  rw [h] at h1; cases h1
  rw [C48_language hord ordP s h2.valid, C48_language hord ordP t ht, h2.lang]

/-! ### concrete cases -/

/-- `PO=(nodes={ a, PO=(nodes={ b, X( tau, *( c, tau ) ), d }, order={ b-->X, X-->d, b-->d }), X( e, X( f, tau ) ) }, order={ a-->PO, a-->X, PO-->X })` -/
def exNested : Powl String :=
  .po [.leaf (some "a"),
    .po [.leaf (some "b"), .xor [.leaf none, .loop (.leaf (some "c")) (.leaf none)], .leaf (some "d")]
      (fun i j => (i == 0 && j == 1) || (i == 1 && j == 2) || (i == 0 && j == 2)),
    .xor [.leaf (some "e"), .xor [.leaf (some "f"), .leaf none]]]
    fun i j => (i == 0 && j == 1) || (i == 0 && j == 2) || (i == 1 && j == 2)

theorem exNested_valid : exNested.Valid := Powl.valid_of_validates _ (by decide) (by decide)

/-- its simplification: one partial order with five children, the loop turned into `*( tau, c )`, the choices merged -/
example : (Powl.simplify 20 exNested).map (fun s => match s with
    | .po [.leaf (some "a"), .xor [.leaf (some "e"), .leaf (some "f"), .leaf none], .leaf (some "b"), .loop (.leaf none) (.leaf (some "c")), .leaf (some "d")] F =>
      (BinRel.triples 5).all fun t => F t.1 t.2.1 == [(0, 2), (0, 1), (4, 1), (2, 3), (3, 4), (2, 4)].contains (t.1, t.2.1)
    | _ => false) = some true := by decide

example : ∃ s, Powl.simplify 20 exNested = some s ∧ (∀ w, s.lang w ↔ exNested.lang w) ∧ s.Valid ∧ s.labels.Perm exNested.labels ∧ s.size ≤ exNested.size :=
  C49_simplify exNested exNested_valid 20 (by decide)

/-! ### `simplify_using_frequent_transitions` -/

namespace Powl

/-- `FrequentTransition(label, min_freq, max_freq)` (obj.py:113-126) with `max_freq` 1 or `"-"`: one of `skippable`, `selfloop` holds, so the
label gets a suffix; `str(None)` is `"None"` -/
def frequentLeaf (l : Option String) (max : String) : Powl String := .leaf (some (l.getD "None" ++ "\n[1," ++ max ++ "]"))

mutual
/-- `simplify_using_frequent_transitions` (obj.py:32-33, 224-232, 344-361); simplification: as in `mergeWith` -/
def frequent : Powl String → Powl String
  | .leaf l => .leaf l
  | .xor [.leaf l, .leaf none] => frequentLeaf l "1"
  | .xor [.leaf none, .leaf l] => frequentLeaf l "1"
  | .xor cs => .xor (frequentL cs)
  | .loop (.leaf l) (.leaf none) => frequentLeaf l "-"
  | .loop (.leaf none) (.leaf l) => frequentLeaf l "-"
  | .loop b r => .loop (frequent b) (frequent r)
  | .po cs E => .po (frequentL cs) E
def frequentL : List (Powl String) → List (Powl String)
  | [] => []
  | c :: cs => frequent c :: frequentL cs
end

end Powl

/-- C49 does not hold of `simplify_using_frequent_transitions`: for `X( a, tau )` the result is one mandatory transition with another
label, so the empty trace and the trace `⟨a⟩` are lost, and a trace that the model does not have is added. -/
theorem C49_frequent_refuted : ∃ t : Powl String, t.Valid ∧ t.lang [] ∧ t.lang ["a"] ∧ ¬ (Powl.frequent t).lang [] ∧
    ¬ (Powl.frequent t).lang ["a"] ∧ (Powl.frequent t).lang ["a\n[1,1]"] := by
  refine ⟨.xor [.leaf (some "a"), .leaf none], Powl.valid_of_validates _ (by decide) (by decide), ?_, ?_, ?_, ?_, ?_⟩
  · rw [Powl.xor_lang]; exact ⟨.leaf none, by simp, by simp [Powl.lang, Lang.eps]⟩
  · rw [Powl.xor_lang]; exact ⟨.leaf (some "a"), by simp, by simp [Powl.lang]⟩
  · simp [Powl.frequent, Powl.frequentLeaf, Powl.lang]
  · simp [Powl.frequent, Powl.frequentLeaf, Powl.lang]
  · simp [Powl.frequent, Powl.frequentLeaf, Powl.lang]

end Verif
