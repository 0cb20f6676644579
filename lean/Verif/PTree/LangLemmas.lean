import Verif.PTree.Lang
/-
Algebra of the language operators (helper lemmas, no pm4py code).
-/
namespace Verif.Lang
variable {α : Type}

theorem ext {L M : Lang α} (h : ∀ w, L w ↔ M w) : L = M := funext fun w => propext (h w)

/-! ### Shuffle -/

theorem Shuffle.symm {u v w : List α} (h : Shuffle u v w) : Shuffle v u w := by
  induction h with
  | nil => exact .nil
  | left _ ih => exact .right ih
  | right _ ih => exact .left ih

theorem Shuffle.nil_left (v : List α) : Shuffle [] v v := by
  induction v with
  | nil => exact .nil
  | cons a v ih => exact .right ih

theorem Shuffle.nil_right (v : List α) : Shuffle v [] v := (Shuffle.nil_left v).symm

theorem Shuffle.eq_of_nil_left {v w : List α} (h : Shuffle [] v w) : w = v := by
  generalize hu : ([] : List α) = u at h
  induction h with
  | nil => rfl
  | left _ _ => cases hu
  | right _ ih => rw [ih hu]

theorem Shuffle.eq_of_nil_right {v w : List α} (h : Shuffle v [] w) : w = v := h.symm.eq_of_nil_left

theorem Shuffle.length {u v w : List α} (h : Shuffle u v w) : w.length = u.length + v.length := by
  induction h with
  | nil => rfl
  | left _ ih => simp [ih]; omega
  | right _ ih => simp [ih]; omega

theorem Shuffle.mem {u v w : List α} (h : Shuffle u v w) (a : α) : a ∈ w ↔ a ∈ u ∨ a ∈ v := by
  induction h with
  | nil => simp
  | left _ ih => simp [ih, or_assoc]
  | right _ ih => simp [ih, or_left_comm]

theorem Shuffle.append (u v : List α) : Shuffle u v (u ++ v) := by
  induction u with
  | nil => exact Shuffle.nil_left v
  | cons a u ih => exact .left ih

/-- Re-association of interleavings. -/
theorem Shuffle.assoc {a b ab c w : List α} (h1 : Shuffle a b ab) (h2 : Shuffle ab c w) :
    ∃ bc, Shuffle b c bc ∧ Shuffle a bc w := by
  induction h2 generalizing a b with
  | nil => cases h1; exact ⟨[], .nil, .nil⟩
  | @left x u v w' h ih =>
    cases h1 with
    | left h1 => obtain ⟨bc, h3, h4⟩ := ih h1; exact ⟨bc, h3, .left h4⟩
    | right h1 => obtain ⟨bc, h3, h4⟩ := ih h1; exact ⟨x :: bc, .left h3, .right h4⟩
  | @right x u v w' h ih =>
    obtain ⟨bc, h3, h4⟩ := ih h1
    exact ⟨x :: bc, .right h3, .right h4⟩

theorem Shuffle.filter {u v w : List α} (p : α → Bool) (h : Shuffle u v w) :
    Shuffle (u.filter p) (v.filter p) (w.filter p) := by
  induction h with
  | nil => exact .nil
  | @left a u v w _ ih =>
    by_cases hp : p a <;> simp [hp]
    · exact .left ih
    · exact ih
  | @right a u v w _ ih =>
    by_cases hp : p a <;> simp [hp]
    · exact .right ih
    · exact ih

theorem Shuffle.of_filter (p : α → Bool) (w : List α) :
    Shuffle (w.filter p) (w.filter fun a => !p a) w := by
  induction w with
  | nil => exact .nil
  | cons a w ih =>
    by_cases hp : p a <;> simp [hp]
    · exact .left ih
    · exact .right ih

/-! ### Binary operators -/

theorem cat_eps_left (L : Lang α) : cat eps L = L := by
  apply ext; intro w; constructor
  · rintro ⟨u, v, rfl, hv, rfl⟩; simpa using hv
  · intro h; exact ⟨[], w, rfl, h, rfl⟩

theorem cat_eps_right (L : Lang α) : cat L eps = L := by
  apply ext; intro w; constructor
  · rintro ⟨u, v, hu, rfl, rfl⟩; simpa using hu
  · intro h; exact ⟨w, [], h, rfl, by simp⟩

theorem cat_assoc (L M N : Lang α) : cat (cat L M) N = cat L (cat M N) := by
  apply ext; intro w; constructor
  · rintro ⟨_, v, ⟨a, b, ha, hb, rfl⟩, hv, rfl⟩
    exact ⟨a, b ++ v, ha, ⟨b, v, hb, hv, rfl⟩, by simp⟩
  · rintro ⟨a, _, ha, ⟨b, v, hb, hv, rfl⟩, rfl⟩
    exact ⟨a ++ b, v, ⟨a, b, ha, hb, rfl⟩, hv, by simp⟩

theorem shuf_eps_left (L : Lang α) : shuf eps L = L := by
  apply ext; intro w; constructor
  · rintro ⟨u, v, rfl, hv, h⟩; rw [h.eq_of_nil_left]; exact hv
  · intro h; exact ⟨[], w, rfl, h, Shuffle.nil_left w⟩

theorem shuf_comm (L M : Lang α) : shuf L M = shuf M L := by
  apply ext; intro w; constructor
  · rintro ⟨u, v, hu, hv, h⟩; exact ⟨v, u, hv, hu, h.symm⟩
  · rintro ⟨u, v, hu, hv, h⟩; exact ⟨v, u, hv, hu, h.symm⟩

theorem shuf_eps_right (L : Lang α) : shuf L eps = L := by rw [shuf_comm, shuf_eps_left]

theorem shuf_assoc (L M N : Lang α) : shuf (shuf L M) N = shuf L (shuf M N) := by
  apply ext; intro w; constructor
  · rintro ⟨ab, c, ⟨a, b, ha, hb, h1⟩, hc, h2⟩
    obtain ⟨bc, h3, h4⟩ := h1.assoc h2
    exact ⟨a, bc, ha, ⟨b, c, hb, hc, h3⟩, h4⟩
  · rintro ⟨a, bc, ha, ⟨b, c, hb, hc, h1⟩, h2⟩
    obtain ⟨ab, h3, h4⟩ := (h1.symm).assoc h2.symm
    exact ⟨ab, c, ⟨a, b, ha, hb, h3.symm⟩, hc, h4.symm⟩

theorem shuf_left_comm (L M N : Lang α) : shuf L (shuf M N) = shuf M (shuf L N) := by
  rw [← shuf_assoc, shuf_comm L M, shuf_assoc]

/-! ### n-ary operators -/

theorem seqL_append (Ls Ms : List (Lang α)) : seqL (Ls ++ Ms) = cat (seqL Ls) (seqL Ms) := by
  induction Ls with
  | nil => simp [seqL, cat_eps_left]
  | cons L Ls ih => simp [seqL, ih, cat_assoc]

theorem parL_append (Ls Ms : List (Lang α)) : parL (Ls ++ Ms) = shuf (parL Ls) (parL Ms) := by
  induction Ls with
  | nil => simp [parL, shuf_eps_left]
  | cons L Ls ih => simp [parL, ih, shuf_assoc]

@[simp] theorem seqL_singleton (L : Lang α) : seqL [L] = L := by simp [seqL, cat_eps_right]
@[simp] theorem parL_singleton (L : Lang α) : parL [L] = L := by simp [parL, shuf_eps_right]
@[simp] theorem xorL_singleton (L : Lang α) : xorL [L] = L := by apply ext; simp [xorL]

theorem seqL_flatten (pre post : List (Lang α)) (Ls : List (Lang α)) :
    seqL (pre ++ seqL Ls :: post) = seqL (pre ++ Ls ++ post) := by
  simp only [seqL_append, seqL, cat_assoc, List.append_assoc]

theorem parL_flatten (pre post : List (Lang α)) (Ls : List (Lang α)) :
    parL (pre ++ parL Ls :: post) = parL (pre ++ Ls ++ post) := by
  simp only [parL_append, parL, shuf_assoc, List.append_assoc]

theorem xorL_flatten (pre post : List (Lang α)) (Ls : List (Lang α)) :
    xorL (pre ++ xorL Ls :: post) = xorL (pre ++ Ls ++ post) := by
  apply ext; intro w
  simp only [xorL, List.mem_append, List.mem_cons]
  constructor
  · rintro ⟨L, h | rfl | h, hw⟩
    · exact ⟨L, .inl (.inl h), hw⟩
    · obtain ⟨M, hM, hw⟩ := hw; exact ⟨M, .inl (.inr hM), hw⟩
    · exact ⟨L, .inr h, hw⟩
  · rintro ⟨L, (h | h) | h, hw⟩
    · exact ⟨L, .inl h, hw⟩
    · exact ⟨_, .inr (.inl rfl), L, h, hw⟩
    · exact ⟨L, .inr (.inr h), hw⟩

theorem parL_perm {Ls Ms : List (Lang α)} (h : Ls.Perm Ms) : parL Ls = parL Ms := by
  induction h with
  | nil => rfl
  | cons L _ ih => simp [parL, ih]
  | swap L M Ls => simp [parL, shuf_left_comm]
  | trans _ _ h1 h2 => exact h1.trans h2

theorem xorL_perm {Ls Ms : List (Lang α)} (h : Ls.Perm Ms) : xorL Ls = xorL Ms := by
  apply ext; intro w; simp [xorL, h.mem_iff]

theorem interL_perm {Ls Ms : List (Lang α)} (h : Ls.Perm Ms) : interL Ls = interL Ms := by
  apply ext; intro w; constructor
  · rintro ⟨Ks, hp, hw⟩; exact ⟨Ks, hp.trans h, hw⟩
  · rintro ⟨Ks, hp, hw⟩; exact ⟨Ks, hp.trans h.symm, hw⟩

theorem orL_perm {Ls Ms : List (Lang α)} (h : Ls.Perm Ms) : orL Ls = orL Ms := by
  have key : ∀ {Ls Ms : List (Lang α)}, Ls.Perm Ms → ∀ w, orL Ls w → orL Ms w := by
    rintro Ls Ms h w ⟨Ks, hne, hs, hw⟩
    obtain ⟨Js, hp, hs2⟩ := List.exists_perm_sublist hs h
    refine ⟨Js, ?_, hs2, ?_⟩
    · rintro rfl; exact hne (by simpa using hp.symm.eq_nil)
    · rw [parL_perm hp]; exact hw
  exact ext fun w => ⟨key h w, key h.symm w⟩

theorem seqL_filter_eps [DecidablePred (fun L : Lang α => L = eps)] (Ls : List (Lang α)) :
    seqL (Ls.filter fun L => ¬ (L = eps)) = seqL Ls := by
  induction Ls with
  | nil => rfl
  | cons L Ls ih =>
    by_cases h : L = eps
    · simp [h, seqL, cat_eps_left, ← ih]
    · simp [h, seqL, ← ih]

/-- Dropping one `eps` from a sequence changes nothing. -/
theorem seqL_drop_eps (pre post : List (Lang α)) : seqL (pre ++ eps :: post) = seqL (pre ++ post) := by
  simp [seqL_append, seqL, cat_eps_left]

theorem parL_drop_eps (pre post : List (Lang α)) : parL (pre ++ eps :: post) = parL (pre ++ post) := by
  simp [parL_append, parL, shuf_eps_left]

/-- In a choice, one of two equal alternatives can be dropped. -/
theorem xorL_drop_dup (pre post : List (Lang α)) (L : Lang α) (h : L ∈ pre ++ post) :
    xorL (pre ++ L :: post) = xorL (pre ++ post) := by
  apply ext; intro w
  simp only [xorL, List.mem_append, List.mem_cons] at *
  constructor
  · rintro ⟨M, hM | rfl | hM, hw⟩
    · exact ⟨M, .inl hM, hw⟩
    · exact ⟨_, h, hw⟩
    · exact ⟨M, .inr hM, hw⟩
  · rintro ⟨M, hM | hM, hw⟩
    · exact ⟨M, .inl hM, hw⟩
    · exact ⟨M, .inr (.inr hM), hw⟩

/-- In an inclusive choice, one of two silent alternatives can be dropped. -/
theorem orL_drop_eps (pre post : List (Lang α)) (h : (eps : Lang α) ∈ pre ++ post) :
    orL (pre ++ eps :: post) = orL (pre ++ post) := by
  have hp : (pre ++ (eps : Lang α) :: post).Perm (eps :: (pre ++ post)) := List.perm_middle
  rw [orL_perm hp]
  generalize pre ++ post = Ls at h
  apply ext; intro w; constructor
  · rintro ⟨Ms, hne, hs, hw⟩
    cases hs with
    | cons _ hs => exact ⟨Ms, hne, hs, hw⟩
    | @cons_cons Ms' _ _ hs =>
      by_cases hM : Ms' = []
      · subst hM
        refine ⟨[eps], by simp, by simpa using h, ?_⟩
        simpa [parL, shuf_eps_left] using hw
      · exact ⟨Ms', hM, hs, by simpa [parL, shuf_eps_left] using hw⟩
  · rintro ⟨Ms, hne, hs, hw⟩
    exact ⟨Ms, hne, hs.cons _, hw⟩

theorem loopL_eps_only : loopL (eps : Lang α) [eps] = eps := by
  apply ext; intro w; constructor
  · intro h
    induction h with
    | exit h => exact h
    | again R hd hR hr _ ih =>
      simp at hR; subst hR
      cases hd; cases hr; simpa using ih
  · intro h; exact .exit h

theorem loopL_nil (D : Lang α) : loopL D [] = D := by
  apply ext; intro w; constructor
  · intro h; cases h with
    | exit h => exact h
    | again R _ hR => simp at hR
  · exact fun h => .exit h

/-- Redo alternatives may be grouped in a choice. -/
theorem loopL_xor (D : Lang α) (Rs : List (Lang α)) : loopL D [xorL Rs] = loopL D Rs := by
  apply ext; intro w; constructor
  · intro h
    induction h with
    | exit h => exact .exit h
    | again R hd hR hr _ ih =>
      simp at hR; subst hR
      obtain ⟨R, hR, hr⟩ := hr
      exact .again R hd hR hr ih
  · intro h
    induction h with
    | exit h => exact .exit h
    | again R hd hR hr _ ih => exact .again (xorL Rs) hd (by simp) ⟨R, hR, hr⟩ ih

theorem loopL_mono {D D' : Lang α} {Rs Rs' : List (Lang α)} (hD : ∀ w, D w → D' w)
    (hR : ∀ R ∈ Rs, ∀ w, R w → ∃ R' ∈ Rs', R' w) : ∀ w, loopL D Rs w → loopL D' Rs' w := by
  intro w h
  induction h with
  | exit h => exact .exit (hD _ h)
  | again R hd hRm hr _ ih =>
    obtain ⟨R', hR', hr'⟩ := hR R hRm _ hr
    exact .again R' (hD _ hd) hR' hr' ih

theorem orL_of_or (L : Lang α) (Ls : List (Lang α)) :
    orL (L :: Ls) = orL [L, orL Ls] := by
  apply ext; intro w; constructor
  · rintro ⟨Ms, hne, hs, hw⟩
    cases hs with
    | cons _ hs => exact ⟨[orL Ls], by simp, by simp, by simpa using ⟨Ms, hne, hs, hw⟩⟩
    | @cons_cons Ms' _ _ hs =>
      by_cases hM : Ms' = []
      · subst hM; exact ⟨[L], by simp, by simp, by simpa using hw⟩
      · obtain ⟨u, v, hu, hv, hsh⟩ := hw
        exact ⟨[L, orL Ls], by simp, by simp, u, v, hu, by simpa using ⟨Ms', hM, hs, hv⟩, hsh⟩
  · rintro ⟨Ms, hne, hs, hw⟩
    cases hs with
    | cons _ hs =>
      cases hs with
      | cons _ hs => simp at hs; exact absurd hs hne
      | @cons_cons Ms' _ _ hs =>
        simp at hs; subst hs
        simp at hw
        obtain ⟨Ks, hk, hks, hw⟩ := hw
        exact ⟨Ks, hk, hks.cons _, hw⟩
    | @cons_cons Ms' _ _ hs =>
      cases hs with
      | cons _ hs =>
        simp at hs; subst hs
        exact ⟨[L], by simp, by simp, hw⟩
      | @cons_cons Ms'' _ _ hs =>
        simp at hs; subst hs
        obtain ⟨u, v, hu, hv, hsh⟩ := hw
        simp at hv
        obtain ⟨Ks, hk, hks, hv⟩ := hv
        exact ⟨L :: Ks, by simp, hks.cons_cons _, u, v, hu, hv, hsh⟩

end Verif.Lang
