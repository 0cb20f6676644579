import Verif.TraceFilter.Proofs2
set_option linter.unusedSectionVars false
namespace Verif.TraceFilter
variable {ε : Type}

theorem flatMap_congr' {β γ : Type} {f g : β → List γ} {l : List β} (h : ∀ x ∈ l, f x = g x) :
    l.flatMap f = l.flatMap g := by
  induction l with
  | nil => rfl
  | cons a l ih => simp [h a (by simp), ih fun x hx => h x (by simp [hx])]

theorem between_skip (p q : ε → Bool) (same : Bool) (u : List ε) (h : ∀ e ∈ u, p e = false) (k : Nat)
    (o : List (Nat × List ε)) :
    u.foldl (betweenStep p q same) ⟨none, k, o⟩ = ⟨none, k, o⟩ := by
  induction u with
  | nil => rfl
  | cons e u ih =>
    rw [List.foldl_cons]
    have : betweenStep p q same ⟨none, k, o⟩ e = ⟨none, k, o⟩ := by simp [betweenStep, h e (by simp)]
    rw [this]
    exact ih fun e he => h e (by simp [he])

theorem between_collect (p q : ε → Bool) (same : Bool) (m : List ε) (h : ∀ e ∈ m, q e = false) (c : List ε) (k : Nat)
    (o : List (Nat × List ε)) :
    m.foldl (betweenStep p q same) ⟨some c, k, o⟩ = ⟨some (c ++ m), k, o⟩ := by
  induction m generalizing c with
  | nil => simp
  | cons e m ih =>
    rw [List.foldl_cons]
    have : betweenStep p q same ⟨some c, k, o⟩ e = ⟨some (c ++ [e]), k, o⟩ := by simp [betweenStep, h e (by simp)]
    rw [this, ih (fun e he => h e (by simp [he]))]
    simp

/-- The subtraces with their numbers, from `k` on. -/
def numbered (k : Nat) (segs : List (List ε)) : List (Nat × List ε) := segs.zipIdx.map fun (s, i) => (k + i, s)

theorem numbered_cons (k : Nat) (s : List ε) (segs : List (List ε)) :
    numbered k (s :: segs) = (k, s) :: numbered (k + 1) segs := by
  unfold numbered
  rw [List.zipIdx_cons, List.map_cons, List.zipIdx_succ, List.map_map]
  simp only [Nat.add_zero, List.cons.injEq, true_and]
  apply List.map_congr_left
  intro x _
  simp only [Function.comp, Prod.mk.injEq, and_true]
  omega

theorem segments_run (p q : ε → Bool) (t : List ε) (segs : List (List ε)) (h : Segments p q t segs) (k : Nat)
    (o : List (Nat × List ε)) :
    (t.foldl (betweenStep p q false) ⟨none, k, o⟩).out = o ++ numbered k segs := by
  induction h generalizing k o with
  | none u h => rw [between_skip p q false u h]; simp [numbered]
  | unfinished u s m h hs hm =>
    rw [List.foldl_append, between_skip p q false u h, List.foldl_cons]
    have : betweenStep p q false ⟨none, k, o⟩ s = ⟨some [s], k, o⟩ := by simp [betweenStep, hs]
    rw [this, between_collect p q false m hm]
    simp [numbered]
  | found u s m f rest segs h hs hm hf hr ih =>
    rw [List.foldl_append, between_skip p q false u h, List.foldl_cons]
    have : betweenStep p q false ⟨none, k, o⟩ s = ⟨some [s], k, o⟩ := by simp [betweenStep, hs]
    rw [this, List.foldl_append, between_collect p q false m hm, List.foldl_cons]
    have : betweenStep p q false ⟨some ([s] ++ m), k, o⟩ f = ⟨none, k + 1, o ++ [(k, [s] ++ m ++ [f])]⟩ := by
      simp [betweenStep, hf]
    rw [this, ih, numbered_cons]
    simp

theorem laps_run (p : ε → Bool) (t : List ε) (segs : List (List ε)) (h : Laps p t segs) :
    (∀ k o, (t.foldl (betweenStep p p true) ⟨none, k, o⟩).out = o ++ numbered k segs) := by
  induction h with
  | none u h => intro k o; rw [between_skip p p true u h]; simp [numbered]
  | last u s m h hs hm =>
    intro k o
    rw [List.foldl_append, between_skip p p true u h, List.foldl_cons]
    have : betweenStep p p true ⟨none, k, o⟩ s = ⟨some [s], k, o⟩ := by simp [betweenStep, hs]
    rw [this, between_collect p p true m hm]
    simp [numbered]
  | lap u s m f rest segs h hs hm hf hr ih =>
    intro k o
    rw [List.foldl_append, between_skip p p true u h, List.foldl_cons]
    have : betweenStep p p true ⟨none, k, o⟩ s = ⟨some [s], k, o⟩ := by simp [betweenStep, hs]
    rw [this, List.foldl_append, between_collect p p true m hm, List.foldl_cons]
    have h1 : betweenStep p p true ⟨some ([s] ++ m), k, o⟩ f = ⟨some [f], k + 1, o ++ [(k, [s] ++ m ++ [f])]⟩ := by
      simp [betweenStep, hf]
    have h2 := ih (k + 1) (o ++ [(k, [s] ++ m ++ [f])])
    rw [List.foldl_cons] at h2
    have h3 : betweenStep p p true ⟨none, k + 1, o ++ [(k, [s] ++ m ++ [f])]⟩ f
        = ⟨some [f], k + 1, o ++ [(k, [s] ++ m ++ [f])]⟩ := by simp [betweenStep, hf]
    rw [h3] at h2
    rw [h1, h2, numbered_cons]
    simp

theorem split_first (p : ε → Bool) (t : List ε) :
    (∀ e ∈ t, p e = false) ∨ ∃ u s r, t = u ++ s :: r ∧ (∀ e ∈ u, p e = false) ∧ p s = true := by
  induction t with
  | nil => left; simp
  | cons e t ih =>
    cases he : p e with
    | true => exact Or.inr ⟨[], e, t, rfl, by simp, he⟩
    | false =>
      rcases ih with h | ⟨u, s, r, rfl, h1, h2⟩
      · left; intro x hx
        rcases List.mem_cons.1 hx with rfl | hx
        · exact he
        · exact h x hx
      · refine Or.inr ⟨e :: u, s, r, rfl, ?_, h2⟩
        intro x hx
        rcases List.mem_cons.1 hx with rfl | hx
        · exact he
        · exact h1 x hx

theorem segments_total (p q : ε → Bool) : ∀ (n : Nat) (t : List ε), t.length ≤ n → ∃ segs, Segments p q t segs := by
  intro n
  induction n with
  | zero =>
    intro t ht
    have : t = [] := List.length_eq_zero_iff.1 (by omega)
    subst this
    exact ⟨[], .none [] (by simp)⟩
  | succ n ih =>
    intro t ht
    rcases split_first p t with h | ⟨u, s, r, rfl, h1, h2⟩
    · exact ⟨[], .none t h⟩
    · rcases split_first q r with h | ⟨m, f, rest, rfl, h3, h4⟩
      · exact ⟨[], .unfinished u s r h1 h2 h⟩
      · obtain ⟨segs, hs⟩ := ih rest (by simp at ht; omega)
        exact ⟨_, .found u s m f rest segs h1 h2 h3 h4 hs⟩

theorem laps_total (p : ε → Bool) : ∀ (n : Nat) (t : List ε), t.length ≤ n → ∃ segs, Laps p t segs := by
  intro n
  induction n with
  | zero =>
    intro t ht
    have : t = [] := List.length_eq_zero_iff.1 (by omega)
    subst this
    exact ⟨[], .none [] (by simp)⟩
  | succ n ih =>
    intro t ht
    rcases split_first p t with h | ⟨u, s, r, rfl, h1, h2⟩
    · exact ⟨[], .none t h⟩
    · rcases split_first p r with h | ⟨m, f, rest, rfl, h3, h4⟩
      · exact ⟨[], .last u s r h1 h2 h⟩
      · obtain ⟨segs, hs⟩ := ih (f :: rest) (by simp at ht ⊢; omega)
        exact ⟨_, .lap u s m f rest segs h1 h2 h3 h4 hs⟩

theorem numbered_inj {k : Nat} {a b : List (List ε)} (h : numbered k a = numbered k b) : a = b := by
  have := congrArg (List.map Prod.snd) h
  simpa [numbered, List.map_map, Function.comp_def] using this

theorem numbered_snd (k : Nat) (a : List (List ε)) : (numbered k a).map Prod.snd = a := by
  simp [numbered, List.map_map, Function.comp_def]

theorem segments_det (p q : ε → Bool) {t : List ε} {a b : List (List ε)} (ha : Segments p q t a)
    (hb : Segments p q t b) : a = b := by
  have h1 := segments_run p q t a ha 0 []
  have h2 := segments_run p q t b hb 0 []
  rw [h1] at h2
  exact numbered_inj (by simpa using h2)

theorem laps_det (p : ε → Bool) {t : List ε} {a b : List (List ε)} (ha : Laps p t a)
    (hb : Laps p t b) : a = b := by
  have h1 := laps_run p t a ha 0 []
  have h2 := laps_run p t b hb 0 []
  rw [h1] at h2
  exact numbered_inj (by simpa using h2)

end Verif.TraceFilter
