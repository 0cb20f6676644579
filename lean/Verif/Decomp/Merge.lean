import Verif.Decomp.Theorems
/-
C78: merging the components.
-/
set_option linter.unusedSectionVars false
namespace Verif
open Decomp
namespace Decomp
variable {ν : Type} [DecidableEq ν]

/-- nets that can be merged: different places, the same transition for a name -/
structure Fit (l : List (ANet ν)) : Prop where
  places : (l.flatMap fun c => c.net.places).Nodup
  weights : ∀ c ∈ l, Unweighted c.net
  within : ∀ c ∈ l, Within c.net c.im ∧ Within c.net c.fm
  names : ∀ c ∈ l, (c.net.trs.map Tr.name).Nodup
  same : ∀ c ∈ l, ∀ d ∈ l, ∀ t ∈ c.net.trs, ∀ u ∈ d.net.trs, t.name = u.name → t = u

/-- `r` is the union of the nets -/
structure Union (l : List (ANet ν)) (r : ANet ν) : Prop where
  places : r.net.places.Perm (l.flatMap fun c => c.net.places)
  arcs : r.net.arcs.Perm (l.flatMap fun c => c.net.arcs)
  names : (r.net.trs.map Tr.name).Nodup
  trs : ∀ t, t ∈ r.net.trs ↔ ∃ c ∈ l, t ∈ c.net.trs
  within : Within r.net r.im ∧ Within r.net r.fm
  marks : ∀ c ∈ l, ∀ p ∈ c.net.places, r.im p = c.im p ∧ r.fm p = c.fm p

theorem merge_trs (c d : ANet ν) (hs : ∀ t ∈ c.net.trs, ∀ u ∈ d.net.trs, t.name = u.name → t = u) (t : Tr ν) :
    t ∈ (mergeComp c d).net.trs ↔ t ∈ c.net.trs ∨ t ∈ d.net.trs := by
  unfold mergeComp
  simp only [List.mem_append, List.mem_filter, decide_eq_true_eq]
  constructor
  · rintro (h | h)
    · exact .inl h
    · exact .inr h.1
  · rintro (h | h)
    · exact .inl h
    · by_cases hn : t.name ∈ c.net.trs.map Tr.name
      · obtain ⟨u, hu, e⟩ := List.mem_map.1 hn
        exact .inl (hs u hu t h e ▸ hu)
      · exact .inr ⟨h, hn⟩

theorem merge_names (c d : ANet ν) (hc : (c.net.trs.map Tr.name).Nodup) (hd : (d.net.trs.map Tr.name).Nodup) :
    ((mergeComp c d).net.trs.map Tr.name).Nodup := by
  unfold mergeComp
  simp only [List.map_append]
  rw [List.nodup_append]
  refine ⟨hc, hd.sublist (List.filter_sublist.map _), ?_⟩
  rintro x hx y hy rfl
  obtain ⟨t, ht, rfl⟩ := List.mem_map.1 hy
  exact of_decide_eq_true (List.mem_filter.1 ht).2 hx

theorem merge_arcs (c d : ANet ν) (hc : Unweighted c.net) (hd : Unweighted d.net) : (mergeComp c d).net.arcs = c.net.arcs ++ d.net.arcs := by
  unfold mergeComp
  simp only
  conv_rhs => rw [← List.map_id (c.net.arcs ++ d.net.arcs)]
  apply List.map_congr_left
  intro a ha
  have : a.w = 1 := by
    rcases List.mem_append.1 ha with h | h
    · exact hc a h
    · exact hd a h
  cases a
  simp only at this
  subst this
  rfl

theorem mergeAll_ok (l : List (ANet ν)) : l ≠ [] → Fit l → ∃ r, mergeAll l = some r ∧ Union l r := by
  induction l using mergeAll.induct with
  | case1 => intro h; exact absurd rfl h
  | case2 c =>
    intro _ hf
    refine ⟨c, by rw [mergeAll], ?_⟩
    have hc := List.mem_singleton_self c
    refine ⟨by simp, by simp, hf.names c hc, by simp, hf.within c hc, ?_⟩
    intro d hd p _
    rw [List.mem_singleton] at hd
    subst hd
    exact ⟨rfl, rfl⟩
  | case3 c d l ih =>
    intro _ hf
    have hcm : c ∈ c :: d :: l := by simp
    have hdm : d ∈ c :: d :: l := by simp
    have hlm : ∀ x ∈ l, x ∈ c :: d :: l := fun x hx => by simp [hx]
    have hp0 := hf.places
    simp only [List.flatMap_cons] at hp0
    have hdisj : ∀ p ∈ c.net.places, p ∉ d.net.places := by
      intro p h1 h2
      exact (List.disjoint_of_nodup_append hp0) h1 (List.mem_append_left _ h2)
    have hfit : Fit (l ++ [mergeComp c d]) := by
      refine ⟨?_, ?_, ?_, ?_, ?_⟩
      · rw [List.flatMap_append, List.flatMap_singleton]
        refine (List.perm_append_comm.nodup_iff).1 ?_
        show ((c.net.places ++ d.net.places) ++ _).Nodup
        rw [List.append_assoc]
        exact hp0
      · intro x hx
        rcases List.mem_append.1 hx with hx | hx
        · exact hf.weights x (hlm x hx)
        · rw [List.mem_singleton] at hx
          subst hx
          intro a ha
          obtain ⟨b, _, rfl⟩ := List.mem_map.1 ha
          rfl
      · intro x hx
        rcases List.mem_append.1 hx with hx | hx
        · exact hf.within x (hlm x hx)
        · rw [List.mem_singleton] at hx
          subst hx
          constructor
          · intro p hp
            have hp : ¬ (p ∈ c.net.places ++ d.net.places) := hp
            rw [List.mem_append, not_or] at hp
            show (if p ∈ d.net.places then d.im p else if p ∈ c.net.places then c.im p else 0) = 0
            rw [if_neg hp.2, if_neg hp.1]
          · intro p hp
            have hp : ¬ (p ∈ c.net.places ++ d.net.places) := hp
            rw [List.mem_append, not_or] at hp
            show (if p ∈ d.net.places then d.fm p else if p ∈ c.net.places then c.fm p else 0) = 0
            rw [if_neg hp.2, if_neg hp.1]
      · intro x hx
        rcases List.mem_append.1 hx with hx | hx
        · exact hf.names x (hlm x hx)
        · rw [List.mem_singleton] at hx
          subst hx
          exact merge_names c d (hf.names c hcm) (hf.names d hdm)
      · have hin : ∀ x ∈ l ++ [mergeComp c d], ∀ t ∈ x.net.trs, ∃ y ∈ c :: d :: l, t ∈ y.net.trs := by
          intro x hx t ht
          rcases List.mem_append.1 hx with hx | hx
          · exact ⟨x, hlm x hx, ht⟩
          · rw [List.mem_singleton] at hx
            subst hx
            rcases (merge_trs c d (hf.same c hcm d hdm) t).1 ht with h | h
            · exact ⟨c, hcm, h⟩
            · exact ⟨d, hdm, h⟩
        intro x hx y hy t ht u hu e
        obtain ⟨x', hx', ht'⟩ := hin x hx t ht
        obtain ⟨y', hy', hu'⟩ := hin y hy u hu
        exact hf.same x' hx' y' hy' t ht' u hu' e
    obtain ⟨r, h1, h2⟩ := ih (by simp) hfit
    refine ⟨r, by rw [mergeAll]; exact h1, ⟨?_, ?_, h2.names, ?_, h2.within, ?_⟩⟩
    · refine h2.places.trans ?_
      rw [List.flatMap_append, List.flatMap_singleton]
      refine List.perm_append_comm.trans ?_
      show ((c.net.places ++ d.net.places) ++ _).Perm _
      rw [List.append_assoc, List.flatMap_cons, List.flatMap_cons]
    · refine h2.arcs.trans ?_
      rw [List.flatMap_append, List.flatMap_singleton, merge_arcs c d (hf.weights c hcm) (hf.weights d hdm)]
      refine List.perm_append_comm.trans ?_
      rw [List.append_assoc, List.flatMap_cons, List.flatMap_cons]
    · intro t
      rw [h2.trs]
      simp only [List.mem_append, List.mem_cons, List.not_mem_nil, or_false]
      constructor
      · rintro ⟨x, hx | rfl, ht⟩
        · exact ⟨x, .inr (.inr hx), ht⟩
        · rcases (merge_trs c d (hf.same c hcm d hdm) t).1 ht with h | h
          · exact ⟨c, .inl rfl, h⟩
          · exact ⟨d, .inr (.inl rfl), h⟩
      · rintro ⟨x, rfl | rfl | hx, ht⟩
        · exact ⟨_, .inr rfl, (merge_trs _ _ (hf.same _ hcm _ hdm) t).2 (.inl ht)⟩
        · exact ⟨_, .inr rfl, (merge_trs _ _ (hf.same _ hcm _ hdm) t).2 (.inr ht)⟩
        · exact ⟨x, .inl hx, ht⟩
    · intro x hx p hp
      have hm := h2.marks (mergeComp c d) (by simp)
      rcases List.mem_cons.1 hx with rfl | hx
      · have := hm p (List.mem_append_left _ hp)
        have e1 : (mergeComp x d).im p = x.im p := by
          show (if p ∈ d.net.places then d.im p else if p ∈ x.net.places then x.im p else 0) = _
          rw [if_neg (hdisj p hp), if_pos hp]
        have e2 : (mergeComp x d).fm p = x.fm p := by
          show (if p ∈ d.net.places then d.fm p else if p ∈ x.net.places then x.fm p else 0) = _
          rw [if_neg (hdisj p hp), if_pos hp]
        rw [← e1, ← e2]
        exact this
      · rcases List.mem_cons.1 hx with rfl | hx
        · have := hm p (List.mem_append_right _ hp)
          have e1 : (mergeComp c x).im p = x.im p := if_pos hp
          have e2 : (mergeComp c x).fm p = x.fm p := if_pos hp
          rw [← e1, ← e2]
          exact this
        · exact h2.marks x (List.mem_append_left _ hx) p hp

end Decomp

variable {ν : Type} [DecidableEq ν]

/-- C78: merging all components gives the net back: places, arcs and markings are those of the net, and the transitions all but the visible ones without
any arc. -/
theorem C78_merge (N : ANet ν) (h : Proper N.net) (hw : Unweighted N.net) (hu : UniqueLabels N.net) (hi : Within N.net N.im) (hf : Within N.net N.fm)
    (hne : decompose N ≠ []) :
    ∃ r, mergeAll (decompose N) = some r ∧ r.net.places.Perm N.net.places ∧ r.net.arcs.Perm N.net.arcs ∧ (r.net.trs.map Tr.name).Nodup ∧
      (∀ t, t ∈ r.net.trs ↔ t ∈ N.net.trs ∧ (t.label = none ∨ ∃ a ∈ N.net.arcs, a.t = t.name)) ∧ r.im = N.im ∧ r.fm = N.fm := by
  obtain ⟨hp, hs, ha, hC⟩ := C78_parts N h
  have ha := ha hw
  obtain ⟨_, hvis⟩ := C78_maximal N h hu
  have hnd : (N.net.trs.map Tr.name).Nodup := (List.nodup_append.1 h.names).2.1
  have huniq : ∀ t ∈ N.net.trs, ∀ u ∈ N.net.trs, t.name = u.name → t = u := by
    intro t ht u hu e
    have h1 := labelOf_mem h ht
    have h2 := labelOf_mem h hu
    rw [e, h2] at h1
    cases t; cases u
    simp only at e h1
    rw [e, h1]
  have hfit : Fit (decompose N) := by
    refine ⟨hp.nodup_iff.2 (List.nodup_append.1 h.names).1, ?_, ?_, ?_, ?_⟩
    · intro C hC a haC
      exact hw a (ha.mem_iff.1 (List.mem_flatMap.2 ⟨C, hC, haC⟩))
    · intro C hCm
      obtain ⟨_, _, e1, e2⟩ := hC C hCm
      constructor
      · intro p hp; rw [e1]; exact if_neg hp
      · intro p hp; rw [e2]; exact if_neg hp
    · intro C hCm
      exact (List.nodup_append.1 (hC C hCm).1.names).2.1
    · intro c hc d hd t ht u hu e
      exact huniq t ((hC c hc).2.1 t ht) u ((hC d hd).2.1 u hu) e
  obtain ⟨r, h1, h2⟩ := mergeAll_ok _ hne hfit
  refine ⟨r, h1, h2.places.trans hp, h2.arcs.trans ha, h2.names, fun t => ?_, ?_, ?_⟩
  · rw [h2.trs]
    constructor
    · rintro ⟨C, hCm, ht⟩
      refine ⟨(hC C hCm).2.1 t ht, ?_⟩
      by_cases hl : t.label = none
      · exact .inl hl
      · obtain ⟨a, ha1, ha2, _⟩ := (hvis t ((hC C hCm).2.1 t ht) hl C hCm).1 ht
        exact .inr ⟨a, ha1, ha2⟩
    · rintro ⟨ht, hor⟩
      by_cases hl : t.label = none
      · have : t.name ∈ silent N.net := List.mem_map.2 ⟨t, List.mem_filter.2 ⟨ht, by simpa using hl⟩, rfl⟩
        obtain ⟨C, hCm, hm⟩ := List.mem_flatMap.1 (hs.mem_iff.2 this)
        obtain ⟨u, hu1, e⟩ := List.mem_map.1 hm
        have hu2 := List.mem_of_mem_filter hu1
        have := huniq u ((hC C hCm).2.1 u hu2) t ht e
        exact ⟨C, hCm, this ▸ hu2⟩
      · rcases hor with h0 | ⟨a, ha1, ha2⟩
        · exact absurd h0 hl
        · obtain ⟨C, hCm, hpC⟩ := List.mem_flatMap.1 (hp.mem_iff.2 (h.arcs a ha1).1)
          exact ⟨C, hCm, (hvis t ht hl C hCm).2 ⟨a, ha1, ha2, hpC⟩⟩
  · funext p
    by_cases hpp : p ∈ N.net.places
    · obtain ⟨C, hCm, hpC⟩ := List.mem_flatMap.1 (hp.mem_iff.2 hpp)
      rw [(h2.marks C hCm p hpC).1, (hC C hCm).2.2.1]
      exact if_pos hpC
    · rw [hi p hpp]
      exact h2.within.1 p fun h' => hpp ((h2.places.trans hp).mem_iff.1 h')
  · funext p
    by_cases hpp : p ∈ N.net.places
    · obtain ⟨C, hCm, hpC⟩ := List.mem_flatMap.1 (hp.mem_iff.2 hpp)
      rw [(h2.marks C hCm p hpC).2, (hC C hCm).2.2.2]
      exact if_pos hpC
    · rw [hf p hpp]
      exact h2.within.2 p fun h' => hpp ((h2.places.trans hp).mem_iff.1 h')

end Verif
