import Verif.Decomp.Graph
/-
C78: the components of a net.
-/
set_option linter.unusedSectionVars false
namespace Verif.Decomp
variable {ν : Type} [DecidableEq ν]

theorem edge_ends (N : PNet ν) : ∀ e ∈ graphEdges N, e.1 ∈ graphNodes N ∧ e.2 ∈ graphNodes N := by
  intro e he
  unfold graphNodes
  rw [mem_dedup, mem_dedup]
  constructor
  · exact List.mem_append_right _ (List.mem_flatMap.2 ⟨e, he, by simp⟩)
  · exact List.mem_append_right _ (List.mem_flatMap.2 ⟨e, he, by simp⟩)

theorem gc_perm (N : PNet ν) : (graphComponents N).flatten.Perm (graphNodes N) :=
  (components_ok _ _ (nodup_dedup _) (edge_ends N)).1

theorem gc_nodup (N : PNet ν) : (graphComponents N).flatten.Nodup := (gc_perm N).nodup_iff.2 (nodup_dedup _)

theorem gc_same (N : PNet ν) (x y : ν) (hx : x ∈ graphNodes N) (hy : y ∈ graphNodes N) :
    Same (graphComponents N) x y ↔ Relation.EqvGen (fun a b => (a, b) ∈ graphEdges N) x y :=
  (components_ok _ _ (nodup_dedup _) (edge_ends N)).2 x hx y hy

theorem gc_cover (N : PNet ν) {x : ν} (hx : x ∈ N.places ∨ x ∈ silent N) : ∃ cmp ∈ graphComponents N, x ∈ cmp := by
  have : x ∈ (graphComponents N).flatten := by
    rw [(gc_perm N).mem_iff, graphNodes, mem_dedup]
    simp only [List.mem_append]
    tauto
  obtain ⟨b, hb, h⟩ := List.mem_flatten.1 this
  exact ⟨b, hb, h⟩

theorem gc_unique (N : PNet ν) {b b' : List ν} (hb : b ∈ graphComponents N) (hb' : b' ∈ graphComponents N) {x : ν} (hx : x ∈ b) (hx' : x ∈ b') : b = b' :=
  same_unique (gc_nodup N) hb hb' hx hx'

theorem edge_same (N : PNet ν) {e : ν × ν} (he : e ∈ graphEdges N) {cmp : List ν} (hc : cmp ∈ graphComponents N) : e.1 ∈ cmp ↔ e.2 ∈ cmp := by
  obtain ⟨h1, h2⟩ := edge_ends N e he
  obtain ⟨b, hb, hx, hy⟩ := (gc_same N e.1 e.2 h1 h2).2 (.rel _ _ he)
  constructor
  · intro h; rw [gc_unique N hc hb h hx]; exact hy
  · intro h; rw [gc_unique N hc hb h hy]; exact hx

theorem arc_same (N : PNet ν) {a : Arc ν} (ha : a ∈ N.arcs) (ht : a.t ∈ silent N) {cmp : List ν} (hc : cmp ∈ graphComponents N) : a.p ∈ cmp ↔ a.t ∈ cmp := by
  have he : (if a.pt then (a.p, a.t) else (a.t, a.p)) ∈ graphEdges N := by
    unfold graphEdges
    refine List.mem_append_right _ (List.mem_map.2 ⟨a, List.mem_filter.2 ⟨ha, ?_⟩, rfl⟩)
    simp [inserted, ht]
  have := edge_same N he hc
  cases h : a.pt with
  | true => simpa [h] using this
  | false => simpa [h] using this.symm

theorem cmp_nodup (N : PNet ν) {cmp : List ν} (hc : cmp ∈ graphComponents N) : cmp.Nodup := by
  have h := gc_nodup N
  rw [List.nodup_flatten] at h
  exact h.1 cmp hc

theorem mem_compTrs (N : PNet ν) (cmp : List ν) (t : ν) : t ∈ compTrs N cmp ↔
    (t ∈ cmp ∧ t ∉ N.places ∧ t ∈ N.trs.map Tr.name) ∨ ∃ a ∈ N.arcs, a.p ∈ cmp ∧ a.p ∈ N.places ∧ a.t = t := by
  unfold compTrs
  rw [mem_dedup, List.mem_append, List.mem_filter, List.mem_flatMap]
  refine or_congr (by simp) ?_
  constructor
  · rintro ⟨p, hp, ht⟩
    obtain ⟨hp, hp'⟩ := List.mem_filter.1 hp
    have hp' := of_decide_eq_true hp'
    unfold around at ht
    rcases List.mem_append.1 ht with ht | ht <;>
    · obtain ⟨a, ha, rfl⟩ := List.mem_map.1 ht
      obtain ⟨ha', hd⟩ := List.mem_filter.1 ha
      have e := (of_decide_eq_true hd).1
      exact ⟨a, ha', e ▸ hp, e ▸ hp', rfl⟩
  · rintro ⟨a, ha, h1, h2, rfl⟩
    refine ⟨a.p, List.mem_filter.2 ⟨h1, by simpa using h2⟩, ?_⟩
    unfold around
    rw [List.mem_append]
    cases h : a.pt with
    | true => exact .inr (List.mem_map.2 ⟨a, List.mem_filter.2 ⟨ha, by simp [h]⟩, rfl⟩)
    | false => exact .inl (List.mem_map.2 ⟨a, List.mem_filter.2 ⟨ha, by simp [h]⟩, rfl⟩)

theorem silent_name {N : PNet ν} {t : ν} (h : t ∈ silent N) : t ∈ N.trs.map Tr.name := by
  obtain ⟨u, hu, rfl⟩ := List.mem_map.1 h
  exact List.mem_map.2 ⟨u, List.mem_of_mem_filter hu, rfl⟩

theorem names_disjoint {N : PNet ν} (h : Proper N) {t : ν} (ht : t ∈ N.trs.map Tr.name) : t ∉ N.places := by
  intro hp
  exact (List.disjoint_of_nodup_append h.names) hp ht

theorem silent_compTrs {N : PNet ν} (h : Proper N) {t : ν} (ht : t ∈ silent N) {cmp : List ν} (hc : cmp ∈ graphComponents N) :
    t ∈ compTrs N cmp ↔ t ∈ cmp := by
  rw [mem_compTrs]
  constructor
  · rintro (⟨h1, _⟩ | ⟨a, ha, h1, h2, rfl⟩)
    · exact h1
    · exact (arc_same N ha ht hc).1 h1
  · intro h1
    exact .inl ⟨h1, names_disjoint h (silent_name ht), silent_name ht⟩

theorem compTrs_sub {N : PNet ν} (h : Proper N) {cmp : List ν} {t : ν} (ht : t ∈ compTrs N cmp) : t ∈ N.trs.map Tr.name := by
  rw [mem_compTrs] at ht
  rcases ht with ⟨_, _, h1⟩ | ⟨a, ha, _, _, rfl⟩
  · exact h1
  · exact (h.arcs a ha).2

theorem compNet_names (N : ANet ν) (cmp : List ν) : (compNet N cmp).net.trs.map Tr.name = compTrs N.net cmp := by
  unfold compNet
  simp only [List.map_map]
  exact (List.map_congr_left fun x _ => rfl).trans (List.map_id _)

theorem mem_compNet_places (N : ANet ν) (cmp : List ν) (p : ν) : p ∈ (compNet N cmp).net.places ↔ p ∈ cmp ∧ p ∈ N.net.places := by
  unfold compNet
  simp [List.mem_filter]

theorem mem_decompose (N : ANet ν) (C : ANet ν) : C ∈ decompose N ↔
    ∃ cmp ∈ graphComponents N.net, compNet N cmp = C ∧ (C.net.places ≠ [] ∨ C.net.trs ≠ []) := by
  unfold decompose
  rw [List.mem_filter, List.mem_map]
  constructor
  · rintro ⟨⟨cmp, hc, rfl⟩, h⟩
    refine ⟨cmp, hc, rfl, ?_⟩
    have := of_decide_eq_true h
    rcases this with h | h
    · exact .inl (List.ne_nil_of_length_pos h)
    · exact .inr (List.ne_nil_of_length_pos h)
  · rintro ⟨cmp, hc, rfl, h⟩
    refine ⟨⟨cmp, hc, rfl⟩, decide_eq_true ?_⟩
    rcases h with h | h
    · exact .inl (List.length_pos_iff.2 h)
    · exact .inr (List.length_pos_iff.2 h)

theorem filter_or_perm {β : Type} (L : List β) (p q : β → Bool) (h : ∀ x ∈ L, ¬ (p x = true ∧ q x = true)) :
    (L.filter p ++ L.filter q).Perm (L.filter fun x => p x || q x) := by
  induction L with
  | nil => exact .refl _
  | cons x L ih =>
    have ih := ih fun y hy => h y (List.mem_cons_of_mem _ hy)
    have hx := h x (List.mem_cons_self ..)
    cases hp : p x <;> cases hq : q x
    · simpa [hp, hq] using ih
    · simp only [List.filter_cons, hp, hq, Bool.false_eq_true, if_false, if_true, Bool.or_true]
      exact List.perm_middle.trans (ih.cons x)
    · simp only [List.filter_cons, hp, hq, Bool.false_eq_true, if_false, if_true, Bool.or_false, List.cons_append]
      exact ih.cons x
    · exact absurd ⟨hp, hq⟩ hx

theorem placeArcs_perm {N : PNet ν} (hw : Unweighted N) (p : ν) : (placeArcs N p).Perm (N.arcs.filter fun a => decide (a.p = p)) := by
  unfold placeArcs
  have e : ∀ q : Arc ν → Bool, (N.arcs.filter q).map (fun a => ({ a with w := 1 } : Arc ν)) = N.arcs.filter q := by
    intro q
    conv_rhs => rw [← List.map_id (N.arcs.filter q)]
    apply List.map_congr_left
    intro a ha
    have := hw a (List.mem_of_mem_filter ha)
    cases a
    simp only at this
    subst this
    rfl
  rw [e, e]
  refine (filter_or_perm _ _ _ ?_).trans (List.Perm.of_eq ?_)
  · rintro a _ ⟨h1, h2⟩
    have h1 := of_decide_eq_true h1
    have h2 := of_decide_eq_true h2
    rw [h1.2] at h2
    exact absurd h2.2 (by simp)
  · apply List.filter_congr
    intro a _
    cases h : a.pt <;> simp

theorem flatMap_perm {N : PNet ν} (hw : Unweighted N) : ∀ ps : List ν, ps.Nodup →
    (ps.flatMap (placeArcs N)).Perm (N.arcs.filter fun a => decide (a.p ∈ ps)) := by
  intro ps
  induction ps with
  | nil => intro _; simp
  | cons p ps ih =>
    intro h
    obtain ⟨h1, h2⟩ := List.nodup_cons.1 h
    rw [List.flatMap_cons]
    refine ((placeArcs_perm hw p).append (ih h2)).trans ((filter_or_perm _ _ _ ?_).trans (List.Perm.of_eq ?_))
    · rintro a _ ⟨c1, c2⟩
      have c1 := of_decide_eq_true c1
      have c2 := of_decide_eq_true c2
      rw [c1] at c2
      exact h1 c2
    · apply List.filter_congr
      intro a _
      simp

theorem compNet_arcs {N : ANet ν} (hw : Unweighted N.net) {cmp : List ν} (hc : cmp ∈ graphComponents N.net) :
    (compNet N cmp).net.arcs.Perm (N.net.arcs.filter fun a => decide (a.p ∈ (compNet N cmp).net.places)) :=
  flatMap_perm hw _ ((cmp_nodup N.net hc).filter _)

theorem taken_comp {N : ANet ν} (hw : Unweighted N.net) {cmp : List ν} (hc : cmp ∈ graphComponents N.net) (p t : ν) :
    taken (compNet N cmp).net p t = if p ∈ (compNet N cmp).net.places then taken N.net p t else 0 := by
  unfold taken
  rw [(((compNet_arcs hw hc).filter _).map _).sum_eq, List.filter_filter]
  split
  · next h =>
    congr 2
    apply List.filter_congr
    intro a _
    by_cases hp : a.p = p
    · simp [hp, h]
    · simp [hp]
  · next h =>
    rw [List.filter_eq_nil_iff.2]
    · rfl
    · intro a _ hd
      simp only [Bool.and_eq_true, decide_eq_true_eq] at hd
      obtain ⟨⟨_, hp, _⟩, hd⟩ := hd
      rw [hp] at hd
      exact h hd

theorem given_comp {N : ANet ν} (hw : Unweighted N.net) {cmp : List ν} (hc : cmp ∈ graphComponents N.net) (p t : ν) :
    given (compNet N cmp).net p t = if p ∈ (compNet N cmp).net.places then given N.net p t else 0 := by
  unfold given
  rw [(((compNet_arcs hw hc).filter _).map _).sum_eq, List.filter_filter]
  split
  · next h =>
    congr 2
    apply List.filter_congr
    intro a _
    by_cases hp : a.p = p
    · simp [hp, h]
    · simp [hp]
  · next h =>
    rw [List.filter_eq_nil_iff.2]
    · rfl
    · intro a _ hd
      simp only [Bool.and_eq_true, decide_eq_true_eq] at hd
      obtain ⟨⟨_, hp, _⟩, hd⟩ := hd
      rw [hp] at hd
      exact h hd

theorem no_effect {N : ANet ν} {cmp : List ν} {p t : ν} (hp : p ∈ (compNet N cmp).net.places) (ht : t ∉ compTrs N.net cmp) :
    taken N.net p t = 0 ∧ given N.net p t = 0 := by
  rw [mem_compNet_places] at hp
  have key : ∀ a ∈ N.net.arcs, ¬ (a.p = p ∧ a.t = t) := by
    rintro a ha ⟨rfl, rfl⟩
    exact ht ((mem_compTrs _ _ _).2 (.inr ⟨a, ha, hp.1, hp.2, rfl⟩))
  constructor
  · unfold taken
    rw [List.filter_eq_nil_iff.2]
    · rfl
    · intro a ha hd
      exact key a ha (of_decide_eq_true hd).2
  · unfold given
    rw [List.filter_eq_nil_iff.2]
    · rfl
    · intro a ha hd
      exact key a ha (of_decide_eq_true hd).2

theorem labelOf_comp {N : ANet ν} {cmp : List ν} {t : ν} (ht : t ∈ compTrs N.net cmp) : labelOf (compNet N cmp).net t = labelOf N.net t := by
  have hf : ∀ l : List ν, t ∈ l → ((l.map fun n => (⟨n, labelOf N.net n⟩ : Tr ν)).find? fun u => decide (u.name = t)) = some ⟨t, labelOf N.net t⟩ := by
    intro l
    induction l with
    | nil => simp
    | cons x l ih =>
      intro h
      by_cases hx : x = t
      · subst hx; simp
      · rw [List.map_cons, List.find?_cons_of_neg (by simpa using hx)]
        exact ih (by simpa [Ne.symm hx] using h)
  show ((compNet N cmp).net.trs.find? fun u => decide (u.name = t)).bind Tr.label = _
  unfold compNet
  simp only
  rw [hf _ ht]
  rfl

theorem labelOf_mem {N : PNet ν} (h : Proper N) {u : Tr ν} (hu : u ∈ N.trs) : labelOf N u.name = u.label := by
  have hn : (N.trs.map Tr.name).Nodup := (List.nodup_append.1 h.names).2.1
  unfold labelOf
  have : ∀ l : List (Tr ν), (l.map Tr.name).Nodup → u ∈ l → (l.find? fun t => decide (t.name = u.name)) = some u := by
    intro l
    induction l with
    | nil => simp
    | cons x l ih =>
      intro hn hu
      rw [List.map_cons, List.nodup_cons] at hn
      rcases List.mem_cons.1 hu with rfl | hu
      · simp
      · have : x.name ≠ u.name := fun e => hn.1 (by rw [e]; exact List.mem_map_of_mem hu)
        rw [List.find?_cons_of_neg (by simpa using this)]
        exact ih hn.2 hu
  rw [this _ hn hu]
  rfl

theorem silent_iff {N : PNet ν} (h : Proper N) {t : ν} (ht : t ∈ N.trs.map Tr.name) : t ∈ silent N ↔ labelOf N t = none := by
  obtain ⟨u, hu, rfl⟩ := List.mem_map.1 ht
  rw [labelOf_mem h hu]
  unfold silent
  rw [List.mem_map]
  constructor
  · rintro ⟨v, hv, e⟩
    obtain ⟨hv, hl⟩ := List.mem_filter.1 hv
    rw [← labelOf_mem h hu, ← e, labelOf_mem h hv]
    exact of_decide_eq_true hl
  · intro hl
    exact ⟨u, List.mem_filter.2 ⟨hu, by simpa using hl⟩, rfl⟩

end Verif.Decomp
