import Verif.Ocel.Theorems
import Verif.Filter.Proofs
/-
C37: the filters of object-centric event logs keep exactly what they are documented to keep.
-/
set_option linter.unusedSectionVars false
namespace Verif.Ocel
open Dict Filter
variable {ε ο α θ π : Type} [DecidableEq ε] [LinearOrder ο] [DecidableEq α] [DecidableEq θ]

theorem keepsEvents_of (o : Ocel ε ο α θ π) (p : EvRow ε α π → Prop) (q : EvRow ε α π → Bool)
    (hq : ∀ e ∈ o.events, q e = true ↔ p e) : KeepsEvents p (propagateEvents { o with events := o.events.filter q }) o := by
  obtain ⟨-, h1, h2, h3, h4, h5, h6⟩ := C22_events_rows { o with events := o.events.filter q }
  have hI : ∀ i, IsEvent { o with events := o.events.filter q } i ↔ ∃ e ∈ o.events, p e ∧ e.id = i := by
    intro i
    constructor
    · rintro ⟨e, he, rfl⟩
      obtain ⟨h1, h2⟩ := List.mem_filter.1 he
      exact ⟨e, h1, (hq e h1).1 h2, rfl⟩
    · rintro ⟨e, he, hp, rfl⟩; exact ⟨e, List.mem_filter.2 ⟨he, (hq e he).2 hp⟩, rfl⟩
  have hR : ∀ x, (∃ e, IsEvent { o with events := o.events.filter q } e ∧ Related { o with events := o.events.filter q } e x) ↔
      ∃ e ∈ o.events, p e ∧ Related o e.id x := by
    intro x
    constructor
    · rintro ⟨i, hi, hr⟩; obtain ⟨e, he, hp, rfl⟩ := (hI i).1 hi; exact ⟨e, he, hp, hr⟩
    · rintro ⟨e, he, hp, hr⟩; exact ⟨e.id, (hI _).2 ⟨e, he, hp, rfl⟩, hr⟩
  exact {
    events := ⟨q, hq, h1⟩
    relations := h2.congr fun r _ => hI _
    objects := h3.congr fun x _ => hR _
    e2e := h4.congr fun r _ => and_congr (hI _) (hI _)
    o2o := h5.congr fun r _ => and_congr (hR _) (hR _)
    changes := h6.congr fun r _ => hR _
    consistent := fun h => (C22_events { o with events := o.events.filter q } h).1 }

theorem keepsObjects_of (o : Ocel ε ο α θ π) (p : ObRow ο θ π → Prop) (q : ObRow ο θ π → Bool)
    (hq : ∀ x ∈ o.objects, q x = true ↔ p x) : KeepsObjects p (propagateObjects { o with objects := o.objects.filter q }) o := by
  obtain ⟨-, h1, h2, h3, h4, h5, h6⟩ := C22_objects_rows { o with objects := o.objects.filter q }
  have hI : ∀ i, IsObject { o with objects := o.objects.filter q } i ↔ ∃ e ∈ o.objects, p e ∧ e.id = i := by
    intro i
    constructor
    · rintro ⟨e, he, rfl⟩
      obtain ⟨h1, h2⟩ := List.mem_filter.1 he
      exact ⟨e, h1, (hq e h1).1 h2, rfl⟩
    · rintro ⟨e, he, hp, rfl⟩; exact ⟨e, List.mem_filter.2 ⟨he, (hq e he).2 hp⟩, rfl⟩
  have hR : ∀ e, (∃ x, IsObject { o with objects := o.objects.filter q } x ∧ Related { o with objects := o.objects.filter q } e x) ↔
      ∃ x ∈ o.objects, p x ∧ Related o e x.id := by
    intro x
    constructor
    · rintro ⟨i, hi, hr⟩; obtain ⟨e, he, hp, rfl⟩ := (hI i).1 hi; exact ⟨e, he, hp, hr⟩
    · rintro ⟨e, he, hp, hr⟩; exact ⟨e.id, (hI _).2 ⟨e, he, hp, rfl⟩, hr⟩
  exact {
    objects := ⟨q, hq, h1⟩
    relations := h2.congr fun r _ => hI _
    events := h3.congr fun x _ => hR _
    e2e := h4.congr fun r _ => and_congr (hR _) (hR _)
    o2o := h5.congr fun r _ => and_congr (hI _) (hI _)
    changes := h6.congr fun r _ => hI _
    consistent := fun h => (C22_objects { o with objects := o.objects.filter q } h).1 }

theorem keepsRelations_of (o : Ocel ε ο α θ π) (p : RelRow ε ο α θ π → Prop) (q : RelRow ε ο α θ π → Bool)
    (hq : ∀ r ∈ o.relations, q r = true ↔ p r) :
    KeepsRelations p (propagateRelations { o with relations := o.relations.filter q }) o := by
  obtain ⟨-, h1, h2, h3, -, -, -⟩ := C22_relations_rows { o with relations := o.relations.filter q }
  refine ⟨?_, ?_, ?_, (C22_relations { o with relations := o.relations.filter q }).1⟩
  · obtain ⟨q', hq', he⟩ := h3
    refine ⟨fun r => q' r && q r, ?_, by rw [he, List.filter_filter]⟩
    intro r hr
    rw [Bool.and_eq_true]
    constructor
    · rintro ⟨ha, hb⟩
      exact ⟨(hq r hr).1 hb, (hq' r (List.mem_filter.2 ⟨hr, hb⟩)).1 ha⟩
    · rintro ⟨ha, hb⟩
      have := (hq r hr).2 ha
      exact ⟨(hq' r (List.mem_filter.2 ⟨hr, this⟩)).2 hb, this⟩
  · refine h1.congr fun e _ => ?_
    constructor
    · rintro ⟨x, r, hr, h, -⟩
      obtain ⟨ha, hb⟩ := List.mem_filter.1 hr
      exact ⟨r, ha, (hq r ha).1 hb, h⟩
    · rintro ⟨r, hr, hp, h⟩; exact ⟨r.ob, r, List.mem_filter.2 ⟨hr, (hq r hr).2 hp⟩, h, rfl⟩
  · refine h2.congr fun e _ => ?_
    constructor
    · rintro ⟨x, r, hr, -, h⟩
      obtain ⟨ha, hb⟩ := List.mem_filter.1 hr
      exact ⟨r, ha, (hq r ha).1 hb, h⟩
    · rintro ⟨r, hr, hp, h⟩; exact ⟨r.ev, r, List.mem_filter.2 ⟨hr, (hq r hr).2 hp⟩, rfl, h⟩

/-! the interaction graph -/

theorem mem_evObjs (o : Ocel ε ο α θ π) (c : ε × List ο) (hc : c ∈ evObjs o) (x : ο) : x ∈ c.2 ↔ Related o c.1 x := by
  simp only [evObjs, List.mem_map] at hc
  obtain ⟨e, -, rfl⟩ := hc
  simp only [List.mem_map, List.mem_filter, decide_eq_true_eq, Related]
  constructor
  · rintro ⟨r, ⟨h1, h2⟩, h3⟩; exact ⟨r, h1, h2, h3⟩
  · rintro ⟨r, h1, h2, h3⟩; exact ⟨r, ⟨h1, h2⟩, h3⟩

theorem mem_pairs (o : Ocel ε ο α θ π) (x y : ο) : (x, y) ∈ pairs o ↔ ∃ e, Related o e x ∧ Related o e y := by
  simp only [pairs, List.mem_flatMap, List.mem_map, Prod.mk.injEq]
  constructor
  · rintro ⟨c, hc, a, ha, b, hb, rfl, rfl⟩
    exact ⟨c.1, (mem_evObjs o c hc _).1 ha, (mem_evObjs o c hc _).1 hb⟩
  · rintro ⟨e, hx, hy⟩
    have he : e ∈ firstOcc (o.relations.map RelRow.ev) := by
      rw [firstOcc_mem]
      obtain ⟨r, hr, h, -⟩ := hx
      exact List.mem_map.2 ⟨r, hr, h⟩
    have hc : (e, (o.relations.filter fun r => decide (r.ev = e)).map RelRow.ob) ∈ evObjs o := List.mem_map.2 ⟨e, he, rfl⟩
    exact ⟨_, hc, x, (mem_evObjs o _ hc _).2 hx, y, (mem_evObjs o _ hc _).2 hy, rfl, rfl⟩

theorem foldlM_addPair (ps : List (ο × ο)) : ∀ g : Dict ο (List ο), (∀ p ∈ ps, p.1 ∈ keys g) →
    ∃ g', ps.foldlM addPair g = some g' ∧ (∀ x, x ∈ keys g' ↔ x ∈ keys g) ∧
      ∀ x s s', get? g x = some s → get? g' x = some s' → ∀ y, y ∈ s' ↔ y ∈ s ∨ (x ≠ y ∧ (x, y) ∈ ps) := by
  induction ps with
  | nil =>
    intro g _
    refine ⟨g, rfl, fun _ => Iff.rfl, ?_⟩
    intro x s s' h1 h2 y
    rw [h1] at h2; cases h2; simp
  | cons p ps ih =>
    intro g hg
    by_cases hp : p.1 = p.2
    · obtain ⟨g', h1, h2, h3⟩ := ih g fun q hq => hg q (List.mem_cons_of_mem _ hq)
      refine ⟨g', ?_, h2, ?_⟩
      · rw [List.foldlM_cons]; simp only [addPair, hp, ne_eq, not_true_eq_false, if_false]; exact h1
      · intro x s s' hs hs' y
        rw [h3 x s s' hs hs' y, List.mem_cons]
        constructor
        · rintro (h | ⟨ha, hb⟩); exacts [Or.inl h, Or.inr ⟨ha, Or.inr hb⟩]
        · rintro (h | ⟨ha, hb | hb⟩)
          · exact Or.inl h
          · exfalso; subst hb; exact ha hp
          · exact Or.inr ⟨ha, hb⟩
    · have hk := hg p (List.mem_cons_self ..)
      rw [mem_keys_iff, Option.isSome_iff_exists] at hk
      obtain ⟨s0, hs0⟩ := hk
      obtain ⟨g', h1, h2, h3⟩ := ih (Dict.set g p.1 (if p.2 ∈ s0 then s0 else s0 ++ [p.2])) fun q hq => by
        rw [keys_set]; exact Or.inr (hg q (List.mem_cons_of_mem _ hq))
      refine ⟨g', ?_, ?_, ?_⟩
      · rw [List.foldlM_cons]
        simp only [addPair, ne_eq, hp, not_false_eq_true, if_true, hs0]
        exact h1
      · intro x
        rw [h2, keys_set]
        constructor
        · rintro (rfl | h); exacts [hg p (List.mem_cons_self ..), h]
        · exact Or.inr
      · intro x s s' hs hs' y
        by_cases hx : p.1 = x
        · subst hx
          rw [hs0] at hs; cases hs
          rw [h3 p.1 _ s' (by rw [get?_set, if_pos rfl]) hs' y, List.mem_cons]
          have : (p.1, y) = p ↔ y = p.2 := by
            constructor
            · intro h; rw [← h]
            · rintro rfl; rfl
          rw [this]
          have hm : y ∈ (if p.2 ∈ s0 then s0 else s0 ++ [p.2]) ↔ y ∈ s0 ∨ y = p.2 := by
            by_cases h : p.2 ∈ s0
            · rw [if_pos h]; constructor
              · exact Or.inl
              · rintro (h' | rfl); exacts [h', h]
            · rw [if_neg h, List.mem_append, List.mem_singleton]
          rw [hm]
          constructor
          · rintro ((h | rfl) | ⟨ha, hb⟩)
            · exact Or.inl h
            · exact Or.inr ⟨hp, Or.inl rfl⟩
            · exact Or.inr ⟨ha, Or.inr hb⟩
          · rintro (h | ⟨ha, rfl | hb⟩)
            · exact Or.inl (Or.inl h)
            · exact Or.inl (Or.inr rfl)
            · exact Or.inr ⟨ha, hb⟩
        · rw [h3 x s s' (by rw [get?_set, if_neg (by grind)]; exact hs) hs' y, List.mem_cons]
          constructor
          · rintro (h | ⟨ha, hb⟩); exacts [Or.inl h, Or.inr ⟨ha, Or.inr hb⟩]
          · rintro (h | ⟨ha, rfl | hb⟩)
            · exact Or.inl h
            · exact absurd rfl hx
            · exact Or.inr ⟨ha, hb⟩

theorem objGraph_spec (o : Ocel ε ο α θ π) (h : ∀ r ∈ o.relations, IsObject o r.ob) :
    ∃ g, objGraph o = some g ∧ (∀ x, IsObject o x → ∃ s, get? g x = some s) ∧
      ∀ x s, get? g x = some s → IsObject o x ∧ ∀ y, y ∈ s ↔ Interact o x y := by
  have hkeys : ∀ x, x ∈ keys ((firstOcc (o.objects.map ObRow.id)).map fun x => (x, ([] : List ο))) ↔ IsObject o x := by
    intro x
    simp only [keys, List.map_map, List.mem_map, Function.comp, firstOcc_mem, IsObject]
    grind
  have hrel : ∀ x e, Related o e x → IsObject o x := by
    rintro x e ⟨r, hr, -, rfl⟩; exact h r hr
  obtain ⟨g, h1, h2, h3⟩ := foldlM_addPair (pairs o) ((firstOcc (o.objects.map ObRow.id)).map fun x => (x, [])) fun p hp => by
    rw [hkeys]
    obtain ⟨e, he, -⟩ := (mem_pairs o p.1 p.2).1 hp
    exact hrel _ _ he
  refine ⟨g, h1, ?_, ?_⟩
  · intro x hx
    rw [← Option.isSome_iff_exists, ← mem_keys_iff, h2, hkeys]; exact hx
  · intro x s hs
    have hx : IsObject o x := by
      rw [← hkeys, ← h2, mem_keys_iff, hs]; rfl
    refine ⟨hx, fun y => ?_⟩
    have h0 : get? ((firstOcc (o.objects.map ObRow.id)).map fun x => (x, ([] : List ο))) x = some [] := by
      have := (hkeys x).2 hx
      rw [mem_keys_iff, Option.isSome_iff_exists] at this
      obtain ⟨v, hv⟩ := this
      have hm := mem_of_get? hv
      simp only [List.mem_map, Prod.mk.injEq] at hm
      obtain ⟨_, _, _, rfl⟩ := hm
      exact hv
    rw [h3 x [] s h0 hs y, mem_pairs]
    simp [Interact]

theorem foldlM_expand (g : Dict ο (List ο)) (ids : List ο) : ∀ acc : List ο, (∀ i ∈ ids, ∃ s, get? g i = some s) →
    ∃ r, ids.foldlM (fun acc el => (get? g el).map fun s => acc ++ s) acc = some r ∧
      ∀ y, y ∈ r ↔ y ∈ acc ∨ ∃ i ∈ ids, ∃ s, get? g i = some s ∧ y ∈ s := by
  induction ids with
  | nil => intro acc _; exact ⟨acc, rfl, by simp⟩
  | cons i ids ih =>
    intro acc h
    obtain ⟨s, hs⟩ := h i (List.mem_cons_self ..)
    obtain ⟨r, h1, h2⟩ := ih (acc ++ s) fun j hj => h j (List.mem_cons_of_mem _ hj)
    refine ⟨r, ?_, ?_⟩
    · rw [List.foldlM_cons, hs]; exact h1
    · intro y
      rw [h2 y, List.mem_append]
      constructor
      · rintro ((h | h) | ⟨j, hj, t, ht, hy⟩)
        · exact Or.inl h
        · exact Or.inr ⟨i, List.mem_cons_self .., s, hs, h⟩
        · exact Or.inr ⟨j, List.mem_cons_of_mem _ hj, t, ht, hy⟩
      · rintro (h | ⟨j, hj, t, ht, hy⟩)
        · exact Or.inl (Or.inl h)
        · rcases List.mem_cons.1 hj with rfl | hj
          · rw [hs] at ht; cases ht; exact Or.inl (Or.inr hy)
          · exact Or.inr ⟨j, hj, t, ht, hy⟩

theorem Within.mono {o : Ocel ε ο α θ π} {n : Nat} {x y : ο} (h : Within o n x y) : ∀ m, n ≤ m → Within o m x y := by
  induction h with
  | refl n x => intro m _; exact .refl m x
  | step h1 h2 ih =>
    intro m hm
    obtain ⟨k, rfl⟩ : ∃ k, m = k + 1 := ⟨m - 1, by omega⟩
    exact .step (ih k (by omega)) h2

theorem Within.head {o : Ocel ε ο α θ π} {n : Nat} {y z : ο} (h : Within o n y z) : ∀ {x}, Interact o x y → Within o (n + 1) x z := by
  induction h with
  | refl n y => intro x hx; exact .step (.refl n x) hx
  | step h1 h2 ih => intro x hx; exact .step (ih hx) h2

theorem Within.succ_iff {o : Ocel ε ο α θ π} {n : Nat} {x z : ο} :
    Within o (n + 1) x z ↔ Within o n x z ∨ ∃ y, Interact o x y ∧ Within o n y z := by
  constructor
  · generalize hm : n + 1 = m
    intro h
    induction h generalizing n with
    | refl m x => exact Or.inl (.refl n x)
    | @step k x y z h1 h2 ih =>
      obtain rfl : n = k := by omega
      cases n with
      | zero =>
        cases h1 with
        | refl => exact Or.inr ⟨z, h2, .refl _ _⟩
      | succ n =>
        rcases ih rfl with h | ⟨w, hw, h⟩
        · exact Or.inl (.step h h2)
        · exact Or.inr ⟨w, hw, .step h h2⟩
  · rintro (h | ⟨y, hy, h⟩)
    · exact h.mono _ (by omega)
    · exact h.head hy

theorem expandN_spec (o : Ocel ε ο α θ π) (g : Dict ο (List ο)) (hg : ∀ x, IsObject o x → ∃ s, get? g x = some s)
    (hrel : ∀ r ∈ o.relations, IsObject o r.ob)
    (hs : ∀ x s, get? g x = some s → ∀ y, y ∈ s ↔ Interact o x y) (n : Nat) : ∀ ids : List ο, (∀ i ∈ ids, IsObject o i) →
    ∃ r, expandN g n ids = some r ∧ ∀ y, y ∈ r ↔ ∃ i ∈ ids, Within o n i y := by
  induction n with
  | zero =>
    intro ids _
    refine ⟨ids, rfl, fun y => ⟨fun h => ⟨y, h, .refl _ _⟩, ?_⟩⟩
    rintro ⟨i, hi, h⟩
    cases h; exact hi
  | succ n ih =>
    intro ids hids
    obtain ⟨r, h1, h2⟩ := foldlM_expand g ids ids fun i hi => hg i (hids i hi)
    have hr : ∀ y ∈ r, IsObject o y := by
      intro y hy
      rcases (h2 y).1 hy with h | ⟨i, hi, s, hsi, hys⟩
      · exact hids y h
      · obtain ⟨-, e, -, q, hq, -, rfl⟩ := (hs i s hsi y).1 hys
        exact hrel q hq
    obtain ⟨r', h3, h4⟩ := ih r hr
    refine ⟨r', ?_, ?_⟩
    · rw [expandN, expand, h1]; exact h3
    · intro y
      rw [h4 y]
      constructor
      · rintro ⟨i, hi, hw⟩
        rcases (h2 i).1 hi with h | ⟨j, hj, s, hsj, his⟩
        · exact ⟨i, h, hw.mono _ (by omega)⟩
        · exact ⟨j, hj, hw.head ((hs j s hsj i).1 his)⟩
      · rintro ⟨i, hi, hw⟩
        rcases Within.succ_iff.1 hw with h | ⟨w, h, h'⟩
        · exact ⟨i, (h2 i).2 (Or.inl hi), h⟩
        · obtain ⟨s, hsi⟩ := hg i (hids i hi)
          exact ⟨w, (h2 w).2 (Or.inr ⟨i, hi, s, hsi, (hs i s hsi w).2 h⟩), h'⟩

theorem filterBy_keeps {ν : Type} [DecidableEq ν] (attr : ObRow ο θ π → ν) (values : List ν) (positive : Bool) (o : Ocel ε ο α θ π) :
    KeepsObjects (fun x => attr x ∈ values ↔ positive = true) (filterObjectsBy attr values positive o) o := by
  unfold filterObjectsBy
  cases positive
  · simp only [Bool.false_eq_true, if_false]
    exact keepsObjects_of o _ _ fun x _ => by simp
  · simp only [if_true]
    exact keepsObjects_of o _ _ fun x _ => by simp

theorem KeepsObjects.congr {p p' : ObRow ο θ π → Prop} {o' o : Ocel ε ο α θ π} (h : KeepsObjects p o' o) (hp : ∀ x ∈ o.objects, p x ↔ p' x) :
    KeepsObjects p' o' o := by
  have e1 : ∀ q : ObRow ο θ π → Prop, (∃ x ∈ o.objects, p x ∧ q x) ↔ ∃ x ∈ o.objects, p' x ∧ q x := by
    intro q
    constructor
    · rintro ⟨x, hx, h1, h2⟩; exact ⟨x, hx, (hp x hx).1 h1, h2⟩
    · rintro ⟨x, hx, h1, h2⟩; exact ⟨x, hx, (hp x hx).2 h1, h2⟩
  exact {
    objects := h.objects.congr hp
    relations := h.relations.congr fun r _ => e1 _
    events := h.events.congr fun r _ => e1 _
    e2e := h.e2e.congr fun r _ => and_congr (e1 _) (e1 _)
    o2o := h.o2o.congr fun r _ => and_congr (e1 _) (e1 _)
    changes := h.changes.congr fun r _ => e1 _
    consistent := h.consistent }

/-! connected components -/

theorem mem_graph (o : Ocel ε ο α θ π) (x y : ο) : ((x, y) ∈ interactionGraph o ∨ (y, x) ∈ interactionGraph o) ↔ Interact o x y := by
  simp only [interactionGraph, List.mem_filter, decide_eq_true_eq, mem_pairs, Interact]
  constructor
  · rintro (⟨⟨e, h1, h2⟩, h⟩ | ⟨⟨e, h1, h2⟩, h⟩)
    · exact ⟨ne_of_lt h, e, h1, h2⟩
    · exact ⟨(ne_of_lt h).symm, e, h2, h1⟩
  · rintro ⟨hne, e, h1, h2⟩
    rcases lt_or_gt_of_ne hne with h | h
    · exact Or.inl ⟨⟨e, h1, h2⟩, h⟩
    · exact Or.inr ⟨⟨e, h2, h1⟩, h⟩

theorem connected_iff (o : Ocel ε ο α θ π) (x y : ο) :
    Relation.ReflTransGen (fun a b => (a, b) ∈ interactionGraph o ∨ (b, a) ∈ interactionGraph o) x y ↔ Connected o x y := by
  constructor
  · intro h
    induction h with
    | refl => exact ⟨0, .refl _ _⟩
    | tail _ h2 ih => obtain ⟨n, hn⟩ := ih; exact ⟨n + 1, .step hn ((mem_graph o _ _).1 h2)⟩
  · rintro ⟨n, h⟩
    induction h with
    | refl => exact .refl
    | step _ h2 ih => exact .tail ih ((mem_graph o _ _).2 h2)

theorem Connected.trans {o : Ocel ε ο α θ π} {x y z : ο} (h1 : Connected o x y) (h2 : Connected o y z) : Connected o x z := by
  obtain ⟨n, h2⟩ := h2
  induction h2 with
  | refl => exact h1
  | step _ h ih => obtain ⟨k, hk⟩ := ih h1; exact ⟨k + 1, .step hk h⟩

theorem Interact.symm {o : Ocel ε ο α θ π} {x y : ο} (h : Interact o x y) : Interact o y x := by
  obtain ⟨h1, e, h2, h3⟩ := h; exact ⟨h1.symm, e, h3, h2⟩

theorem Connected.symm {o : Ocel ε ο α θ π} {x y : ο} (h : Connected o x y) : Connected o y x := by
  obtain ⟨n, h⟩ := h
  induction h with
  | refl => exact ⟨0, .refl _ _⟩
  | step _ h ih => exact Connected.trans ⟨1, .step (.refl 0 _) h.symm⟩ ih

theorem Connected.isolated {o : Ocel ε ο α θ π} {x y : ο} (h : Connected o x y) (hx : ∀ z, ¬ Interact o x z) : y = x := by
  obtain ⟨n, h⟩ := h
  induction h with
  | refl => rfl
  | step _ h ih => have := ih hx; subst this; exact absurd h (hx _)

theorem vertex_iff (o : Ocel ε ο α θ π) (x : ο) : (∃ e ∈ interactionGraph o, e.1 = x ∨ e.2 = x) ↔ ∃ y, Interact o x y := by
  constructor
  · rintro ⟨⟨a, b⟩, he, rfl | rfl⟩
    · exact ⟨b, (mem_graph o _ _).1 (Or.inl he)⟩
    · exact ⟨a, (mem_graph o _ _).1 (Or.inr he)⟩
  · rintro ⟨y, h⟩
    rcases (mem_graph o _ _).2 h with h | h
    · exact ⟨_, h, Or.inl rfl⟩
    · exact ⟨_, h, Or.inr rfl⟩

end Verif.Ocel
