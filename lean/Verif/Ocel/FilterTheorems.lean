import Verif.Ocel.Filters
import Mathlib.Data.Set.Finite.List
/-
C37: the filters of object-centric event logs keep exactly what they are documented to keep, and where they do not.
-/
set_option linter.unusedSectionVars false
namespace Verif
open Dict Filter Ocel
variable {ε ο α θ π : Type} [DecidableEq ε] [LinearOrder ο] [DecidableEq α] [DecidableEq θ]

/-- Filtering on an event attribute (activity, identifier, ...) keeps exactly the events whose value is among the given
ones (`positive`), or exactly the others. -/
theorem C37_event_attribute {ν : Type} [DecidableEq ν] (attr : EvRow ε α π → ν) (values : List ν) (positive : Bool) (o : Ocel ε ο α θ π) :
    KeepsEvents (fun e => attr e ∈ values ↔ positive = true) (filterEvents attr values positive o) o := by
  unfold filterEvents
  cases positive
  · simp only [Bool.false_eq_true, if_false]
    exact keepsEvents_of o _ _ fun x _ => by simp
  · simp only [if_true]
    exact keepsEvents_of o _ _ fun x _ => by simp

/-- Filtering on the timestamp keeps exactly the events in the closed interval. -/
theorem C37_timestamp (lo hi : Int) (o : Ocel ε ο α θ π) :
    KeepsEvents (fun e => lo ≤ e.time ∧ e.time ≤ hi) (filterTimestamp lo hi o) o := by
  unfold filterTimestamp
  rw [List.filter_filter]
  exact keepsEvents_of o _ _ fun x _ => by simp [and_comm]

/-- Filtering on an object attribute keeps exactly the objects whose value is among the given ones, or exactly the others. -/
theorem C37_object_attribute {ν : Type} [DecidableEq ν] (attr : ObRow ο θ π → ν) (values : List ν) (positive : Bool) (o : Ocel ε ο α θ π) :
    KeepsObjects (fun x => attr x ∈ values ↔ positive = true) (filterObjectsBy attr values positive o) o :=
  filterBy_keeps attr values positive o

/-- `filter_ocel_objects(ids, level)`: on a log whose relations refer to its objects, and for objects of the log, keeps
exactly the objects at most `level - 1` interactions away from one of `ids` (or exactly the others). -/
theorem C37_objects_level (ids : List ο) (positive : Bool) (level : Nat) (hl : 1 ≤ level) (o : Ocel ε ο α θ π)
    (hrel : ∀ r ∈ o.relations, IsObject o r.ob) (hids : ∀ i ∈ ids, IsObject o i) :
    ∃ o', filterObjects ids positive level o = some o' ∧
      KeepsObjects (fun x => (∃ i ∈ ids, Within o (level - 1) i x.id) ↔ positive = true) o' o := by
  unfold filterObjects
  by_cases h : level > 1
  · obtain ⟨g, h1, h2, h3⟩ := objGraph_spec o hrel
    obtain ⟨r, h4, h5⟩ := expandN_spec o g h2 hrel (fun x s hs => (h3 x s hs).2) (level - 1) ids hids
    refine ⟨filterObjectsBy ObRow.id r positive o, ?_, ?_⟩
    · rw [if_pos h, h1]; simp [h4]
    · exact (filterBy_keeps ObRow.id r positive o).congr fun x _ => by rw [h5]
  · obtain rfl : level = 1 := by omega
    refine ⟨_, if_neg h, (filterBy_keeps ObRow.id ids positive o).congr fun x _ => ?_⟩
    have : (∃ i ∈ ids, Within o (1 - 1) i x.id) ↔ x.id ∈ ids := by
      constructor
      · rintro ⟨i, hi, hw⟩; cases hw; exact hi
      · intro h; exact ⟨_, h, .refl _ _⟩
    rw [this]

/-- At level 1 unknown identifiers are ignored; at higher levels they raise a `KeyError`. -/
theorem C37_objects_level_refuted :
    ¬ ∀ (ids : List Nat) (level : Nat) (o : Ocel Nat Nat Nat Nat Unit), Consistent o → ∃ o', filterObjects ids true level o = some o' := by
  intro h
  obtain ⟨o', h'⟩ := h [3] 2 ⟨[], [], [], [], [], []⟩ (by constructor <;> simp)
  simp [filterObjects, objGraph, pairs, evObjs, firstOcc, expandN, expand, Dict.get?] at h'

/-- `filter_ocel_object_types(types, level)`: exactly the objects at most `level - 1` interactions away from an object of
one of the types (or exactly the others). -/
theorem C37_types_level (types : List θ) (positive : Bool) (level : Nat) (hl : 1 ≤ level) (o : Ocel ε ο α θ π)
    (hrel : ∀ r ∈ o.relations, IsObject o r.ob) (huniq : ∀ x ∈ o.objects, ∀ y ∈ o.objects, x.id = y.id → x.type = y.type) :
    ∃ o', filterTypes types positive level o = some o' ∧
      KeepsObjects (fun x => (∃ i ∈ o.objects, i.type ∈ types ∧ Within o (level - 1) i.id x.id) ↔ positive = true) o' o := by
  unfold filterTypes
  by_cases h : level = 1
  · refine ⟨_, if_pos h, (filterBy_keeps ObRow.type types positive o).congr fun x hx => ?_⟩
    subst h
    have : (∃ i ∈ o.objects, i.type ∈ types ∧ Within o (1 - 1) i.id x.id) ↔ x.type ∈ types := by
      constructor
      · rintro ⟨i, hi, ht, hw⟩
        have he : x.id = i.id := by
          generalize hz : x.id = z at hw
          generalize hw' : i.id = w at hw
          cases hw; rfl
        rw [huniq x hx i hi he]; exact ht
      · intro h; exact ⟨x, hx, h, .refl _ _⟩
    rw [this]
  · obtain ⟨o', h1, h2⟩ := C37_objects_level ((o.objects.filter fun x : ObRow ο θ π => decide (x.type ∈ types)).map ObRow.id) positive level hl o hrel (by
      intro i hi
      obtain ⟨x, hx, rfl⟩ := List.mem_map.1 hi
      exact ⟨x, (List.mem_filter.1 hx).1, rfl⟩)
    refine ⟨o', by rw [if_neg h, h1], h2.congr fun x _ => ?_⟩
    simp only [List.mem_map, List.mem_filter, decide_eq_true_eq]
    have : (∃ i, (∃ a, (a ∈ o.objects ∧ a.type ∈ types) ∧ a.id = i) ∧ Within o (level - 1) i x.id) ↔
        ∃ i ∈ o.objects, i.type ∈ types ∧ Within o (level - 1) i.id x.id := by
      constructor
      · rintro ⟨_, ⟨a, ⟨h1, h2⟩, rfl⟩, h3⟩; exact ⟨a, h1, h2, h3⟩
      · rintro ⟨a, h1, h2, h3⟩; exact ⟨_, ⟨a, ⟨h1, h2⟩, rfl⟩, h3⟩
    rw [this]

/-! connected components; `comps` is the result of networkx, of which the contract `IsComponents` is assumed -/

/-- `object_interaction_graph`: an edge for each two different objects of a common event, the smaller first. -/
theorem C37_interaction_graph (o : Ocel ε ο α θ π) (x y : ο) : (x, y) ∈ interactionGraph o ↔ x < y ∧ Interact o x y := by
  rw [interactionGraph, List.mem_filter, mem_pairs, decide_eq_true_eq]
  constructor
  · rintro ⟨h, h'⟩; exact ⟨h', ne_of_lt h', h⟩
  · rintro ⟨h', -, h⟩; exact ⟨h, h'⟩

/-- The contract can always be met: every interaction graph has its components. -/
theorem C37_components_exist (edges : List (ο × ο)) : ∃ comps, IsComponents edges comps := by
  classical
  let V := firstOcc (edges.map Prod.fst ++ edges.map Prod.snd)
  have hV : ∀ x, x ∈ V ↔ ∃ e ∈ edges, e.1 = x ∨ e.2 = x := by
    intro x
    simp only [V, firstOcc_mem, List.mem_append, List.mem_map]
    constructor
    · rintro (⟨e, he, h⟩ | ⟨e, he, h⟩); exacts [⟨e, he, Or.inl h⟩, ⟨e, he, Or.inr h⟩]
    · rintro ⟨e, he, h | h⟩; exacts [Or.inl ⟨e, he, h⟩, Or.inr ⟨e, he, h⟩]
  let R : ο → ο → Prop := fun a b => (a, b) ∈ edges ∨ (b, a) ∈ edges
  have hsymm : ∀ {a b}, Relation.ReflTransGen R a b → Relation.ReflTransGen R b a := by
    intro a b h
    induction h with
    | refl => exact .refl
    | tail _ h ih => exact .head h.symm ih
  have hVR : ∀ {a b}, a ∈ V → Relation.ReflTransGen R a b → b ∈ V := by
    intro a b ha h
    induction h with
    | refl => exact ha
    | tail _ h _ =>
      rw [hV]
      rcases h with h | h
      · exact ⟨_, h, Or.inr rfl⟩
      · exact ⟨_, h, Or.inl rfl⟩
  refine ⟨V.map fun x => V.filter fun y => decide (Relation.ReflTransGen R x y), ?_, ?_, ?_, ?_⟩
  · intro c hc x hx y
    obtain ⟨v, hv, rfl⟩ := List.mem_map.1 hc
    simp only [List.mem_filter, decide_eq_true_eq] at hx ⊢
    constructor
    · rintro ⟨_, hy⟩; exact (hsymm hx.2).trans hy
    · intro h; exact ⟨hVR hx.1 h, hx.2.trans h⟩
  · intro x
    rw [← hV]
    constructor
    · rintro ⟨c, hc, hx⟩
      obtain ⟨v, hv, rfl⟩ := List.mem_map.1 hc
      exact (List.mem_filter.1 hx).1
    · intro hx
      exact ⟨_, List.mem_map.2 ⟨x, hx, rfl⟩, List.mem_filter.2 ⟨hx, by simp [Relation.ReflTransGen.refl]⟩⟩
  · intro c hc
    obtain ⟨v, hv, rfl⟩ := List.mem_map.1 hc
    exact (firstOcc_nodup _).filter _
  · intro c hc
    obtain ⟨v, hv, rfl⟩ := List.mem_map.1 hc
    apply List.ne_nil_of_mem (a := v)
    exact List.mem_filter.2 ⟨hv, by simp [Relation.ReflTransGen.refl]⟩

theorem Ocel.mem_comp {o : Ocel ε ο α θ π} {comps : List (List ο)} (h : IsComponents (interactionGraph o) comps) {c : List ο} (hc : c ∈ comps)
    {x : ο} (hx : x ∈ c) (y : ο) : y ∈ c ↔ Connected o x y := by
  rw [h.closed c hc x hx y, connected_iff]

/-- `filter_ocel_cc_object(x)` keeps exactly the objects connected to `x` by a chain of interactions. -/
theorem C37_cc_object (o : Ocel ε ο α θ π) (comps : List (List ο)) (h : IsComponents (interactionGraph o) comps) (x : ο) :
    KeepsObjects (fun y => Connected o x y.id) (ccObject comps x o) o := by
  unfold ccObject
  cases hf : comps.find? fun c => decide (x ∈ c) with
  | some c =>
    have hx : x ∈ c := by simpa using List.find?_some hf
    refine (filterBy_keeps ObRow.id c true o).congr fun y _ => ?_
    rw [mem_comp h (List.mem_of_find?_eq_some hf) hx]; simp
  | none =>
    refine (filterBy_keeps ObRow.id [x] true o).congr fun y _ => ?_
    have hno : ∀ z, ¬ Interact o x z := by
      intro z hz
      obtain ⟨c, hc, hx⟩ := (h.vertices x).2 ((vertex_iff o x).2 ⟨z, hz⟩)
      have := List.find?_eq_none.1 hf c hc
      simp [hx] at this
    simp only [List.mem_singleton, iff_true]
    constructor
    · intro he; rw [he]; exact ⟨0, .refl _ _⟩
    · intro hc; exact hc.isolated hno

/-- the components with a property `p`, for the filters below -/
theorem Ocel.keeps_comps (o : Ocel ε ο α θ π) (comps : List (List ο)) (h : IsComponents (interactionGraph o) comps) (p : List ο → Bool)
    (q : ο → Prop) (hq : ∀ c ∈ comps, ∀ x ∈ c, p c = true ↔ q x) :
    KeepsObjects (fun x => (∃ y, Interact o x.id y) ∧ q x.id) (filterObjectsBy ObRow.id (comps.filter p).flatten true o) o := by
  refine (filterBy_keeps ObRow.id _ true o).congr fun x _ => ?_
  rw [← vertex_iff, ← h.vertices]
  simp only [List.mem_flatten, List.mem_filter, iff_true]
  constructor
  · rintro ⟨c, ⟨h1, h2⟩, h3⟩; exact ⟨⟨c, h1, h3⟩, (hq c h1 _ h3).1 h2⟩
  · rintro ⟨⟨c, h1, h3⟩, h2⟩; exact ⟨c, ⟨h1, (hq c h1 _ h3).2 h2⟩, h3⟩

/-- `filter_ocel_cc_length(lo, hi)` keeps exactly the objects that interact with another one and are connected to at least
`lo` and at most `hi` objects (themselves included). -/
theorem C37_cc_length (o : Ocel ε ο α θ π) (comps : List (List ο)) (h : IsComponents (interactionGraph o) comps) (lo hi : Nat) :
    KeepsObjects (fun x => (∃ y, Interact o x.id y) ∧
      ∃ c : List ο, c.Nodup ∧ (∀ y, y ∈ c ↔ Connected o x.id y) ∧ lo ≤ c.length ∧ c.length ≤ hi) (ccLength comps lo hi o) o := by
  refine keeps_comps o comps h _ (fun x => ∃ c : List ο, c.Nodup ∧ (∀ y, y ∈ c ↔ Connected o x y) ∧ lo ≤ c.length ∧ c.length ≤ hi) ?_
  intro c hc x hx
  rw [Bool.and_eq_true, decide_eq_true_eq, decide_eq_true_eq]
  constructor
  · intro hl; exact ⟨c, h.nodup c hc, fun y => mem_comp h hc hx y, hl⟩
  · rintro ⟨c', hn, hm, hl⟩
    have : c.length = c'.length := by
      apply List.Perm.length_eq
      rw [List.perm_ext_iff_of_nodup (h.nodup c hc) hn]
      intro y; rw [hm, mem_comp h hc hx]
    rw [this]; exact hl

/-- `filter_ocel_cc_otype(t)` keeps exactly the objects that interact with another one and are connected to an object of
type `t` (`positive = False`: to an object of another type). -/
theorem C37_cc_otype (o : Ocel ε ο α θ π) (comps : List (List ο)) (h : IsComponents (interactionGraph o) comps) (t : θ) (positive : Bool) :
    KeepsObjects (fun x => (∃ y, Interact o x.id y) ∧ ∃ y ∈ o.objects, Connected o x.id y.id ∧ (y.type = t ↔ positive = true))
      (ccOtype comps t positive o) o := by
  refine keeps_comps o comps h _ (fun x => ∃ y ∈ o.objects, Connected o x y.id ∧ (y.type = t ↔ positive = true)) ?_
  intro c hc x hx
  simp only [List.any_eq_true, decide_eq_true_eq, List.mem_map, List.mem_filter]
  have hb : ∀ y : ObRow ο θ π, ((if positive = true then decide (y.type = t) else !decide (y.type = t)) = true) ↔ (y.type = t ↔ positive = true) := by
    intro y; cases positive <;> simp
  simp only [hb]
  constructor
  · rintro ⟨z, hz, y, ⟨h1, h2⟩, rfl⟩; exact ⟨y, h1, (mem_comp h hc hx _).1 hz, h2⟩
  · rintro ⟨y, h1, h2, h3⟩; exact ⟨y.id, (mem_comp h hc hx _).2 h2, y, ⟨h1, h3⟩, rfl⟩

/-- `filter_ocel_cc_activity(a)` keeps exactly the objects that interact with another one and are connected to an object
related to an event with activity `a`. -/
theorem C37_cc_activity (o : Ocel ε ο α θ π) (comps : List (List ο)) (h : IsComponents (interactionGraph o) comps) (a : α) :
    KeepsObjects (fun x => (∃ y, Interact o x.id y) ∧ ∃ y, Connected o x.id y ∧ ∃ e ∈ o.events, e.act = a ∧ Related o e.id y)
      (ccActivity comps a o) o := by
  refine keeps_comps o comps h _ (fun x => ∃ y, Connected o x y ∧ ∃ e ∈ o.events, e.act = a ∧ Related o e.id y) ?_
  intro c hc x hx
  simp only [List.any_eq_true, decide_eq_true_eq, List.mem_map, List.mem_filter]
  constructor
  · rintro ⟨z, hz, r, ⟨h1, e, ⟨h2, h3⟩, h4⟩, rfl⟩
    exact ⟨_, (mem_comp h hc hx _).1 hz, e, h2, h3, r, h1, h4.symm, rfl⟩
  · rintro ⟨y, h1, e, h2, h3, r, h4, h5, h6⟩
    exact ⟨y, (mem_comp h hc hx _).2 h1, r, ⟨h4, e, ⟨h2, h3⟩, h5.symm⟩, h6⟩

namespace OcelExamples
/-- two objects of type 7 and 8 share event 1; the object 12 (type 8) is alone in event 3 -/
def o2 : Ocel Nat Nat Nat Nat Unit where
  events := [⟨1, 100, 0, ()⟩, ⟨2, 101, 5, ()⟩, ⟨3, 101, 6, ()⟩]
  objects := [⟨10, 7, ()⟩, ⟨11, 8, ()⟩, ⟨12, 8, ()⟩]
  relations := [⟨1, 100, 10, 7, ()⟩, ⟨1, 100, 11, 8, ()⟩, ⟨2, 101, 10, 7, ()⟩, ⟨3, 101, 12, 8, ()⟩]
  e2e := []
  o2o := []
  changes := []

example : Consistent o2 := by constructor <;> simp [o2, IsEvent, IsObject]
theorem graph_o2 : interactionGraph o2 = [(10, 11)] := by decide
/-- the component of this log, as networkx returns it -/
theorem comps_o2 : IsComponents (interactionGraph o2) [[11, 10]] := by
  rw [graph_o2]
  have step : ∀ a b : Nat, ((a, b) ∈ [(10, 11)] ∨ (b, a) ∈ [(10, 11)]) ↔ (a = 10 ∧ b = 11) ∨ (a = 11 ∧ b = 10) := by
    intro a b; simp; grind
  have key : ∀ x y : Nat, Relation.ReflTransGen (fun a b => (a, b) ∈ [(10, 11)] ∨ (b, a) ∈ [(10, 11)]) x y →
      x = 11 ∨ x = 10 → y = 11 ∨ y = 10 := by
    intro x y h hx
    induction h with
    | refl => exact hx
    | tail _ h _ => rw [step] at h; grind
  refine ⟨?_, ?_, by simp, by simp⟩
  · intro c hc x hx y
    obtain rfl := List.mem_singleton.1 hc
    have hx' : x = 11 ∨ x = 10 := by simpa using hx
    constructor
    · intro hy
      have hy' : y = 11 ∨ y = 10 := by simpa using hy
      rcases hx' with rfl | rfl <;> rcases hy' with rfl | rfl
      · exact .refl
      · exact .single ((step _ _).2 (by simp))
      · exact .single ((step _ _).2 (by simp))
      · exact .refl
    · intro h; simpa using key x y h hx'
  · intro x; simp; grind
example : (ccObject [[11, 10]] 10 o2).objects = [⟨10, 7, ()⟩, ⟨11, 8, ()⟩] := by decide
example : (ccLength [[11, 10]] 2 5 o2).events = [⟨1, 100, 0, ()⟩, ⟨2, 101, 5, ()⟩] := by decide
example : filterObjects [11] true 2 o2 = some (ccObject [[11, 10]] 10 o2) := by decide
end OcelExamples

/-- An object that interacts with no other is a component on its own, but `filter_ocel_cc_length` (1 to 5),
`filter_ocel_cc_otype` and `filter_ocel_cc_activity` drop it: the graph has only vertices with edges. -/
theorem C37_cc_isolated_refuted :
    ¬ (∀ (o : Ocel Nat Nat Nat Nat Unit) (comps : List (List Nat)), Consistent o → IsComponents (interactionGraph o) comps →
        KeepsObjects (fun x => ∃ c : List Nat, c.Nodup ∧ (∀ y, y ∈ c ↔ Connected o x.id y) ∧ 1 ≤ c.length ∧ c.length ≤ 5) (ccLength comps 1 5 o) o) ∧
    ¬ (∀ (o : Ocel Nat Nat Nat Nat Unit) (comps : List (List Nat)) (t : Nat), Consistent o → IsComponents (interactionGraph o) comps →
        KeepsObjects (fun x => ∃ y ∈ o.objects, Connected o x.id y.id ∧ y.type = t) (ccOtype comps t true o) o) ∧
    ¬ (∀ (o : Ocel Nat Nat Nat Nat Unit) (comps : List (List Nat)) (a : Nat), Consistent o → IsComponents (interactionGraph o) comps →
        KeepsObjects (fun x => ∃ y, Connected o x.id y ∧ ∃ e ∈ o.events, e.act = a ∧ Related o e.id y) (ccActivity comps a o) o) := by
  have hcons : Consistent OcelExamples.o2 := by constructor <;> simp [OcelExamples.o2, IsEvent, IsObject]
  have hmem : (⟨12, 8, ()⟩ : ObRow Nat Nat Unit) ∈ OcelExamples.o2.objects := by decide
  have hiso : ∀ z, ¬ Interact OcelExamples.o2 12 z := by
    intro z hz
    obtain ⟨e, he, h⟩ := (vertex_iff _ _).2 ⟨z, hz⟩
    rw [OcelExamples.graph_o2] at he
    obtain rfl := List.mem_singleton.1 he
    simp at h
  refine ⟨fun h => ?_, fun h => ?_, fun h => ?_⟩
  · have := ((h _ _ hcons OcelExamples.comps_o2).objects.mem ⟨12, 8, ()⟩).2 ⟨hmem, [12], by simp, ?_, by simp, by simp⟩
    · exact absurd this (by decide)
    · intro y
      rw [List.mem_singleton]
      exact ⟨fun h => h ▸ ⟨0, .refl _ _⟩, fun h => h.isolated hiso⟩
  · have := ((h _ _ 8 hcons OcelExamples.comps_o2).objects.mem ⟨12, 8, ()⟩).2 ⟨hmem, ⟨12, 8, ()⟩, hmem, ⟨0, .refl _ _⟩, rfl⟩
    exact absurd this (by decide)
  · have := ((h _ _ 101 hcons OcelExamples.comps_o2).objects.mem ⟨12, 8, ()⟩).2 ⟨hmem, 12, ⟨0, .refl _ _⟩,
      ⟨3, 101, 6, ()⟩, by decide, rfl, ⟨3, 101, 12, 8, ()⟩, by decide, rfl, rfl⟩
    exact absurd this (by decide)

/-- `filter_ocel_cc_otype(t, positive=False)` does not discard the components that `positive=True` keeps: an object can be
kept by both. -/
theorem C37_cc_otype_negative_refuted :
    ¬ ∀ (o : Ocel Nat Nat Nat Nat Unit) (comps : List (List Nat)) (t : Nat), Consistent o → IsComponents (interactionGraph o) comps →
      ∀ x, x ∈ (ccOtype comps t true o).objects → x ∉ (ccOtype comps t false o).objects := by
  intro h
  have hcons : Consistent OcelExamples.o2 := by constructor <;> simp [OcelExamples.o2, IsEvent, IsObject]
  exact absurd (h OcelExamples.o2 [[11, 10]] 7 hcons OcelExamples.comps_o2 ⟨10, 7, ()⟩) (by decide)

/-! the number of objects per type, and the first and last events of the objects -/

/-- `filter_ocel_object_per_type_count`: for positive minimums, on a log without repeated relations, keeps exactly the
events that have relations and are related to at least the given number of objects of each type. -/
theorem C37_per_type_count (mins : Dict θ Int) (hpos : ∀ m ∈ mins, 1 ≤ m.2) (o : Ocel ε ο α θ π)
    (hnd : (o.relations.map fun r => (r.ev, r.ob)).Nodup) :
    KeepsEvents (fun e => (∃ x, Related o e.id x) ∧ ∀ m ∈ mins, m.2 ≤ ((objectsOf o e.id m.1).length : Int)) (perTypeCount mins o) o := by
  refine keepsEvents_of o _ _ fun e _ => ?_
  rw [decide_eq_true_eq]
  simp only [List.mem_map, List.mem_filter, otCount]
  have hcnt : ∀ (i : ε) (t : θ), Counter.cnt t ((o.relations.filter fun r => decide (r.ev = i)).map RelRow.type) = (objectsOf o i t).length := by
    intro i t
    have hn : ((o.relations.filter fun r => decide (r.ev = i) && decide (r.type = t)).map RelRow.ob).Nodup := by
      have h1 : ((o.relations.filter fun r => decide (r.ev = i) && decide (r.type = t)).map fun r => (r.ev, r.ob)).Nodup :=
        hnd.sublist (List.filter_sublist.map _)
      have h2 : (o.relations.filter fun r => decide (r.ev = i) && decide (r.type = t)).map (fun r => (r.ev, r.ob)) =
          ((o.relations.filter fun r => decide (r.ev = i) && decide (r.type = t)).map RelRow.ob).map fun x => (i, x) := by
        rw [List.map_map]
        apply List.map_congr_left
        intro r hr
        have := (List.mem_filter.1 hr).2
        simp only [Bool.and_eq_true, decide_eq_true_eq] at this
        simp [this.1]
      rw [h2] at h1
      exact h1.of_map _
    rw [objectsOf, firstOcc_of_nodup hn, List.length_map, Counter.cnt_eq_count, List.count_eq_countP, List.countP_map,
      List.countP_eq_length_filter, List.filter_filter]
    congr 1
    apply List.filter_congr
    intro r _
    simp only [Function.comp]
    by_cases h : r.type = t <;> by_cases h' : r.ev = i <;> simp [h, h']
  have hrel : (∃ x, Related o e.id x) ↔ e.id ∈ firstOcc (o.relations.map RelRow.ev) := by
    rw [firstOcc_mem, List.mem_map]
    constructor
    · rintro ⟨x, r, hr, h, -⟩; exact ⟨r, hr, h⟩
    · rintro ⟨r, hr, h⟩; exact ⟨r.ob, r, hr, h, rfl⟩
  have hall : (mins.all fun m => if !has (Counter.ofList ((o.relations.filter fun r => decide (r.ev = e.id)).map RelRow.type)) m.1 then false
      else if count (Counter.ofList ((o.relations.filter fun r => decide (r.ev = e.id)).map RelRow.type)) m.1 < m.2 then false else true) = true ↔
      ∀ m ∈ mins, m.2 ≤ ((objectsOf o e.id m.1).length : Int) := by
    rw [List.all_eq_true]
    refine forall₂_congr fun m hm => ?_
    have h1 := hpos m hm
    rw [Counter.count_ofList, hcnt]
    by_cases hh : has (Counter.ofList ((o.relations.filter fun r => decide (r.ev = e.id)).map RelRow.type)) m.1 = true
    · simp only [hh, Bool.not_true, Bool.false_eq_true, if_false]
      by_cases hl : ((objectsOf o e.id m.1).length : Int) < m.2
      · simp only [hl, if_true]; constructor
        · intro h; cases h
        · intro h; omega
      · simp only [hl, if_false, true_iff]; omega
    · have hz : Counter.cnt m.1 ((o.relations.filter fun r => decide (r.ev = e.id)).map RelRow.type) = 0 := by
        rw [Counter.cnt_zero, ← Counter.keys_ofList, ← has_iff]; exact hh
      rw [hcnt] at hz
      simp only [hh, hz]
      simp only [Bool.not_false, if_true]
      constructor
      · intro h; cases h
      · intro h; push_cast at h; omega
  rw [hrel, ← hall]
  constructor
  · rintro ⟨c, ⟨⟨i, hi, rfl⟩, hc⟩, rfl⟩
    exact ⟨hi, hc⟩
  · rintro ⟨h1, h2⟩
    exact ⟨_, ⟨⟨e.id, h1, rfl⟩, h2⟩, rfl⟩

/-- With the minimum 0 the events with no object of the type are dropped nevertheless; and an object related to an event by
two qualifiers counts twice. -/
theorem C37_per_type_count_refuted :
    ¬ (∀ (mins : Dict Nat Int) (o : Ocel Nat Nat Nat Nat Unit), Consistent o → (o.relations.map fun r => (r.ev, r.ob)).Nodup →
        KeepsEvents (fun e => (∃ x, Related o e.id x) ∧ ∀ m ∈ mins, m.2 ≤ ((objectsOf o e.id m.1).length : Int)) (perTypeCount mins o) o) ∧
    ¬ (∀ (mins : Dict Nat Int) (o : Ocel Nat Nat Nat Nat Nat), Consistent o → (∀ m ∈ mins, 1 ≤ m.2) → o.relations.Nodup →
        KeepsEvents (fun e => (∃ x, Related o e.id x) ∧ ∀ m ∈ mins, m.2 ≤ ((objectsOf o e.id m.1).length : Int)) (perTypeCount mins o) o) := by
  constructor
  · intro h
    have := ((h [(9, 0)] ⟨[⟨1, 0, 0, ()⟩], [⟨5, 7, ()⟩], [⟨1, 0, 5, 7, ()⟩], [], [], []⟩ (by constructor <;> simp [IsEvent, IsObject])
      (by decide)).events.mem ⟨1, 0, 0, ()⟩).2 ⟨by decide, ⟨5, ⟨1, 0, 5, 7, ()⟩, by decide, rfl, rfl⟩, by decide⟩
    exact absurd this (by decide)
  · intro h
    have := ((h [(7, 2)] ⟨[⟨1, 0, 0, 0⟩], [⟨5, 7, 0⟩], [⟨1, 0, 5, 7, 0⟩, ⟨1, 0, 5, 7, 1⟩], [], [], []⟩ (by constructor <;> simp [IsEvent, IsObject])
      (by decide) (by decide)).events.mem ⟨1, 0, 0, 0⟩).1 (by decide)
    exact absurd (this.2.2 (7, 2) (by decide)) (by decide)

theorem Ocel.first_iff (rel : List (RelRow ε ο α θ π)) (i : ε) :
    i ∈ firstEvents rel ↔ ∃ before r after, rel = before ++ r :: after ∧ r.ev = i ∧ ∀ s ∈ before, s.ob ≠ r.ob := by
  simp only [firstEvents, List.mem_filterMap, firstOcc_mem, Option.map_eq_some_iff]
  constructor
  · rintro ⟨x, hx, r, hr, rfl⟩
    rw [List.head?_filter] at hr
    have hrx := List.find?_some hr
    obtain ⟨_, bs, as, rfl, hb⟩ := List.find?_eq_some_iff_append.1 hr
    refine ⟨bs, r, as, rfl, rfl, fun s hs hso => ?_⟩
    have := hb s hs
    simp only [decide_eq_true_eq] at hrx
    simp [hso, hrx] at this
  · rintro ⟨bs, r, as, rfl, rfl, hb⟩
    refine ⟨r.ob, by simp, r, ?_, rfl⟩
    rw [List.head?_filter, List.find?_eq_some_iff_append]
    exact ⟨by simp, bs, as, rfl, fun s hs => by simpa using hb s hs⟩

theorem Ocel.last_iff (rel : List (RelRow ε ο α θ π)) (i : ε) :
    i ∈ lastEvents rel ↔ ∃ before r after, rel = before ++ r :: after ∧ r.ev = i ∧ ∀ s ∈ after, s.ob ≠ r.ob := by
  have h : i ∈ lastEvents rel ↔ i ∈ firstEvents rel.reverse := by
    simp only [lastEvents, firstEvents, List.mem_filterMap, firstOcc_mem, List.map_reverse, List.mem_reverse,
      List.filter_reverse, List.head?_reverse]
  rw [h, first_iff]
  constructor
  · rintro ⟨bs, r, as, hh, h1, h2⟩
    refine ⟨as.reverse, r, bs.reverse, ?_, h1, fun s hs => h2 s (List.mem_reverse.1 hs)⟩
    rw [← List.reverse_reverse rel, hh]; simp
  · rintro ⟨bs, r, as, rfl, h1, h2⟩
    exact ⟨as.reverse, r, bs.reverse, by simp, h1, fun s hs => h2 s (List.mem_reverse.1 hs)⟩

theorem Ocel.filter_split (rel : List (RelRow ε ο α θ π)) (t : θ) (bs : List (RelRow ε ο α θ π)) (r : RelRow ε ο α θ π) (as : List (RelRow ε ο α θ π))
    (h : rel.filter (fun r => decide (r.type = t)) = bs ++ r :: as) :
    ∃ bs' as', rel = bs' ++ r :: as' ∧ r.type = t ∧ bs'.filter (fun r => decide (r.type = t)) = bs ∧ as'.filter (fun r => decide (r.type = t)) = as := by
  obtain ⟨l1, l2, rfl, h1, h2⟩ := List.filter_eq_append_iff.1 h
  obtain ⟨l3, l4, rfl, h3, h4, h5⟩ := List.filter_eq_cons_iff.1 h2
  refine ⟨l1 ++ l3, l4, by simp, by simpa using h4, ?_, h5⟩
  rw [List.filter_append, h1, List.filter_eq_nil_iff.2 h3, List.append_nil]

/-- `filter_ocel_start_events_per_object_type(t)` keeps exactly the events with the first relation of an object of type `t`. -/
theorem C37_start_events (t : θ) (o : Ocel ε ο α θ π) : KeepsEvents (fun e => IsFirst o t e.id) (startEvents t o) o := by
  refine keepsEvents_of o _ _ fun e _ => ?_
  rw [decide_eq_true_eq, first_iff]
  constructor
  · rintro ⟨bs, r, as, h, h1, h2⟩
    obtain ⟨bs', as', h3, h4, rfl, rfl⟩ := filter_split _ _ _ _ _ h
    refine ⟨bs', r, as', h3, h4, h1, fun s hs hh => ?_⟩
    exact h2 s (List.mem_filter.2 ⟨hs, by simp [hh.2]⟩) hh.1
  · rintro ⟨bs, r, as, h, h1, h2, h3⟩
    refine ⟨bs.filter fun r => decide (r.type = t), r, as.filter fun r => decide (r.type = t), ?_, h2, fun s hs hh => ?_⟩
    · rw [h, List.filter_append, List.filter_cons_of_pos (by simp [h1])]
    · obtain ⟨ha, hb⟩ := List.mem_filter.1 hs
      exact h3 s ha ⟨hh, by simpa using hb⟩

/-- `filter_ocel_end_events_per_object_type(t)` keeps exactly the events with the last relation of an object of type `t`. -/
theorem C37_end_events (t : θ) (o : Ocel ε ο α θ π) : KeepsEvents (fun e => IsLast o t e.id) (endEvents t o) o := by
  refine keepsEvents_of o _ _ fun e _ => ?_
  rw [decide_eq_true_eq, last_iff]
  constructor
  · rintro ⟨bs, r, as, h, h1, h2⟩
    obtain ⟨bs', as', h3, h4, rfl, rfl⟩ := filter_split _ _ _ _ _ h
    refine ⟨bs', r, as', h3, h4, h1, fun s hs hh => ?_⟩
    exact h2 s (List.mem_filter.2 ⟨hs, by simp [hh.2]⟩) hh.1
  · rintro ⟨bs, r, as, h, h1, h2, h3⟩
    refine ⟨bs.filter fun r => decide (r.type = t), r, as.filter fun r => decide (r.type = t), ?_, h2, fun s hs hh => ?_⟩
    · rw [h, List.filter_append, List.filter_cons_of_pos (by simp [h1])]
    · obtain ⟨ha, hb⟩ := List.mem_filter.1 hs
      exact h3 s ha ⟨hh, by simpa using hb⟩

/-! allowed activities per object type -/

theorem Ocel.sep_inj (a a' t t' : List Char) (h : '@' ∉ a) (h' : '@' ∉ a') (he : a ++ sep ++ t = a' ++ sep ++ t') : a = a' ∧ t = t' := by
  induction a generalizing a' with
  | nil =>
    cases a' with
    | nil => simpa [sep] using he
    | cons c a' =>
      simp only [sep, List.nil_append, List.cons_append, List.cons.injEq] at he
      exact absurd (he.1 ▸ List.mem_cons_self ..) h'
  | cons c a ih =>
    cases a' with
    | nil =>
      simp only [sep, List.nil_append, List.cons_append, List.cons.injEq] at he
      exact absurd (he.1 ▸ List.mem_cons_self ..) h
    | cons c' a' =>
      simp only [List.cons_append, List.cons.injEq] at he
      obtain ⟨rfl, he⟩ := he
      obtain ⟨rfl, rfl⟩ := ih a' (fun hm => h (List.mem_cons_of_mem _ hm)) (fun hm => h' (List.mem_cons_of_mem _ hm)) (by simpa [List.append_assoc] using he)
      exact ⟨rfl, rfl⟩

/-- `filter_ocel_object_types_allowed_activities`: if no activity contains '@', keeps exactly the relations whose activity
is allowed for the type. -/
theorem C37_allowed_activities (corr : List (List Char × List (List Char))) (o : Ocel ε ο (List Char) (List Char) π)
    (h1 : ∀ r ∈ o.relations, '@' ∉ r.act) (h2 : ∀ c ∈ corr, ∀ a ∈ c.2, '@' ∉ a) :
    KeepsRelations (fun r => ∃ c ∈ corr, c.1 = r.type ∧ r.act ∈ c.2) (typeMatching corr o) o := by
  refine keepsRelations_of o _ _ fun r hr => ?_
  simp only [decide_eq_true_eq, List.mem_flatMap, List.mem_map]
  constructor
  · rintro ⟨c, hc, a, ha, he⟩
    obtain ⟨rfl, h⟩ := sep_inj a r.act c.1 r.type (h2 c hc a ha) (h1 r hr) he
    exact ⟨c, hc, h, ha⟩
  · rintro ⟨c, hc, h, ha⟩; exact ⟨c, hc, r.act, ha, by rw [h]⟩

/-- With the separator inside names, a relation is kept although its activity is not allowed: activity "a" of type
"b@#@#c" is confused with activity "a@#@#b" of type "c". -/
theorem C37_allowed_activities_refuted :
    ¬ ∀ (corr : List (List Char × List (List Char))) (o : Ocel Nat Nat (List Char) (List Char) Unit), Consistent o →
      KeepsRelations (fun r => ∃ c ∈ corr, c.1 = r.type ∧ r.act ∈ c.2) (typeMatching corr o) o := by
  intro h
  have := ((h [(['c'], [['a', '@', '#', '@', '#', 'b']])]
    ⟨[⟨1, ['a'], 0, ()⟩], [⟨5, ['b', '@', '#', '@', '#', 'c'], ()⟩], [⟨1, ['a'], 5, ['b', '@', '#', '@', '#', 'c'], ()⟩], [], [], []⟩
    (by constructor <;> simp [IsEvent, IsObject])).relations.mem ⟨1, ['a'], 5, ['b', '@', '#', '@', '#', 'c'], ()⟩).1 (by decide)
  obtain ⟨_, ⟨c, hc, h1, _⟩, _⟩ := this
  obtain rfl := List.mem_singleton.1 hc
  exact absurd h1 (by decide)

namespace OcelExamples
example : (o2.relations.map fun r => (r.ev, r.ob)).Nodup ∧ ∀ r ∈ o2.relations, IsObject o2 r.ob := by
  refine ⟨by decide, by simp [o2, IsObject]⟩
example : (perTypeCount [(7, 1), (8, 1)] o2).events = [⟨1, 100, 0, ()⟩] := by decide
example : (startEvents 7 o2).events = [⟨1, 100, 0, ()⟩] ∧ (endEvents 7 o2).events = [⟨2, 101, 5, ()⟩] := by decide
example : (filterTimestamp 0 5 o2).objects = [⟨10, 7, ()⟩, ⟨11, 8, ()⟩] := by decide
end OcelExamples
end Verif
