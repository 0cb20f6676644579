import Verif.Ocel.Model
import Verif.Filter.Proofs
/-
C22: propagation of a filter through the tables of an object-centric log keeps the references consistent.
-/
namespace Verif
open Ocel Filter Dict
variable {ε ο α θ π : Type} [DecidableEq ε] [LinearOrder ο] [DecidableEq α] [DecidableEq θ]

/-- `propagate_event_filtering`: the rows that remain. -/
theorem C22_events_rows (o : Ocel ε ο α θ π) :
    SubOcel (propagateEvents o) o ∧ (propagateEvents o).events = o.events ∧
    Selects (fun r => IsEvent o r.ev) (propagateEvents o).relations o.relations ∧
    Selects (fun x => ∃ e, IsEvent o e ∧ Related o e x.id) (propagateEvents o).objects o.objects ∧
    Selects (fun r => IsEvent o r.1 ∧ IsEvent o r.2.1) (propagateEvents o).e2e o.e2e ∧
    Selects (fun r => (∃ e, IsEvent o e ∧ Related o e r.1) ∧ ∃ e, IsEvent o e ∧ Related o e r.2.1) (propagateEvents o).o2o o.o2o ∧
    Selects (fun r => ∃ e, IsEvent o e ∧ Related o e r.1) (propagateEvents o).changes o.changes := by
  have hev : ∀ i, i ∈ o.events.map EvRow.id ↔ IsEvent o i := by
    intro i; simp [IsEvent]
  have hob : ∀ x, x ∈ (o.relations.filter fun r => decide (r.ev ∈ o.events.map EvRow.id)).map RelRow.ob ↔
      ∃ e, IsEvent o e ∧ Related o e x := by
    intro x
    simp only [List.mem_map, List.mem_filter, decide_eq_true_eq, Related, IsEvent]
    constructor
    · rintro ⟨r, ⟨hr, e, he, hee⟩, rfl⟩; exact ⟨r.ev, ⟨e, he, hee⟩, r, hr, rfl, rfl⟩
    · rintro ⟨i, ⟨e, he, rfl⟩, r, hr, h1, rfl⟩; exact ⟨r, ⟨hr, e, he, h1.symm⟩, rfl⟩
  refine ⟨⟨List.Sublist.refl _, List.filter_sublist, List.filter_sublist, List.filter_sublist, List.filter_sublist,
    List.filter_sublist⟩, rfl, ?_, ?_, ?_, ?_, ?_⟩
  · exact ⟨_, fun r _ => by rw [decide_eq_true_eq, hev], rfl⟩
  · exact ⟨_, fun x _ => by rw [decide_eq_true_eq, hob], rfl⟩
  · exact ⟨_, fun r _ => by rw [Bool.and_eq_true, decide_eq_true_eq, decide_eq_true_eq, hev, hev], rfl⟩
  · exact ⟨_, fun r _ => by rw [Bool.and_eq_true, decide_eq_true_eq, decide_eq_true_eq, hob, hob], rfl⟩
  · exact ⟨_, fun r _ => by rw [decide_eq_true_eq, hob], rfl⟩

/-- `propagate_object_filtering`: the rows that remain. -/
theorem C22_objects_rows (o : Ocel ε ο α θ π) :
    SubOcel (propagateObjects o) o ∧ (propagateObjects o).objects = o.objects ∧
    Selects (fun r => IsObject o r.ob) (propagateObjects o).relations o.relations ∧
    Selects (fun e => ∃ x, IsObject o x ∧ Related o e.id x) (propagateObjects o).events o.events ∧
    Selects (fun r => (∃ x, IsObject o x ∧ Related o r.1 x) ∧ ∃ x, IsObject o x ∧ Related o r.2.1 x) (propagateObjects o).e2e o.e2e ∧
    Selects (fun r => IsObject o r.1 ∧ IsObject o r.2.1) (propagateObjects o).o2o o.o2o ∧
    Selects (fun r => IsObject o r.1) (propagateObjects o).changes o.changes := by
  have hob : ∀ i, i ∈ o.objects.map ObRow.id ↔ IsObject o i := by
    intro i; simp [IsObject]
  have hev : ∀ e, e ∈ (o.relations.filter fun r => decide (r.ob ∈ o.objects.map ObRow.id)).map RelRow.ev ↔
      ∃ x, IsObject o x ∧ Related o e x := by
    intro e
    simp only [List.mem_map, List.mem_filter, decide_eq_true_eq, Related, IsObject]
    constructor
    · rintro ⟨r, ⟨hr, x, hx, hxx⟩, rfl⟩; exact ⟨r.ob, ⟨x, hx, hxx⟩, r, hr, rfl, rfl⟩
    · rintro ⟨i, ⟨x, hx, rfl⟩, r, hr, rfl, h1⟩; exact ⟨r, ⟨hr, x, hx, h1.symm⟩, rfl⟩
  refine ⟨⟨List.filter_sublist, List.Sublist.refl _, List.filter_sublist, List.filter_sublist, List.filter_sublist,
    List.filter_sublist⟩, rfl, ?_, ?_, ?_, ?_, ?_⟩
  · exact ⟨_, fun r _ => by rw [decide_eq_true_eq, hob], rfl⟩
  · exact ⟨_, fun x _ => by rw [decide_eq_true_eq, hev], rfl⟩
  · exact ⟨_, fun r _ => by rw [Bool.and_eq_true, decide_eq_true_eq, decide_eq_true_eq, hev, hev], rfl⟩
  · exact ⟨_, fun r _ => by rw [Bool.and_eq_true, decide_eq_true_eq, decide_eq_true_eq, hob, hob], rfl⟩
  · exact ⟨_, fun r _ => by rw [decide_eq_true_eq, hob], rfl⟩

/-- `propagate_relations_filtering`: the rows that remain. -/
theorem C22_relations_rows (o : Ocel ε ο α θ π) :
    SubOcel (propagateRelations o) o ∧
    Selects (fun e => ∃ x, Related o e.id x) (propagateRelations o).events o.events ∧
    Selects (fun x => ∃ e, Related o e x.id) (propagateRelations o).objects o.objects ∧
    Selects (fun r => IsEvent o r.ev ∧ IsObject o r.ob) (propagateRelations o).relations o.relations ∧
    Selects (fun r => (IsEvent o r.1 ∧ ∃ x, Related o r.1 x) ∧ IsEvent o r.2.1 ∧ ∃ x, Related o r.2.1 x) (propagateRelations o).e2e o.e2e ∧
    Selects (fun r => (IsObject o r.1 ∧ ∃ e, Related o e r.1) ∧ IsObject o r.2.1 ∧ ∃ e, Related o e r.2.1) (propagateRelations o).o2o o.o2o ∧
    Selects (fun r => IsObject o r.1 ∧ ∃ e, Related o e r.1) (propagateRelations o).changes o.changes := by
  have hev : ∀ e, e ∈ (o.relations.map RelRow.ev).filter (fun i => decide (i ∈ o.events.map EvRow.id)) ↔
      IsEvent o e ∧ ∃ x, Related o e x := by
    intro e
    simp only [List.mem_map, List.mem_filter, decide_eq_true_eq, Related, IsEvent]
    constructor
    · rintro ⟨⟨r, hr, rfl⟩, y, hy, hyy⟩; exact ⟨⟨y, hy, hyy⟩, r.ob, r, hr, rfl, rfl⟩
    · rintro ⟨h1, x, r, hr, h2, _⟩; exact ⟨⟨r, hr, h2⟩, h1⟩
  have hob : ∀ x, x ∈ (o.relations.map RelRow.ob).filter (fun i => decide (i ∈ o.objects.map ObRow.id)) ↔
      IsObject o x ∧ ∃ e, Related o e x := by
    intro x
    simp only [List.mem_map, List.mem_filter, decide_eq_true_eq, Related, IsObject]
    constructor
    · rintro ⟨⟨r, hr, rfl⟩, y, hy, hyy⟩; exact ⟨⟨y, hy, hyy⟩, r.ev, r, hr, rfl, rfl⟩
    · rintro ⟨h1, e, r, hr, _, h2⟩; exact ⟨⟨r, hr, h2⟩, h1⟩
  refine ⟨⟨List.filter_sublist, List.filter_sublist, List.filter_sublist.trans List.filter_sublist, List.filter_sublist,
    List.filter_sublist, List.filter_sublist⟩, ?_, ?_, ?_, ?_, ?_, ?_⟩
  · refine ⟨_, fun e he => ?_, rfl⟩
    rw [decide_eq_true_eq, hev]
    exact ⟨fun h => h.2, fun h => ⟨⟨e, he, rfl⟩, h⟩⟩
  · refine ⟨_, fun x hx => ?_, rfl⟩
    rw [decide_eq_true_eq, hob]
    exact ⟨fun h => h.2, fun h => ⟨⟨x, hx, rfl⟩, h⟩⟩
  · refine ⟨_, fun r hr => ?_, List.filter_filter⟩
    rw [Bool.and_eq_true, decide_eq_true_eq, decide_eq_true_eq, hob, hev]
    exact ⟨fun h => ⟨h.2.1, h.1.1⟩, fun h => ⟨⟨h.2, r.ev, r, hr, rfl, rfl⟩, h.1, r.ob, r, hr, rfl, rfl⟩⟩
  · exact ⟨_, fun r _ => by rw [Bool.and_eq_true, decide_eq_true_eq, decide_eq_true_eq, hev, hev], rfl⟩
  · exact ⟨_, fun r _ => by rw [Bool.and_eq_true, decide_eq_true_eq, decide_eq_true_eq, hob, hob], rfl⟩
  · exact ⟨_, fun r _ => by rw [decide_eq_true_eq, hob], rfl⟩

/-- If the relations refer to objects of the log, then after selecting events (in any way) and propagating, all references
are to remaining events and objects, and every remaining object is related to a remaining event. -/
theorem C22_events (o : Ocel ε ο α θ π) (h : ∀ r ∈ o.relations, IsObject o r.ob) :
    Consistent (propagateEvents o) ∧ ∀ x ∈ (propagateEvents o).objects, ∃ e, IsEvent (propagateEvents o) e ∧ Related (propagateEvents o) e x.id := by
  obtain ⟨-, hev, hrel, hobj, he2e, ho2o, hch⟩ := C22_events_rows o
  have hE : ∀ i, IsEvent (propagateEvents o) i ↔ IsEvent o i := by intro i; unfold IsEvent; rw [hev]
  have hO : ∀ i, (∃ e, IsEvent o e ∧ Related o e i) → IsObject (propagateEvents o) i := by
    rintro i ⟨e, he, r, hr, h1, h2⟩
    obtain ⟨x, hx, hxi⟩ := h r hr
    refine ⟨x, (hobj.mem x).2 ⟨hx, e, he, r, hr, h1, ?_⟩, ?_⟩
    · rw [hxi]
    · rw [hxi, h2]
  refine ⟨⟨?_, ?_, ?_, ?_⟩, ?_⟩
  · intro r hr
    obtain ⟨h1, h2⟩ := (hrel.mem r).1 hr
    exact ⟨(hE _).2 h2, hO _ ⟨r.ev, h2, r, h1, rfl, rfl⟩⟩
  · intro r hr
    obtain ⟨_, h1, h2⟩ := (he2e.mem r).1 hr
    exact ⟨(hE _).2 h1, (hE _).2 h2⟩
  · intro r hr
    obtain ⟨_, h1, h2⟩ := (ho2o.mem r).1 hr
    exact ⟨hO _ h1, hO _ h2⟩
  · intro r hr
    obtain ⟨_, h1⟩ := (hch.mem r).1 hr
    exact hO _ h1
  · intro x hx
    obtain ⟨_, e, he, r, hr, h1, h2⟩ := (hobj.mem x).1 hx
    exact ⟨e, (hE _).2 he, r, (hrel.mem r).2 ⟨hr, h1 ▸ he⟩, h1, h2⟩

/-- If the relations refer to events of the log, then after selecting objects and propagating, all references are to
remaining events and objects, and every remaining event is related to a remaining object. -/
theorem C22_objects (o : Ocel ε ο α θ π) (h : ∀ r ∈ o.relations, IsEvent o r.ev) :
    Consistent (propagateObjects o) ∧ ∀ e ∈ (propagateObjects o).events, ∃ x, IsObject (propagateObjects o) x ∧ Related (propagateObjects o) e.id x := by
  obtain ⟨-, hob, hrel, hevt, he2e, ho2o, hch⟩ := C22_objects_rows o
  have hO : ∀ i, IsObject (propagateObjects o) i ↔ IsObject o i := by intro i; unfold IsObject; rw [hob]
  have hE : ∀ i, (∃ x, IsObject o x ∧ Related o i x) → IsEvent (propagateObjects o) i := by
    rintro i ⟨x, hx, r, hr, h1, h2⟩
    obtain ⟨e, he, hei⟩ := h r hr
    refine ⟨e, (hevt.mem e).2 ⟨he, x, hx, r, hr, ?_, h2⟩, ?_⟩
    · rw [hei]
    · rw [hei, h1]
  refine ⟨⟨?_, ?_, ?_, ?_⟩, ?_⟩
  · intro r hr
    obtain ⟨h1, h2⟩ := (hrel.mem r).1 hr
    exact ⟨hE _ ⟨r.ob, h2, r, h1, rfl, rfl⟩, (hO _).2 h2⟩
  · intro r hr
    obtain ⟨_, h1, h2⟩ := (he2e.mem r).1 hr
    exact ⟨hE _ h1, hE _ h2⟩
  · intro r hr
    obtain ⟨_, h1, h2⟩ := (ho2o.mem r).1 hr
    exact ⟨(hO _).2 h1, (hO _).2 h2⟩
  · intro r hr
    obtain ⟨_, h1⟩ := (hch.mem r).1 hr
    exact (hO _).2 h1
  · intro e he
    obtain ⟨_, x, hx, r, hr, h1, h2⟩ := (hevt.mem e).1 he
    exact ⟨x, (hO _).2 hx, r, (hrel.mem r).2 ⟨hr, h2 ▸ hx⟩, h1, h2⟩

/-- Selecting relations and propagating always gives consistent references; if all relations referred to events and
objects of the log, no remaining event or object lacks a relation. -/
theorem C22_relations (o : Ocel ε ο α θ π) :
    Consistent (propagateRelations o) ∧
    ((∀ r ∈ o.relations, IsEvent o r.ev ∧ IsObject o r.ob) →
      (propagateRelations o).relations = o.relations ∧
      (∀ e ∈ (propagateRelations o).events, ∃ x, IsObject (propagateRelations o) x ∧ Related (propagateRelations o) e.id x) ∧
      (∀ x ∈ (propagateRelations o).objects, ∃ e, IsEvent (propagateRelations o) e ∧ Related (propagateRelations o) e x.id)) := by
  obtain ⟨-, hevt, hobj, hrel, he2e, ho2o, hch⟩ := C22_relations_rows o
  have hE : ∀ i, (IsEvent o i ∧ ∃ x, Related o i x) → IsEvent (propagateRelations o) i := by
    rintro i ⟨⟨e, he, rfl⟩, hx⟩; exact ⟨e, (hevt.mem e).2 ⟨he, hx⟩, rfl⟩
  have hO : ∀ i, (IsObject o i ∧ ∃ e, Related o e i) → IsObject (propagateRelations o) i := by
    rintro i ⟨⟨x, hx, rfl⟩, he⟩; exact ⟨x, (hobj.mem x).2 ⟨hx, he⟩, rfl⟩
  refine ⟨⟨?_, ?_, ?_, ?_⟩, ?_⟩
  · intro r hr
    obtain ⟨h1, h2, h3⟩ := (hrel.mem r).1 hr
    exact ⟨hE _ ⟨h2, _, r, h1, rfl, rfl⟩, hO _ ⟨h3, _, r, h1, rfl, rfl⟩⟩
  · intro r hr
    obtain ⟨_, h1, h2⟩ := (he2e.mem r).1 hr
    exact ⟨hE _ h1, hE _ h2⟩
  · intro r hr
    obtain ⟨_, h1, h2⟩ := (ho2o.mem r).1 hr
    exact ⟨hO _ h1, hO _ h2⟩
  · intro r hr
    obtain ⟨_, h1⟩ := (hch.mem r).1 hr
    exact hO _ h1
  · intro hall
    have hmem : ∀ r ∈ o.relations, r ∈ (propagateRelations o).relations := fun r hr => (hrel.mem r).2 ⟨hr, hall r hr⟩
    refine ⟨?_, ?_, ?_⟩
    · have : ∀ r ∈ o.relations, decide (r.ev ∈ (o.relations.map RelRow.ev).filter fun i => decide (i ∈ o.events.map EvRow.id)) = true ∧
          decide (r.ob ∈ (o.relations.map RelRow.ob).filter fun i => decide (i ∈ o.objects.map ObRow.id)) = true := by
        intro r hr
        obtain ⟨⟨e, he, hee⟩, ⟨x, hx, hxx⟩⟩ := hall r hr
        simp only [decide_eq_true_eq, List.mem_filter, List.mem_map]
        exact ⟨⟨⟨r, hr, rfl⟩, e, he, hee⟩, ⟨r, hr, rfl⟩, x, hx, hxx⟩
      unfold propagateRelations
      simp only
      rw [List.filter_filter, List.filter_eq_self]
      intro r hr
      rw [(this r hr).1, (this r hr).2]; rfl
    · intro e he
      obtain ⟨_, x, r, hr, h1, h2⟩ := (hevt.mem e).1 he
      obtain ⟨_, hx⟩ := hall r hr
      exact ⟨x, hO _ ⟨h2 ▸ hx, e.id, r, hr, h1, h2⟩, r, hmem r hr, h1, h2⟩
    · intro x hx
      obtain ⟨_, e, r, hr, h1, h2⟩ := (hobj.mem x).1 hx
      obtain ⟨he, _⟩ := hall r hr
      exact ⟨e, hE _ ⟨h1 ▸ he, x.id, r, hr, h1, h2⟩, r, hmem r hr, h1, h2⟩

/-- Propagating twice is propagating once, for events and objects. -/
theorem C22_idempotent (o : Ocel ε ο α θ π) :
    propagateEvents (propagateEvents o) = propagateEvents o ∧ propagateObjects (propagateObjects o) = propagateObjects o := by
  have ff : ∀ {β : Type} (p : β → Bool) (l : List β), (l.filter p).filter p = l.filter p := by
    intro β p l; rw [List.filter_filter]; simp
  constructor
  · unfold propagateEvents; simp only [ff]
  · unfold propagateObjects; simp only [ff]

/-- A consistent log is changed by relation propagation only by dropping events and objects without relations; the result
is a fixed point. -/
theorem C22_relations_idempotent (o : Ocel ε ο α θ π) (h : ∀ r ∈ o.relations, IsEvent o r.ev ∧ IsObject o r.ob) :
    propagateRelations (propagateRelations o) = propagateRelations o := by
  obtain ⟨hsub, hevt, hobj, hrel, he2e, ho2o, hch⟩ := C22_relations_rows (propagateRelations o)
  obtain ⟨hcons, hrest⟩ := C22_relations o
  obtain ⟨hsame, hE, hO⟩ := hrest h
  have key : ∀ {β : Type} (l l' : List β), l'.Sublist l → (∀ x ∈ l, x ∈ l') → (∃ p, l' = l.filter p) → l' = l := by
    rintro β l l' hs hm ⟨p, rfl⟩
    rw [List.filter_eq_self]; intro x hx; exact (List.mem_filter.1 (hm x hx)).2
  have hrelE : ∀ i, IsEvent (propagateRelations o) i → ∃ x, Related (propagateRelations o) i x := by
    rintro i ⟨e, he, rfl⟩; obtain ⟨x, _, hx⟩ := hE e he; exact ⟨x, hx⟩
  have hrelO : ∀ i, IsObject (propagateRelations o) i → ∃ e, Related (propagateRelations o) e i := by
    rintro i ⟨x, hx, rfl⟩; obtain ⟨e, _, he⟩ := hO x hx; exact ⟨e, he⟩
  have e1 : (propagateRelations (propagateRelations o)).events = (propagateRelations o).events := by
    refine key _ _ hsub.events ?_ ⟨_, rfl⟩
    intro e he; obtain ⟨x, _, hx⟩ := hE e he; exact (hevt.mem e).2 ⟨he, x, hx⟩
  have e2 : (propagateRelations (propagateRelations o)).objects = (propagateRelations o).objects := by
    refine key _ _ hsub.objects ?_ ⟨_, rfl⟩
    intro x hx; obtain ⟨e, _, he⟩ := hO x hx; exact (hobj.mem x).2 ⟨hx, e, he⟩
  have e3 : (propagateRelations (propagateRelations o)).relations = (propagateRelations o).relations :=
    (((C22_relations (propagateRelations o)).2) hcons.rel).1
  have e4 : (propagateRelations (propagateRelations o)).e2e = (propagateRelations o).e2e := by
    refine key _ _ hsub.e2e ?_ ⟨_, rfl⟩
    intro r hr
    obtain ⟨h1, h2⟩ := hcons.e2e r hr
    exact (he2e.mem r).2 ⟨hr, ⟨h1, hrelE _ h1⟩, h2, hrelE _ h2⟩
  have e5 : (propagateRelations (propagateRelations o)).o2o = (propagateRelations o).o2o := by
    refine key _ _ hsub.o2o ?_ ⟨_, rfl⟩
    intro r hr
    obtain ⟨h1, h2⟩ := hcons.o2o r hr
    exact (ho2o.mem r).2 ⟨hr, ⟨h1, hrelO _ h1⟩, h2, hrelO _ h2⟩
  have e6 : (propagateRelations (propagateRelations o)).changes = (propagateRelations o).changes := by
    refine key _ _ hsub.changes ?_ ⟨_, rfl⟩
    intro r hr
    have h1 := hcons.changes r hr
    exact (hch.mem r).2 ⟨hr, h1, hrelO _ h1⟩
  revert e1 e2 e3 e4 e5 e6
  generalize propagateRelations (propagateRelations o) = a
  generalize propagateRelations o = b
  intro e1 e2 e3 e4 e5 e6
  cases a; cases b; simp_all

/-! witnesses -/
namespace OcelExamples
/-- two events, three objects; the object 12 has no relation -/
def o1 : Ocel Nat Nat Nat Nat Unit where
  events := [⟨1, 100, 0, ()⟩, ⟨2, 101, 5, ()⟩]
  objects := [⟨10, 7, ()⟩, ⟨11, 8, ()⟩, ⟨12, 8, ()⟩]
  relations := [⟨1, 100, 10, 7, ()⟩, ⟨1, 100, 11, 8, ()⟩, ⟨2, 101, 10, 7, ()⟩]
  e2e := [(1, 2, ())]
  o2o := [(10, 11, ()), (11, 12, ())]
  changes := [(11, ()), (12, ())]

example : Consistent o1 := by
  constructor <;> simp [o1, IsEvent, IsObject]
/-- the log after the row of event 1 was removed: a state in which propagation is called -/
example : ∀ r ∈ ({ o1 with events := [⟨2, 101, 5, ()⟩] } : Ocel Nat Nat Nat Nat Unit).relations,
    IsObject ({ o1 with events := [⟨2, 101, 5, ()⟩] } : Ocel Nat Nat Nat Nat Unit) r.ob := by simp [o1, IsObject]
example : propagateEvents { o1 with events := [⟨2, 101, 5, ()⟩] } =
    { events := [⟨2, 101, 5, ()⟩], objects := [⟨10, 7, ()⟩], relations := [⟨2, 101, 10, 7, ()⟩], e2e := [], o2o := [], changes := [] } := by
  decide
end OcelExamples

/-- Without the hypothesis the claims fail: if a relation refers to an object that is not in the log, it still does after
selecting events, -/
theorem C22_events_refuted :
    ¬ ∀ o : Ocel Nat Nat Nat Nat Unit, Consistent (propagateEvents o) := by
  intro h
  have := (h ⟨[⟨1, 0, 0, ()⟩], [], [⟨1, 0, 5, 0, ()⟩], [], [], []⟩).rel ⟨1, 0, 5, 0, ()⟩ (by decide)
  obtain ⟨_, x, hx, _⟩ := this
  exact absurd hx (by simp [propagateEvents])

/-- and after selecting relations an event may be left without any, so that propagating again drops it. -/
theorem C22_relations_idempotent_refuted :
    ¬ ∀ o : Ocel Nat Nat Nat Nat Unit, propagateRelations (propagateRelations o) = propagateRelations o := by
  intro h
  have := congrArg Ocel.events (h ⟨[⟨1, 0, 0, ()⟩], [], [⟨1, 0, 5, 0, ()⟩], [], [], []⟩)
  revert this
  decide

end Verif
