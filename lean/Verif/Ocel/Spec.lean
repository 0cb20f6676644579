import Verif.Filter.Spec
/-
C22, C37: object-centric event logs as six tables (/repo/pm4py/objects/ocel/obj.py 35-86).  A dataframe is a list of
rows; the columns that the modelled functions do not read are `rest`.
-/
namespace Verif.Ocel

structure EvRow (ε α π : Type) where
  id : ε
  act : α
  time : Int
  rest : π
  deriving DecidableEq

structure ObRow (ο θ π : Type) where
  id : ο
  type : θ
  rest : π
  deriving DecidableEq

structure RelRow (ε ο α θ π : Type) where
  ev : ε
  act : α
  ob : ο
  type : θ
  rest : π
  deriving DecidableEq

structure Ocel (ε ο α θ π : Type) where
  events : List (EvRow ε α π)
  objects : List (ObRow ο θ π)
  relations : List (RelRow ε ο α θ π)
  e2e : List (ε × ε × π)
  o2o : List (ο × ο × π)
  changes : List (ο × π)
  deriving DecidableEq

variable {ε ο α θ π : Type}

/-- `i` is the identifier of an event / object of the log -/
def IsEvent (o : Ocel ε ο α θ π) (i : ε) : Prop := ∃ e ∈ o.events, e.id = i
def IsObject (o : Ocel ε ο α θ π) (i : ο) : Prop := ∃ x ∈ o.objects, x.id = i
/-- the event and the object are related -/
def Related (o : Ocel ε ο α θ π) (e : ε) (x : ο) : Prop := ∃ r ∈ o.relations, r.ev = e ∧ r.ob = x

/-- every row that refers to events or objects refers to events and objects of the log -/
structure Consistent (o : Ocel ε ο α θ π) : Prop where
  rel : ∀ r ∈ o.relations, IsEvent o r.ev ∧ IsObject o r.ob
  e2e : ∀ r ∈ o.e2e, IsEvent o r.1 ∧ IsEvent o r.2.1
  o2o : ∀ r ∈ o.o2o, IsObject o r.1 ∧ IsObject o r.2.1
  changes : ∀ r ∈ o.changes, IsObject o r.1

/-- the tables of `o'` are selections of rows of `o`, in the same order -/
structure SubOcel (o' o : Ocel ε ο α θ π) : Prop where
  events : o'.events.Sublist o.events
  objects : o'.objects.Sublist o.objects
  relations : o'.relations.Sublist o.relations
  e2e : o'.e2e.Sublist o.e2e
  o2o : o'.o2o.Sublist o.o2o
  changes : o'.changes.Sublist o.changes

/-- `l'` is what is left of the table `l` when exactly the rows with property `p` are kept (same order, same
multiplicities) -/
def Selects {β : Type} (p : β → Prop) (l' l : List β) : Prop := ∃ q : β → Bool, (∀ x ∈ l, q x = true ↔ p x) ∧ l' = l.filter q

theorem Selects.mem {β : Type} {p : β → Prop} {l' l : List β} (h : Selects p l' l) (x : β) : x ∈ l' ↔ x ∈ l ∧ p x := by
  obtain ⟨q, hq, rfl⟩ := h
  rw [List.mem_filter]
  constructor
  · rintro ⟨h1, h2⟩; exact ⟨h1, (hq x h1).1 h2⟩
  · rintro ⟨h1, h2⟩; exact ⟨h1, (hq x h1).2 h2⟩

theorem Selects.sublist {β : Type} {p : β → Prop} {l' l : List β} (h : Selects p l' l) : l'.Sublist l := by
  obtain ⟨q, _, rfl⟩ := h; exact List.filter_sublist

theorem Selects.congr {β : Type} {p p' : β → Prop} {l' l : List β} (h : Selects p l' l) (hp : ∀ x ∈ l, p x ↔ p' x) : Selects p' l' l := by
  obtain ⟨q, hq, rfl⟩ := h; exact ⟨q, fun x hx => (hq x hx).trans (hp x hx), rfl⟩

/-- the result of keeping the events with property `p`, their relations, the objects related to them, and the other rows
between kept events and kept objects -/
structure KeepsEvents (p : EvRow ε α π → Prop) (o' o : Ocel ε ο α θ π) : Prop where
  events : Selects p o'.events o.events
  relations : Selects (fun r => ∃ e ∈ o.events, p e ∧ e.id = r.ev) o'.relations o.relations
  objects : Selects (fun x => ∃ e ∈ o.events, p e ∧ Related o e.id x.id) o'.objects o.objects
  e2e : Selects (fun r => (∃ e ∈ o.events, p e ∧ e.id = r.1) ∧ ∃ e ∈ o.events, p e ∧ e.id = r.2.1) o'.e2e o.e2e
  o2o : Selects (fun r => (∃ e ∈ o.events, p e ∧ Related o e.id r.1) ∧ ∃ e ∈ o.events, p e ∧ Related o e.id r.2.1) o'.o2o o.o2o
  changes : Selects (fun r => ∃ e ∈ o.events, p e ∧ Related o e.id r.1) o'.changes o.changes
  consistent : (∀ r ∈ o.relations, IsObject o r.ob) → Consistent o'

/-- the result of keeping the objects with property `p`, their relations, the events related to them, and the other rows
between kept events and kept objects -/
structure KeepsObjects (p : ObRow ο θ π → Prop) (o' o : Ocel ε ο α θ π) : Prop where
  objects : Selects p o'.objects o.objects
  relations : Selects (fun r => ∃ x ∈ o.objects, p x ∧ x.id = r.ob) o'.relations o.relations
  events : Selects (fun e => ∃ x ∈ o.objects, p x ∧ Related o e.id x.id) o'.events o.events
  e2e : Selects (fun r => (∃ x ∈ o.objects, p x ∧ Related o r.1 x.id) ∧ ∃ x ∈ o.objects, p x ∧ Related o r.2.1 x.id) o'.e2e o.e2e
  o2o : Selects (fun r => (∃ x ∈ o.objects, p x ∧ x.id = r.1) ∧ ∃ x ∈ o.objects, p x ∧ x.id = r.2.1) o'.o2o o.o2o
  changes : Selects (fun r => ∃ x ∈ o.objects, p x ∧ x.id = r.1) o'.changes o.changes
  consistent : (∀ r ∈ o.relations, IsEvent o r.ev) → Consistent o'

/-- the result of keeping the relations with property `p`, the events and objects that still have one, and the other rows
between those -/
structure KeepsRelations (p : RelRow ε ο α θ π → Prop) (o' o : Ocel ε ο α θ π) : Prop where
  relations : Selects (fun r => p r ∧ IsEvent o r.ev ∧ IsObject o r.ob) o'.relations o.relations
  events : Selects (fun e => ∃ r ∈ o.relations, p r ∧ r.ev = e.id) o'.events o.events
  objects : Selects (fun x => ∃ r ∈ o.relations, p r ∧ r.ob = x.id) o'.objects o.objects
  consistent : Consistent o'

/-- two different objects interact when they are related to a common event -/
def Interact (o : Ocel ε ο α θ π) (x y : ο) : Prop := x ≠ y ∧ ∃ e, Related o e x ∧ Related o e y

/-- `y` can be reached from `x` by at most `n` interactions -/
inductive Within (o : Ocel ε ο α θ π) : Nat → ο → ο → Prop
  | refl (n x) : Within o n x x
  | step {n x y z} : Within o n x y → Interact o y z → Within o (n + 1) x z

/-- connected by a chain of interactions -/
def Connected (o : Ocel ε ο α θ π) (x y : ο) : Prop := ∃ n, Within o n x y

/-- the distinct objects of a type that an event is related to -/
def objectsOf [DecidableEq ε] [DecidableEq ο] [DecidableEq θ] (o : Ocel ε ο α θ π) (e : ε) (t : θ) : List ο :=
  Filter.firstOcc ((o.relations.filter fun r => decide (r.ev = e) && decide (r.type = t)).map RelRow.ob)

/-- `e` is the event of the first relation of an object of type `t` -/
def IsFirst (o : Ocel ε ο α θ π) (t : θ) (e : ε) : Prop :=
  ∃ before r after, o.relations = before ++ r :: after ∧ r.type = t ∧ r.ev = e ∧ ∀ s ∈ before, ¬ (s.ob = r.ob ∧ s.type = t)
/-- `e` is the event of the last relation of an object of type `t` -/
def IsLast (o : Ocel ε ο α θ π) (t : θ) (e : ε) : Prop :=
  ∃ before r after, o.relations = before ++ r :: after ∧ r.type = t ∧ r.ev = e ∧ ∀ s ∈ after, ¬ (s.ob = r.ob ∧ s.type = t)

end Verif.Ocel
