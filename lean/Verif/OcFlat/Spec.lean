import Verif.OcFlat.Model
/-
Specification for C74.
-/
namespace Verif.OcFlat
open Verif.Ocel
variable {ε ο α θ π : Type} [DecidableEq ε] [DecidableEq ο] [DecidableEq α] [DecidableEq θ]

/-- identifiers are unique, an event and an object are related at most once, and relations refer to events and to objects of the log, with the type
of the object -/
structure WF (o : Ocel ε ο α θ π) : Prop where
  events : (o.events.map EvRow.id).Nodup
  objects : (o.objects.map ObRow.id).Nodup
  once : (o.relations.map fun r => (r.ev, r.ob)).Nodup
  refs : ∀ r ∈ o.relations, IsEvent o r.ev ∧ ∃ x ∈ o.objects, x.id = r.ob ∧ x.type = r.type

/-- the events of an object, in the order of the log -/
def lifecycle (o : Ocel ε ο α θ π) (x : ο) : List (EvRow ε α π) :=
  o.events.filter fun e => decide (∃ r ∈ o.relations, r.ev = e.id ∧ r.ob = x)

/-- `x` is an object of type `t` -/
def HasType (o : Ocel ε ο α θ π) (x : ο) (t : θ) : Prop := ∃ y ∈ o.objects, y.id = x ∧ y.type = t

/-- the object `x` of type `t` has an event `e` with activity `a`, and its next event is `f`, with activity `b` -/
def Follows (o : Ocel ε ο α θ π) (t : θ) (a b : α) (e f : ε) (x : ο) : Prop :=
  HasType o x t ∧ ∃ pre e' f' suf, lifecycle o x = pre ++ e' :: f' :: suf ∧ e'.id = e ∧ e'.act = a ∧ f'.id = f ∧ f'.act = b

end Verif.OcFlat
