import Verif.OcFlat.Theorems
/-
Examples and limits for C74.
-/
set_option linter.unusedSectionVars false
namespace Verif
open OcFlat Ocel Dict
namespace OcFlat

def rel (e : Nat) (x t : String) : RelRow Nat String String String Unit := ⟨e, "", x, t, ()⟩

/-- two orders and an item shared by them -/
def exOcel : Ocel Nat String String String Unit :=
  { events := [⟨1, "place", 0, ()⟩, ⟨2, "place", 1, ()⟩, ⟨3, "pick", 2, ()⟩, ⟨4, "ship", 3, ()⟩, ⟨5, "audit", 4, ()⟩]
    objects := [⟨"o1", "order", ()⟩, ⟨"o2", "order", ()⟩, ⟨"i1", "item", ()⟩, ⟨"o3", "order", ()⟩]
    relations := [rel 1 "o1" "order", rel 1 "i1" "item", rel 2 "o2" "order", rel 3 "i1" "item", rel 4 "o2" "order", rel 4 "o1" "order",
      rel 4 "i1" "item"]
    e2e := [], o2o := [], changes := [] }

theorem exOcel_wf : WF exOcel := by
  refine ⟨by decide, by decide, by decide, ?_⟩
  intro r hr
  unfold IsEvent
  revert r
  decide

example : flatLog "order" exOcel = [["place", "ship"], ["place", "ship"]] := by decide +kernel
example : flatLog "item" exOcel = [["place", "pick", "ship"]] := by decide +kernel
example : (flatten "order" exOcel).map (fun r => (r.1.id, r.2.id)) = [(1, "o1"), (2, "o2"), (4, "o1"), (4, "o2")] := by decide +kernel
example : (lifecycle exOcel "i1").map EvRow.id = [1, 3, 4] := by decide +kernel
example : (edges exOcel).map (fun d => edge d "order" ("place", "ship")) = some (some [(2, 4, "o2"), (1, 4, "o1")]) := by decide +kernel
example : Follows exOcel "item" "place" "pick" 1 3 "i1" :=
  ⟨⟨⟨"i1", "item", ()⟩, by decide, rfl, rfl⟩, [], _, _, _, rfl, rfl, rfl, rfl, rfl⟩
example : ∃ d, edges exOcel = some d ∧ ∀ t a b,
    (∀ L, edge d t (a, b) = some L → L.Nodup ∧ L ≠ [] ∧ ∀ e f x, (e, f, x) ∈ L ↔ Follows exOcel t a b e f x) ∧
    (edge d t (a, b) = none ↔ ∀ e f x, ¬ Follows exOcel t a b e f x) := C74_ocdfg exOcel exOcel_wf

/-- one event that is related twice to the same object (with two qualifiers) -/
def dupOcel : Ocel Nat String String String Unit :=
  { events := [⟨1, "place", 0, ()⟩]
    objects := [⟨"o1", "order", ()⟩]
    relations := [rel 1 "o1" "order", rel 1 "o1" "order"]
    e2e := [], o2o := [], changes := [] }

end OcFlat

/-- C74, limits: an event that is related twice to an object (OCEL 2.0 qualifiers) occurs twice in the flattened log, and the object-centric
directly-follows graph has an edge from the event to itself, although the object has one event only. -/
theorem C74_qualifiers_refuted :
    (lifecycle dupOcel "o1").map EvRow.act = ["place"] ∧ flatLog "order" dupOcel = [["place", "place"]] ∧
    (edges dupOcel).map (fun d => edge d "order" ("place", "place")) = some (some [(1, 1, "o1")]) := by
  refine ⟨?_, ?_, ?_⟩ <;> decide +kernel

end Verif
