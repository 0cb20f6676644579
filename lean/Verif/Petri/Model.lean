import Verif.Common.Dict
/-
Model of Petri nets, markings and their semantics:
/repo/pm4py/objects/petri_net/obj.py, semantics.py, inhibitor_reset/semantics.py.
-/
namespace Verif

/-- `Marking(Counter)` (obj.py:22): place ↦ number of tokens. -/
abbrev Marking (P : Type) := Dict P Int

namespace Marking
variable {P : Type} [DecidableEq P]

/-- `Marking.__eq__` (obj.py:28-34).  `self.keys() == other.keys()` compares key sets. -/
def eq (m n : Marking P) : Bool :=
  (m.all (fun e => Dict.has n e.1) && n.all (fun e => Dict.has m e.1)) &&
    m.all (fun e => decide (Dict.get? n e.1 = Dict.get? m e.1))

/-- `Marking.__le__` (obj.py:36-42).  The comparison `other.get(p) < self.get(p)` is only reached when `p`
is a key of both. -/
def le (m n : Marking P) : Bool :=
  m.all (fun e => Dict.has n e.1) &&
    m.all (fun e => !decide ((Dict.get? n e.1).getD 0 < (Dict.get? m e.1).getD 0))

/-- `Marking.__add__` (obj.py:44-50). -/
def add (m n : Marking P) : Marking P :=
  n.foldl (fun acc e => Dict.set acc e.1 (Dict.count acc e.1 + e.2))
    (m.foldl (fun acc e => Dict.set acc e.1 e.2) [])

/-- one iteration of obj.py:56-59 -/
def subStep (acc : Marking P) (e : P × Int) : Marking P :=
  let acc1 := Dict.set acc e.1 (Dict.count acc e.1 - e.2)
  if Dict.count acc1 e.1 = 0 then Dict.del acc1 e.1 else acc1

/-- `Marking.__sub__` (obj.py:52-60). -/
def sub (m n : Marking P) : Marking P :=
  n.foldl subStep (m.foldl (fun acc e => Dict.set acc e.1 e.2) [])

end Marking

/-- A Petri net (obj.py:79-330): transitions with their input and output arcs.  An arc is a place and a
weight.  Python keeps arcs in `set`s of arc objects; here they are lists in some iteration order. -/
structure Net (P T : Type) where
  places : List P
  transitions : List T
  inArcs : T → List (P × Int)
  outArcs : T → List (P × Int)

namespace Net
variable {P T : Type} [DecidableEq P] [DecidableEq T]

/-- `is_enabled` (semantics.py:141-148); also `PetriNetSemantics.is_enabled` (semantics.py:30-50). -/
def isEnabled (net : Net P T) (t : T) (m : Marking P) : Bool :=
  if t ∈ net.transitions then (net.inArcs t).all (fun a => !decide (Dict.count m a.1 < a.2)) else false

/-- consumption in `execute` (semantics.py:156-159) -/
def consume (m : Marking P) (a : P × Int) : Marking P :=
  let m1 := Dict.set m a.1 (Dict.count m a.1 - a.2)
  if Dict.count m1 a.1 = 0 then Dict.del m1 a.1 else m1

/-- consumption in `weak_execute` (semantics.py:169-172) -/
def weakConsume (m : Marking P) (a : P × Int) : Marking P :=
  let m1 := Dict.set m a.1 (Dict.count m a.1 - a.2)
  if Dict.count m1 a.1 ≤ 0 then Dict.del m1 a.1 else m1

/-- production (semantics.py:161-162, 173-174) -/
def produce (m : Marking P) (a : P × Int) : Marking P :=
  Dict.set m a.1 (Dict.count m a.1 + a.2)

/-- `execute` (semantics.py:151-164). -/
def execute (net : Net P T) (t : T) (m : Marking P) : Option (Marking P) :=
  if net.isEnabled t m then
    some ((net.outArcs t).foldl produce ((net.inArcs t).foldl consume m))
  else none

/-- `weak_execute` (semantics.py:167-175). -/
def weakExecute (net : Net P T) (t : T) (m : Marking P) : Marking P :=
  (net.outArcs t).foldl produce ((net.inArcs t).foldl weakConsume m)

/-- `PetriNetSemantics.fire` (semantics.py:53-73): no check, no deletion of zero entries. -/
def fire (net : Net P T) (t : T) (m : Marking P) : Marking P :=
  (net.outArcs t).foldl produce
    ((net.inArcs t).foldl (fun m a => Dict.set m a.1 (Dict.count m a.1 - a.2)) m)

/-- `enabled_transitions` (semantics.py:178-183). -/
def enabledTransitions (net : Net P T) (m : Marking P) : List T :=
  net.transitions.filter (fun t => net.isEnabled t m)

end Net

/-- Kinds of input arcs of inhibitor/reset nets (obj.py `InhibitorNet.InhibitorArc`, `ResetNet.ResetArc`). -/
inductive ArcKind
  | normal | inhibitor | reset
  deriving DecidableEq, Repr

/-- A net with inhibitor and reset arcs (obj.py:333-420). -/
structure IRNet (P T : Type) where
  transitions : List T
  inArcs : T → List (ArcKind × P × Int)
  outArcs : T → List (P × Int)

namespace IRNet
variable {P T : Type} [DecidableEq P] [DecidableEq T]

/-- test of one input arc (inhibitor_reset/semantics.py:97-103): `true` means "does not block" -/
def arcOk (m : Marking P) : ArcKind × P × Int → Bool
  | (.inhibitor, p, _) => !decide (Dict.count m p > 0)
  | (.reset, _, _) => true
  | (.normal, p, w) => !decide (Dict.count m p < w)

/-- `is_enabled` (inhibitor_reset/semantics.py:92-104). -/
def isEnabled (net : IRNet P T) (t : T) (m : Marking P) : Bool :=
  if t ∈ net.transitions then (net.inArcs t).all (arcOk m) else false

/-- consumption in `execute` (inhibitor_reset/semantics.py:112-121) -/
def consume (m : Marking P) : ArcKind × P × Int → Marking P
  | (.reset, p, _) => Dict.del (Dict.set m p 0) p
  | (.inhibitor, _, _) => m
  | (.normal, p, w) => Net.consume m (p, w)

/-- `execute` (inhibitor_reset/semantics.py:107-126). -/
def execute (net : IRNet P T) (t : T) (m : Marking P) : Option (Marking P) :=
  if net.isEnabled t m then
    some ((net.outArcs t).foldl Net.produce ((net.inArcs t).foldl consume m))
  else none

end IRNet
end Verif
