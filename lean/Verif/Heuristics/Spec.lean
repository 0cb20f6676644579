import Verif.Heuristics.Model
/-
Specification for C77.
-/
namespace Verif.Heuristics
open Dict
variable {α : Type} [LinearOrder α]

/-- dictionaries have each key once, with positive counts -/
structure WF (i : Input α) : Prop where
  dfg : (keys i.dfg).Nodup
  pos : ∀ a b n, get? i.dfg (a, b) = some n → 0 < n
  triples : (keys i.triples).Nodup

/-- the dependency measure of the Heuristics Miner, from the numbers of direct successions -/
def dependency (i : Input α) (a b : α) : Rat :=
  if a = b then (count i.dfg (a, a) : Rat) / (count i.dfg (a, a) + 1)
  else ((count i.dfg (a, b) : Rat) - count i.dfg (b, a)) / (count i.dfg (a, b) + count i.dfg (b, a) + 1)

/-- the activity occurs often enough -/
def Frequent (p : Params) (i : Input α) (a : α) : Prop := ∃ n, get? i.occ a = some n ∧ n ≥ p.minAct

/-- `b` depends on `a` -/
def Depends (p : Params) (i : Input α) (a b : α) : Prop := (a, b) ∈ keys i.dfg ∧ dependency i a b ≥ p.dep

/-- a connection between frequent activities, that is frequent and has a high dependency -/
def Strong (p : Params) (i : Input α) (a b : α) : Prop :=
  Depends p i a b ∧ count i.dfg (a, b) ≥ p.minDfg ∧ Frequent p i a ∧ Frequent p i b

/-- the measure for loops of length two -/
def loopMeasure (i : Input α) (a b : α) : Rat :=
  ((count i.triples (a, b, a) : Rat) + count i.triples (b, a, b)) / (count i.triples (a, b, a) + count i.triples (b, a, b) + 1)

/-- `a` has a strong connection, and `a b a` is a loop of length two -/
def Loop (p : Params) (i : Input α) (a b : α) : Prop :=
  (∃ c, Strong p i a c ∨ Strong p i c a) ∧ a ≠ b ∧ (a, b, a) ∈ keys i.triples ∧ loopMeasure i a b ≥ p.loop2 ∧
  (a, b) ∈ keys i.dfg ∧ count i.dfg (a, b) ≥ p.minDfg ∧ Frequent p i a ∧ Frequent p i b ∧ ¬ Depends p i a b ∧ ¬ Depends p i b a

/-- number of positions of `t` with the activities `a`, `b`, `c` in a row -/
def rows (a b c : α) (t : List α) : Nat :=
  ((List.range t.length).filter fun i => decide (t[i]? = some a ∧ t[i + 1]? = some b ∧ t[i + 2]? = some c)).length

/-- the connections of a net -/
def Net.arcs (h : Net α) : List (α × α) := h.outs.map Prod.fst

end Verif.Heuristics
