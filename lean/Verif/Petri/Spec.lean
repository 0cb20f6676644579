import Verif.Petri.Model
/-
Specification vocabulary for Petri nets (independent of the code).
-/
namespace Verif

/-- Total weight of the arcs in `arcs` that touch place `p`. -/
def arcWeight {P : Type} [DecidableEq P] (arcs : List (P × Int)) (p : P) : Int :=
  ((arcs.filter fun a => decide (a.1 = p)).map Prod.snd).sum

namespace Net
variable {P T : Type} [DecidableEq P]

/-- A transition may fire: it belongs to the net and every place holds the tokens it consumes. -/
def Enabled (net : Net P T) (t : T) (m : Marking P) : Prop :=
  t ∈ net.transitions ∧ ∀ p, arcWeight (net.inArcs t) p ≤ Dict.count m p

/-- `m'` is the marking after `t` fired in `m`: each place loses what `t` consumes and gains what it produces. -/
def Fires (net : Net P T) (t : T) (m m' : Marking P) : Prop :=
  ∀ p, Dict.count m' p = Dict.count m p - arcWeight (net.inArcs t) p + arcWeight (net.outArcs t) p

/-- No two arcs from the same place to the same transition, all weights at least 1. -/
structure Simple (net : Net P T) : Prop where
  noParallel : ∀ t ∈ net.transitions, ((net.inArcs t).map Prod.fst).Nodup
  inPos : ∀ t ∈ net.transitions, ∀ a ∈ net.inArcs t, 1 ≤ a.2
  outPos : ∀ t ∈ net.transitions, ∀ a ∈ net.outArcs t, 1 ≤ a.2

end Net

/-- Two markings assign the same number of tokens to every place. -/
def SameTokens {P : Type} [DecidableEq P] (m n : Marking P) : Prop := ∀ p, Dict.count m p = Dict.count n p

end Verif
