import Verif.Replay.Model
import Verif.Petri.PlayoutTheorems
/-
Specification vocabulary for token-based replay.
-/
namespace Verif
open Dict
namespace Replay
variable {P T A : Type} [DecidableEq P] [DecidableEq T] [DecidableEq A]

/-- The events of a trace whose activity labels a transition of the net. -/
def modelPart (net : Net P T) (lab : T → Option A) (w : List A) : List A :=
  w.filter fun a => decide (∃ t ∈ net.transitions, lab t = some a)

/-- `w` is the trace of a firing sequence from the initial to the final marking. -/
def InLanguage (net : Net P T) (lab : T → Option A) (im fm : Marking P) (w : List A) : Prop :=
  ∃ ts m, net.FiringSequence im ts m ∧ SameTokens m fm ∧ ts.filterMap lab = w

/-- All arcs have weight 1. -/
def UnitArcs (net : Net P T) : Prop :=
  ∀ t ∈ net.transitions, (∀ a ∈ net.inArcs t, a.2 = 1) ∧ ∀ a ∈ net.outArcs t, a.2 = 1

/-- A proper input of the replay: no parallel arcs, weights at least 1, markings without non-positive or repeated
entries, and only hidden transitions in the table of paths (as computed by `hiddenPaths`). -/
structure Proper (e : Env P T A) : Prop where
  simple : e.net.Simple
  imPos : Pos e.im
  imNodup : (keys e.im).Nodup
  fmPos : Pos e.fm
  fmNodup : (keys e.fm).Nodup
  hidden : ∀ p1 p2 l, e.paths p1 p2 = some l → ∀ t ∈ l, e.lab t = none

end Replay
end Verif
