import Verif.DfgNet.Spec
import Verif.Common.Counter
import Verif.Common.ListX
set_option linter.unusedSectionVars false
/-
C44: playout of a directly-follows graph (/repo/pm4py/algo/simulation/playout/dfg/variants/classic.py).

The code adds logarithms of floats and orders the heap by the negated sums; the model multiplies exact rationals and pops an
entry chosen by a parameter (`pick`), which for the real heap is an entry of largest probability.  Time limits, time stamps
and the options `interrupt_simulation_when_dfg_complete`, `add_trace_if_takes_new_els_to_dfg` (both off by default) are not
modelled.
-/
namespace Verif.DfgNet
variable {α : Type} [DecidableEq α]

/-- A directly-follows graph with frequencies: arcs, start activities, end activities (dictionaries). -/
structure Graph (α : Type) where
  arcs : Dict (α × α) Int
  starts : Dict α Int
  ends : Dict α Int

/-- `node_transition_probabilities[a]` before the division: the arcs from `a`, then the end (classic.py:68-78). -/
def targets (g : Graph α) (a : α) : List (Option α × Int) :=
  ((g.arcs.filter fun e => decide (e.1.1 = a)).map fun e => (some e.1.2, e.2)) ++
    (match g.ends.get? a with | some n => [(none, n)] | none => [])

/-- The sum of the frequencies (80). -/
def weight (l : List (Option α × Int)) : Rat := ((l.map fun x => (x.2 : Rat)).sum)

/-- `node_transition_probabilities[a]`; `none`: no such key (79-84). -/
def shares (g : Graph α) (a : α) : Option (List (Option α × Rat)) :=
  match targets g a with
  | [] => none
  | l => some (l.map fun x => (x.1, (x.2 : Rat) / weight l))

/-- The start activities with their probabilities (86-89). -/
def startShares (g : Graph α) : List (α × Rat) :=
  g.starts.map fun x => (x.1, (x.2 : Rat) / (g.starts.map fun x => (x.2 : Rat)).sum)

/-- The heap of partial traces and what has been yielded. -/
structure PState (α : Type) where
  partials : List (Rat × List α)
  yielded : List (List α × Rat)

/-- The loop over the successors of the last activity (137-145). -/
def extend (maxOcc : Nat) (p : Rat) (w : List α) (st : PState α) (x : Option α × Rat) : PState α :=
  if (match x.1 with | some a => w.count a | none => 0) < maxOcc then
    match x.1 with
    | none => { st with yielded := st.yielded ++ [(w, p * x.2)] }
    | some a => { st with partials := st.partials ++ [(p * x.2, w ++ [a])] }
  else st

/-- One round of `while partial_traces` (129-145); `none` is the `KeyError` of line 137. -/
def pstep (g : Graph α) (maxOcc : Nat) (pick : List (Rat × List α) → Option ((Rat × List α) × List (Rat × List α)))
    (st : PState α) : Option (PState α) :=
  match pick st.partials with
  | none => some st
  | some ((p, w), rest) =>
    match w.getLast? with
    | none => none
    | some a =>
      match shares g a with
      | none => none
      | some l => some (l.foldl (extend maxOcc p w) { st with partials := rest })

/-- `get_traces` after a number of rounds (94-145). -/
def prun (g : Graph α) (maxOcc : Nat) (pick : List (Rat × List α) → Option ((Rat × List α) × List (Rat × List α))) :
    Nat → Option (PState α)
  | 0 => some { partials := (startShares g).map fun x => (x.2, [x.1]), yielded := [] }
  | n + 1 => (prun g maxOcc pick n).bind (pstep g maxOcc pick)

/-- The loop of `apply` over the yielded traces (213-252) with the options `max_no_variants` and `min_variant_occ`. -/
def collect (maxVariants minOcc : Nat) : List (List α × Rat) → Nat → List (List α × Rat) → List (List α × Rat)
  | [], _, final => final
  | (w, p) :: rest, maxO, final =>
    if final.length ≥ maxVariants then final
    else
      let occ := (p * maxVariants).ceil.toNat
      let maxO := max maxO occ
      if occ < minOcc ∧ minOcc ≤ maxO then final else collect maxVariants minOcc rest maxO (final ++ [(w, p)])

/-- The product along the trace in `get_trace_probability` (321-326). -/
def probFrom (g : Graph α) : List α → Option Rat
  | [] => some 1
  | a :: w => match shares g a with
    | none => none
    | some l => match l.find? fun x => decide (x.1 = w.head?) with
      | none => none
      | some x => match probFrom g w with
        | none => none
        | some q => some (x.2 * q)

/-- `get_trace_probability` (285-332): any exception gives 0. -/
def traceProb (g : Graph α) (w : List α) : Rat :=
  match w with
  | [] => 0
  | a :: _ => match (startShares g).find? fun x => decide (x.1 = a) with
    | none => 0
    | some x => match probFrom g w with
      | none => 0
      | some q => x.2 * q

/-! ### Specification -/

/-- A graph as in the documentation ("*Complete* DFG"): positive frequencies, no key twice, and every activity that is started
or entered has a successor or is an end activity. -/
structure Complete (g : Graph α) : Prop where
  keys : (g.arcs.map Prod.fst).Nodup ∧ (g.starts.map Prod.fst).Nodup ∧ (g.ends.map Prod.fst).Nodup
  pos : (∀ e ∈ g.arcs, 0 < e.2) ∧ (∀ e ∈ g.starts, 0 < e.2) ∧ ∀ e ∈ g.ends, 0 < e.2
  leaves : ∀ a, (a ∈ g.starts.map Prod.fst ∨ ∃ e ∈ g.arcs, e.1.2 = a) →
    a ∈ g.ends.map Prod.fst ∨ ∃ e ∈ g.arcs, e.1.1 = a

/-- All that leaves an activity: the frequencies of its arcs and of ending there. -/
def outFlow (g : Graph α) (a : α) : Int :=
  ((g.arcs.filter fun e => decide (e.1.1 = a)).map Prod.snd).sum + g.ends.count a

/-- All starts. -/
def startFlow (g : Graph α) : Int := (g.starts.map Prod.snd).sum

/-- The probability to go from the first activity through the others and to end, each step with its relative frequency. -/
def walkProb (g : Graph α) : List α → Rat
  | [] => 1
  | [a] => (g.ends.count a : Rat) / outFlow g a
  | a :: b :: w => (g.arcs.count (a, b) : Rat) / outFlow g a * walkProb g (b :: w)

/-- The probability of a trace. -/
def Prob (g : Graph α) (w : List α) : Rat :=
  match w with
  | [] => 0
  | a :: _ => (g.starts.count a : Rat) / startFlow g * walkProb g w

/-- The heap: `pick` returns an entry and the others, if there is one. -/
def Picks (pick : List (Rat × List α) → Option ((Rat × List α) × List (Rat × List α))) : Prop :=
  (∀ l x rest, pick l = some (x, rest) → l.Perm (x :: rest)) ∧ ∀ l, pick l = none → l = []

end Verif.DfgNet
