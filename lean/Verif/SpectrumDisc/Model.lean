import Mathlib.Data.List.Sort
import Mathlib.Data.List.Dedup
/-
Model of the disconnected performance spectrum of event logs: /repo/pm4py/algo/discovery/performance_spectrum/variants/log_disconnected.py:65-103.
The traces are already filtered and sorted (C83); sampling (C83) is left out.  A trace is its case and the list of its pairs of activity and time.
-/
namespace Verif
namespace SpectrumDisc

abbrev Event := String × Int
abbrev Trace := Nat × List Event
/-- a point: the case and the events of the segment -/
abbrev Point := Nat × List Event

/-- the value of the expression `x in all_acti_combs`: a generator object is different from every tuple -/
inductive PyVal
  | tuple (l : List String)
  | generator (l : List String)
  deriving DecidableEq

/-- all contiguous parts of the activity list with at least two activities (log_disconnected.py:65-66) -/
def combs (as : List String) : List PyVal :=
  (List.range (as.length + 1)).flatMap fun i => if 2 ≤ i then (List.range (as.length - i + 1)).map fun j => PyVal.tuple ((as.drop j).take i) else []

/-- the pairs of neighbours of the activity list (log_disconnected.py:67) -/
def twoCombs (as : List String) : List (String × String) := as.zip as.tail

/-- the activity of the event at a position -/
def actAt (t : List Event) (i : Nat) : String := ((t[i]?).map Prod.fst).getD ""

/-- the initial matches (log_disconnected.py:80-81) -/
def pairs (as : List String) (t : List Event) : List (List Nat) :=
  ((List.range (t.length - 1)).filter fun i => decide ((actAt t i, actAt t (i + 1)) ∈ twoCombs as)).map fun i => [i, i + 1]

/-- the condition of log_disconnected.py:86, with `matchAct` of log_disconnected.py:85: a generator expression, not a tuple -/
def mergeable (as : List String) (t : List Event) (m n : List Nat) : Bool :=
  decide (m.getLast? = n.head?) && decide (PyVal.generator ((m ++ n.tail).map (actAt t)) ∈ combs as)

/-- the loop of log_disconnected.py:83-91 at the position `i` -/
def loop (as : List String) (t : List Event) (i : Nat) (ms : List (List Nat)) : List (List Nat) :=
  if h : i + 1 < ms.length then
    if mergeable as t ms[i] ms[i + 1] then
      loop as t 0 (ms.take i ++ (ms[i] ++ ms[i + 1].tail) :: ms.drop (i + 2))
    else loop as t (i + 1) ms
  else ms
termination_by (ms.length, ms.length - i)
decreasing_by
  · apply Prod.Lex.left
    simp only [List.length_append, List.length_take, List.length_cons, List.length_drop]
    omega
  · apply Prod.Lex.right
    omega

/-- the points of a trace (log_disconnected.py:93-100) -/
def tracePoints (as : List String) (t : Trace) : List Point :=
  (loop as t.2 0 (pairs as t.2)).dedup.map fun m => (t.1, m.filterMap fun i => t.2[i]?)

/-- the earliest time of a point (log_disconnected.py:102) -/
def start (p : Point) : Int := ((p.2.map Prod.snd).min?).getD 0

def byStart (p q : Point) : Prop := start p ≤ start q
instance : DecidableRel byStart := fun p q => inferInstanceAs (Decidable (start p ≤ start q))

/-- log_disconnected.py:78-102 -/
def points (as : List String) (log : List Trace) : List Point := (log.flatMap (tracePoints as)).insertionSort byStart

end SpectrumDisc
end Verif
