/-
Model of the discovery of transition systems from event logs (/repo/pm4py/algo/discovery/transition_system/variants/view_based.py,
/repo/pm4py/objects/transition_system/obj.py).
-/
namespace Verif
namespace TransSys
variable {α : Type} [DecidableEq α]

/-- the parameter `view` (view_based.py:33-37) -/
inductive View
  | sequence | multiset | set
  deriving DecidableEq, Repr

/-- the parameter `direction` (view_based.py:39-41) -/
inductive Direction
  | forward | backward
  deriving DecidableEq, Repr

/-- equality of the state names that `__apply_abstr` (view_based.py:118-126) makes from two windows: of lists, of `Counter`s or of
sets.  In the model the name of a state is the window itself; it is only ever compared (line 79, 81). -/
def same : View → List α → List α → Bool
  | .sequence, x, y => decide (x = y)
  | .multiset, x, y => x.isPerm y
  | .set, x, y => x.all (fun a => decide (a ∈ y)) && y.all (fun a => decide (a ∈ x))

/-- the window of the position `i` (view_based.py:107-114) -/
def window : Direction → Nat → List α → Nat → List α
  | .forward, w, tr, i => (tr.drop i).take w
  | .backward, w, tr, i => (tr.take i).drop (i - w)

/-- one iteration of `__construct_state_path` looks at: the name of the current state, the activity, the name of the next state -/
structure Step (α : Type) where
  src : List α
  act : α
  tgt : List α
  deriving DecidableEq, Repr

/-- `__compute_view_sequence` (view_based.py:101-115) as it is read by `__construct_state_path`: the steps of the positions from `i`
on of a trace whose remaining activities are `rest` -/
def stepsFrom (d : Direction) (w : Nat) (tr : List α) : Nat → List α → List (Step α)
  | _, [] => []
  | i, a :: rest => ⟨window d w tr i, a, window d w tr (i + 1)⟩ :: stepsFrom d w tr (i + 1) rest

/-- all the steps of the log, in the order in which they are treated (view_based.py:69-73) -/
def stepsOf (d : Direction) (w : Nat) (log : List (List α)) : List (Step α) := log.flatMap fun tr => stepsFrom d w tr 0 tr

/-- `TransitionSystem` (obj.py:20-113): the states are objects, here the positions in the list of their names; a transition is given by
source, name and target.  The event data (`include_data`) is not modelled. -/
structure TS (α : Type) where
  states : List (List α) := []
  trans : List (Nat × α × Nat) := []
  deriving DecidableEq, Repr

/-- the name of a state -/
def TS.name (t : TS α) (i : Nat) : List α := t.states.getD i []

/-- view_based.py:79 and 81: a state with the given name, if there is one: the last one in the iteration order `ord` of the set of
states -/
def TS.find (t : TS α) (ord : List Nat → List Nat) (v : View) (x : List α) : Option Nat :=
  ((ord (List.range t.states.length)).filter fun i => same v (t.name i) x).getLast?

/-- the state for the name `x` (view_based.py:79-82): a found state or a new one, numbered `k`; with the names of the new states -/
def pickOr (r : Option Nat) (k : Nat) (x : List α) : Nat × List (List α) :=
  match r with
  | some i => (i, [])
  | none => (k, [x])

/-- one iteration of the loop of `__construct_state_path` (view_based.py:78-98): both states are looked up before either is added -/
def TS.step (ord : List Nat → List Nat) (v : View) (t : TS α) (s : Step α) : TS α :=
  let n := t.states.length
  let sf := pickOr (t.find ord v s.src) n s.src
  let st := pickOr (t.find ord v s.tgt) (n + sf.2.length) s.tgt
  { states := t.states ++ sf.2 ++ st.2
    trans := if (sf.1, s.act, st.1) ∈ t.trans then t.trans else t.trans ++ [(sf.1, s.act, st.1)] }

/-- `apply` (view_based.py:53-74) on the traces of the log -/
def discover (ord : List Nat → List Nat) (d : Direction) (w : Nat) (v : View) (log : List (List α)) : TS α :=
  (stepsOf d w log).foldl (TS.step ord v) {}

end TransSys
end Verif
