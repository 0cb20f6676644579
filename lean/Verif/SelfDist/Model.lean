import Verif.Common.Counter
import Verif.Filter.Spec
/-
Model of the minimum self-distances, their witnesses and the rework statistics
(/repo/pm4py/algo/discovery/minimum_self_distance/{variants/log.py,variants/pandas.py,utils.py}, /repo/pm4py/statistics/rework/{log,pandas}/get.py,
/repo/pm4py/statistics/rework/cases/log/get.py).  A trace is the list of its activities.  A row of a data frame is the case identifier and the activity.
-/
namespace Verif.SelfDist
open Dict
variable {α γ κ β : Type} [DecidableEq α] [DecidableEq γ] [DecidableEq κ]

/-- `[i for i, x in enumerate(t) if x == a]` (log.py:61, utils.py:69) -/
def indices (a : α) (t : List α) : List Nat := (List.range t.length).filter fun i => decide (t[i]? = some a)

/-- `[t[i] - t[i - 1] - 1 for i, x in enumerate(t) if i > 0]` (log.py:63) -/
def diffs (l : List Nat) : List Nat := List.zipWith (fun x y => y - x - 1) l l.tail

/-- `get_event_attribute_values(log, act_key)` (log.py:54): the activities of the log; only the keys matter, in some order -/
def alphabet (log : List (List α)) : List α := Filter.firstOcc log.flatten

/-- the values whose minimum is taken for the activity `a` (log.py:60-63) -/
def distances (log : List (List α)) (a : α) : List Nat := ((log.map (indices a)).filter fun l => decide (l.length > 1)).flatMap diffs

/-- `apply` (log.py:31-64).  The test of line 58 (some trace has `a` twice) decides whether there is an entry; the minimum of the empty list (an
exception) is not reached, see `C75_min`. -/
def msd (log : List (List α)) : Dict α Nat :=
  (alphabet log).foldl (fun d a =>
    if ((log.map fun t => t.filter fun e => decide (e = a)).filter fun t => decide (t.length > 1)).length > 0 then
      Dict.set d a ((distances log a).min?.getD 0)
    else d) []

/-- `derive_msd_witnesses` for one activity and one trace (utils.py:67-73) -/
def witnessesIn (d : Nat) (a : α) (t : List α) : List α :=
  if (t.filter fun e => decide (e = a)).length > 1 then
    ((indices a t).zip (indices a t).tail).flatMap fun p => if p.2 - p.1 - 1 = d then (t.take p.2).drop (p.1 + 1) else []
  else []

/-- `derive_msd_witnesses` (utils.py:33-74); the sets are lists, read by membership -/
def witnesses (m : Dict α Nat) (log : List (List α)) : Dict α (List α) :=
  (alphabet log).foldl (fun w a =>
    match get? m a with
    | some d => if d > 0 then Dict.set w a (log.flatMap (witnessesIn d a)) else w
    | none => w) []

/-- `pm4py.get_minimum_self_distance_witnesses` (stats.py:443-471): the distances use the given activity key, but the witnesses are derived without
parameters, with the default key.  `key` and `dflt` read the two attributes of an event. -/
def getWitnesses (key dflt : β → α) (log : List (List β)) : Dict α (List α) := witnesses (msd (log.map (List.map key))) (log.map (List.map dflt))

/-! ### data frames -/

/-- `insert_ev_in_tr_index` (pandas.py:56): the rows with their position in the case -/
def index (rows : List (γ × α)) : List (γ × α × Nat) :=
  rows.foldl (fun acc r => acc ++ [(r.1, r.2, acc.countP fun x => decide (x.1 = r.1))]) []

/-- lines 57-61 (pandas.py): the rows whose key (the concatenation of case identifier and activity) occurs more than once; the last `cumcount` of a
group is its size minus one -/
def repeated (cat : γ → α → κ) (rows : List (γ × α × Nat)) : List (γ × α × Nat) :=
  rows.filter fun x => decide ((rows.countP fun y => decide (cat y.1 y.2.1 = cat x.1 x.2.1)) - 1 > 0)

/-- lines 62-64 (pandas.py): the merged rows, activity and difference -/
def merged (rows : List (γ × α × Nat)) : List (α × Int) :=
  (rows.flatMap fun x => (rows.filter fun y => decide (y.1 = x.1 ∧ y.2.1 = x.2.1)).map fun y => (x.2.1, (y.2.2 : Int) - (x.2.2 : Int) - 1)).filter
    fun p => decide (p.2 ≥ 0)

/-- `apply` (pandas.py:31-66); `groupby(activity)[...].agg("min").to_dict()` has the activities as keys -/
def msdDf (cat : γ → α → κ) (rows : List (γ × α)) : Dict α Int :=
  let df := merged (repeated cat (index rows))
  (Filter.firstOcc (df.map Prod.fst)).map fun a => (a, ((df.filter fun p => decide (p.1 = a)).map Prod.snd).min?.getD 0)

/-! ### rework -/

/-- `apply` (rework/log/get.py:29-60) -/
def rework (log : List (List α)) : Dict α Int :=
  Counter.ofList (log.flatMap fun t => let c := Counter.ofList t; (keys c).filter fun a => decide (Dict.count c a > 1))

/-- `apply` (rework/pandas/get.py:33-66): the rows with a positive `cumcount`, one for each activity and case, counted by activity -/
def reworkDf (rows : List (γ × α)) : Dict α Int :=
  let cum := rows.foldl (fun acc r => acc ++ [(r, acc.countP fun x => decide (x.1 = r))]) ([] : List ((γ × α) × Nat))
  let again := cum.filter fun x => decide (x.2 > 0)
  Counter.ofList ((Filter.firstOcc (again.map Prod.fst)).map Prod.snd)

/-- `apply` (rework/cases/log/get.py:30-66) for one trace: the number of activities and the rework -/
def reworkCase (t : List α) : Nat × Int := (t.length, (t.length : Int) - ((Filter.firstOcc t).length : Int))

end Verif.SelfDist
