/-
Model of the detection of batches (/repo/pm4py/algo/discovery/batches/utils/detection.py).
-/
namespace Verif
namespace Batches

/-- an event of the activity and resource: start and completion time (in the code floating-point seconds, here integers), case and event
identifier -/
structure Ev where
  st : Int
  et : Int
  case : String
  id : Nat
  deriving DecidableEq, Repr

/-- an interval: its bounds and the set of its events -/
structure Iv where
  st : Int
  et : Int
  evs : List Ev
  deriving DecidableEq, Repr

/-- union of the sets of events -/
def union (a b : List Ev) : List Ev := a ++ b.filter fun e => decide (e ∉ a)

/-- `new_interval` (detection.py:50-51, 81-82) -/
def join (x y : Iv) : Iv := ⟨min x.st y.st, max x.et y.et, union x.evs y.evs⟩

/-- The parts of the Python library that are parameters: `lt` compares intervals (tuples of two numbers and a set; sets are compared by
inclusion, so this is no total order), `heapify` and `sort` rearrange a list. -/
structure Ops where
  lt : Iv → Iv → Bool
  heapify : List Iv → List Iv
  sort : List Iv → List Iv

/-- the first two neighbours that satisfy `p`, with what is before and after them (the inner loop of detection.py:47-64) -/
def firstPair (p : Iv → Iv → Bool) : List Iv → Option (List Iv × Iv × Iv × List Iv)
  | x :: y :: l => if p x y then some ([], x, y, l) else (firstPair p (y :: l)).map fun r => (x :: r.1, r.2)
  | _ => none

/-- `intervals[i][1] > intervals[i + 1][0]` (line 48) -/
def overlapping (x y : Iv) : Bool := decide (x.et > y.st)

/-- `__merge_overlapping_intervals` (detection.py:38-65); `fuel` bounds the number of rounds, every round but the last one makes the list
shorter -/
def mergeOverlapping (o : Ops) : Nat → List Iv → List Iv
  | 0, l => l
  | fuel + 1, l =>
    match firstPair overlapping l with
    | none => l
    | some (pre, x, y, post) => mergeOverlapping o fuel (o.sort (pre ++ post ++ [join x y]))

/-- `_siftdown(heap, 0, pos)` of `heapq`: the entry at `pos` moves up while it is less than its parent -/
def siftdown (lt : Iv → Iv → Bool) : Nat → List Iv → Nat → List Iv
  | 0, l, _ => l
  | fuel + 1, l, pos =>
    if pos = 0 then l
    else
      if h : pos < l.length then
        if lt l[pos] (l[(pos - 1) / 2]'(by omega)) then
          siftdown lt fuel ((l.set pos (l[(pos - 1) / 2]'(by omega))).set ((pos - 1) / 2) l[pos]) ((pos - 1) / 2)
        else l
      else l

/-- `heapq.heappush` -/
def heappush (lt : Iv → Iv → Bool) (l : List Iv) (x : Iv) : List Iv := siftdown lt l.length (l ++ [x]) l.length

/-- `intervals[i + 1][0] - intervals[i][1] <= max_allowed_distance` (line 79) -/
def near (d : Int) (x y : Iv) : Bool := decide (y.st - x.et ≤ d)

/-- one pass of the inner loop of `__merge_near_intervals` (detection.py:78-92), from the position `i` on; the result tells whether something was
merged.  After a merge the position stays (`i = i - 1`, `i = i + 1`). -/
def nearPass (o : Ops) (d : Int) : Nat → Nat → List Iv → Bool → List Iv × Bool
  | 0, _, l, c => (l, c)
  | fuel + 1, i, l, c =>
    if h : i + 1 < l.length then
      if near d l[i] l[i + 1] then nearPass o d fuel i (heappush o.lt (l.take i ++ l.drop (i + 2)) (join l[i] l[i + 1])) true
      else nearPass o d fuel (i + 1) l c
    else (l, c)

/-- `__merge_near_intervals` (detection.py:68-93) -/
def mergeNear (o : Ops) (d : Int) : Nat → List Iv → List Iv
  | 0, l => l
  | fuel + 1, l =>
    let r := nearPass o d l.length 0 l false
    if r.2 then mergeNear o d fuel r.1 else r.1

/-- detection.py:154-158: the intervals of the events -/
def intervals (o : Ops) (d : Int) (events : List Ev) : List Iv :=
  let l := o.heapify (events.map fun e => ⟨e.st, e.et, [e]⟩)
  let l := mergeOverlapping o (l.length + 1) l
  mergeNear o d (l.length + 1) l

/-- `BatchType` (detection.py:30-35) -/
inductive BatchType
  | simultaneous | batchingStart | batchingEnd | seqBatching | concBatching
  deriving DecidableEq, Repr

/-- the order of `sorted` on events (tuples) -/
def evLe (x y : Ev) : Bool :=
  decide (x.st < y.st) || (decide (x.st = y.st) && (decide (x.et < y.et) || (decide (x.et = y.et) &&
    (decide (x.case < y.case) || (decide (x.case = y.case) && decide (x.id ≤ y.id))))))

/-- detection.py:127-134: every event ends when the next one starts -/
def isSequential : List Ev → Bool
  | x :: y :: l => decide (x.et = y.st) && isSequential (y :: l)
  | _ => true

/-- `__check_batch_type` (detection.py:96-138); `min(..) == max(..)` of the starts (ends) is written as: all are equal to the first one -/
def batchType (b : Iv) : BatchType :=
  let evs := b.evs.mergeSort evLe
  let sameStart := evs.all fun e => decide (some e.st = evs.head?.map Ev.st)
  let sameEnd := evs.all fun e => decide (some e.et = evs.head?.map Ev.et)
  if sameStart && sameEnd then .simultaneous
  else if sameStart then .batchingStart
  else if sameEnd then .batchingEnd
  else if isSequential evs then .seqBatching
  else .concBatching

/-- `__detect_single` (detection.py:141-164): the batches with their types -/
def detectSingle (o : Ops) (mergeDistance : Int) (minBatchSize : Nat) (events : List Ev) : List (BatchType × Iv) :=
  ((intervals o mergeDistance events).filter fun x => decide (x.evs.length ≥ minBatchSize)).map fun b => (batchType b, b)

end Batches
end Verif
