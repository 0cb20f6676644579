import Verif.Log.Dfg
/-
C16: log skeletons.  /repo/pm4py/algo/discovery/log_skeleton/{trace_skel.py,variants/classic.py},
/repo/pm4py/algo/conformance/log_skeleton/variants/classic.py
A trace is the list of its activities; a log is the list of its traces.
-/
namespace Verif.Skeleton
open Dict Counter
variable {α : Type} [DecidableEq α]

/-! ### trace_skel.py -/

/-- `activ_freq` (trace_skel.py:112-126) -/
def activFreq (t : List α) : Dict α Int := ofList t

/-- `equivalence` (trace_skel.py:20-41): the pair is appended `freq[x]` times -/
def equivalence (t : List α) : List (α × α) :=
  let freq := activFreq t
  (keys freq).flatMap fun x => (keys freq).flatMap fun y =>
    if x ≠ y ∧ count freq x = count freq y then List.replicate (count freq x).toNat (x, y) else []

/-- the pairs `(t[i], t[j])` for `i`, `j` in the range, in loop order, with a condition on the positions -/
def posPairs (t : List α) (ok : Nat → Nat → Bool) : List (α × α) :=
  (List.range t.length).flatMap fun i => (List.range t.length).filterMap fun j =>
    if ok i j then match t[i]?, t[j]? with
      | some a, some b => some (a, b)
      | _, _ => none
    else none

/-- `after` (trace_skel.py:44-58) -/
def after (t : List α) : List (α × α) := posPairs t fun i j => decide (j > i)

/-- `before` (trace_skel.py:61-75) -/
def before (t : List α) : List (α × α) := posPairs t fun i j => decide (j < i)

/-- `combos` (trace_skel.py:78-92): a set -/
def combos (t : List α) : List (α × α) :=
  dedup (t.flatMap fun x => t.filterMap fun y => if x ≠ y then some (x, y) else none)

/-- `directly_follows` (trace_skel.py:95-109) -/
def directlyFollows (t : List α) : List (α × α) := Dfg.pairs t

/-! ### discovery -/

/-- `Counter.__iadd__`: add the counts, keep the positive ones -/
def counterAdd {κ : Type} [DecidableEq κ] (d e : Dict κ Int) : Dict κ Int :=
  (e.foldl (fun d p => inc d p.1 p.2) d).filter fun p => decide (0 < p.2)

/-- `Counter.__isub__`: subtract the counts, keep the positive ones -/
def counterSub {κ : Type} [DecidableEq κ] (d e : Dict κ Int) : Dict κ Int :=
  (e.foldl (fun d p => inc d p.1 (-p.2)) d).filter fun p => decide (0 < p.2)

/-- `rs = Counter(f(trace)); for k in rs: rs[k] = rs[k] * logs_traces[trace]` (e.g. classic.py:79-81) -/
def scaled (f : List α → List (α × α)) (e : List α × Int) : Dict (α × α) Int :=
  (ofList (f e.1)).map fun p => (p.1, p.2 * e.2)

/-- `y >= all_activs[x[0]] * (1.0 - noise_threshold)` with the exact rational noise `num / den` -/
def enough (all : Dict α Int) (num den : Nat) (x : α × α) (y : Int) : Bool :=
  decide (y * den ≥ count all x.1 * ((den : Int) - num))

/-- The common shape of `equivalence`, `always_after`, `always_before`, `directly_follows`
(classic.py:59-84, 87-112, 115-140, 176-201). -/
def discoverPairs (f : List α → List (α × α)) (lt : Dict (List α) Int) (all : Dict α Int) (num den : Nat) : List (α × α) :=
  let ret0 := lt.foldl (fun ret0 e => counterAdd ret0 (scaled f e)) []
  keys (ret0.filter fun p => enough all num den p.1 p.2)

/-- `never_together` (classic.py:143-173) -/
def neverTogether (lt : Dict (List α) Int) (all : Dict α Int) (num den : Nat) : List (α × α) :=
  let allCombos := (keys all).flatMap fun x => (keys all).filterMap fun y => if x ≠ y then some (x, y) else none
  let ret0 := allCombos.foldl (fun d k => Dict.set d k (count all k.1)) []
  let ret0 := lt.foldl (fun ret0 e => counterSub ret0 (scaled combos e)) ret0
  keys (ret0.filter fun p => enough all num den p.1 p.2)

/-- The truncation loop of `activ_freq` (classic.py:236-244): with `added` accumulated so far, keep entries up to
and including the first one where the accumulated count reaches `(1 - noise) * len_log` (after truncating, the loop
ends because `i + 1` is the new length). -/
def cutAfter (num den lenLog : Nat) (added : Int) : List (Int × Int) → List (Int × Int)
  | [] => []
  | p :: l =>
    if (added + p.2) * den ≥ ((den : Int) - num) * lenLog then [p] else p :: cutAfter num den lenLog (added + p.2) l

/-- the counters `ret0[act]` of `activ_freq` (classic.py:226-234) -/
def freqCounters (lt : Dict (List α) Int) (all : Dict α Int) : Dict α (Dict Int Int) :=
  lt.foldl (fun ret0 e =>
    let rs := (keys all).foldl (fun rs a => if has rs a then rs else Dict.set rs a 0) (activFreq e.1)
    (keys rs).foldl (fun ret0 a =>
      Dict.set ret0 a (inc ((get? ret0 a).getD []) (count rs a) e.2)) ret0) []

/-- `activ_freq` (classic.py:204-245) -/
def activFreqs (lt : Dict (List α) Int) (all : Dict α Int) (lenLog num den : Nat) : Dict α (List Int) :=
  (freqCounters lt all).map fun p =>
    (p.1, (cutAfter num den lenLog 0 (p.2.mergeSort fun x y => decide (x.2 ≥ y.2))).map Prod.fst)

/-- The six components of a log skeleton. -/
structure Skel (α : Type) where
  equivalence : List (α × α)
  alwaysAfter : List (α × α)
  alwaysBefore : List (α × α)
  neverTogether : List (α × α)
  directlyFollows : List (α × α)
  activFreq : Dict α (List Int)

/-- `apply` (classic.py:248-289); `lenLog` is `len(log)`, the number of traces of an event log or the number of rows
of a dataframe. -/
def discover (log : List (List α)) (lenLog num den : Nat) : Skel α :=
  let lt := ofList log
  let all := ofList log.flatten
  { equivalence := discoverPairs Skeleton.equivalence lt all num den
    alwaysAfter := discoverPairs after lt all num den
    alwaysBefore := discoverPairs before lt all num den
    neverTogether := Skeleton.neverTogether lt all num den
    directlyFollows := discoverPairs Skeleton.directlyFollows lt all num den
    activFreq := activFreqs lt all lenLog num den }

/-! ### conformance -/

inductive Kind | equivalence | alwaysAfter | alwaysBefore | neverTogether | directlyFollows | activFreq
  deriving DecidableEq

/-- an entry of the list of deviations -/
inductive Dev (α : Type)
  | pairs (k : Kind) (ps : List (α × α))
  | freq (a : α) (n : Int)

structure Result (α : Type) where
  deviations : List (Dev α)
  devTotal : Nat
  confTotal : Nat

/-- the branch for pair constraints (conformance classic.py:217-223): `this_constraints` without those found in the
trace -/
def checkDiff (k : Kind) (model info : List (α × α)) (t : List α) (r : Result α) : Result α :=
  let this := model.filter fun x => decide (x.1 ∈ t)
  let diff := this.filter fun x => decide (x ∉ info)
  { deviations := if diff.length > 0 then r.deviations ++ [.pairs k diff] else r.deviations
    devTotal := r.devTotal + diff.length
    confTotal := r.confTotal + this.length }

/-- the branch for never-together (conformance classic.py:210-216) -/
def checkInter (model info : List (α × α)) (t : List α) (r : Result α) : Result α :=
  let this := model.filter fun x => decide (x.1 ∈ t)
  let inte := this.filter fun x => decide (x ∈ info)
  { deviations := if inte.length > 0 then r.deviations ++ [.pairs .neverTogether inte] else r.deviations
    devTotal := r.devTotal + inte.length
    confTotal := r.confTotal + this.length }

/-- the deviation reported for an activity of the trace with its frequency, if any (conformance classic.py:197-204) -/
def badFreq (model : Dict α (List Int)) (p : α × Int) : Option (Dev α) :=
  match get? model p.1 with
  | some s => if p.2 ∈ s then none else some (.freq p.1 p.2)
  | none => some (.freq p.1 0)

/-- the branch for activity frequencies (conformance classic.py:193-209); `min(s) > 0` for a non-empty set says that
all its elements are positive -/
def checkFreq (model : Dict α (List Int)) (t : List α) (r : Result α) : Result α :=
  let info := Skeleton.activFreq t
  let missing := (keys model).filter fun a => ((get? model a).getD []).all (fun n => decide (0 < n)) && decide (a ∉ t)
  let bad := info.filterMap (badFreq model)
  { deviations := r.deviations ++ bad ++ missing.map (fun a => Dev.freq a 0)
    devTotal := r.devTotal + bad.length + missing.length
    confTotal := r.confTotal + (info.length + missing.length) }

/-- `apply_actlist` (conformance classic.py:156-231): the six branches in order, each only if considered.
The final sorting of the list of deviations is left out. -/
def applyActlist (considered : Kind → Bool) (m : Skel α) (t : List α) : Result α :=
  let r : Result α := ⟨[], 0, 0⟩
  let r := if considered .equivalence then checkDiff .equivalence m.equivalence (Skeleton.equivalence t) t r else r
  let r := if considered .alwaysAfter then checkDiff .alwaysAfter m.alwaysAfter (after t) t r else r
  let r := if considered .alwaysBefore then checkDiff .alwaysBefore m.alwaysBefore (before t) t r else r
  let r := if considered .neverTogether then checkInter m.neverTogether (combos t) t r else r
  let r := if considered .directlyFollows then checkDiff .directlyFollows m.directlyFollows (Skeleton.directlyFollows t) t r else r
  if considered .activFreq then checkFreq m.activFreq t r else r

/-- `is_fit` (conformance classic.py:230) -/
def Result.isFit (r : Result α) : Bool := r.deviations.isEmpty

/-- the grouping of `apply_log` (conformance classic.py:101-120): distinct traces in order of appearance (`gtk`), and
for each position the index of its trace in that list -/
def applyLog {ρ : Type} (f : List α → ρ) (traces : List (List α)) : List (Option ρ) :=
  let s := traces.foldl (fun (s : List (List α) × List Nat) tr =>
    let gtk := if tr ∈ s.1 then s.1 else s.1 ++ [tr]
    (gtk, s.2 ++ [gtk.idxOf tr])) ([], [])
  let res0 := s.1.map f
  s.2.map fun i => res0[i]?

end Verif.Skeleton
