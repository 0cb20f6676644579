import Verif.PTree.Model
import Verif.Log.Dfg
/-
Model of the footprints of process trees, logs and traces, and of footprints conformance:
/repo/pm4py/algo/discovery/footprints/tree/variants/bottomup.py, log/variants/entire_event_log.py,
log/variants/trace_by_trace.py, /repo/pm4py/algo/conformance/footprints/variants/*.py,
/repo/pm4py/objects/process_tree/utils/bottomup.py.
A Python set is modelled by a list of which only membership (and emptiness) is used.
-/
namespace Verif
namespace Foot
variable {α : Type} [DecidableEq α]

/-- the footprints dictionary of a node (bottomup.py:27-43) -/
structure FP (α : Type) where
  start : List α
  stop : List α
  acts : List α
  skip : Bool
  sequence : List (α × α)
  parallel : List (α × α)
  always : List α

/-- `{(a1, a2) for a1 in l1 for a2 in l2}` -/
def cross (l1 l2 : List α) : List (α × α) := l1.flatMap fun a => l2.map fun b => (a, b)

/-- `set.intersection` -/
def inter (l1 l2 : List α) : List α := l1.filter fun a => decide (a ∈ l2)

/-- `fix_fp` (bottomup.py:46-70) -/
def fixFp (seq par : List (α × α)) : List (α × α) × List (α × α) :=
  let seq := seq.filter fun x => decide (x ∉ par)
  let parEls := seq.filter fun x => decide ((x.2, x.1) ∈ seq)
  (seq.filter fun x => decide (x ∉ parEls), par ++ parEls)

/-- `get_footprints_leaf` (bottomup.py:73-97) -/
def fpLeaf : Option α → FP α
  | none => ⟨[], [], [], true, [], [], []⟩
  | some a => ⟨[a], [a], [a], false, [], [], [a]⟩

/-- last lines of the functions for inner nodes: `fix_fp` and the resulting dictionary -/
def finish (start stop acts : List α) (skip : Bool) (seq par : List (α × α)) (always : List α) : FP α :=
  let r := fixFp seq par
  ⟨start, stop, acts, skip, r.1, r.2, always⟩

/-- `activities_always_happening` of a choice (bottomup.py:123-137) -/
def xorAlways (fs : List (FP α)) : List α :=
  fs.foldl (fun acc n => if !n.skip then inter acc n.always else [])
    (match fs with | [] => [] | f :: _ => f.always)

/-- `get_footprints_xor` (bottomup.py:100-143) -/
def fpXor (fs : List (FP α)) : FP α :=
  finish (fs.flatMap FP.start) (fs.flatMap FP.stop) (fs.flatMap FP.acts) (fs.foldl (fun b n => b || n.skip) false)
    (fs.flatMap FP.sequence) (fs.flatMap FP.parallel) (xorAlways fs)

/-- the pairs of activities of different children (bottomup.py:181-192) -/
def parPairs : List (FP α) → List (α × α)
  | [] => []
  | f :: fs => fs.flatMap (fun g => cross f.acts g.acts ++ cross g.acts f.acts) ++ parPairs fs

/-- `activities_always_happening` of parallel and sequence nodes (bottomup.py:178-179, 236-237) -/
def unionAlways (fs : List (FP α)) : List α := fs.flatMap fun n => if !n.skip then n.always else []

/-- `get_footprints_parallel` (bottomup.py:146-198); also used for OR nodes (bottomup.py:362) -/
def fpPar (fs : List (FP α)) : FP α :=
  finish (fs.flatMap FP.start) (fs.flatMap FP.stop) (fs.flatMap FP.acts) (fs.foldl (fun b n => b && n.skip) true)
    (fs.flatMap FP.sequence) (fs.flatMap FP.parallel ++ parPairs fs) (unionAlways fs)

/-- scan up to and including the first child that cannot be skipped (bottomup.py:259-275) -/
def scan (get : FP α → List α) : List (FP α) → List α
  | [] => []
  | n :: ns => get n ++ (if !n.skip then [] else scan get ns)

/-- inner loop of the footprints of a sequence (bottomup.py:243-254): the children after `n0`, up to and including the
first one that cannot be skipped -/
def seqPairsFrom (n0 : FP α) : List (FP α) → List (α × α)
  | [] => []
  | n1 :: ns => cross n0.stop n1.start ++ (if !n1.skip then [] else seqPairsFrom n0 ns)

/-- `while i < len(node.children) - 1` (bottomup.py:240-256) -/
def seqPairs : List (FP α) → List (α × α)
  | [] => []
  | n :: ns => seqPairsFrom n ns ++ seqPairs ns

/-- `get_footprints_sequence` (bottomup.py:201-281) -/
def fpSeq (fs : List (FP α)) : FP α :=
  finish (scan FP.start fs) (scan FP.stop fs.reverse) (fs.flatMap FP.acts) (fs.foldl (fun b n => b && n.skip) true)
    (fs.flatMap FP.sequence ++ seqPairs fs) (fs.flatMap FP.parallel) (unionAlways fs)

/-- `get_footprints_loop` (bottomup.py:284-345); a loop with one child raises `IndexError` (`node.children[1]`) -/
def fpLoop (fs : List (FP α)) : Option (FP α) :=
  match fs with
  | d :: r :: _ =>
    some (finish
      (d.start ++ if d.skip then r.start else [])
      (d.stop ++ if d.skip then r.stop else [])
      (fs.flatMap FP.acts) d.skip
      (fs.flatMap FP.sequence ++ cross d.stop r.start ++ cross r.stop d.start ++
        (if d.skip then cross r.stop r.start else []) ++ (if r.skip then cross d.stop d.start else []))
      (fs.flatMap FP.parallel)
      (if !d.skip then d.always else []))
  | _ => none

/-- `get_footprints` (bottomup.py:348-373) for a node with children; for an interleaving node it returns `None`, which makes
the caller raise: `none` stands for an exception -/
def fpOp : Op → List (FP α) → Option (FP α)
  | .xor, fs => some (fpXor fs)
  | .par, fs => some (fpPar fs)
  | .or, fs => some (fpPar fs)
  | .seq, fs => some (fpSeq fs)
  | .loop, fs => fpLoop fs
  | .inter, _ => none

mutual
/-- `get_footprints` applied to all nodes from the leaves to the root (`get_all_footprints`, bottomup.py:376-402).  That the
dictionary lookups amount to this recursion is proved (for trees without duplicate labels) in `BottomUpTheorems.lean`. -/
def footprints : PT α → Option (FP α)
  | .leaf l => some (fpLeaf l)
  | .node op cs => if cs.isEmpty then some (fpLeaf none) else footprintsL cs >>= fpOp op
/-- the footprints of the children -/
def footprintsL : List (PT α) → Option (List (FP α))
  | [] => some []
  | c :: cs => do return (← footprints c) :: (← footprintsL cs)
end

/-- the inner nodes of `get_min_length_dict` (utils/bottomup.py:184-191); `none`: no case applies (interleaving) -/
def minOp : Op → List Nat → Option Nat
  | .xor, l => l.min?
  | .par, l => some l.sum
  | .seq, l => some l.sum
  | .or, l => some l.sum
  | .loop, l => l.head?
  | .inter, _ => none

mutual
/-- `get_min_length_dict` (utils/bottomup.py:169-191) -/
def minLen : PT α → Option Nat
  | .leaf none => some 0
  | .leaf (some _) => some 1
  | .node op cs =>
    if cs.isEmpty then some 0 else minLenL cs >>= minOp op
/-- minimal lengths of the children -/
def minLenL : List (PT α) → Option (List Nat)
  | [] => some []
  | c :: cs => do return (← minLen c) :: (← minLenL cs)
end

/-! ### Footprints of logs -/

/-- footprints of a log or a trace; `trace` and `dfg` entries are not repeated here -/
structure LFP (α : Type) where
  sequence : List (α × α)
  parallel : List (α × α)
  start : List α
  stop : List α
  acts : List α
  minLen : Nat

/-- `causal_discovery.apply(dfg, CAUSAL_ALPHA)` (causal/variants/alpha.py:25-45); the keys of the result -/
def causalAlpha (dfg : Dict (α × α) Int) : List (α × α) :=
  (Dict.keys dfg).filter fun x =>
    decide (0 < Dict.count dfg x) && (!Dict.has dfg (x.2, x.1) || decide (Dict.count dfg (x.2, x.1) = 0))

/-- `{(x, y) for (x, y) in dfg if (y, x) in dfg}` (entire_event_log.py:71, trace_by_trace.py:72) -/
def parallelOf (dfg : Dict (α × α) Int) : List (α × α) := (Dict.keys dfg).filter fun x => Dict.has dfg (x.2, x.1)

/-- `apply` of entire_event_log.py:46-83; start and end activities skip empty traces
(statistics/start_activities/log/get.py, statistics/end_activities/log/get.py) -/
def logFP (log : List (List α)) : LFP α :=
  let dfg := Dfg.native 1 false log
  ⟨causalAlpha dfg, parallelOf dfg, log.filterMap List.head?, log.filterMap List.getLast?, log.flatten,
    match (log.map List.length).min? with | some n => n | none => 0⟩

/-- footprints of one trace (trace_by_trace.py:70-87) -/
def traceFP (tr : List α) : LFP α :=
  let dfg := Dfg.native 1 false [tr]
  ⟨(Dict.keys dfg).filter fun x => !Dict.has dfg (x.2, x.1), parallelOf dfg, tr.head?.toList, tr.getLast?.toList, tr, tr.length⟩

/-! ### Conformance -/

/-- `set.difference` -/
def diff {X : Type} [DecidableEq X] (l1 l2 : List X) : List X := l1.filter fun x => decide (x ∉ l2)

/-- `apply_single` of log_model.py:42-80; both arguments are given by their sequence and parallel sets -/
def violations (strict : Bool) (s1 p1 s2 p2 : List (α × α)) : List (α × α) :=
  if strict then diff s1 s2 ++ diff p1 p2 else diff (s1 ++ p1) (s2 ++ p2)

/-- what the extensive variants need of a model: footprints and minimal trace length -/
structure MFP (α : Type) extends FP α where
  minLen : Nat

/-- `apply` of bottomup.py:405-429 -/
def treeFP (t : PT α) : Option (MFP α) := do return ⟨← footprints t, ← minLen t⟩

/-- result of log_extensive.py:40-85 -/
structure Conf (α : Type) where
  footprints : List (α × α)
  start : List α
  stop : List α
  always : List α
  minLengthFit : Bool
  isFit : Bool

/-- `apply` of log_extensive.py:40-85 (no entry for the activities that always happen) -/
def confLog (l : LFP α) (m : MFP α) : Conf α :=
  let fp := diff (l.sequence ++ l.parallel) (m.sequence ++ m.parallel)
  let st := diff l.start m.start
  let en := diff l.stop m.stop
  let ml := decide (m.minLen ≤ l.minLen)
  ⟨fp, st, en, [], ml, fp.isEmpty && st.isEmpty && en.isEmpty && ml⟩

/-- the loop body of trace_extensive.py:78-105 -/
def confTrace (enableAlways : Bool) (l : LFP α) (m : MFP α) : Conf α :=
  let fp := diff (l.sequence ++ l.parallel) (m.sequence ++ m.parallel)
  let st := diff l.start m.start
  let en := diff l.stop m.stop
  let al := if enableAlways then diff m.always l.acts else []
  let ml := decide (m.minLen ≤ l.minLen)
  ⟨fp, st, en, al, ml, fp.isEmpty && st.isEmpty && en.isEmpty && al.isEmpty && ml⟩

/-- `apply` of trace_extensive.py:49-107 with the cache `conf_traces` -/
def confTraces (enableAlways : Bool) (trs : List (List α)) (m : MFP α) : List (Conf α) :=
  (trs.foldl
    (fun (acc : List (Conf α) × Dict (List α) (Conf α)) tr =>
      match Dict.get? acc.2 tr with
      | some c => (acc.1 ++ [c], acc.2)
      | none => let c := confTrace enableAlways (traceFP tr) m
                (acc.1 ++ [c], Dict.set acc.2 tr c))
    ([], [])).1

end Foot
end Verif
