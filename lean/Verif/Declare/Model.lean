import Verif.Common.Counter
import Verif.Common.ListX
import Verif.Declare.Spec
import Mathlib.Data.Rat.Defs
import Mathlib.Algebra.Order.Ring.Rat
/-
C25: Declare.  /repo/pm4py/algo/conformance/declare/variants/classic.py (conformance),
/repo/pm4py/algo/discovery/declare/variants/classic.py (discovery).
A trace is the list of its activities; the dictionary `act_idxs` is a function; floats are exact rationals.
-/
namespace Verif.Declare
open Dict Counter
variable {α : Type} [DecidableEq α]

/-- `act_idxs[a]` (conformance 276-280; discovery 500-503): the ascending positions of `a`, counting from `n` -/
def idxsFrom : Nat → List α → α → List Nat
  | _, [], _ => []
  | n, x :: t, a => if x = a then n :: idxsFrom (n + 1) t a else idxsFrom (n + 1) t a

def idxs (tr : List α) (a : α) : List Nat := idxsFrom 0 tr a

/-! ### conformance -/

/-- `max(xs)` / `min(xs)`; the checks call them on non-empty lists only -/
def maxIdx (xs : List Nat) : Nat := xs.max?.getD 0
def minIdx (xs : List Nat) : Nat := xs.min?.getD 0

/-- a Declare model: for each template that is a key of the dictionary, the keys of its inner dictionary (their values
are not read by conformance checking).  Only the templates of templates.py are keys. -/
structure DModel (α : Type) where
  un : UT → Option (List α)
  bi : BT → Option (List (α × α))

/-- `__check_existence` (32-37) -/
def checkExistence (tr : List α) (act : α) : Bool := decide (act ∉ tr)
/-- `__check_absence` (40-45) -/
def checkAbsence (tr : List α) (act : α) : Bool := decide (act ∈ tr)
/-- `__check_exactly_one` (48-54) -/
def checkExactlyOne (tr : List α) (act : α) : Bool := decide (count (ofList tr) act ≠ 1)
/-- `__check_init` (57-62) -/
def checkInit (tr : List α) (act : α) : Bool := decide (tr.length = 0) || decide (tr[0]? ≠ some act)
/-- `__check_responded_existence` (65-70) -/
def checkRespondedExistence (tr : List α) (c : α × α) : Bool := decide (c.1 ∈ tr) && decide (c.2 ∉ tr)
/-- `__check_coexistence` (73-79) -/
def checkCoexistence (tr : List α) (c : α × α) : Bool :=
  (decide (c.1 ∈ tr) && decide (c.2 ∉ tr)) || (decide (c.2 ∈ tr) && decide (c.1 ∉ tr))
/-- `__check_non_coexistence` (82-87) -/
def checkNonCoexistence (tr : List α) (c : α × α) : Bool := decide (c.1 ∈ tr) && decide (c.2 ∈ tr)
/-- `__check_response` (90-96) -/
def checkResponse (tr : List α) (c : α × α) : Bool :=
  decide (c.1 ∈ tr) && (decide (c.2 ∉ tr) || decide (maxIdx (idxs tr c.1) > maxIdx (idxs tr c.2)))
/-- `__check_precedence` (99-105) -/
def checkPrecedence (tr : List α) (c : α × α) : Bool :=
  decide (c.2 ∈ tr) && (decide (c.1 ∉ tr) || decide (minIdx (idxs tr c.1) > minIdx (idxs tr c.2)))
/-- `__check_succession` (108-114) -/
def checkSuccession (tr : List α) (c : α × α) : Bool :=
  (decide (c.1 ∉ tr) || decide (c.2 ∉ tr)) || decide (minIdx (idxs tr c.1) > minIdx (idxs tr c.2)) ||
    decide (maxIdx (idxs tr c.1) > maxIdx (idxs tr c.2))

/-- `spec_idxs` (122-127 and the same lines in the five other checks): the labelled positions of the two activities,
sorted by `(index, label)`; two entries with the same index have the same label, so the index decides. -/
def specIdxs (tr : List α) (c : α × α) : List (α × Nat) :=
  let l : List (α × Nat) := []
  let l := if c.1 ∈ tr then l ++ (idxs tr c.1).map (fun i => (c.1, i)) else l
  let l := if c.2 ∈ tr then l ++ (idxs tr c.2).map (fun i => (c.2, i)) else l
  l.mergeSort fun x y => decide (x.2 ≤ y.2)

/-- `while spec_idxs: if spec_idxs[0][0] != act_couple[0]: del spec_idxs[0] else: break` (128-132, 154-158) -/
def dropLeading (a : α) : List (α × Nat) → List (α × Nat)
  | [] => []
  | x :: l => if x.1 ≠ a then dropLeading a l else x :: l

/-- `while len(spec_idxs) > 1: if spec_idxs[1][0] != act_couple[1]: del spec_idxs[0] else: break` (180-184, 206-210) -/
def dropToTarget (b : α) : List (α × Nat) → List (α × Nat)
  | [] => []
  | [x] => [x]
  | x :: y :: l => if y.1 ≠ b then dropToTarget b (y :: l) else x :: y :: l

/-- the loop computing `is_ok` in the alternate checks (133-138, 185-190, 232-237) -/
def altLoop (c : α × α) (s : List (α × Nat)) : Bool :=
  (List.range s.length).all fun i =>
    !(decide (i % 2 = 0) && (decide (s[i]?.map Prod.fst ≠ some c.1) || decide (i = s.length - 1) ||
      decide (s[i + 1]?.map Prod.fst ≠ some c.2)))

/-- the loop computing `is_ok` in the chain checks (159-164, 211-216, 253-258) -/
def chainLoop (c : α × α) (s : List (α × Nat)) : Bool :=
  (List.range s.length).all fun i =>
    !(decide (i % 2 = 0) && (decide (s[i]?.map Prod.fst ≠ some c.1) || decide (i = s.length - 1) ||
      decide (s[i + 1]?.map Prod.fst ≠ some c.2) ||
      decide (s[i + 1]?.map Prod.snd ≠ s[i]?.map (fun p => p.2 + 1))))

/-- `__check_alt_response` (117-140) for one couple -/
def checkAltResponse (tr : List α) (c : α × α) : Bool := !altLoop c (dropLeading c.1 (specIdxs tr c))
/-- `__check_chain_response` (143-166) -/
def checkChainResponse (tr : List α) (c : α × α) : Bool := !chainLoop c (dropLeading c.1 (specIdxs tr c))
/-- `__check_alt_precedence` (169-192) -/
def checkAltPrecedence (tr : List α) (c : α × α) : Bool := !altLoop c (dropToTarget c.2 (specIdxs tr c))
/-- `__check_chain_precedence` (195-218) -/
def checkChainPrecedence (tr : List α) (c : α × α) : Bool := !chainLoop c (dropToTarget c.2 (specIdxs tr c))
/-- `__check_alt_succession` (221-239) -/
def checkAltSuccession (tr : List α) (c : α × α) : Bool := !altLoop c (specIdxs tr c)
/-- `__check_chain_succession` (242-260) -/
def checkChainSuccession (tr : List α) (c : α × α) : Bool := !chainLoop c (specIdxs tr c)

/-- `if TEMPLATE in model: for act in model[TEMPLATE]: if ...: deviations.append(...)` -/
def runUn (m : DModel α) (t : UT) (chk : α → Bool) : List (Rule α) :=
  match m.un t with
  | none => []
  | some l => (l.filter chk).map (Rule.un t)

def runBi (m : DModel α) (t : BT) (chk : α × α → Bool) : List (Rule α) :=
  match m.bi t with
  | none => []
  | some l => (l.filter chk).map fun c => Rule.bi t c.1 c.2

/-- the loop of `__check_alt_response` (119-140): it ranges over `model[RESPONSE]` (a `KeyError`, here `none`, when
that template is missing) -/
def runAltResponse (m : DModel α) (tr : List α) : Option (List (Rule α)) :=
  match m.bi .altResponse with
  | none => some []
  | some _ => (m.bi .response).map fun l => (l.filter (checkAltResponse tr)).map fun c => Rule.bi .altResponse c.1 c.2

/-- the deviations of one trace, in the order of the calls (285-301) -/
def deviations (m : DModel α) (tr : List α) : Option (List (Rule α)) :=
  (runAltResponse m tr).map fun altr =>
    runUn m .existence (checkExistence tr) ++ runUn m .exactlyOne (checkExactlyOne tr) ++
    runUn m .init (checkInit tr) ++ runBi m .respondedExistence (checkRespondedExistence tr) ++
    runBi m .coexistence (checkCoexistence tr) ++ runBi m .nonCoexistence (checkNonCoexistence tr) ++
    runBi m .response (checkResponse tr) ++ runBi m .precedence (checkPrecedence tr) ++
    runBi m .succession (checkSuccession tr) ++ altr ++
    runBi m .chainResponse (checkChainResponse tr) ++ runBi m .altPrecedence (checkAltPrecedence tr) ++
    runBi m .chainPrecedence (checkChainPrecedence tr) ++ runBi m .altSuccession (checkAltSuccession tr) ++
    runBi m .chainSuccession (checkChainSuccession tr) ++ runUn m .absence (checkAbsence tr) ++
    runBi m .nonCoexistence (checkNonCoexistence tr)

/-- the templates that can be keys of the dictionary -/
def allUT : List UT := [.existence, .exactlyOne, .init, .absence]
def allBT : List BT := [.respondedExistence, .response, .precedence, .succession, .altResponse, .altPrecedence,
  .altSuccession, .chainResponse, .chainPrecedence, .chainSuccession, .coexistence, .nonCoexistence, .nonSuccession,
  .nonChainSuccession]

/-- `total_num_constraints` (270-272) -/
def numConstraints (m : DModel α) : Nat :=
  (allUT.map fun t => ((m.un t).getD []).length).sum + (allBT.map fun t => ((m.bi t).getD []).length).sum

/-- the entry of the result for one trace -/
structure Result (α : Type) where
  noConstrTotal : Nat
  deviations : List (Rule α)
  noDevTotal : Nat
  devFitness : Rat
  isFit : Bool

/-- the body of the loop of `apply_list` (274-307); `none`: `KeyError` or `ZeroDivisionError` -/
def checkTrace (m : DModel α) (tr : List α) : Option (Result α) :=
  match deviations m tr with
  | none => none
  | some ds =>
    if numConstraints m = 0 then none
    else some
      { noConstrTotal := numConstraints m
        deviations := ds
        noDevTotal := ds.length
        devFitness := 1 - (ds.length : Rat) / (numConstraints m : Rat)
        isFit := decide (ds.length = 0) }

/-- `apply_list` (263-309) -/
def applyList (m : DModel α) (log : List (List α)) : Option (List (Result α)) := log.mapM (checkTrace m)

/-! ### discovery -/

/-- `is_ok_alt_resp` / `is_ok_alt_prec` (190-202, 248-258): `A`, `B` are the positions of the first and the second
activity of the couple -/
def altOk (A B : List Nat) : Bool :=
  decide (A.length = B.length) &&
    (List.range A.length).all fun i =>
      !(decide (A[i]?.getD 0 > B[i]?.getD 0) || (decide (i < A.length - 1) && decide (A[i + 1]?.getD 0 < B[i]?.getD 0)))

/-- `is_ok_chain_resp` / `is_ok_chain_prec` (216-229, 273-286) -/
def chainOk (A B : List Nat) : Bool :=
  decide (A.length = B.length) &&
    (List.range A.length).all fun i =>
      !(decide (A[i]?.getD 0 > B[i]?.getD 0) || (decide (i < A.length - 1) && decide (A[i + 1]?.getD 0 < B[i]?.getD 0)))
      && !(decide (A[i]?.getD 0 + 1 ≠ B[i]?.getD 0))

/-- 1 / -1 -/
def sgn (b : Bool) : Int := if b then 1 else -1

/-- the entries written for a template of the form `for act in activities: ...` (121-157): existence, exactly one, init (on an empty trace `trace[0]` raises, see
`rulesTable`) -/
def unEntries (acts tr : List α) : UT → List (Rule α × Int)
  | .existence => acts.map fun a => (.un .existence a, sgn (has (ofList tr) a))
  | .exactlyOne => (acts.filter fun a => has (ofList tr) a).map fun a => (.un .exactlyOne a, sgn (decide (count (ofList tr) a = 1)))
  | .init => acts.map fun a => (.un .init a, sgn (decide (tr[0]? = some a)))
  | .absence => []

/-- the double loop `for act in act_counter: for act2 in activities: if act2 != act: ...` (160-286) -/
def loop2 (acts tr : List α) (f : α → α → List (Rule α × Int)) : List (Rule α × Int) :=
  (keys (ofList tr)).flatMap fun act => acts.flatMap fun act2 => if act2 ≠ act then f act act2 else []

/-- the entries written by the `_step1` functions for templates with two activities (160-286) -/
def biEntries (acts tr : List α) : BT → List (Rule α × Int)
  | .respondedExistence => loop2 acts tr fun act act2 =>
      [(.bi .respondedExistence act act2, sgn (has (ofList tr) act2))]
  | .response => loop2 acts tr fun act act2 =>
      if has (ofList tr) act2 then
        [(.bi .response act act2, sgn (decide ((idxs tr act).getLast?.getD 0 < (idxs tr act2).getLast?.getD 0)))]
      else [(.bi .response act act2, -1)]
  | .precedence => loop2 acts tr fun act act2 =>
      if has (ofList tr) act2 then
        [(.bi .precedence act2 act, sgn (decide ((idxs tr act2)[0]?.getD 0 < (idxs tr act)[0]?.getD 0)))]
      else []
  | .altResponse => loop2 acts tr fun act act2 =>
      if has (ofList tr) act2 then [(.bi .altResponse act act2, sgn (altOk (idxs tr act) (idxs tr act2)))]
      else [(.bi .altResponse act act2, -1)]
  | .chainResponse => loop2 acts tr fun act act2 =>
      if has (ofList tr) act2 then [(.bi .chainResponse act act2, sgn (chainOk (idxs tr act) (idxs tr act2)))]
      else [(.bi .chainResponse act act2, -1)]
  | .altPrecedence => loop2 acts tr fun act act2 =>
      if has (ofList tr) act2 then [(.bi .altPrecedence act2 act, sgn (altOk (idxs tr act2) (idxs tr act)))]
      else []
  | .chainPrecedence => loop2 acts tr fun act act2 =>
      if has (ofList tr) act2 then [(.bi .chainPrecedence act2 act, sgn (chainOk (idxs tr act2) (idxs tr act)))]
      else []
  | _ => []

/-- the entry of the table (520-532 and the `_step2` functions 296-385): the value written for the trace, 0 if none -/
def entry (es : List (Rule α × Int)) (r : Rule α) : Int := (es.lookup r).getD 0

/-- the value of the column `r` in the row of a (filtered) trace: written by step 1 or derived from other columns
(absence 289-294, succession … nonchainsuccession 388-463) -/
def value (acts tr : List α) : Rule α → Int
  | .un .absence a => -1 * entry (unEntries acts tr .existence) (.un .existence a)
  | .un t a => entry (unEntries acts tr t) (.un t a)
  | .bi .succession a b => min (entry (biEntries acts tr .response) (.bi .response a b))
      (entry (biEntries acts tr .precedence) (.bi .precedence a b))
  | .bi .altSuccession a b => min (entry (biEntries acts tr .altResponse) (.bi .altResponse a b))
      (entry (biEntries acts tr .altPrecedence) (.bi .altPrecedence a b))
  | .bi .chainSuccession a b => min (entry (biEntries acts tr .chainResponse) (.bi .chainResponse a b))
      (entry (biEntries acts tr .chainPrecedence) (.bi .chainPrecedence a b))
  | .bi .coexistence a b => min (entry (biEntries acts tr .respondedExistence) (.bi .respondedExistence a b))
      (entry (biEntries acts tr .respondedExistence) (.bi .respondedExistence b a))
  | .bi .nonCoexistence a b => -1 * min (entry (biEntries acts tr .respondedExistence) (.bi .respondedExistence a b))
      (entry (biEntries acts tr .respondedExistence) (.bi .respondedExistence b a))
  | .bi .nonSuccession a b => -1 * min (entry (biEntries acts tr .response) (.bi .response a b))
      (entry (biEntries acts tr .precedence) (.bi .precedence a b))
  | .bi .nonChainSuccession a b => -1 * min (entry (biEntries acts tr .chainResponse) (.bi .chainResponse a b))
      (entry (biEntries acts tr .chainPrecedence) (.bi .chainPrecedence a b))
  | .bi t a b => entry (biEntries acts tr t) (.bi t a b)

/-- the allowed templates (`Parameters.ALLOWED_TEMPLATES`) -/
structure Allowed where
  un : UT → Bool
  bi : BT → Bool

/-- the default (475-478): all but noncoexistence, nonsuccession and nonchainsuccession -/
def Allowed.default : Allowed where
  un _ := true
  bi t := !(t == .nonCoexistence || t == .nonSuccession || t == .nonChainSuccession)

/-- a template has columns when it is allowed and so are the templates it is derived from (291, 390, 400, 410, 420,
430, 440, 450) -/
def Allowed.colUn (al : Allowed) : UT → Bool
  | .absence => al.un .absence && al.un .existence
  | t => al.un t

def Allowed.colBi (al : Allowed) : BT → Bool
  | .succession => al.bi .succession && al.bi .response && al.bi .precedence
  | .altSuccession => al.bi .altSuccession && al.bi .altResponse && al.bi .altPrecedence
  | .chainSuccession => al.bi .chainSuccession && al.bi .chainResponse && al.bi .chainPrecedence
  | .coexistence => al.bi .coexistence && al.bi .respondedExistence
  | .nonCoexistence => al.bi .nonCoexistence && al.bi .coexistence && al.bi .respondedExistence
  | .nonSuccession => al.bi .nonSuccession && al.bi .succession && al.bi .response && al.bi .precedence
  | .nonChainSuccession => al.bi .nonChainSuccession && al.bi .chainSuccession && al.bi .chainResponse && al.bi .chainPrecedence
  | t => al.bi t

/-- the columns of the table -/
def columns (al : Allowed) (acts : List α) : List (Rule α) :=
  ((allUT.filter al.colUn).flatMap fun t => acts.map (Rule.un t)) ++
  ((allBT.filter al.colBi).flatMap fun t => acts.flatMap fun a => (acts.filter fun b => decide (b ≠ a)).map (Rule.bi t a))

/-- the rows of the table: the filtered traces, grouped by variant (494-518) -/
def rows (acts : List α) (log : List (List α)) : List (List α) :=
  (ofList (log.map fun t => t.filter fun y => decide (y ∈ acts))).flatMap fun e => List.replicate e.2.toNat e.1

/-- `activities` (487-490): the considered ones, by default those of the log -/
def activities (considered : Option (List α)) (log : List (List α)) : List α :=
  dedup (considered.getD log.flatten)

/-- the table: its columns with their values (465-545).  `none`: init is allowed, there is an activity and a filtered trace is
empty (`trace[0]`, 154).  Tables without columns or without rows (the code raises in places) are not modelled. -/
def rulesTable (al : Allowed) (considered : Option (List α)) (log : List (List α)) : Option (List (Rule α × List Int)) :=
  let acts := activities considered log
  let rs := rows acts log
  if al.un .init = true ∧ acts ≠ [] ∧ [] ∈ rs then none
  else some ((columns al acts).map fun r => (r, rs.map fun t => value acts t r))

/-- `len(col[col != 0])`, `len(col[col == 1])` (565, 583, 586) -/
def support (col : List Int) : Nat := (col.filter fun v => decide (v ≠ 0)).length
def confidence (col : List Int) : Nat := (col.filter fun v => decide (v = 1)).length

/-- the thresholds (554-578): given, or determined from the column that is best by (support ratio × confidence ratio),
ties decided by the name (`later`); `none` when `cols_prod` is empty (`cols_prod[0]`). A single given threshold makes the code multiply by
`None`; not modelled. -/
def bestColumn (later : Rule α → Rule α → Bool) (n : Nat) : List (Rule α × List Int) → Option (Rule α × List Int)
  | [] => none
  | c :: l =>
    if support c.2 = 0 then bestColumn later n l
    else match bestColumn later n l with
      | none => some c
      | some d =>
        let prod (x : Rule α × List Int) : Rat :=
          ((support x.2 : Rat) / n) * ((confidence x.2 : Rat) / support x.2)
        if prod d > prod c ∨ (prod d = prod c ∧ later d.1 c.1 = true) then some d else some c

def thresholds (later : Rule α → Rule α → Bool) (n : Nat) (tab : List (Rule α × List Int)) (given : Option (Rat × Rat))
    (mult : Rat) : Option (Rat × Rat) :=
  match given with
  | some p => some p
  | none => (bestColumn later n tab).map fun c =>
      ((support c.2 : Rat) / n * mult, (confidence c.2 : Rat) / support c.2 * mult)

/-- a discovered rule with its support and confidence -/
structure Found (α : Type) where
  rule : Rule α
  support : Nat
  confidence : Nat
  deriving DecidableEq

/-- the loop over the columns (580-594) -/
def selectRules (n : Nat) (tab : List (Rule α × List Int)) (th : Rat × Rat) : List (Found α) :=
  tab.filterMap fun c =>
    if (support c.2 : Rat) > n * th.1 then
      if (confidence c.2 : Rat) > support c.2 * th.2 then some ⟨c.1, support c.2, confidence c.2⟩ else none
    else none

/-- `apply` (597-654): the discovered rules; `n` is the number of rows -/
def discover (later : Rule α → Rule α → Bool) (al : Allowed) (considered : Option (List α)) (given : Option (Rat × Rat))
    (mult : Rat) (log : List (List α)) : Option (List (Found α)) := do
  let tab ← rulesTable al considered log
  let n := (rows (activities considered log) log).length
  let th ← thresholds later n tab given mult
  pure (selectRules n tab th)

/-- `__col_to_dict_rule` (108-115): the template and the key of a column; an empty name of the second activity (taken for
a missing one, 113) is not modelled -/
def keyUn (t : UT) : Rule α → Option α
  | .un t' a => if t' = t then some a else none
  | .bi _ _ _ => none
def keyBi (t : BT) : Rule α → Option (α × α)
  | .un _ _ => none
  | .bi t' a b => if t' = t then some (a, b) else none

/-- the dictionary `{template: {key: ...}}` returned by `apply` (588-592): a template is a key when it has a rule -/
def toModel (fs : List (Found α)) : DModel α where
  un t := if (fs.map Found.rule).filterMap (keyUn t) = [] then none else some ((fs.map Found.rule).filterMap (keyUn t))
  bi t := if (fs.map Found.rule).filterMap (keyBi t) = [] then none else some ((fs.map Found.rule).filterMap (keyBi t))

end Verif.Declare
