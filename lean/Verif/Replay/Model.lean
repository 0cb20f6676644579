import Verif.Petri.Model
import Mathlib.Data.Rat.Defs
/-
Model of token-based replay: /repo/pm4py/algo/conformance/tokenreplay/variants/token_replay.py
(`TR` below) and of the computation of paths of hidden transitions,
/repo/pm4py/objects/petri_net/utils/petri_utils.py (`PU`).

Not modelled: the two caches (`ENABLE_POSTFIX_CACHE` and `ENABLE_MARKTOACT_CACHE` are `False`), token flood cleaning
(off by default), statistics per place and transition (`enable_pltr_fitness`, which do not influence the result), the list
of eventually enabled visible transitions.  Floats are exact rationals.
-/
namespace Verif
namespace Replay
variable {P T A : Type} [DecidableEq P] [DecidableEq T] [DecidableEq A]

/-- `sorted(…, key=…)`: stable sort -/
def sortBy {X : Type} (le : X → X → Bool) : List X → List X
  | [] => []
  | x :: xs => ins x (sortBy le xs)
where ins (x : X) : List X → List X
  | [] => [x]
  | y :: ys => if le x y then x :: y :: ys else y :: ins x ys

/-- What the replay of a log needs: net, labels (`none` = hidden), markings, comparison of place names
(`key=lambda x: x.name`), `places_shortest_path_by_hidden`, and the parameters of `apply` (TR:1126-1181). -/
structure Env (P T A : Type) where
  net : Net P T
  lab : T → Option A
  im : Marking P
  fm : Marking P
  nameLe : P → P → Bool
  paths : P → P → Option (List T)
  considerRemaining : Bool
  tryFinal : Bool
  stopUnfit : Bool
  walkHidden : Bool
  considerNotInModel : Bool

/-- `add_missing_tokens` (TR:79-97): the number reported and the new marking.  (The deficit is reported, the whole
weight is added.) -/
def addMissing (net : Net P T) (t : T) (m : Marking P) : Int × Marking P :=
  (net.inArcs t).foldl (fun acc a =>
    if Dict.count acc.2 a.1 < a.2 then
      (acc.1 + (a.2 - Dict.count acc.2 a.1), Dict.set acc.2 a.1 (Dict.count acc.2 a.1 + a.2))
    else acc) (0, m)

/-- `get_consumed_tokens` (TR:100-114) -/
def consumedTokens (net : Net P T) (t : T) : Int := (net.inArcs t).foldl (fun acc a => acc + a.2) 0

/-- `get_produced_tokens` (TR:117-131) -/
def producedTokens (net : Net P T) (t : T) : Int := (net.outArcs t).foldl (fun acc a => acc + a.2) 0

/-- `get_places_with_missing_tokens` (TR:153-168) -/
def placesWithMissing (net : Net P T) (t : T) (m : Marking P) : List P :=
  (((net.inArcs t).filter fun a => decide (Dict.count m a.1 < a.2)).map Prod.fst).eraseDups

/-- `get_hidden_transitions_to_enable` (TR:171-196) and `get_req_transitions_for_final_marking` (TR:199-224), which
differ only in the name of the second argument. -/
def hiddenGroups (e : Env P T A) (m : Marking P) (targets : List P) : List (List T) :=
  sortBy (fun a b => decide (a.length ≤ b.length))
    ((sortBy e.nameLe (Dict.keys m)).flatMap fun p1 => (sortBy e.nameLe targets).filterMap fun p2 => e.paths p1 p2)

/-- State threaded through the walk over hidden transitions: marking, activated transitions, visited transitions. -/
structure HState (P T : Type) where
  marking : Marking P
  act : List T
  visited : List T

/-- `marking = semantics.execute(t, net, marking)`, appended to the activated and visited transitions -/
def HState.fire (net : Net P T) (s : HState P T) (t : T) : HState P T :=
  { marking := (net.execute t s.marking).getD s.marking, act := s.act ++ [t], visited := t :: s.visited }

/-- inner loop of `enable_hidden_transitions` (TR:251-267) over the rest of a group: new state, `something_changed`,
number of iterations (by which `j_indexes` advances) -/
def runGroup (net : Net P T) (t : T) : List T → HState P T → Bool → Nat → HState P T × Bool × Nat
  | [], s, ch, n => (s, ch, n)
  | t3 :: rest, s, ch, n =>
    let fires := decide (t3 ≠ t) && net.isEnabled t3 s.marking && decide (t3 ∉ s.visited)
    let s' := if fires then s.fire net t3 else s
    if net.isEnabled t s'.marking then (s', ch || fires, n + 1)
    else runGroup net t rest s' (ch || fires) (n + 1)

/-- `enable_hidden_transitions` (TR:227-271); the first argument bounds the iterations (`range(10000000)`) -/
def enableHidden (net : Net P T) (t : T) (groups : List (List T)) : Nat → Nat → List Nat → HState P T → HState P T
  | 0, _, _, s => s
  | fuel + 1, z, j, s =>
    let i := z % groups.length
    let r := runGroup net t ((groups.getD i []).drop (j.getD i 0)) s false 0
    if net.isEnabled t r.1.marking then r.1
    else if r.2.1 then enableHidden net t groups fuel (z + 1) (j.set i (j.getD i 0 + r.2.2)) r.1
    else r.1

/-- body of the loop TR:319-338, given the recursive call -/
def enableOne (net : Net P T) (rec : T → HState P T → HState P T) (t : T) (s : HState P T) (t4 : T) : HState P T :=
  if t4 ≠ t ∧ t4 ∉ s.visited then
    let s' := if net.isEnabled t4 s.marking then s else rec t4 s
    if net.isEnabled t4 s'.marking then s'.fire net t4 else s'
  else s

/-- `apply_hidden_trans` (TR:274-348); the first argument is `MAX_REC_DEPTH_HIDTRANSENABL - rec_depth` -/
def applyHidden (e : Env P T A) : Nat → T → HState P T → HState P T
  | 0, _, s => s
  | d + 1, t, s =>
    if t ∈ s.visited then s else
    let s0 : HState P T := { s with visited := t :: s.visited }
    let missing := placesWithMissing e.net t s0.marking
    let groups := hiddenGroups e s0.marking missing
    if groups.isEmpty then s0 else
    let s1 := enableHidden e.net t groups 10000000 0 (groups.map fun _ => 0) s0
    let s2 := if e.net.isEnabled t s1.marking then s1
      else (hiddenGroups e s1.marking missing).flatten.foldl (enableOne e.net (applyHidden e d) t) s1
    if e.net.isEnabled t s2.marking then s2
    else if Marking.eq s0.marking s2.marking then s2 else applyHidden e d t s2

/-- `break_condition_final_marking` (TR:351-367) -/
def breakCond (m fm : Marking P) : Bool := fm.all fun x => Dict.has m x.1

/-- Local variables of `apply_trace` (TR:431-450). -/
structure RState (P T A : Type) where
  marking : Marking P
  act : List T
  problems : List T
  missing : Int
  consumed : Int
  produced : Int
  notExisting : List A
  stopped : Bool

/-- firing an enabled transition and counting its tokens (TR:591-607, 626-641) -/
def RState.fire (net : Net P T) (s : RState P T A) (t : T) : RState P T A :=
  { s with marking := (net.execute t s.marking).getD s.marking, act := s.act ++ [t],
           consumed := s.consumed + consumedTokens net t, produced := s.produced + producedTokens net t }

/-- sum of the tokens of a marking (TR:442-447) -/
def tokens (m : Marking P) : Int := m.foldl (fun acc e => acc + e.2) 0

/-- `trans_map` (TR:1021-1023): the last transition with the label -/
def transMap (e : Env P T A) (a : A) : Option T :=
  e.net.transitions.foldl (fun acc t => if e.lab t = some a then some t else acc) none

/-- the transition chosen for an activity of the model (TR:479-487) -/
def choose (e : Env P T A) (m : Marking P) (a : A) (dflt : T) : T :=
  match (e.net.enabledTransitions m).filter fun t => decide (e.lab t = some a) with
  | t :: _ => t
  | [] => dflt

/-- walk over hidden transitions before a transition that is not enabled (TR:488-512) -/
def walk (e : Env P T A) (t : T) (s : RState P T A) : RState P T A :=
  if e.walkHidden && !e.net.isEnabled t s.marking then
    let h := applyHidden e 2 t { marking := s.marking, act := s.act, visited := [] }
    let new := h.act.drop s.act.length
    { s with marking := h.marking, act := h.act,
             consumed := new.foldl (fun c t => c + consumedTokens e.net t) s.consumed,
             produced := new.foldl (fun c t => c + producedTokens e.net t) s.produced }
  else s

/-- replay of the transition itself (TR:513-549) -/
def fireEvent (e : Env P T A) (t : T) (s : RState P T A) : RState P T A :=
  if e.net.isEnabled t s.marking then s.fire e.net t
  else
    let s := { s with problems := s.problems ++ [t] }
    if e.stopUnfit then { s with missing := s.missing + 1, stopped := true }
    else
      let r := addMissing e.net t s.marking
      let s := { s with marking := r.2, missing := s.missing + r.1,
                        consumed := s.consumed + consumedTokens e.net t,
                        produced := s.produced + producedTokens e.net t }
      if e.net.isEnabled t s.marking then
        { s with marking := (e.net.execute t s.marking).getD s.marking, act := s.act ++ [t] }
      else s

/-- one iteration of the loop over the trace (TR:451-582) -/
def event (e : Env P T A) (s : RState P T A) (a : A) : RState P T A :=
  if s.stopped then s else
  match transMap e a with
  | some d => let t := choose e s.marking a d; fireEvent e t (walk e t s)
  | none => { s with notExisting := if a ∈ s.notExisting then s.notExisting else s.notExisting ++ [a] }

/-- fire the transitions of a group that are enabled (TR:591-607) -/
def fireGroup (e : Env P T A) (s : RState P T A) (g : List T) : RState P T A :=
  g.foldl (fun s t => if e.net.isEnabled t s.marking then s.fire e.net t else s) s

/-- `for group in hidden_transitions_to_enable` with its `break` (TR:590-609) -/
def final1Groups (e : Env P T A) : List (List T) → RState P T A → RState P T A
  | [], s => s
  | g :: gs, s => let s' := fireGroup e s g; if breakCond s'.marking e.fm then s' else final1Groups e gs s'

/-- first attempt to reach the final marking (TR:584-611); the argument is `MAX_IT_FINAL1` -/
def final1 (e : Env P T A) : Nat → RState P T A → RState P T A
  | 0, s => s
  | n + 1, s => if breakCond s.marking e.fm then s
    else final1 e n (final1Groups e (hiddenGroups e s.marking (Dict.keys e.fm)) s)

/-- fire a path until a transition is not enabled (TR:625-644) -/
def firePath (e : Env P T A) : List T → RState P T A → RState P T A
  | [], s => s
  | t :: ts, s => if e.net.isEnabled t s.marking then firePath e ts (s.fire e.net t) else s

/-- second attempt (TR:612-644) -/
def final2 (e : Env P T A) (s : RState P T A) : RState P T A :=
  if breakCond s.marking e.fm then s else
  match e.fm with
  | [x] =>
    let conns := sortBy (fun a b => decide (a.length ≤ b.length)) ((Dict.keys s.marking).filterMap fun p => e.paths p x.1)
    (List.range 5).foldl (fun s _ => conns.foldl (fun s g => firePath e g s) s) s
  | _ => s

/-- tokens missing in the final marking, `diff_fin_mark_mark` (TR:648-654, 695-696) -/
def finalDeficit (fm m : Marking P) : Int :=
  fm.foldl (fun acc x => if x.2 - Dict.count m x.1 > 0 then acc + (x.2 - Dict.count m x.1) else acc) 0

/-- remaining tokens (TR:656-681) -/
def remaining (fm m : Marking P) : Int :=
  m.foldl (fun acc x => acc + (if Dict.has fm x.1 then max 0 (x.2 - Dict.count fm x.1) else x.2)) 0

/-- What `apply_trace` returns (TR:742-745), without the eventually enabled transitions. -/
structure Result (P T : Type) where
  isFit : Bool
  fitness : Rat
  act : List T
  problems : List T
  marking : Marking P
  missing : Int
  consumed : Int
  remaining : Int
  produced : Int

/-- trace fitness (TR:706-710) -/
def fitness (missing consumed remaining produced : Int) : Rat :=
  if consumed > 0 ∧ produced > 0 then
    (1/2 : Rat) * (1 - (missing : Rat) / consumed) + (1/2 : Rat) * (1 - (remaining : Rat) / produced)
  else 1

/-- state before the loop (TR:431-450) -/
def initState (e : Env P T A) (notExisting : List A) : RState P T A :=
  ⟨e.im, [], [], 0, 0, tokens e.im, notExisting, false⟩

/-- state when the trace has been replayed and the final marking was approached (TR:451-644) -/
def replayed (e : Env P T A) (notExisting : List A) (trace : List A) : RState P T A :=
  let s := trace.foldl (event e) (initState e notExisting)
  if e.tryFinal then final2 e (final1 e 5 s) else s

/-- `apply_trace` (TR:370-745).  The second component is the dictionary of activities not in the model, which is shared by
all traces of the log. -/
def applyTrace (e : Env P T A) (notExisting : List A) (trace : List A) : Result P T × List A :=
  let s := replayed e notExisting trace
  let rem := remaining e.fm s.marking
  let fit := if e.considerRemaining then decide (s.missing = 0) && decide (rem = 0) else decide (s.missing = 0)
  let fit := if e.considerNotInModel && !s.notExisting.isEmpty then false else fit
  let consumed := s.consumed + tokens e.fm
  let missing := s.missing + finalDeficit e.fm s.marking
  (⟨fit, fitness missing consumed rem s.produced, s.act, s.problems, s.marking, missing, consumed, rem, s.produced⟩,
    s.notExisting)

/-! ### Logs -/

/-- `variants` (TR:1031-1035): the positions of the traces with the same activities, in order of first occurrence -/
def variants (log : List (List A)) : Dict (List A) (List Nat) :=
  (log.zipIdx).foldl (fun d x => Dict.set d x.1 ((Dict.get? d x.1).getD [] ++ [x.2])) []

/-- the cases replayed for one variant (TR:1055-1107): one replay for all positions, or one per position if
`disable_variants`; the results are stored per position in `threads_results`. -/
def replayVariant (e : Env P T A) (disableVariants : Bool) (st : Dict Nat (Result P T) × List A) (v : List A × List Nat) :
    Dict Nat (Result P T) × List A :=
  if disableVariants then
    v.2.foldl (fun st i => let r := applyTrace e st.2 v.1; (Dict.set st.1 i r.1, r.2)) st
  else
    let r := applyTrace e st.2 v.1
    (v.2.foldl (fun d i => Dict.set d i r.1) st.1, r.2)

/-- `apply_log` (TR:951-1123).  `order` sorts the variants (by number of cases and activities, descending). -/
def applyLog (e : Env P T A) (disableVariants : Bool)
    (order : List (List A × List Nat) → List (List A × List Nat)) (log : List (List A)) : List (Option (Result P T)) :=
  let res := (order (variants log)).foldl (replayVariant e disableVariants) ([], [])
  (List.range log.length).map fun i => Dict.get? res.1 i

/-- `evaluate` of /repo/pm4py/algo/evaluation/replay_fitness/variants/token_replay.py:39-76: percentage of fitting
traces, average trace fitness, log fitness. -/
def evaluate (rs : List (Result P T)) : Rat × Rat × Rat :=
  let m : Int := (rs.map (·.missing)).sum
  let c : Int := (rs.map (·.consumed)).sum
  let r : Int := (rs.map (·.remaining)).sum
  let p : Int := (rs.map (·.produced)).sum
  if 0 < rs.length ∧ 0 < c ∧ 0 < p then
    ((100 * ((rs.filter (·.isFit)).length : Rat)) / (rs.length : Rat), (rs.map (·.fitness)).sum / (rs.length : Rat),
      (1/2 : Rat) * (1 - (m : Rat) / c) + (1/2 : Rat) * (1 - (r : Rat) / p))
  else (0, 0, 0)

/-! ### Paths of hidden transitions -/

/-- the place has no path yet or a longer one (PU:413-414) -/
def improves (d : Dict P (List T)) (q : P) (n : Nat) : Bool :=
  match Dict.get? d q with
  | none => true
  | some l => decide (n + 1 < l.length)

/-- `get_places_shortest_path` (PU:384-421) for a fixed `place_to_populate`; the first argument is
`max_rec_depth - rec_depth + 1`.  Out-arcs of a place: the transitions with an input arc from it. -/
def shortest (net : Net P T) (lab : T → Option A) : Nat → P → List T → Dict P (List T) → Dict P (List T)
  | 0, _, _, d => d
  | fuel + 1, cur, path, d =>
    (net.transitions.filter fun t => decide (cur ∈ (net.inArcs t).map Prod.fst) && (lab t).isNone).foldl (fun d t =>
      (net.outArcs t).foldl (fun d a =>
        if improves d a.1 path.length then
          shortest net lab fuel a.1 (path ++ [t]) (Dict.set d a.1 (path ++ [t]))
        else d) d) d

/-- `get_places_shortest_path_by_hidden` (PU:424-438) with `MAX_REC_DEPTH = 50` -/
def hiddenPaths (net : Net P T) (lab : T → Option A) (p1 p2 : P) : Option (List T) :=
  if p1 ∈ net.places then Dict.get? (shortest net lab 51 p1 [] []) p2 else none

end Replay
end Verif
