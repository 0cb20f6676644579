import Verif.PTree.Lang
import Verif.Petri.Model
/-
Model of /repo/pm4py/objects/conversion/process_tree/variants/to_petri_net.py and of the two silent-transition
reductions of /repo/pm4py/objects/petri_net/utils/reduction.py.
-/
namespace Verif
namespace Conv
variable {α : Type}

/-- A Petri net under construction: object identities are numbers (places and transitions are numbered separately);
`pt` are the arcs from places to transitions, `tp` the arcs from transitions to places.  Simplification: all arc weights
are 1 (the only weight `add_arc_from_to` is called with in the modelled code); names of places and transitions are
dropped.  Two arcs between the same nodes are two entries (arcs are compared by identity in Python). -/
structure Gr (α : Type) where
  places : List Nat := []
  trans : List (Nat × Option α) := []
  pt : List (Nat × Nat) := []
  tp : List (Nat × Nat) := []
  deriving DecidableEq, Repr

namespace Gr

/-- the net `g` after also adding everything in `h` -/
def append (g h : Gr α) : Gr α := ⟨g.places ++ h.places, g.trans ++ h.trans, g.pt ++ h.pt, g.tp ++ h.tp⟩
instance : Append (Gr α) := ⟨append⟩

/-- sources of `t.in_arcs` -/
def pre (g : Gr α) (t : Nat) : List Nat := (g.pt.filter fun a => a.2 == t).map Prod.fst
/-- targets of `t.out_arcs` -/
def post (g : Gr α) (t : Nat) : List Nat := (g.tp.filter fun a => a.1 == t).map Prod.snd
/-- sources of `p.in_arcs` -/
def ppre (g : Gr α) (p : Nat) : List Nat := (g.tp.filter fun a => a.2 == p).map Prod.fst
/-- targets of `p.out_arcs` -/
def ppost (g : Gr α) (p : Nat) : List Nat := (g.pt.filter fun a => a.1 == p).map Prod.snd

/-- the net as a `Net` (Petri/Model.lean), all weights 1 -/
def toNet (g : Gr α) : Net Nat Nat where
  places := g.places
  transitions := g.trans.map Prod.fst
  inArcs t := (g.pre t).map fun p => (p, 1)
  outArcs t := (g.post t).map fun p => (p, 1)

/-- `t.label` -/
def label (g : Gr α) (t : Nat) : Option α := ((g.trans.find? fun e => e.1 == t).map Prod.snd).join

end Gr

/-! ### construction of the net -/

/-- `Counts` (to_petri_net.py:29-60): how many places and how many transitions have been created -/
structure Cnt where
  np : Nat
  nt : Nat
  deriving DecidableEq, Repr

/-- `initial_entity_subtree` / `final_entity_subtree` -/
inductive Ent
  | place (p : Nat)
  | trans (t : Nat)

/-- to_petri_net.py:344-349: place at which the subtree starts -/
def enter : Ent → Cnt → Gr α × Nat × Cnt
  | .trans t, c => ({ places := [c.np], tp := [(t, c.np)] }, c.np, { c with np := c.np + 1 })
  | .place p, c => ({}, p, c)

/-- to_petri_net.py:350-356: place at which the subtree ends -/
def leave : Option Ent → Cnt → Gr α × Nat × Cnt
  | some (.place p), c => ({}, p, c)
  | some (.trans t), c => ({ places := [c.np], pt := [(c.np, t)] }, c.np, { c with np := c.np + 1 })
  | none, c => ({ places := [c.np] }, c.np, { c with np := c.np + 1 })

/-- a call of `recursively_add_tree` (to_petri_net.py:311-526) on a subtree whose part after line 357 is `k`: what is added
to the net, the new counters, and the returned `final_place`.  `force_add_skip` is never true. -/
def sub (k : Nat → Nat → Cnt → Gr α × Cnt) (ini : Ent) (fin : Option Ent) (c : Cnt) : Gr α × Cnt × Nat :=
  let e := enter (α := α) ini c
  let l := leave (α := α) fin e.2.2
  let b := k e.2.1 l.2.1 l.2.2
  (e.1 ++ (l.1 ++ b.1), b.2, l.2.1)

mutual
/-- `recursively_add_tree` from line 357 on: `ip` is `initial_place`, `fp` is `final_place`; the result is what is added to the
net, in order. -/
def body : PT α → Nat → Nat → Cnt → Gr α × Cnt
  -- to_petri_net.py:364-372
  | .leaf l, ip, fp, c => ({ trans := [(c.nt, l)], pt := [(ip, c.nt)], tp := [(c.nt, fp)] }, { c with nt := c.nt + 1 })
  -- to_petri_net.py:374-378
  | .node .xor cs, ip, fp, c => bodyXor cs ip fp c
  -- to_petri_net.py:379-427
  | .node .or cs, ip, fp, c =>
    let r := bodyOr cs c.nt (c.nt + 1) c.np (c.np + 1) ⟨c.np + 2, c.nt + 2⟩
    ({ places := [c.np, c.np + 1], trans := [(c.nt, none), (c.nt + 1, none)], pt := [(ip, c.nt), (c.np, c.nt + 1)],
       tp := [(c.nt + 1, fp), (c.nt, c.np + 1)] } ++ r.1, r.2)
  -- to_petri_net.py:429-441
  | .node .par cs, ip, fp, c =>
    let r := bodyPar cs c.nt (c.nt + 1) ⟨c.np, c.nt + 2⟩
    ({ trans := [(c.nt, none), (c.nt + 1, none)], pt := [(ip, c.nt)], tp := [(c.nt + 1, fp)] } ++ r.1, r.2)
  -- to_petri_net.py:443-478
  | .node .inter cs, ip, fp, c =>
    let r := bodyInter cs c.nt (c.nt + 1) c.np ⟨c.np + 1, c.nt + 2⟩
    ({ places := [c.np], trans := [(c.nt, none), (c.nt + 1, none)], pt := [(ip, c.nt), (c.np, c.nt + 1)],
       tp := [(c.nt + 1, fp), (c.nt, c.np)] } ++ r.1, r.2)
  -- to_petri_net.py:480-488
  | .node .seq cs, ip, fp, c => bodySeq cs ip fp c
  -- to_petri_net.py:489-524
  | .node .loop cs, ip, fp, c => bodyLoop cs ip fp c
/-- loop over the children, to_petri_net.py:375-378 -/
def bodyXor : List (PT α) → Nat → Nat → Cnt → Gr α × Cnt
  | [], _, _, c => ({}, c)
  | t :: ts, ip, fp, c =>
    let r := sub (body t) (.place ip) (some (.place fp)) c
    let s := bodyXor ts ip fp r.2.1
    (r.1 ++ s.1, s.2)
/-- loop over the children, to_petri_net.py:482-488 -/
def bodySeq : List (PT α) → Nat → Nat → Cnt → Gr α × Cnt
  | [], _, _, c => ({}, c)
  | t :: ts, ip, fp, c =>
    let r := sub (body t) (.place ip) (if ts.isEmpty then some (.place fp) else none) c
    let s := bodySeq ts r.2.2 fp r.2.1
    (r.1 ++ s.1, s.2)
/-- loop over the children, to_petri_net.py:437-441 -/
def bodyPar : List (PT α) → Nat → Nat → Cnt → Gr α × Cnt
  | [], _, _, c => ({}, c)
  | t :: ts, sp, jn, c =>
    let r := sub (body t) (.trans sp) (some (.trans jn)) c
    let s := bodyPar ts sp jn r.2.1
    (r.1 ++ s.1, s.2)
/-- loop over the children, to_petri_net.py:457-478; `ctl` is `control_place` -/
def bodyInter : List (PT α) → Nat → Nat → Nat → Cnt → Gr α × Cnt
  | [], _, _, _, c => ({}, c)
  | t :: ts, sp, jn, ctl, c =>
    let pI := c.np; let iT := c.nt; let pF := c.np + 1; let fT := c.nt + 1
    let g : Gr α :=
      { places := [pI, pF], trans := [(iT, none), (fT, none)],
        pt := [(pI, iT), (pF, jn), (ctl, iT)], tp := [(sp, pI), (fT, pF), (fT, ctl)] }
    let r := sub (body t) (.trans iT) (some (.trans fT)) ⟨c.np + 2, c.nt + 2⟩
    let s := bodyInter ts sp jn ctl r.2.1
    (g ++ (r.1 ++ s.1), s.2)
/-- loop over the children, to_petri_net.py:393-427; `term` is `terminal_place`, `first` is `first_place` -/
def bodyOr : List (PT α) → Nat → Nat → Nat → Nat → Cnt → Gr α × Cnt
  | [], _, _, _, _, c => ({}, c)
  | t :: ts, sp, jn, term, first, c =>
    let ini := c.np; let st := c.np + 1; let en := c.np + 2
    let tS := c.nt; let tL := c.nt + 1; let tK := c.nt + 2
    let g : Gr α :=
      { places := [ini, st, en], trans := [(tS, none), (tL, none), (tK, none)],
        pt := [(first, tS), (ini, tS), (term, tL), (ini, tL), (term, tK), (ini, tK), (en, jn)],
        tp := [(sp, ini), (tS, st), (tS, term), (tL, st), (tL, term), (tK, term), (tK, en)] }
    let r := sub (body t) (.place st) (some (.place en)) ⟨c.np + 3, c.nt + 3⟩
    let s := bodyOr ts sp jn term first r.2.1
    (g ++ (r.1 ++ s.1), s.2)
/-- to_petri_net.py:489-524.  No child: `tree_childs[0]` raises IndexError (the model returns nothing). -/
def bodyLoop : List (PT α) → Nat → Nat → Cnt → Gr α × Cnt
  | [], _, _, c => ({}, c)
  | t :: ts, ip, fp, c =>
    let n := c.np; let tI := c.nt; let tL := c.nt + 1
    let g : Gr α := { places := [n], trans := [(tI, none), (tL, none)], pt := [(ip, tI)], tp := [(tI, n)] }
    if ts.isEmpty then
      let r := sub (body t) (.place n) (some (.place fp)) ⟨c.np + 1, c.nt + 2⟩
      (g ++ (r.1 ++ { pt := [(fp, tL)], tp := [(tL, n)] }), r.2.1)
    else
      let r := sub (body t) (.place n) none ⟨c.np + 1, c.nt + 2⟩
      let s := bodyRedo ts r.2.2 none r.2.1
      let x := sub (fun ip fp c => ({ trans := [(c.nt, none)], pt := [(ip, c.nt)], tp := [(c.nt, fp)] }, { c with nt := c.nt + 1 }))
        (.place r.2.2) (some (.place fp)) s.2.1
      (g ++ (r.1 ++ (s.1 ++ (x.1 ++ { pt := s.2.2.toList.map fun q => (q, tL), tp := [(tL, n)] }))), x.2.1)
/-- `for i in range(1, len(tree_childs))`, to_petri_net.py:512-515; the third component of the result is `int2` -/
def bodyRedo : List (PT α) → Nat → Option Nat → Cnt → Gr α × Cnt × Option Nat
  | [], _, int2, c => ({}, c, int2)
  | t :: ts, int1, int2, c =>
    let r := sub (body t) (.place int1) (int2.map .place) c
    let s := bodyRedo ts int1 (some r.2.2) r.2.1
    (r.1 ++ s.1, s.2.1, s.2.2)
end

/-! ### when a silent transition is put at the initial / final marking -/

/-- `tree.operator` -/
def opOf : PT α → Option Op
  | .leaf _ => none
  | .node op _ => some op
/-- `tree.children` -/
def kids : PT α → List (PT α)
  | .leaf _ => []
  | .node _ cs => cs

mutual
/-- number of nodes returned by `get_first_terminal_child_transitions` (to_petri_net.py:122-144) -/
def firstTerminal : PT α → Nat
  | .leaf _ => 0
  | .node _ cs => firstTerminalL cs
def firstTerminalL : List (PT α) → Nat
  | [] => 0
  | .leaf _ :: _ => 1
  | .node op cs :: _ => firstTerminal (.node op cs)
end

mutual
/-- number of nodes returned by `get_last_terminal_child_transitions` (to_petri_net.py:147-169) -/
def lastTerminal : PT α → Nat
  | .leaf _ => 0
  | .node _ cs => lastTerminalL cs
def lastTerminalL : List (PT α) → Nat
  | [] => 0
  | c :: cs => if cs.isEmpty then (match c with | .leaf _ => 1 | .node op ds => lastTerminal (.node op ds)) else lastTerminalL cs
end

mutual
/-- `check_loop_to_first_operator` (to_petri_net.py:172-193) -/
def loopFirst : PT α → Bool
  | .leaf _ => false
  | .node op cs => op == .loop || loopFirstL cs
def loopFirstL : List (PT α) → Bool
  | [] => false
  | c :: _ => if opOf c == some .loop then true else loopFirst c
end

mutual
/-- `check_loop_to_last_operator` (to_petri_net.py:196-217) -/
def loopLast : PT α → Bool
  | .leaf _ => false
  | .node op cs => op == .loop || loopLastL cs
def loopLastL : List (PT α) → Bool
  | [] => false
  | c :: cs => if cs.isEmpty then (if opOf c == some .loop then true else loopLast c) else loopLastL cs
end

mutual
/-- `check_terminal_loop` (to_petri_net.py:243-263) -/
def terminalLoop : PT α → Bool
  | .leaf _ => false
  | .node _ cs => terminalLoopL cs
def terminalLoopL : List (PT α) → Bool
  | [] => false
  | c :: cs =>
    if cs.isEmpty then (match opOf c with | none => false | some op => if op == .loop then true else terminalLoop c)
    else terminalLoopL cs
end

/-- `check_initial_loop` (to_petri_net.py:220-240; it calls `check_terminal_loop`) -/
def initialLoop (t : PT α) : Bool :=
  match kids t with
  | [] => false
  | c :: _ => match opOf c with | none => false | some op => if op == .loop then true else terminalLoop c

/-- `check_tau_mandatory_at_initial_marking` (to_petri_net.py:266-288) -/
def tauInitial (t : PT α) : Bool :=
  initialLoop t || decide (firstTerminal t > 1) || loopFirst t || (opOf t == some .xor || opOf t == some .par)

/-- `check_tau_mandatory_at_final_marking` (to_petri_net.py:291-308) -/
def tauFinal (t : PT α) : Bool :=
  terminalLoop t || decide (lastTerminal t > 1) || loopLast t || (opOf t == some .xor || opOf t == some .par)

/-! ### reductions -/

namespace Gr

/-- `remove_transition` (petri_utils.py:68-96) -/
def removeTransition (g : Gr α) (t : Nat) : Gr α :=
  if (g.trans.any fun e => e.1 == t) then
    { g with trans := g.trans.filter fun e => !(e.1 == t), pt := g.pt.filter fun a => !(a.2 == t),
             tp := g.tp.filter fun a => !(a.1 == t) }
  else g

/-- `remove_place` (petri_utils.py:125-153) -/
def removePlace (g : Gr α) (p : Nat) : Gr α :=
  if g.places.contains p then
    { g with places := g.places.filter fun q => !(q == p), pt := g.pt.filter fun a => !(a.1 == p),
             tp := g.tp.filter fun a => !(a.2 == p) }
  else g

/-- body of the `for` loop of `reduce_single_entry_transitions` for the transition `t` (reduction.py:36-46): `none` if the
inner `if` fails -/
def entryAt (g : Gr α) (t : Nat) : Option (Gr α) :=
  match g.pre t with
  | [p] =>
    match g.ppre p, g.ppost p with
    | [u], [_] =>
      let ts := g.post t
      let g' := (g.removeTransition t).removePlace p
      some { g' with tp := g'.tp ++ ts.map fun q => (u, q) }
    | _, _ => none
  | _ => none

/-- body of the `for` loop of `reduce_single_exit_transitions` for the transition `t` (reduction.py:62-72) -/
def exitAt (g : Gr α) (t : Nat) : Option (Gr α) :=
  match g.post t with
  | [p] =>
    match g.ppre p, g.ppost p with
    | [_], [u] =>
      let ss := g.pre t
      let g' := (g.removeTransition t).removePlace p
      some { g' with pt := g'.pt ++ ss.map fun q => (q, u) }
    | _, _ => none
  | _ => none

/-- one round of the `while` loop of `reduce_single_entry_transitions` (reduction.py:31-47); `ord` is the iteration order of the
set `net.transitions` -/
def entryRound (ord : Gr α → List (Nat × Option α)) (g : Gr α) : Option (Gr α) :=
  (((ord g).filter fun e => e.2.isNone && (g.pre e.1).length == 1).findSome? fun e => g.entryAt e.1)

/-- one round of the `while` loop of `reduce_single_exit_transitions` (reduction.py:57-73) -/
def exitRound (ord : Gr α → List (Nat × Option α)) (g : Gr α) : Option (Gr α) :=
  (((ord g).filter fun e => e.2.isNone && (g.post e.1).length == 1).findSome? fun e => g.exitAt e.1)

/-- `while cont`: repeat a round until it changes nothing; `fuel` bounds the number of rounds -/
def rounds (f : Gr α → Option (Gr α)) : Nat → Gr α → Gr α
  | 0, g => g
  | n + 1, g => match f g with | none => g | some g' => rounds f n g'

/-- `reduce_single_entry_transitions` (reduction.py:23-48); every round removes a transition, so this many rounds are enough
(proved: `Conv.entry_done`) -/
def reduceEntry (ord : Gr α → List (Nat × Option α)) (g : Gr α) : Gr α := rounds (entryRound ord) (g.trans.length + 1) g
/-- `reduce_single_exit_transitions` (reduction.py:51-74) -/
def reduceExit (ord : Gr α → List (Nat × Option α)) (g : Gr α) : Gr α := rounds (exitRound ord) (g.trans.length + 1) g
/-- `apply_simple_reduction` (reduction.py:77-88) -/
def simpleReduction (ord : Gr α → List (Nat × Option α)) (g : Gr α) : Gr α := reduceExit ord (reduceEntry ord g)

/-- one iteration of the clean-up loop (to_petri_net.py:591-595); the initial marking is {0:1} and the final marking {1:1} -/
def cleanStep (g : Gr α) (p : Nat) : Gr α :=
  let g1 := if (g.ppost p).length == 0 && !(p == 1) then g.removePlace p else g
  if (g1.ppre p).length == 0 && !(p == 0) then g1.removePlace p else g1

end Gr

/-! ### `apply` -/

/-- the net before the reduction (to_petri_net.py:553-586): place 0 is `source`, place 1 is `sink` -/
def build (t : PT α) : Gr α :=
  let g0 : Gr α := { places := [0, 1] }
  let c0 : Cnt := ⟨2, 0⟩
  let i : Gr α × Nat × Cnt :=
    if tauInitial t then
      ({ places := [c0.np], trans := [(c0.nt, none)], pt := [(0, c0.nt)], tp := [(c0.nt, c0.np)] }, c0.np, ⟨c0.np + 1, c0.nt + 1⟩)
    else ({}, 0, c0)
  let c1 := i.2.2
  let f : Gr α × Nat × Cnt :=
    if tauFinal t then
      ({ places := [c1.np], trans := [(c1.nt, none)], pt := [(c1.np, c1.nt)], tp := [(c1.nt, 1)] }, c1.np, ⟨c1.np + 1, c1.nt + 1⟩)
    else ({}, 1, c1)
  g0 ++ (i.1 ++ (f.1 ++ (sub (body t) (.place i.2.1) (some (.place f.2.1)) f.2.2).1))

/-- `apply` (to_petri_net.py:529-597): the net; the markings are `{0: 1}` and `{1: 1}`.  `ord` is the iteration order of
`net.transitions`, `ordP` that of `net.places`. -/
def apply (ord : Gr α → List (Nat × Option α)) (ordP : List Nat → List Nat) (t : PT α) : Gr α :=
  let g := (build t).simpleReduction ord
  (ordP g.places).foldl Gr.cleanStep g

/-- `initial_marking[source] = 1` -/
def initialMarking : Marking Nat := [(0, 1)]
/-- `final_marking[sink] = 1` -/
def finalMarking : Marking Nat := [(1, 1)]

end Conv
end Verif
