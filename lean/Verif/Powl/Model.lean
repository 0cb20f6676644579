import Verif.Convert.Model
import Verif.Powl.Lang
/-
Model of /repo/pm4py/objects/conversion/powl/variants/to_petri_net.py.
-/
namespace Verif
namespace PowlNet
open Conv
variable {α : Type}

/-- `for i, j in product(n, n): if transitive_reduction.is_edge_id(i, j)` (to_petri_net.py:171-177); `ifs` are the lists `init_trans`
and `final_trans`, `np` is the number of the next place -/
def edges (red : BinRel.Edges) (ifs : List (Nat × Nat)) : List (Nat × Nat) → Nat → Gr α × Nat
  | [], np => ({}, np)
  | (i, j) :: l, np =>
    if red i j then
      let r := edges red ifs l (np + 1)
      ({ places := [np], pt := [(np, (ifs.getD j (0, 0)).1)], tp := [((ifs.getD i (0, 0)).2, np)] } ++ r.1, r.2)
    else edges red ifs l np

/-- `product(range(n), range(n))` -/
def pairs (n : Nat) : List (Nat × Nat) := (List.range n).flatMap fun i => (List.range n).map fun j => (i, j)

mutual
/-- `recursively_add_tree` (to_petri_net.py:31-179) after the entry and exit places have been determined (`Conv.sub`; the code of
to_petri_net.py:62-74 is that of the process tree conversion); `ip` is `initial_place`, `fp` is `final_place`.
A partial order that relates a child to itself makes `get_transitive_reduction` raise; the model then adds no edges. -/
def body : Powl α → Nat → Nat → Cnt → Gr α × Cnt
  -- to_petri_net.py:81-90
  | .leaf l, ip, fp, c => ({ trans := [(c.nt, l)], pt := [(ip, c.nt)], tp := [(c.nt, fp)] }, { c with nt := c.nt + 1 })
  -- to_petri_net.py:94-99
  | .xor cs, ip, fp, c => bodyXor cs ip fp c
  -- to_petri_net.py:100-128
  | .loop b r, ip, fp, c =>
    let n := c.np; let tI := c.nt; let tL := c.nt + 1
    let g : Gr α := { places := [n], trans := [(tI, none), (tL, none)], pt := [(ip, tI)], tp := [(tI, n)] }
    let x := sub (body b) (.place n) none ⟨c.np + 1, c.nt + 2⟩
    let y := sub (body r) (.place x.2.2) none x.2.1
    let z := sub (fun ip fp c => ({ trans := [(c.nt, none)], pt := [(ip, c.nt)], tp := [(c.nt, fp)] }, { c with nt := c.nt + 1 }))
      (.place x.2.2) (some (.place fp)) y.2.1
    (g ++ (x.1 ++ (y.1 ++ (z.1 ++ { pt := [(y.2.2, tL)], tp := [(tL, n)] }))), z.2.1)
  -- to_petri_net.py:130-177
  | .po cs E, ip, fp, c =>
    let n := cs.length
    let red := (BinRel.transitiveReduction n E).getD fun _ _ => false
    let r := bodyKids (BinRel.startNodes n red) (BinRel.endNodes n red) c.nt (c.nt + 1) cs 0 ⟨c.np, c.nt + 2⟩
    let e := edges red r.2.2 (pairs n) r.2.1.np
    ({ trans := [(c.nt, none), (c.nt + 1, none)], pt := [(ip, c.nt)], tp := [(c.nt + 1, fp)] } ++ (r.1 ++ e.1), ⟨e.2, r.2.1.nt⟩)
/-- loop over the children, to_petri_net.py:95-99 -/
def bodyXor : List (Powl α) → Nat → Nat → Cnt → Gr α × Cnt
  | [], _, _, c => ({}, c)
  | t :: ts, ip, fp, c =>
    let r := sub (body t) (.place ip) (some (.place fp)) c
    let s := bodyXor ts ip fp r.2.1
    (r.1 ++ s.1, s.2)
/-- loop over the children, to_petri_net.py:144-169; `sp` is `tau_split`, `jn` is `tau_join`, the number is the position of the
child; the last component of the result are `init_trans` and `final_trans` -/
def bodyKids (starts ends : List Nat) (sp jn : Nat) : List (Powl α) → Nat → Cnt → Gr α × Cnt × List (Nat × Nat)
  | [], _, c => ({}, c, [])
  | t :: ts, k, c =>
    let iT := c.nt
    let s : Gr α := if starts.contains k then { places := [c.np], pt := [(c.np, iT)], tp := [(sp, c.np)] } else {}
    let np1 := if starts.contains k then c.np + 1 else c.np
    let fT := c.nt + 1
    let e : Gr α := if ends.contains k then { places := [np1], pt := [(np1, jn)], tp := [(fT, np1)] } else {}
    let np2 := if ends.contains k then np1 + 1 else np1
    let r := sub (body t) (.trans iT) (some (.trans fT)) ⟨np2, c.nt + 2⟩
    let q := bodyKids starts ends sp jn ts (k + 1) r.2.1
    ({ trans := [(iT, none), (fT, none)] } ++ (s ++ (e ++ (r.1 ++ q.1))), q.2.1, (iT, fT) :: q.2.2)
end

/-- the net before the reduction (to_petri_net.py:203-236): place 0 is `source`, place 1 is `sink`; `initial_mandatory` and
`final_mandatory` are `True` -/
def build (t : Powl α) : Gr α :=
  { places := [0, 1] } ++
    ({ places := [2], trans := [(0, none)], pt := [(0, 0)], tp := [(0, 2)] } ++
      ({ places := [3], trans := [(1, none)], pt := [(3, 1)], tp := [(1, 1)] } ++
        (sub (body t) (.place 2) (some (.place 3)) ⟨4, 2⟩).1))

/-- `apply` (to_petri_net.py:182-247); the markings are `{0: 1}` and `{1: 1}` (`Conv.initialMarking`, `Conv.finalMarking`) -/
def apply (ord : Gr α → List (Nat × Option α)) (ordP : List Nat → List Nat) (t : Powl α) : Gr α :=
  let g := (build t).simpleReduction ord
  (ordP g.places).foldl Gr.cleanStep g

end PowlNet
end Verif
