import Verif.DfgFile.Proofs
/-
Model of writing an accepting Petri net to PNML and reading it back:
pm4py/objects/petri_net/exporter/variants/pnml.py (`export_petri_tree`) and
pm4py/objects/petri_net/importer/variants/pnml.py (`import_net_from_xml_object`).

The XML document is a tree of elements with tag, attributes, text and children.  lxml's serialisation and parsing are part
of the trusted base, except that an empty text is read back as `None` (`Xml.norm`).
Python objects are identified by their position: place `i` is the `i`-th place in the iteration order of `net.places`
(a set, whose order is arbitrary but fixed while it is not changed), and the imported places are numbered in the order of
their creation.
Not modelled: layout information and stochastic distributions (exporter 85-92, 100-128; importer 170-177, 211-218, 225-252),
the name of the net, the transition property TRANS_NAME_TAG, and characters that XML does not allow.
-/
namespace Verif.Pnml
open Verif Verif.DfgFile

/-- An XML element. -/
inductive Xml
  | el (tag : Str) (attrs : Dict Str Str) (text : Option Str) (kids : List Xml)

namespace Xml
/-- `el.tag` -/
def tag : Xml → Str | el t _ _ _ => t
/-- `el.get(k)` -/
def get : Xml → Str → Option Str | el _ a _ _, k => Dict.get? a k
/-- `el.text` -/
def text : Xml → Option Str | el _ _ t _ => t
/-- iteration over `el` -/
def kids : Xml → List Xml | el _ _ _ ks => ks

/-- An empty text of an element is read back as `None`. -/
def normText : Option Str → Option Str
  | some [] => none
  | t => t

mutual
/-- Writing the document to a file and parsing it. -/
def norm : Xml → Xml
  | el t a x ks => el t a (normText x) (normL ks)
/-- `norm` on lists of elements. -/
def normL : List Xml → List Xml
  | [] => []
  | x :: xs => norm x :: normL xs
end
end Xml

open Xml

/-- `s.endswith(t)` -/
def endsWith (s t : Str) : Bool := t.isSuffixOf s

/-- `t in s` -/
def contains : Str → Str → Bool
  | [], t => t.isPrefixOf []
  | c :: s, t => t.isPrefixOf (c :: s) || contains s t

/-- A place: its name and its property PLACE_NAME_TAG, if it has it. -/
structure Plc where
  name : Str
  tag : Option Str
deriving DecidableEq

/-- A transition: name, label, guard and the variables read and written (properties, `none` if absent). -/
structure Trn where
  name : Str
  label : Option Str
  guard : Option Str
  reads : Option (List (Option Str))
  writes : Option (List (Option Str))
deriving DecidableEq

/-- The class of an arc: `PetriNet.Arc`, `ResetNet.ResetArc`, `InhibitorNet.InhibitorArc`. -/
inductive ArcKind
  | normal | reset | inhibitor
deriving DecidableEq

/-- An arc between place number `p` and transition number `t`; `toT` if it goes from the place to the transition. -/
structure ArcR where
  toT : Bool
  p : Nat
  t : Nat
  weight : Int
  kind : ArcKind
  props : Dict Str Str
deriving DecidableEq

/-- A Petri net; `variables` is the property VARIABLES (type, name), if present.  `inh` and `res` give the class of the
    net: `isinstance(net, InhibitorNet)`, `isinstance(net, ResetNet)`. -/
structure NetR where
  places : List Plc
  trans : List Trn
  arcs : List ArcR
  variables : Option (List (Str × Option Str))
  inh : Bool
  res : Bool
deriving DecidableEq

/-- A marking: a dictionary from place numbers to numbers of tokens. -/
abbrev Mk := Dict Nat Int

/-! ### Exporter -/

/-- `str(n)` on integers -/
abbrev str (n : Int) : Str := showInt n

/-- An element with a single child `text`. -/
def wrapText (t : Str) (x : Option Str) : Xml := el t [] none [el "text".toList [] x []]

/-- The element of place number `i` (exporter/variants/pnml.py:73-84). -/
def placeXml (im : Mk) (i : Nat) (p : Plc) : Xml :=
  el "place".toList [("id".toList, p.name)] none
    ([wrapText "name".toList (some (p.tag.getD p.name))] ++
      (match Dict.get? im i with
       | some n => [wrapText "initialMarking".toList (some (str n))]
       | none => []))

/-- `s.split("+")[0]` and `[1]` or "complete" (exporter/variants/pnml.py:144-146). -/
def prom5Event (l : Str) : Str × Str :=
  match split '+' l with
  | a :: b :: _ => (a, b)
  | [a] => (a, "complete".toList)
  | [] => ([], "complete".toList)

/-- The tool-specific information of a transition with the given label (exporter/variants/pnml.py:129-150). -/
def toolXml (prom5 : Bool) (u : Str) : Option Str → List Xml
  | none => [el "toolspecific".toList [("tool".toList, "ProM".toList), ("version".toList, "6.4".toList),
               ("activity".toList, "$invisible$".toList), ("localNodeID".toList, u)] none []]
  | some l =>
    if prom5 then
      [el "toolspecific".toList [("tool".toList, "ProM".toList), ("version".toList, "5.2".toList)] none
        [el "logevent".toList [] none
          [el "name".toList [] (some (prom5Event l).1) [], el "type".toList [] (some (prom5Event l).2) []]]]
    else []

/-- The element of a transition (exporter/variants/pnml.py:94-163); `u` is the random identifier. -/
def transXml (prom5 : Bool) (u : Str) (t : Trn) : Xml :=
  el "transition".toList
    (("id".toList, t.name) :: (match t.guard with | some g => [("guard".toList, g)] | none => [])) none
    ([wrapText "name".toList (some (t.label.getD t.name))] ++
      toolXml prom5 u t.label ++
      ((t.reads.getD []).map fun v => el "readVariable".toList [] v []) ++
      ((t.writes.getD []).map fun v => el "writeVariable".toList [] v []))

/-- The names of source and target of an arc (exporter/variants/pnml.py:167-172); `none` is the `KeyError`. -/
def arcEnds (N : NetR) (a : ArcR) : Option (Str × Str) := do
  let p ← N.places[a.p]?
  let t ← N.trans[a.t]?
  pure (if a.toT then (p.name, t.name) else (t.name, p.name))

/-- The element of an arc (exporter/variants/pnml.py:164-192); `h` is `str(hash(arc))`. -/
def arcXml (N : NetR) (h : Str) (a : ArcR) : Option Xml := do
  let e ← arcEnds N a
  pure (el "arc".toList [("id".toList, h), ("source".toList, e.1), ("target".toList, e.2)] none
    ((if a.weight > 1 then [wrapText "inscription".toList (some (str a.weight))] else []) ++
     (match a.kind with
      | .reset => [wrapText "arctype".toList (some "reset".toList)]
      | .inhibitor => [wrapText "arctype".toList (some "inhibitor".toList)]
      | .normal => []) ++
     ((a.props.filter fun e => !decide (e.1 = "arctype".toList)).map fun e => wrapText e.1 (some e.2))))

/-- The elements for the final marking (exporter/variants/pnml.py:194-202). -/
def finalXml (N : NetR) (fm : Mk) : Option (List Xml) :=
  if fm.length > 0 then do
    let ks ← fm.mapM fun e => do
      let p ← N.places[e.1]?
      pure (el "place".toList [("idref".toList, p.name)] none [el "text".toList [] (some (str e.2)) []])
    pure [el "finalmarkings".toList [] none [el "marking".toList [] none ks]]
  else pure []

/-- The elements for the variables (exporter/variants/pnml.py:205-211). -/
def varsXml (N : NetR) : List Xml :=
  match N.variables with
  | none => []
  | some vs => [el "variables".toList [] none
      (vs.map fun v => el "variable".toList [("type".toList, v.1)] none [el "name".toList [] v.2 []])]

/-- `export_petri_tree(petrinet, marking, final_marking, export_prom5)` (exporter/variants/pnml.py:32-215).
    `name` is the name of the net, `u i` the random identifier of transition `i`, `h i` the hash of arc `i`. -/
def exportTree (name : Str) (u h : Nat → Str) (prom5 : Bool) (N : NetR) (im fm : Mk) : Option Xml := do
  let arcs ← N.arcs.zipIdx.mapM fun x => arcXml N (h x.2) x.1
  let fin ← finalXml N fm
  let content := (N.places.zipIdx.map fun x => placeXml im x.2 x.1) ++
    (N.trans.zipIdx.map fun x => transXml prom5 (u x.2) x.1) ++ arcs
  pure (el "pnml".toList [] none [el "net".toList
    [("id".toList, name), ("type".toList, "http://www.pnml.org/version-2009/grammar/pnmlcoremodel".toList)] none
    ([wrapText "name".toList (some name)] ++
     (if prom5 then content else [el "page".toList [("id".toList, "n0".toList)] none content]) ++ fin ++ varsXml N)])

/-! ### Importer -/

/-- A child of the name of a place (importer/variants/pnml.py:163-165). -/
def placeName (nm : Str) (c3 : Xml) : Str :=
  match c3.text with
  | some (x :: xs) => x :: xs
  | _ => nm

/-- The loop over the children of a place element (importer/variants/pnml.py:161-169): name and number of tokens. -/
def placeStep (s : Str × Int) (c : Xml) : Option (Str × Int) := do
  let s1 := if endsWith c.tag "name".toList then
      (c.kids.foldl placeName s.1, s.2) else s
  if endsWith c.tag "initialMarking".toList then
    let n ← c.kids.foldlM (fun n c3 => if endsWith c3.tag "text".toList then c3.text.bind intOf? else some n) s1.2
    pure (s1.1, n)
  else pure s1

/-- A place element (importer/variants/pnml.py:153-186): identifier, name property, number of tokens. -/
def importPlace (c : Xml) : Option (Str × Str × Int) := do
  let id ← c.get "id".toList
  let s ← c.kids.foldlM placeStep (id, 0)
  pure (id, s)

/-- What is known about a transition while its children are read (importer/variants/pnml.py:195-201). -/
structure TState where
  nm : Str
  visible : Bool
  reads : Option (List (Option Str))
  writes : Option (List (Option Str))

/-- A child of the name of a transition (importer/variants/pnml.py:207-210). -/
def transName (id nm : Str) (c3 : Xml) : Str :=
  match c3.text with
  | some (x :: xs) => if nm = id then x :: xs else nm
  | _ => nm

/-- One child of a transition element (importer/variants/pnml.py:205-262). -/
def transStep (id : Str) (s : TState) (c : Xml) : Option TState :=
  if endsWith c.tag "name".toList then
    some { s with nm := c.kids.foldl (transName id) s.nm }
  else if endsWith c.tag "graphics".toList then some s
  else if endsWith c.tag "toolspecific".toList then do
    let tool ← c.get "tool".toList
    if contains tool "ProM".toList then
      let act ← c.get "activity".toList
      pure (if contains act "invisible".toList then { s with visible := false } else s)
    else pure s
  else if endsWith c.tag "writeVariable".toList then some { s with writes := some (s.writes.getD [] ++ [c.text]) }
  else if endsWith c.tag "readVariable".toList then some { s with reads := some (s.reads.getD [] ++ [c.text]) }
  else some s

/-- A transition element (importer/variants/pnml.py:190-275). -/
def importTrans (c : Xml) : Option Trn := do
  let id ← c.get "id".toList
  let s ← c.kids.foldlM (transStep id) ⟨id, true, none, none⟩
  pure ⟨id, if s.visible then some s.nm else none, c.get "guard".toList, s.reads, s.writes⟩

/-- The children of an arc element (importer/variants/pnml.py:294-302): weight and type. -/
def arcStep (s : Int × Option Str) (c : Xml) : Option (Int × Option Str) :=
  if endsWith c.tag "inscription".toList then do
    let n ← c.kids.foldlM (fun n c3 => if endsWith c3.tag "text".toList then c3.text.bind intOf? else some n) s.1
    pure (n, s.2)
  else if endsWith c.tag "arctype".toList then
    some (s.1, c.kids.foldl (fun ty c3 => if endsWith c3.tag "text".toList then c3.text else ty) s.2)
  else some s

/-- The class of the new arc in `add_arc_from_to` (utils/petri_utils.py:171-190); `none` is the exception. -/
def arcKind (inh res : Bool) (ty : Option Str) : Option ArcKind :=
  if ty = some "inhibitor".toList then if inh then some .inhibitor else none
  else if ty = some "reset".toList then if res then some .reset else none
  else if ty = some "stochastic_arc".toList then none
  else some .normal

/-- An arc element (importer/variants/pnml.py:287-325) added to the net. -/
def importArc (pd td : Dict Str Nat) (N : NetR) (c : Xml) : Option NetR := do
  let s ← c.kids.foldlM arcStep (1, none)
  let src := c.get "source".toList
  let tgt := c.get "target".toList
  match src.bind (Dict.get? pd), tgt.bind (Dict.get? td) with
  | some p, some t => do
    let inh := N.inh || decide (s.2 = some "inhibitor".toList)
    let res := N.res || decide (s.2 = some "reset".toList)
    let k ← arcKind inh res s.2
    pure { N with inh := inh, res := res, arcs := N.arcs ++ [⟨true, p, t, s.1, k, []⟩] }
  | _, _ =>
    match tgt.bind (Dict.get? pd), src.bind (Dict.get? td) with
    | some p, some t => do
      let k ← arcKind N.inh N.res s.2
      pure { N with arcs := N.arcs ++ [⟨false, p, t, s.1, k, []⟩] }
    | _, _ => pure N

/-- `{id: object}` for the objects created one after the other. -/
def dictIds (ids : List Str) : Dict Str Nat := dictOf ids.zipIdx

/-- One place of the final marking (importer/variants/pnml.py:330-336). -/
def finalStep (pd : Dict Str Nat) (m : Mk) (c : Xml) : Option Mk :=
  c.kids.foldlM (fun m c3 =>
    if endsWith c3.tag "text".toList then do
      let n ← c3.text.bind intOf?
      if n > 0 then do
        let p ← (c.get "idref".toList).bind (Dict.get? pd)
        pure (Dict.set m p n)
      else pure m
    else some m) m

/-- The variables (importer/variants/pnml.py:338-346). -/
def importVar (c : Xml) : Option (Str × Option Str) := do
  let ty ← c.get "type".toList
  pure (ty, c.kids.foldl (fun nm c2 => if endsWith c2.tag "name".toList then c2.text else nm) (some []))

/-- All the variables (importer/variants/pnml.py:338-346). -/
def importVars : Option Xml → Option (Option (List (Str × Option Str)))
  | none => some none
  | some v => (v.kids.mapM importVar).map some

/-- The final marking (importer/variants/pnml.py:327-336). -/
def importFinal (pd : Dict Str Nat) : Option Xml → Option (Option Mk)
  | none => some none
  | some f => (f.kids.foldlM (fun m (c : Xml) => c.kids.foldlM (finalStep pd) m) ([] : Mk)).map some

/-- `discover_final_marking` (utils/final_marking.py): one token in each place without outgoing arcs. -/
def discoverFinal (N : NetR) : Mk :=
  ((List.range N.places.length).filter fun i => !(N.arcs.any fun a => a.toT && decide (a.p = i))).map (·, 1)

/-- The part of `import_net_from_xml_object` that reads the element of the net (importer/variants/pnml.py:139-359). -/
def importNett (guess : Bool) (nett : Xml) : Option (NetR × Mk × Option Mk) := do
  let page := ((nett.kids.filter fun c => contains c.tag "page".toList).getLast?).getD nett
  let pls ← (page.kids.filter fun c => contains c.tag "place".toList).mapM importPlace
  let trs ← (page.kids.filter fun c => endsWith c.tag "transition".toList).mapM importTrans
  let pd := dictIds (pls.map (·.1))
  let td := dictIds (trs.map (·.name))
  let N0 : NetR := ⟨pls.map fun x => ⟨x.1, some x.2.1⟩, trs, [], none, false, false⟩
  let im : Mk := (pls.zipIdx.filter fun x => decide (x.1.2.2 > 0)).map fun x => (x.2, x.1.2.2)
  let N1 ← (page.kids.filter fun c => endsWith c.tag "arc".toList).foldlM (importArc pd td) N0
  let fm ← importFinal pd (nett.kids.filter fun c => contains c.tag "finalmarkings".toList).getLast?
  let vs ← importVars (nett.kids.filter fun c => contains c.tag "variables".toList).getLast?
  let N2 := { N1 with variables := vs }
  pure (N2, im, if fm.isSome then fm else if guess then some (discoverFinal N2) else none)

/-- `import_net_from_xml_object(root)` (importer/variants/pnml.py:104-359): net, initial marking and final marking
    (`None` if there is none and it is not guessed). -/
def importTree (guess : Bool) (root : Xml) : Option (NetR × Mk × Option Mk) :=
  match root.kids.getLast? with
  | none => some (⟨[], [], [], none, false, false⟩, [], if guess then some [] else none)
  | some nett => importNett guess nett

/-- Writing a net and reading it back. -/
def roundTrip (name : Str) (u h : Nat → Str) (prom5 guess : Bool) (N : NetR) (im fm : Mk) :
    Option (NetR × Mk × Option Mk) := do
  let x ← exportTree name u h prom5 N im fm
  importTree guess x.norm

end Verif.Pnml
