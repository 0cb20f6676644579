import Verif.Pnml.Model
set_option linter.unusedSectionVars false
/-
Model of the default XES exporter (pm4py/objects/log/exporter/xes/variants/line_by_line.py) and of the importer
`chunk_regex` (pm4py/objects/log/importer/xes/variants/chunk_regex.py) at the level of the characters of the file.

The encoding is the identity on characters: the chunks read by the importer are chunks of characters (see
`Verif/Xes/Bytes.lean` for chunks of bytes).  Dates and floats are abstract: how they are printed and parsed is given by a
`Codec`.  An exception is `none`.  Attribute values of other Python types, and list attributes (a dictionary whose
"value" is `None`), are not modelled.
-/
namespace Verif.Xes
open Verif Verif.DfgFile

/-- Printing and parsing of dates and floats: `isoformat`, `str` and the date parser; `str` and `float`. -/
structure Codec (δ φ : Type) where
  iso : δ → Str
  strD : δ → Str
  parseD : Str → Option δ
  strF : φ → Str
  parseF : Str → Option φ

/-- An atomic attribute value. -/
inductive Val (δ φ : Type)
  | str (s : Str) | int (n : Int) | bool (b : Bool) | date (d : δ) | float (f : φ)
deriving DecidableEq

/-- An attribute: `None`, an atomic value, or a dictionary with a value and attributes as children. -/
inductive Attr (δ φ : Type)
  | none
  | atom (v : Val δ φ)
  | nested (v : Val δ φ) (children : List (Str × Attr δ φ))

/-- The attributes of a log, trace or event: a dictionary. -/
abbrev Attrs (δ φ : Type) := Dict Str (Attr δ φ)

/-- A trace: its attributes and its events. -/
structure Trace (δ φ : Type) where
  attrs : Attrs δ φ
  events : List (Attrs δ φ)

/-- An event log: attributes, extensions (name, prefix, URI), classifiers, globals and traces. -/
structure Log (δ φ : Type) where
  attrs : Attrs δ φ
  ext : Dict Str (Str × Str)
  clas : Dict Str (List Str)
  glob : Dict Str (Attrs δ φ)
  traces : List (Trace δ φ)

variable {δ φ : Type}

/-! ### Exporter -/

/-- The replacements of `xml.sax.saxutils.quoteattr` and `escape`. -/
def escChar : Char → Str
  | '&' => "&amp;".toList
  | '<' => "&lt;".toList
  | '>' => "&gt;".toList
  | '\n' => "&#10;".toList
  | '\r' => "&#13;".toList
  | '\t' => "&#9;".toList
  | c => [c]

/-- `quoteattr(s)` of Python's `xml.sax.saxutils`: the escaped text between double quotes, or between single quotes if it
    contains a double quote and no single quote. -/
def quoteattr (s : Str) : Str :=
  let d := s.flatMap escChar
  if '"' ∈ d then
    if '\'' ∈ d then '"' :: (d.flatMap (fun c => if c = '"' then "&quot;".toList else [c]) ++ ['"'])
    else '\'' :: (d ++ ['\''])
  else '"' :: (d ++ ['"'])

/-- `str(b)` -/
def strB (b : Bool) : Str := if b then "True".toList else "False".toList

/-- `str(b).lower()` -/
def lowB (b : Bool) : Str := if b then "true".toList else "false".toList

/-- The XES type of a value (line_by_line.py:34-67): a `concept:name` is always a string. -/
def typeTag (key : Str) (v : Val δ φ) : Str :=
  if key = "concept:name".toList then "string".toList
  else match v with
    | .str _ => "string".toList
    | .int _ => "int".toList
    | .bool _ => "boolean".toList
    | .date _ => "date".toList
    | .float _ => "float".toList

/-- `__get_xes_attr_value` (line_by_line.py:70-86) -/
def valueStr (C : Codec δ φ) (v : Val δ φ) (ty : Str) : Str :=
  match v with
  | .str s => s
  | .int n => showInt n
  | .bool b => if ty = "boolean".toList then lowB b else strB b
  | .date d => if ty = "date".toList then C.iso d else C.strD d
  | .float f => C.strF f

/-- A line of the file: the number of tabs and what is between the angle brackets. -/
abbrev Line := Nat × Str

/-- The text of a line. -/
def render (l : Line) : Str := List.replicate l.1 '\t' ++ '<' :: (l.2 ++ ['>', '\n'])

/-- `"<%s key=%s value=%s` followed by `stop` (line_by_line.py:147, 163). -/
def attrBody (C : Codec δ φ) (key : Str) (v : Val δ φ) (stop : Str) : Str :=
  typeTag key v ++ " key=".toList ++ quoteattr key ++ " value=".toList ++ quoteattr (valueStr C v (typeTag key v)) ++ stop

mutual
/-- `export_attribute` (line_by_line.py:123-167) -/
def exportAttr (C : Codec δ φ) (n : Nat) (key : Str) : Attr δ φ → List Line
  | .none => []
  | .atom v => [(n, attrBody C key v " /".toList)]
  | .nested v cs => (n, attrBody C key v []) :: (exportAttrs C (n + 1) cs ++ [(0, '/' :: typeTag key v)])
/-- The attributes of a dictionary, one after the other. -/
def exportAttrs (C : Codec δ φ) (n : Nat) : List (Str × Attr δ φ) → List Line
  | [] => []
  | (k, a) :: as => exportAttr C n k a ++ exportAttrs C n as
end

/-- `export_trace_line_by_line` (line_by_line.py:170-192) -/
def exportTrace (C : Codec δ φ) (t : Trace δ φ) : List Line :=
  [(1, "trace".toList)] ++ exportAttrs C 2 t.attrs ++
    t.events.flatMap (fun e => [(2, "event".toList)] ++ exportAttrs C 3 e ++ [(2, "/event".toList)]) ++
    [(1, "/trace".toList)]

/-- `"<extension name=\"%s\" prefix=\"%s\" uri=\"%s\" />"` (line_by_line.py:225-226) -/
def extBody (e : Str × Str × Str) : Str :=
  "extension name=\"".toList ++ e.1 ++ "\" prefix=\"".toList ++ e.2.1 ++ "\" uri=\"".toList ++ e.2.2 ++ "\" /".toList

/-- `" ".join(l)` -/
def joinSp : List Str → Str
  | [] => []
  | [x] => x
  | x :: y :: l => x ++ ' ' :: joinSp (y :: l)

/-- `"<classifier name=\"%s\" keys=\"%s\" />"` (line_by_line.py:228-229) -/
def clasBody (c : Str × List Str) : Str :=
  "classifier name=\"".toList ++ c.1 ++ "\" keys=\"".toList ++ joinSp c.2 ++ "\" /".toList

/-- `"<global scope=\"%s\">"` (line_by_line.py:233) -/
def globBody (s : Str) : Str := "global scope=\"".toList ++ s ++ "\"".toList

/-- `export_log_line_by_line` (line_by_line.py:195-246); `enc` is the name of the encoding. -/
def exportLines (C : Codec δ φ) (enc : Str) (L : Log δ φ) : List Line :=
  [(0, "?xml version=\"1.0\" encoding=\"".toList ++ enc ++ "\" ?".toList),
   (0, "log xes.version=\"1849-2016\" xes.features=\"nested-attributes\" xmlns=\"http://www.xes-standard.org/\"".toList)] ++
  L.ext.map (fun e => (1, extBody e)) ++ L.clas.map (fun c => (1, clasBody c)) ++ exportAttrs C 1 L.attrs ++
  L.glob.flatMap (fun g => [(1, globBody g.1)] ++ exportAttrs C 2 g.2 ++ [(1, "/global".toList)]) ++
  L.traces.flatMap (exportTrace C) ++ [(0, "/log".toList)]

/-- The text of the file. -/
def exportText (C : Codec δ φ) (enc : Str) (L : Log δ φ) : Str := (exportLines C enc L).flatMap render

/-! ### Importer `chunk_regex`: reading chunks -/

/-- `rex.split(text)` for `(<|>)` (chunk_regex.py:60, 68): pieces of text and brackets, alternating. -/
def rexSplit : Str → List Str
  | [] => [[]]
  | c :: s =>
    if c = '<' ∨ c = '>' then [] :: [c] :: rexSplit s
    else match rexSplit s with
      | [] => [[c]]
      | p :: ps => (c :: p) :: ps

/-- `len(el.rstrip()) > 0` fails -/
def blank (s : Str) : Bool := s.all isSpace

/-- The loop `while len(lst) == 0` (chunk_regex.py:76-84): element, rest of the list, chunks still to be read. -/
def extend : Str → List Str → Str × List Str × List Str
  | el, [] => (el, [], [])
  | el, c :: cs =>
    match rexSplit c with
    | [] => extend el cs
    | [p] => extend (el ++ p) cs
    | p :: q :: ps => (el ++ p, q :: ps, cs)

theorem extend_length (el : Str) (cs : List Str) : (extend el cs).2.2.length ≤ cs.length := by
  induction cs generalizing el with
  | nil => simp [extend]
  | cons c cs ih =>
    unfold extend
    split
    · exact Nat.le_succ_of_le (ih _)
    · exact Nat.le_succ_of_le (ih _)
    · exact Nat.le_succ _

theorem extend_lt (el c : Str) (cs : List Str) : (extend el (c :: cs)).2.2.length < (c :: cs).length := by
  unfold extend
  split
  · exact Nat.lt_succ_of_le (extend_length _ _)
  · exact Nat.lt_succ_of_le (extend_length _ _)
  · exact Nat.lt_succ_self _

/-- The elements that the loops of `import_log_from_file_object` (chunk_regex.py:67-84, 174) process one after the other,
    for the list `lst` of the current chunk and the chunks `cs` still to be read. -/
def pieces : List Str → List Str → List Str
  | [], [] => []
  | [], c :: cs => pieces (rexSplit c) cs
  | el :: lst, cs =>
    if blank el then pieces lst cs
    else if el = ['<'] then pieces lst cs
    else if el = ['>'] then pieces lst cs
    else match lst, cs with
      | x :: lst', cs => el :: pieces (x :: lst') cs
      | [], [] => [el]
      | [], c :: cs => (extend el (c :: cs)).1 :: pieces (extend el (c :: cs)).2.1 (extend el (c :: cs)).2.2
termination_by lst cs => (cs.length, lst.length)
decreasing_by
  · apply Prod.Lex.left; simp
  · apply Prod.Lex.right; simp
  · apply Prod.Lex.right; simp
  · apply Prod.Lex.right; simp
  · apply Prod.Lex.right; simp
  · apply Prod.Lex.left; exact extend_lt el c cs

/-! ### Importer `chunk_regex`: the elements -/

/-- A reference to one of the dictionaries on the stack `curr_els_attrs`. -/
inductive Ref
  | log | trace (i : Nat) | event (i j : Nat) | junk | ext | clas | glob (s : Str)
deriving DecidableEq

/-- The state of the importer: the log, the stack (top first), and whether the log has been returned. -/
structure St (δ φ : Type) where
  L : Log δ φ
  stack : List Ref
  done : Bool

/-- `d[k] = v` for the dictionary behind a reference; writes to the shared dictionary `fk_dict` have no effect on the log
    (and an attribute element directly inside `extension` or `classifier` is not modelled: no effect). -/
def write (L : Log δ φ) (r : Ref) (k : Str) (v : Attr δ φ) : Log δ φ :=
  match r with
  | .log => { L with attrs := Dict.set L.attrs k v }
  | .trace i => { L with traces := L.traces.modify i fun t => { t with attrs := Dict.set t.attrs k v } }
  | .event i j => { L with traces := L.traces.modify i fun t =>
      { t with events := t.events.modify j fun e => Dict.set e k v } }
  | .glob s => { L with glob := (L.glob.map fun g => if g.1 = s then (g.1, Dict.set g.2 k v) else g) }
  | .junk => L
  | .ext => L
  | .clas => L

/-- `el.find(' ')` and `el[:idx]`: the text before the first space, if there is one. -/
def beforeSpace (s : Str) : Option Str := if ' ' ∈ s then some (s.takeWhile fun c => !decide (c = ' ')) else none

/-- `el[-1] = el[-1].strip()` -/
def stripLast (l : List Str) : List Str := l.dropLast ++ (l.getLast?.map strip).toList

/-- `el[[i for i in range(len(el)) if w in el[i]][0] + 1]` (chunk_regex.py:123-125, 132-133) -/
def after (w : Str) (el : List Str) : Option Str := (el.findIdx? fun x => Pnml.contains x w).bind fun i => el[i + 1]?

/-- `s.split()`: the maximal parts without white space. -/
def splitWs (s : Str) : List Str :=
  ((s.map fun c => if isSpace c then ' ' else c) |> split ' ').filter fun x => !x.isEmpty

/-- The value of an attribute element of the given tag (chunk_regex.py:96-120); the outer `none`: not an attribute
    element. -/
def readVal (C : Codec δ φ) (tag : Str) (x : Str) : Option (Option (Val δ φ)) :=
  if tag = "string".toList then some (some (.str x))
  else if tag = "date".toList then some ((C.parseD x).map .date)
  else if tag = "int".toList then some ((intOf? x).map .int)
  else if tag = "float".toList then some ((C.parseF x).map .float)
  else if tag = "boolean".toList then some (some (.bool (decide (x = "true".toList))))
  else none

/-- `trace.append(Event())` for the last trace (chunk_regex.py:160-162). -/
def newEvent (L : Log δ φ) : Log δ φ :=
  { L with traces := L.traces.modify (L.traces.length - 1) fun t => { t with events := t.events ++ [[]] } }

/-- One element of the file (chunk_regex.py:85-173). -/
def handle (C : Codec δ φ) (s : St δ φ) (el : Str) : Option (St δ φ) :=
  if s.done then some s
  else if el.head? = some '/' then
    if s.stack.length > 1 then some { s with stack := s.stack.tail } else some { s with done := true }
  else match beforeSpace el with
    | some tag =>
      let ps := stripLast (split '"' el)
      let opened := ps.getLast? ≠ some ['/']
      if tag = "string".toList ∨ tag = "date".toList ∨ tag = "int".toList ∨ tag = "float".toList ∨ tag = "boolean".toList
      then do
        let r ← s.stack.head?
        let k ← ps[1]?
        let x ← ps[3]?
        let v ← (readVal C tag x).bind id
        pure { s with L := write s.L r k (.atom v), stack := if opened then .junk :: s.stack else s.stack }
      else if tag = "extension".toList then do
        let n ← after "name=".toList ps
        let p ← after "prefix=".toList ps
        let u ← after "uri=".toList ps
        pure { s with L := { s.L with ext := Dict.set s.L.ext n (p, u) },
                      stack := if opened then .ext :: s.stack else s.stack }
      else if tag = "classifier".toList then do
        let n ← after "name=".toList ps
        let k ← after "keys=".toList ps
        let ks := if '\'' ∈ k then (split '\'' k).filter (fun x => !(strip x).isEmpty) else splitWs k
        pure { s with L := { s.L with clas := Dict.set s.L.clas n ks },
                      stack := if opened then .clas :: s.stack else s.stack }
      else if tag = "global".toList then do
        let sc ← ps[1]?
        pure { s with L := { s.L with glob := Dict.set s.L.glob sc [] },
                      stack := if opened then .glob sc :: s.stack else s.stack }
      else if tag = "log".toList then some { s with stack := .log :: s.stack }
      else some s
    | none =>
      if el = "event".toList then
        match s.L.traces.getLast? with
        | none => none
        | some t => some { s with
            L := newEvent s.L,
            stack := .event (s.L.traces.length - 1) t.events.length :: s.stack }
      else if el = "trace".toList then
        some { s with L := { s.L with traces := s.L.traces ++ [⟨[], []⟩] }, stack := .trace s.L.traces.length :: s.stack }
      else if el = "log".toList then some { s with stack := .log :: s.stack }
      else if el = "values".toList then do
        let r ← s.stack.head?
        pure { s with stack := r :: s.stack }
      else some s

/-- `import_log_from_file_object` (chunk_regex.py:39-175) on a file that is read in the given chunks. -/
def importChunks (C : Codec δ φ) (chunks : List Str) : Option (Log δ φ) :=
  ((pieces [] chunks).foldlM (handle C) ⟨⟨[], [], [], [], []⟩, [], false⟩).map (·.L)

end Verif.Xes
