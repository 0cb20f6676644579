import Verif.Xes.Spec
set_option linter.unusedSectionVars false
/-
Model of the importer `iterparse` (pm4py/objects/log/importer/xes/variants/iterparse.py), the default if lxml is installed,
at the level of the events of lxml's `iterparse`.

The XML parser itself is trusted: an attribute value written by `quoteattr` is read back as it was.  At the start event of
an element lxml has read the file up to the end of some block, so the children of the element may or may not be there
already: this is given by an oracle `vis`.  List attributes and `id` attributes are not modelled, nor are sorting by
timestamp and the properties of the log.
-/
namespace Verif.Xes
open Verif Verif.DfgFile
variable {δ φ : Type}

/-- The events of the parser.  `vis`: at the start of the element, `elem.getchildren()` is not empty. -/
inductive Ev
  | attr (tag key val : Str) (vis : Bool)
  | event | trace | log
  | ext (name pre uri : Str) | glob (scope : Str) | clas (name keys : Str)
  | endEvent | endTrace | endOther

mutual
/-- The events of an exported attribute (exporter line_by_line.py:123-167) at a position of the file. -/
def attrEvs (C : Codec δ φ) (vis : List Nat → Bool) (pos : List Nat) (key : Str) : Attr δ φ → List Ev
  | .none => []
  | .atom v => [.attr (typeTag key v) key (valueStr C v (typeTag key v)) false, .endOther]
  | .nested v cs =>
    .attr (typeTag key v) key (valueStr C v (typeTag key v)) (vis pos && !(attrsEvs C vis pos 0 cs).isEmpty) ::
      (attrsEvs C vis pos 0 cs ++ [.endOther])
/-- The events of the attributes of a dictionary. -/
def attrsEvs (C : Codec δ φ) (vis : List Nat → Bool) (pos : List Nat) (i : Nat) : List (Str × Attr δ φ) → List Ev
  | [] => []
  | (k, a) :: as => attrEvs C vis (i :: pos) k a ++ attrsEvs C vis pos (i + 1) as
end

/-- The events of the events of a trace. -/
def eventsEvs (C : Codec δ φ) (vis : List Nat → Bool) (pos : List Nat) (i : Nat) : List (Attrs δ φ) → List Ev
  | [] => []
  | e :: es => (.event :: (attrsEvs C vis (i :: 1 :: pos) 0 e ++ [.endEvent])) ++ eventsEvs C vis pos (i + 1) es

/-- The events of the traces (exporter line_by_line.py:170-192). -/
def tracesEvs (C : Codec δ φ) (vis : List Nat → Bool) (i : Nat) : List (Trace δ φ) → List Ev
  | [] => []
  | t :: ts => (.trace :: (attrsEvs C vis [0, i, 2] 0 t.attrs ++ eventsEvs C vis [i, 2] 0 t.events ++ [.endTrace])) ++
    tracesEvs C vis (i + 1) ts

/-- The events of the globals (exporter line_by_line.py:232-238). -/
def globsEvs (C : Codec δ φ) (vis : List Nat → Bool) (i : Nat) : Dict Str (Attrs δ φ) → List Ev
  | [] => []
  | g :: gs => (.glob g.1 :: (attrsEvs C vis [i, 1] 0 g.2 ++ [.endOther])) ++ globsEvs C vis (i + 1) gs

/-- The events of an exported log (exporter line_by_line.py:195-246). -/
def logEvs (C : Codec δ φ) (vis : List Nat → Bool) (L : Log δ φ) : List Ev :=
  .log :: (L.ext.flatMap (fun e => [.ext e.1 e.2.1 e.2.2, .endOther]) ++
    L.clas.flatMap (fun c => [.clas c.1 (joinSp c.2), .endOther]) ++ attrsEvs C vis [0] 0 L.attrs ++ globsEvs C vis 0 L.glob ++
    tracesEvs C vis 0 L.traces ++ [.endOther])

/-! ### The importer -/

/-- A dictionary in `tree`: that of the log, of a global scope, of the current trace or event, or the `children` of a nested
    attribute in it. -/
inductive Base | log | glob (s : Str) | trace | event
deriving DecidableEq

/-- The state: log, trace, event (iterparse.py:107-109), and for the open elements, innermost first, the dictionary that
    `tree` has for them, if it has one. -/
structure ISt (δ φ : Type) where
  log : Option (Log δ φ)
  trace : Option (Trace δ φ)
  event : Option (Attrs δ φ)
  stack : List (Option (Base × List Str))
  stop : Bool

/-- `store[key] = value` for the dictionary at a path of nested attributes. -/
def setAt : List Str → Str → Attr δ φ → List (Str × Attr δ φ) → List (Str × Attr δ φ)
  | [], k, a, d => Dict.set d k a
  | p :: ps, k, a, d => d.map fun e =>
    match e with
    | (x, .nested v cs) => if x = p then (x, .nested v (setAt ps k a cs)) else (x, .nested v cs)
    | (x, y) => (x, y)

/-- The assignment in the dictionary at a base. -/
def storeAt (s : ISt δ φ) (b : Base) (ps : List Str) (k : Str) (a : Attr δ φ) : ISt δ φ :=
  match b with
  | .log => { s with log := s.log.map fun L => { L with attrs := setAt ps k a L.attrs } }
  | .glob sc => { s with log := s.log.map fun L =>
      { L with glob := L.glob.map fun g => if g.1 = sc then (g.1, setAt ps k a g.2) else g } }
  | .trace => { s with trace := s.trace.map fun t => { t with attrs := setAt ps k a t.attrs } }
  | .event => { s with event := s.event.map fun e => setAt ps k a e }

/-- `str.lower` on the letters of `true` (iterparse.py:171); other letters are left unchanged. -/
def lower (s : Str) : Str :=
  s.map fun c => if c = 'T' then 't' else if c = 'R' then 'r' else if c = 'U' then 'u' else if c = 'E' then 'e' else c

/-- The value of an attribute element (iterparse.py:117-178); `none`: not parsed, the element is skipped. -/
def iterVal (C : Codec δ φ) (tag x : Str) : Option (Val δ φ) :=
  if tag = "string".toList then some (.str x)
  else if tag = "date".toList then (C.parseD x).map .date
  else if tag = "float".toList then (C.parseF x).map .float
  else if tag = "int".toList then (intOf? x).map .int
  else if tag = "boolean".toList then some (.bool (decide (lower x = "true".toList)))
  else none

/-- `__parse_attribute` (iterparse.py:415-431), given that there is a value and a parent. -/
def parseAttr (s : ISt δ φ) (b : Base) (ps : List Str) (key : Str) (v : Val δ φ) (vis : Bool) : ISt δ φ :=
  if vis then
    let s' := storeAt s b ps key (.nested v [])
    { s' with stack := some (b, ps ++ [key]) :: s'.stack }
  else
    let s' := storeAt s b ps key (.atom v)
    { s' with stack := none :: s'.stack }

/-- `log.extensions[name] = …` -/
def addExt (L : Log δ φ) (n p u : Str) : Log δ φ := { L with ext := Dict.set L.ext n (p, u) }

/-- `log.omni_present[scope] = {}` -/
def addGlob (L : Log δ φ) (sc : Str) : Log δ φ := { L with glob := Dict.set L.glob sc [] }

/-- The keys of a classifier (iterparse.py:209-214). -/
def clasKeys (keys : Str) : List Str :=
  if '\'' ∈ keys then (split '\'' keys).filter (fun x => !(strip x).isEmpty) else splitWs keys

/-- `log.classifiers[name] = …` (iterparse.py:205-215) -/
def addClas (L : Log δ φ) (n keys : Str) : Log δ φ := { L with clas := Dict.set L.clas n (clasKeys keys) }

/-- One event (iterparse.py:113-254); `none` is an exception. -/
def iterStep (C : Codec δ φ) (max : Nat) (s : ISt δ φ) (e : Ev) : Option (ISt δ φ) :=
  if s.stop then some s
  else match e with
    | .attr tag key x vis =>
      match s.stack.head?.join, iterVal C tag x with
      | some (b, ps), some v => some (parseAttr s b ps key v vis)
      | _, _ => some { s with stack := none :: s.stack }
    | .event => if s.event.isSome then none else some { s with event := some [], stack := some (.event, []) :: s.stack }
    | .trace =>
      match s.log with
      | none => none
      | some L =>
        if L.traces.length ≥ max then some { s with stop := true }
        else if s.trace.isSome then none
        else some { s with trace := some ⟨[], []⟩, stack := some (.trace, []) :: s.stack }
    | .ext n p u =>
      match s.log with
      | none => none
      | some L => some { s with log := some (addExt L n p u), stack := none :: s.stack }
    | .glob sc =>
      match s.log with
      | none => none
      | some L => some { s with log := some (addGlob L sc), stack := some (.glob sc, []) :: s.stack }
    | .clas n keys =>
      match s.log with
      | none => none
      | some L => some { s with log := some (addClas L n keys), stack := none :: s.stack }
    | .log => if s.log.isSome then none
      else some { s with log := some ⟨[], [], [], [], []⟩, stack := some (.log, []) :: s.stack }
    | .endEvent =>
      match s.trace, s.event with
      | some t, some ev => some { s with trace := some { t with events := t.events ++ [ev] }, event := none,
                                         stack := s.stack.tail }
      | some _, none => none
      | none, _ => some { s with stack := s.stack.tail }
    | .endTrace =>
      match s.log, s.trace with
      | some L, some t => some { s with log := some { L with traces := L.traces ++ [t] }, trace := none,
                                        stack := s.stack.tail }
      | _, _ => none
    | .endOther => some { s with stack := s.stack.tail }

/-- `import_from_context` (iterparse.py:72-275); `max` is MAX_TRACES. -/
def importIter (C : Codec δ φ) (max : Nat) (evs : List Ev) : Option (Log δ φ) :=
  (evs.foldlM (iterStep C max) ⟨none, none, none, [], false⟩).bind (·.log)

/-! ### Specification -/

/-- A value whose text is parsed back. -/
def ValRead (C : Codec δ φ) (key : Str) (v : Val δ φ) : Prop :=
  if key = "concept:name".toList then True
  else match v with
    | .date d => C.parseD (C.iso d) = some d
    | .float f => C.parseF (C.strF f) = some f
    | _ => True

mutual
/-- The attribute is well-formed: the values can be parsed back, the children have different names. -/
def AttrWf (C : Codec δ φ) (key : Str) : Attr δ φ → Prop
  | .none => True
  | .atom v => ValRead C key v
  | .nested v cs => ValRead C key v ∧ (Dict.keys cs).Nodup ∧ AttrsWf C cs
/-- All attributes are well-formed. -/
def AttrsWf (C : Codec δ φ) : List (Str × Attr δ φ) → Prop
  | [] => True
  | (k, a) :: as => AttrWf C k a ∧ AttrsWf C as
end

mutual
/-- What is read of an attribute: a nested attribute whose children are not there yet loses them. -/
def seenAttr (C : Codec δ φ) (vis : List Nat → Bool) (pos : List Nat) (key : Str) : Attr δ φ → Option (Attr δ φ)
  | .none => none
  | .atom v => some (.atom (readBackVal C key v))
  | .nested v cs =>
    if vis pos && !(seenAttrs C vis pos 0 cs).isEmpty then
      some (.nested (readBackVal C key v) (seenAttrs C vis pos 0 cs))
    else some (.atom (readBackVal C key v))
/-- What is read of the attributes of a dictionary. -/
def seenAttrs (C : Codec δ φ) (vis : List Nat → Bool) (pos : List Nat) (i : Nat) : List (Str × Attr δ φ) →
    List (Str × Attr δ φ)
  | [] => []
  | (k, a) :: as => ((seenAttr C vis (i :: pos) k a).map fun b => (k, b)).toList ++ seenAttrs C vis pos (i + 1) as
end

/-- What is read of the traces. -/
def seenTraces (C : Codec δ φ) (vis : List Nat → Bool) (ts : List (Trace δ φ)) : List (Trace δ φ) :=
  ts.zipIdx.map fun p => ⟨seenAttrs C vis [0, p.2, 2] 0 p.1.attrs,
    p.1.events.zipIdx.map fun q => seenAttrs C vis [q.2, 1, p.2, 2] 0 q.1⟩

/-- What is read of a log: at most `max` traces. -/
def seenLog (C : Codec δ φ) (vis : List Nat → Bool) (max : Nat) (L : Log δ φ) : Log δ φ where
  attrs := seenAttrs C vis [0] 0 L.attrs
  ext := L.ext
  clas := L.clas
  glob := L.glob.zipIdx.map fun p => (p.1.1, seenAttrs C vis [p.2, 1] 0 p.1.2)
  traces := (seenTraces C vis L.traces).take max

/-- Logs that can be written and read back. -/
structure LogWf (C : Codec δ φ) (L : Log δ φ) : Prop where
  attrs : (Dict.keys L.attrs).Nodup ∧ AttrsWf C L.attrs
  ext_keys : (Dict.keys L.ext).Nodup
  clas_keys : (Dict.keys L.clas).Nodup
  clas : ∀ e ∈ L.clas, ∀ k ∈ e.2, k ≠ [] ∧ '\'' ∉ k ∧ ∀ c ∈ k, isSpace c = false
  glob_keys : (Dict.keys L.glob).Nodup
  glob : ∀ g ∈ L.glob, (Dict.keys g.2).Nodup ∧ AttrsWf C g.2
  traces : ∀ t ∈ L.traces, ((Dict.keys t.attrs).Nodup ∧ AttrsWf C t.attrs) ∧
    ∀ e ∈ t.events, (Dict.keys e).Nodup ∧ AttrsWf C e

end Verif.Xes
