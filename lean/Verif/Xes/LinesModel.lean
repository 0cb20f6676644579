import Verif.Xes.Spec
set_option linter.unusedSectionVars false
/-
Model of the importer `line_by_line` (pm4py/objects/log/importer/xes/variants/line_by_line.py) at the level of the
characters of the file.  Sorting by timestamp, skipping bytes and the properties of the log are not modelled; the encoding
is the identity.
-/
namespace Verif.Xes
open Verif Verif.DfgFile
variable {δ φ : Type} [DecidableEq δ] [DecidableEq φ]

/-- Values up to Python's `==`: `1 == True == 1.0`.  (Dates with different time zones are not identified.) -/
inductive Canon (δ φ : Type)
  | str (s : Str) | num (n : Int) | date (d : δ) | float (f : φ)
deriving DecidableEq

/-- The class of a value under `==`; `whole f` is the integer that the float `f` equals, if there is one. -/
def canon (whole : φ → Option Int) : Val δ φ → Canon δ φ
  | .str s => .str s
  | .int n => .num n
  | .bool b => .num (if b then 1 else 0)
  | .date d => .date d
  | .float f => match whole f with
    | some n => .num n
    | none => .float f

/-- `s.startswith(t)` -/
def startsWith (s t : Str) : Bool := t.isPrefixOf s

/-- The dictionary `values_dict` of values met so far. -/
abbrev Seen (δ φ : Type) := Dict (Canon δ φ) (Val δ φ)

/-- The value by its tag (line_by_line.py:70-81); `none` is an exception. -/
def lineVal (C : Codec δ φ) (tag x : Str) : Option (Val δ φ) :=
  if startsWith tag "string".toList then some (.str x)
  else if startsWith tag "date".toList then (C.parseD x).map .date
  else if startsWith tag "int".toList then (intOf? x).map .int
  else if startsWith tag "float".toList then (C.parseF x).map .float
  else if startsWith tag "boolean".toList then some (.bool (decide (x = "true".toList)))
  else some (.str x)

/-- `if value in values_dict: value = values_dict[value] else: values_dict[value] = value` (line_by_line.py:90-93), and the
    same for the key (83-87), which is a string and is not changed. -/
def intern (whole : φ → Option Int) (D : Seen δ φ) (v : Val δ φ) : Val δ φ × Seen δ φ :=
  match Dict.get? D (canon whole v) with
  | some w => (w, D)
  | none => (v, Dict.set D (canon whole v) v)

/-- `read_attribute_key_value` (line_by_line.py:49-95): key, value (`none` is `None`) and the values met. -/
def readKV (C : Codec δ φ) (whole : φ → Option Int) (sel : Option (List Str)) (tag : Str) (content : List Str)
    (D : Seen δ φ) : Option ((Str × Option (Val δ φ)) × Seen δ φ) := do
  let key ← content[1]?
  if sel.all (fun l => decide (key ∈ l)) then do
    let x ← content[3]?
    let v ← lineVal C tag x
    let D1 := (intern whole D (.str key)).2
    pure ((key, some (intern whole D1 v).1), (intern whole D1 v).2)
  else pure ((key, none), D)

/-- A trace as it is read. -/
structure RTrace (δ φ : Type) where
  attrs : Dict Str (Val δ φ)
  events : List (Dict Str (Val δ φ))

/-- The state of the loop (line_by_line.py:140-175). -/
structure LSt (δ φ : Type) where
  log : List (RTrace δ φ)
  trace : Option (RTrace δ φ)
  event : Option (Dict Str (Val δ φ))
  seen : Seen δ φ
  stop : Bool

/-- `d[key] = value` unless the value is `None`. -/
def put (d : Dict Str (Val δ φ)) (e : Str × Option (Val δ φ)) : Dict Str (Val δ φ) :=
  match e.2 with
  | some v => Dict.set d e.1 v
  | none => d

/-- One line (line_by_line.py:147-175). -/
def lineStep (C : Codec δ φ) (whole : φ → Option Int) (sel : Option (List Str)) (max : Nat) (s : LSt δ φ) (line : Str) :
    Option (LSt δ φ) :=
  if s.stop then some s
  else
    let content := split '"' line
    let tag := ((split '<' (content.headD [])).getLast?).getD []
    match s.trace with
    | some t =>
      match s.event with
      | some e =>
        if content.length = 5 then
          (readKV C whole sel tag content s.seen).map fun r => { s with event := some (put e r.1), seen := r.2 }
        else if startsWith tag "/event".toList then
          some { s with trace := some { t with events := t.events ++ [e] }, event := none }
        else some s
      | none =>
        if startsWith tag "event".toList then some { s with event := some [] }
        else if content.length = 5 then
          (readKV C whole sel tag content s.seen).map fun r =>
            { s with trace := some { t with attrs := put t.attrs r.1 }, seen := r.2 }
        else if startsWith tag "/trace".toList then
          if (s.log ++ [t]).length > max then some { s with log := s.log ++ [t], stop := true }
          else some { s with log := s.log ++ [t], trace := none }
        else some s
    | none => if startsWith tag "trace".toList then some { s with trace := some ⟨[], []⟩ } else some s

/-- `import_log_from_file_object` (line_by_line.py:98-193): the traces of the log; `sel` is SET_ATTRIBUTES_TO_READ, `max`
    is MAX_TRACES. -/
def importLines (C : Codec δ φ) (whole : φ → Option Int) (sel : Option (List Str)) (max : Nat) (text : Str) :
    Option (List (RTrace δ φ)) :=
  ((readlines text).foldlM (lineStep C whole sel max) ⟨[], none, none, [], false⟩).map (·.log)

/-! ### Specification -/

mutual
/-- The attribute and its children, hoisted to the top, as they are read. -/
def hoistA (C : Codec δ φ) (key : Str) : Attr δ φ → List (Str × Val δ φ)
  | .none => []
  | .atom v => [(key, readBackVal C key v)]
  | .nested v cs => (key, readBackVal C key v) :: hoist C cs
/-- All attributes of a dictionary, nested ones hoisted to the top, as they are read. -/
def hoist (C : Codec δ φ) : List (Str × Attr δ φ) → List (Str × Val δ φ)
  | [] => []
  | (k, a) :: as => hoistA C k a ++ hoist C as
end

/-- The attributes that are to be read, with the last value of each key at the place of the first. -/
def hoisted (C : Codec δ φ) (sel : Option (List Str)) (d : Attrs δ φ) : Dict Str (Val δ φ) :=
  dictOf ((hoist C d).filter fun e => sel.all fun l => decide (e.1 ∈ l))

/-- A trace with hoisted attributes. -/
def hoistedTrace (C : Codec δ φ) (sel : Option (List Str)) (t : Trace δ φ) : RTrace δ φ :=
  ⟨hoisted C sel t.attrs, t.events.map (hoisted C sel)⟩

/-- The trace with each value replaced by `f` of it. -/
def RTrace.mapVal {β : Type} (f : Val δ φ → β) (t : RTrace δ φ) : Dict Str β × List (Dict Str β) :=
  (t.attrs.map fun e => (e.1, f e.2), t.events.map fun d => d.map fun e => (e.1, f e.2))

/-- All values and attribute names of a trace, as they are read. -/
def traceVals (C : Codec δ φ) (t : Trace δ φ) : List (Val δ φ) :=
  (hoist C t.attrs).map (·.2) ++ t.events.flatMap fun d => (hoist C d).map (·.2)

end Verif.Xes
