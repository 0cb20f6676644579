import Verif.Xes.Model
set_option linter.unusedSectionVars false
/-
What a reader of an exported XES file should get back, and for which logs.
-/
namespace Verif.Xes
open Verif Verif.DfgFile
variable {δ φ : Type}

/-- A text without characters that XML escapes or that separate the parts of an element. -/
def Safe (s : Str) : Prop := ∀ c ∈ s, c ∉ ['&', '<', '>', '"', '\n', '\r', '\t']

/-- A text without angle brackets and double quotes. -/
def NoQuote (s : Str) : Prop := '<' ∉ s ∧ '>' ∉ s ∧ '"' ∉ s

/-- Python's `str(v)` -/
def pyStr (C : Codec δ φ) : Val δ φ → Str
  | .str s => s
  | .int n => showInt n
  | .bool b => strB b
  | .date d => C.strD d
  | .float f => C.strF f

/-- The value that is read back: a `concept:name` becomes a string. -/
def readBackVal (C : Codec δ φ) (key : Str) (v : Val δ φ) : Val δ φ :=
  if key = "concept:name".toList then .str (pyStr C v) else v

/-- What is read back of the attributes: `None` is dropped, a nested attribute loses its children. -/
def readBack (C : Codec δ φ) : List (Str × Attr δ φ) → Attrs δ φ
  | [] => []
  | (_, .none) :: as => readBack C as
  | (k, .atom v) :: as => (k, .atom (readBackVal C k v)) :: readBack C as
  | (k, .nested v _) :: as => (k, .atom (readBackVal C k v)) :: readBack C as

/-- A value that can be written: its text is safe, and dates and floats are parsed back. -/
def ValOk (C : Codec δ φ) (key : Str) (v : Val δ φ) : Prop :=
  if key = "concept:name".toList then Safe (pyStr C v)
  else match v with
    | .str s => Safe s
    | .int _ => True
    | .bool _ => True
    | .date d => Safe (C.iso d) ∧ C.parseD (C.iso d) = some d
    | .float f => Safe (C.strF f) ∧ C.parseF (C.strF f) = some f

mutual
/-- The attribute and its children can be written. -/
def AttrOk (C : Codec δ φ) (key : Str) : Attr δ φ → Prop
  | .none => True
  | .atom v => Safe key ∧ ValOk C key v
  | .nested v cs => Safe key ∧ ValOk C key v ∧ AttrsOk C cs
/-- All attributes of a list can be written. -/
def AttrsOk (C : Codec δ φ) : List (Str × Attr δ φ) → Prop
  | [] => True
  | (k, a) :: as => AttrOk C k a ∧ AttrsOk C as
end

/-- A dictionary whose attributes can be written. -/
def DictOk (C : Codec δ φ) (d : Attrs δ φ) : Prop := (Dict.keys d).Nodup ∧ AttrsOk C d

/-- The log can be written and read back. -/
structure LogOk (C : Codec δ φ) (L : Log δ φ) : Prop where
  attrs : DictOk C L.attrs
  ext_keys : (Dict.keys L.ext).Nodup
  ext : ∀ e ∈ L.ext, NoQuote e.1 ∧ NoQuote e.2.1 ∧ NoQuote e.2.2 ∧
    Pnml.contains e.1 "prefix=".toList = false ∧ Pnml.contains e.1 "uri=".toList = false ∧
    Pnml.contains e.2.1 "uri=".toList = false
  clas_keys : (Dict.keys L.clas).Nodup
  clas : ∀ e ∈ L.clas, NoQuote e.1 ∧ Pnml.contains e.1 "keys=".toList = false ∧
    ∀ k ∈ e.2, k ≠ [] ∧ NoQuote k ∧ '\'' ∉ k ∧ ∀ c ∈ k, isSpace c = false
  glob_keys : (Dict.keys L.glob).Nodup
  glob : ∀ g ∈ L.glob, NoQuote g.1 ∧ DictOk C g.2
  traces : ∀ t ∈ L.traces, DictOk C t.attrs ∧ ∀ e ∈ t.events, DictOk C e

/-- What is read back of a log. -/
def readBackLog (C : Codec δ φ) (L : Log δ φ) : Log δ φ where
  attrs := readBack C L.attrs
  ext := L.ext
  clas := L.clas
  glob := L.glob.map fun g => (g.1, readBack C g.2)
  traces := L.traces.map fun t => ⟨readBack C t.attrs, t.events.map (readBack C)⟩

end Verif.Xes
