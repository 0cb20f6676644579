import Verif.Common.Dict
/-
Model of the `.dfg` file format: `pm4py.write_dfg` / `pm4py.read_dfg`
(pm4py/objects/dfg/exporter/variants/classic.py, pm4py/objects/dfg/importer/variants/classic.py)
at the level of the characters of the file.

Simplifications: counts are Python integers (`%d` of a float is not modelled); the encoding of the text as bytes
is the identity; `int(s)` is modelled on optional surrounding white space, an optional sign and the digits 0-9
(underscores between digits and non-ASCII digits are rejected); an exception is `none`.
-/
namespace Verif.DfgFile
open Verif

/-- A Python string. -/
abbrev Str := List Char

/-- A directly-follows graph: pairs of activities with their count, in insertion order. -/
abbrev Dfg := Dict (Str × Str) Int

/-! ### Python's own string functions -/

/-- `str.isspace` on one character (the characters removed by `str.strip`). -/
def isSpace (c : Char) : Bool :=
  let n := c.toNat
  (decide (9 ≤ n) && decide (n ≤ 13)) || (decide (28 ≤ n) && decide (n ≤ 32)) || n == 0x85 || n == 0xa0 ||
  n == 0x1680 || (decide (0x2000 ≤ n) && decide (n ≤ 0x200a)) || n == 0x2028 || n == 0x2029 || n == 0x202f ||
  n == 0x205f || n == 0x3000

/-- `str.strip()` -/
def strip (s : Str) : Str := ((s.dropWhile isSpace).reverse.dropWhile isSpace).reverse

/-- `str.split(c)` for a one-character separator. -/
def split (c : Char) : Str → List Str
  | [] => [[]]
  | x :: s =>
    if x = c then [] :: split c s
    else match split c s with
      | [] => [[x]]
      | l :: ls => (x :: l) :: ls

/-- `StringIO(text).readlines()`: the lines of the text, each with its line feed. -/
def readlines : Str → List Str
  | [] => []
  | x :: s =>
    if x = '\n' then ['\n'] :: readlines s
    else match readlines s with
      | [] => [[x]]
      | l :: ls => (x :: l) :: ls

/-- Universal newlines of a file opened with mode "r" (importer/variants/classic.py:121): `\r\n` and `\r`
    become `\n`. -/
def universal : Str → Str
  | [] => []
  | '\r' :: '\n' :: s => '\n' :: universal s
  | '\r' :: s => '\n' :: universal s
  | c :: s => c :: universal s

/-- The character of a decimal digit. -/
def digit (n : Nat) : Char := Char.ofNat (48 + n)

/-- `"%d" % n` for a natural number. -/
def showNat (n : Nat) : Str :=
  if n < 10 then [digit n] else showNat (n / 10) ++ [digit (n % 10)]
decreasing_by omega

/-- `"%d" % n` -/
def showInt (n : Int) : Str := if n < 0 then '-' :: showNat n.natAbs else showNat n.natAbs

/-- The digits of a natural number, most significant first. -/
def natOf? (s : Str) : Option Nat :=
  if s = [] then none
  else s.foldlM (fun acc c => if 48 ≤ c.toNat ∧ c.toNat ≤ 57 then some (acc * 10 + (c.toNat - 48)) else none) 0

/-- `int(s)` -/
def intOf? (s : Str) : Option Int :=
  match strip s with
  | '-' :: t => (natOf? t).map (fun n => - (n : Int))
  | '+' :: t => (natOf? t).map (fun n => (n : Int))
  | t => (natOf? t).map (fun n => (n : Int))

/-- `l[i]` with Python's negative indices; `none` is the `IndexError`. -/
def index? {α : Type} (l : List α) (i : Int) : Option α :=
  if 0 ≤ i then l[i.toNat]? else if (l.length : Int) + i < 0 then none else l[((l.length : Int) + i).toNat]?

/-! ### Exporter -/

/-- `"%dx%d\n" % (activities.index(act), count)` (exporter/variants/classic.py:71, 75); `none` is the `ValueError`
    of `list.index`. -/
def actRow (acts : List Str) (e : Str × Int) : Option Str :=
  (acts.idxOf? e.1).map (fun i => showNat i ++ 'x' :: (showInt e.2 ++ ['\n']))

/-- `"%d>%dx%d\n" % (...)` (exporter/variants/classic.py:78) -/
def edgeRow (acts : List Str) (e : (Str × Str) × Int) : Option Str :=
  match acts.idxOf? e.1.1, acts.idxOf? e.1.2 with
  | some i, some j => some (showNat i ++ '>' :: (showNat j ++ 'x' :: (showInt e.2 ++ ['\n'])))
  | _, _ => none

/-- `export_line_by_line(dfg)` (exporter/variants/classic.py:30-78): the rows of the file.
    `acts` is `list(set(...).union(...))` (63), a set whose iteration order is arbitrary: see `IsActs`. -/
def exportRows (acts : List Str) (dfg : Dfg) (sa ea : Dict Str Int) : Option (List Str) :=
  if sa.length = 0 then none
  else if ea.length = 0 then none
  else do
    let rs ← sa.mapM (actRow acts)
    let re ← ea.mapM (actRow acts)
    let rd ← dfg.mapM (edgeRow acts)
    pure ([showNat acts.length ++ ['\n']] ++ acts.map (fun a => a ++ ['\n']) ++
      [showNat sa.length ++ ['\n']] ++ rs ++ [showNat ea.length ++ ['\n']] ++ re ++ rd)

/-- `export_as_string(dfg)` (exporter/variants/classic.py:108-138); the content of the file written by `apply`
    (81-105) is the same. -/
def exportText (acts : List Str) (dfg : Dfg) (sa ea : Dict Str Int) : Option Str :=
  (exportRows acts dfg sa ea).map List.flatten

/-! ### Importer -/

/-- One row `index x count` (importer/variants/classic.py:66-68, 78-80). -/
def readAct (acts : List Str) (row : Str) : Option (Str × Int) :=
  match split 'x' (strip row) with
  | [a, c] => do
    let i ← intOf? a
    let act ← index? acts i
    let n ← intOf? c
    pure (act, n)
  | _ => none

/-- One row `index > index x count` (importer/variants/classic.py:85-89). -/
def readEdge (acts : List Str) (row : Str) : Option ((Str × Str) × Int) :=
  match split 'x' (strip row) with
  | [e, c] => do
    let n ← intOf? c
    match split '>' e with
    | [a, b] => do
      let i ← intOf? a
      let j ← intOf? b
      let x ← index? acts i
      let y ← index? acts j
      pure ((x, y), n)
    | _ => none
  | _ => none

/-- A block of `n` rows of the form `index x count` (importer/variants/classic.py:60-70 and 72-82). -/
def readBlock (acts : List Str) (rows : List Str) : Option (Dict Str Int × List Str) :=
  match rows with
  | [] => none
  | r :: rows => do
    let n ← intOf? r
    if rows.length < n.toNat then none
    else do
      let es ← (rows.take n.toNat).mapM (readAct acts)
      pure (es.foldl (fun d e => Dict.set d e.1 e.2) [], rows.drop n.toNat)

/-- `import_dfg_from_rows(rows)` (importer/variants/classic.py:26-93) -/
def importRows (rows : List Str) : Option (Dfg × Dict Str Int × Dict Str Int) :=
  match rows with
  | [] => none
  | r :: rows => do
    let n ← intOf? r
    if rows.length < n.toNat then none
    else do
      let acts := (rows.take n.toNat).map strip
      let (sa, rows) ← readBlock acts (rows.drop n.toNat)
      let (ea, rows) ← readBlock acts rows
      let es ← rows.mapM (readEdge acts)
      pure (es.foldl (fun d e => Dict.set d e.1 e.2) [], sa, ea)

/-- `import_dfg_from_string` (importer/variants/classic.py:128-156) -/
def importString (text : Str) : Option (Dfg × Dict Str Int × Dict Str Int) := importRows (readlines text)

/-- `apply(file_path)` (importer/variants/classic.py:96-125) on a file with the given text. -/
def importFile (text : Str) : Option (Dfg × Dict Str Int × Dict Str Int) := importRows (readlines (universal text))

end Verif.DfgFile
