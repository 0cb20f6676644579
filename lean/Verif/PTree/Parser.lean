import Verif.PTree.Model
import Verif.PTree.Spec
/-
Printer and parser of process trees:
/repo/pm4py/objects/process_tree/obj.py:153-182 (`to_string`) and
/repo/pm4py/objects/process_tree/utils/generic.py:212-307 (`parse`, `parse_recursive`).
Strings are lists of characters.
-/
namespace Verif.PTP
open Verif

/-- Activity labels are strings. -/
abbrev Str := List Char

/-- `str(operator)` (obj.py:22-47). -/
def opStr : Op → Str
  | .seq => ['-', '>']
  | .xor => ['X']
  | .par => ['+']
  | .loop => ['*']
  | .or => ['O']
  | .inter => ['<', '>']

mutual
/-- Representation of a child inside `to_string` (obj.py:164-174): labelled leafs are quoted. -/
def repr : PT Str → Str
  | .leaf (some l) => '\'' :: (l ++ ['\''])
  | .leaf none => ['t', 'a', 'u']
  | .node op cs => opStr op ++ ['(', ' '] ++ reprL cs ++ [' ', ')']
/-- the loop over the children (obj.py:165-174): `', '` after every child but the last -/
def reprL : List (PT Str) → Str
  | [] => []
  | [c] => repr c
  | c :: cs => repr c ++ [',', ' '] ++ reprL cs
end

/-- `ProcessTree.to_string()` = `str(tree)` without indentation (obj.py:153-182): the label of a root leaf is
not quoted. -/
def toStr : PT Str → Str
  | .leaf (some l) => l
  | t => repr t

/-- `str.isspace` for one character (the characters removed by `str.strip()`). -/
def ws (c : Char) : Bool :=
  let n := c.toNat
  (9 ≤ n && n ≤ 13) || (28 ≤ n && n ≤ 32) || n == 0x85 || n == 0xa0 || n == 0x1680 ||
    (0x2000 ≤ n && n ≤ 0x200a) || n == 0x2028 || n == 0x2029 || n == 0x202f || n == 0x205f || n == 0x3000

/-- `str.strip()` -/
def strip (s : Str) : Str := ((s.dropWhile ws).reverse.dropWhile ws).reverse

/-- `string_rep.strip().replace("\r", "").replace("\n", " ")` (generic.py:251) -/
def clean (s : Str) : Str := ((strip s).filter (fun c => c != '\r')).map fun c => if c = '\n' then ' ' else c

/-- `string_rep.startswith(...)` for the operators in the order of generic.py:254-271; gives the operator and
the rest of the string. -/
def opPrefix : Str → Option (Op × Str)
  | '*' :: r => some (.loop, r)
  | '+' :: r => some (.par, r)
  | 'X' :: r => some (.xor, r)
  | 'O' :: r => some (.or, r)
  | '-' :: '>' :: r => some (.seq, r)
  | '<' :: '>' :: r => some (.inter, r)
  | _ => none

/-- text up to the first quote and the text behind it; `str.find` returns -1 if there is none -/
def upToQuote : Str → Option (Str × Str)
  | [] => none
  | c :: s => if c = '\'' then some ([], s) else (upToQuote s).map fun p => (c :: p.1, p.2)

/-- The leaf part (generic.py:282-296): label and rest.  `none`: the assertion fails.  Without a closing quote
`find` gives -1, so the label is everything but the last character and the rest is the whole string. -/
def leafPrefix : Str → Option (Option Str × Str)
  | '\'' :: s =>
    match upToQuote s with
    | some (l, r) => some (some l, r)
    | none => some (some s.dropLast, s)
  | 't' :: 'a' :: 'u' :: r => some (none, r)
  | 'τ' :: r => some (none, r)
  | _ => none

/-- One `ProcessTree` object: operator, label and references to the children. -/
structure HNode where
  op : Option Op
  label : Option Str
  children : List Nat
  deriving DecidableEq

/-- The objects created so far; a reference is a position in this list. -/
abbrev Heap := List HNode

/-- `depth_cache` -/
abbrev Cache := Int → Option Nat

/-- lines 273-277 and 297-300: create a node, whose parent is `depth_cache[depth - 1]` (KeyError: `none`), and
append it to the children of its parent -/
def newNode (h : Heap) (dc : Cache) (d : Int) (n : HNode) : Option Heap :=
  if d = 0 then some (h ++ [n])
  else match dc (d - 1) with
    | none => none
    | some p => some ((h ++ [n]).modify p fun x => { x with children := x.children ++ [h.length] })

theorem dropWhile_length_le (p : Char → Bool) (s : Str) : (s.dropWhile p).length ≤ s.length := by
  induction s with
  | nil => simp
  | cons c s ih => rw [List.dropWhile_cons]; split <;> simp <;> omega

theorem strip_length (s : Str) : (strip s).length ≤ s.length := by
  unfold strip
  rw [List.length_reverse]
  have h1 := dropWhile_length_le ws (s.dropWhile ws).reverse
  have h2 := dropWhile_length_le ws s
  rw [List.length_reverse] at h1
  omega

theorem clean_length (s : Str) : (clean s).length ≤ s.length := by
  unfold clean
  rw [List.length_map]
  exact Nat.le_trans (List.length_filter_le _ _) (strip_length s)

theorem opPrefix_length {s : Str} {o r} (h : opPrefix s = some (o, r)) : r.length < s.length := by
  unfold opPrefix at h
  split at h <;> simp_all <;> omega

theorem upToQuote_length {s : Str} {l r} (h : upToQuote s = some (l, r)) : r.length < s.length := by
  induction s generalizing l r with
  | nil => simp [upToQuote] at h
  | cons c s ih =>
    simp only [upToQuote] at h
    split at h
    · simp at h; simp [h.2]
    · simp only [Option.map_eq_some_iff] at h
      obtain ⟨⟨l', r'⟩, h1, h2⟩ := h
      simp at h2
      have := ih h1
      simp [← h2.2]; omega

theorem leafPrefix_length {s : Str} {l r} (h : leafPrefix s = some (l, r)) : r.length < s.length := by
  unfold leafPrefix at h
  split at h
  · split at h
    · rename_i h1
      have := upToQuote_length h1
      simp at h; simp [← h.2]; omega
    · simp at h; simp [h.2]
  · simp at h; simp [h.2]; omega
  · simp at h; simp [h.2]
  · simp at h

/-- `while string_rep.strip().startswith(')')` (generic.py:302-304) -/
def closeParens (s : Str) (d : Int) : Str × Int :=
  match h : strip s with
  | ')' :: r => closeParens r (d - 1)
  | _ => (s, d)
termination_by s.length
decreasing_by
  have := strip_length s
  rw [h] at this; simp at this; omega

theorem closeParens_length (s : Str) (d : Int) : (closeParens s d).1.length ≤ s.length := by
  fun_induction closeParens s d with
  | case1 s d r h ih =>
    have := strip_length s
    rw [h] at this; simp at this; omega
  | case2 => simp

/-- `parse_recursive` (generic.py:233-307).  Result: reference of the node it returns and the objects;
`none`: an assertion, KeyError or IndexError is raised. -/
def parseRec (s0 : Str) (h : Heap) (dc : Cache) (d : Int) : Option (Nat × Heap) :=
  match h1 : opPrefix (clean s0) with
  | some (op, r) =>
    match newNode h dc d ⟨some op, none, []⟩ with
    | none => none
    | some h' =>
      match h2 : strip r with
      | '(' :: r' =>
        (parseRec r' h' (fun k => if k = d then some h.length else dc k) (d + 1)).map fun p => (h.length, p.2)
      | _ => none
  | none =>
    match h3 : leafPrefix (clean s0) with
    | none => none
    | some (l, r) =>
      match newNode h dc d ⟨none, l, []⟩ with
      | none => none
      | some h' =>
        match h4 : strip (closeParens r d).1 with
        | [] => some (h.length, h')
        | _ :: r' => (parseRec r' h' dc (closeParens r d).2).map fun p => (h.length, p.2)
termination_by s0.length
decreasing_by
  · have e1 := opPrefix_length h1
    have e2 := clean_length s0
    have e3 := strip_length r
    rw [h2] at e3; simp at e3; omega
  · have e1 := leafPrefix_length h3
    have e2 := clean_length s0
    have e3 := strip_length (closeParens r d).1
    have e4 := closeParens_length r d
    rw [h4] at e3; simp at e3; omega

/-- `parse` (generic.py:212-230): starts with an empty depth cache at depth 0. -/
def parse (s : Str) : Option (Nat × Heap) := parseRec s [] (fun _ => none) 0

/-! ### Specification -/

/-- The object at reference `i` is the tree `t`. -/
inductive Denotes (h : Heap) : Nat → PT Str → Prop
  | leaf {i l} : h[i]? = some ⟨none, l, []⟩ → Denotes h i (.leaf l)
  | node {i op is cs} : h[i]? = some ⟨some op, none, is⟩ → is.length = cs.length →
      (∀ k (h1 : k < is.length) (h2 : k < cs.length), Denotes h is[k] cs[k]) → Denotes h i (.node op cs)

/-- Labels that survive: no quote, carriage return or newline. -/
def GoodLabel (l : Str) : Prop := ∀ c ∈ l, c ≠ '\'' ∧ c ≠ '\r' ∧ c ≠ '\n'

end Verif.PTP
