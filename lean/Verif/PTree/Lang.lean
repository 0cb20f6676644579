/-
Specification layer: trace languages and the language operators of process trees.

This file is independent of any pm4py algorithm.  It fixes what "the set of traces accepted by a
process tree" means (van der Aalst / Leemans), which is the meaning described in
/repo/pm4py/objects/process_tree/obj.py:195-205 (`ProcessTree.model_description`).
-/
namespace Verif

/-- A language over activities `α`: a set of finite traces. -/
abbrev Lang (α : Type) := List α → Prop

namespace Lang
variable {α : Type}

/-- `Shuffle u v w`: `w` is an interleaving of `u` and `v` (relative orders are kept). -/
inductive Shuffle : List α → List α → List α → Prop
  | nil : Shuffle [] [] []
  | left {a u v w} : Shuffle u v w → Shuffle (a :: u) v (a :: w)
  | right {a u v w} : Shuffle u v w → Shuffle u (a :: v) (a :: w)

/-- The language containing just the empty trace. -/
def eps : Lang α := fun w => w = []

/-- Concatenation of two languages. -/
def cat (L M : Lang α) : Lang α := fun w => ∃ u v, L u ∧ M v ∧ w = u ++ v

/-- Interleaving of two languages. -/
def shuf (L M : Lang α) : Lang α := fun w => ∃ u v, L u ∧ M v ∧ Shuffle u v w

/-- `->( L1, ..., Ln )` : one trace of each, in order. -/
def seqL : List (Lang α) → Lang α
  | [] => eps
  | L :: Ls => cat L (seqL Ls)

/-- `X( L1, ..., Ln )` : a trace of one of them. -/
def xorL (Ls : List (Lang α)) : Lang α := fun w => ∃ L ∈ Ls, L w

/-- `+( L1, ..., Ln )` : one trace of each, interleaved. -/
def parL : List (Lang α) → Lang α
  | [] => eps
  | L :: Ls => shuf L (parL Ls)

/-- `*( D, R1, ..., Rn )` : `d`, or `d r d' ... ` alternating do-traces and redo-traces. -/
inductive loopL (D : Lang α) (Rs : List (Lang α)) : Lang α
  | exit {d} : D d → loopL D Rs d
  | again {d r w} (R : Lang α) : D d → R ∈ Rs → R r → loopL D Rs w → loopL D Rs (d ++ r ++ w)

/-- `O( L1, ..., Ln )` : interleaving of traces of a non-empty sub-collection. -/
def orL (Ls : List (Lang α)) : Lang α := fun w => ∃ Ms, Ms ≠ [] ∧ Ms.Sublist Ls ∧ parL Ms w

/-- `<>( L1, ..., Ln )` : one trace of each, in some order, without overlap. -/
def interL (Ls : List (Lang α)) : Lang α := fun w => ∃ Ms, Ms.Perm Ls ∧ seqL Ms w

end Lang

/-- Process tree operators (/repo/pm4py/objects/process_tree/obj.py:22-36).
Simplification: the `PO` operator is not modelled (no code in the modelled parts builds it). -/
inductive Op
  | seq | xor | par | loop | or | inter
  deriving DecidableEq, Repr

/-- Process trees (/repo/pm4py/objects/process_tree/obj.py:60-90): a leaf carries a label or is
silent (`label is None`); an inner node carries an operator and its list of children.
Simplification: parent pointers and `_properties` are not modelled (values instead of objects). -/
inductive PT (α : Type)
  | leaf (label : Option α)
  | node (op : Op) (children : List (PT α))

namespace PT
variable {α : Type}

/-- The language operator of each process-tree operator. -/
def opLang : Op → List (Lang α) → Lang α
  | .seq, Ls => Lang.seqL Ls
  | .xor, Ls => Lang.xorL Ls
  | .par, Ls => Lang.parL Ls
  | .loop, [] => fun _ => False
  | .loop, D :: Rs => Lang.loopL D Rs
  | .or, Ls => Lang.orL Ls
  | .inter, Ls => Lang.interL Ls

mutual
/-- Traces accepted by a process tree. -/
def lang : PT α → Lang α
  | .leaf none => Lang.eps
  | .leaf (some a) => fun w => w = [a]
  | .node op cs => opLang op (langs cs)
/-- Languages of a list of trees. -/
def langs : List (PT α) → List (Lang α)
  | [] => []
  | c :: cs => lang c :: langs cs
end

theorem langs_eq_map (cs : List (PT α)) : langs cs = cs.map lang := by
  induction cs with
  | nil => simp [langs]
  | cons c cs ih => simp [langs, ih]

@[simp] theorem lang_tau : lang (.leaf none : PT α) = Lang.eps := by simp [lang]
@[simp] theorem lang_act (a : α) : lang (.leaf (some a) : PT α) = fun w => w = [a] := by simp [lang]
theorem lang_node (op : Op) (cs : List (PT α)) :
    lang (.node op cs) = opLang op (cs.map lang) := by simp [lang, langs_eq_map]

/-- Structural induction with the usual hypothesis for all children. -/
theorem induct {motive : PT α → Prop}
    (leaf : ∀ l, motive (.leaf l))
    (node : ∀ op cs, (∀ c ∈ cs, motive c) → motive (.node op cs)) : ∀ t, motive t := by
  intro t
  exact PT.rec (motive_1 := motive) (motive_2 := fun cs => ∀ c ∈ cs, motive c)
    leaf node (by simp) (by
      intro c cs h1 h2 d hd
      cases hd with
      | head => exact h1
      | tail _ h => exact h2 _ h) t

mutual
/-- Activity labels of a tree, left to right. -/
def labels : PT α → List α
  | .leaf none => []
  | .leaf (some a) => [a]
  | .node _ cs => labelsL cs
def labelsL : List (PT α) → List α
  | [] => []
  | c :: cs => labels c ++ labelsL cs
end

theorem labelsL_eq (cs : List (PT α)) : labelsL cs = cs.flatMap labels := by
  induction cs with
  | nil => simp [labelsL]
  | cons c cs ih => simp [labelsL, ih]

end PT
end Verif
