import Verif.PTree.Lang
/-
Specification for C56: the meaning of a pattern of Python's `re` module, for patterns made of literals, groups, `|`, `*`, `+`, `?`.
-/
namespace Verif
namespace Regex

/-- regular expressions over code points -/
inductive RE
  | eps
  | lit (c : Nat)
  | cat (r s : RE)
  | alt (r s : RE)
  | star (r : RE)
  | plus (r : RE)
  | opt (r : RE)

/-- zero or more words of a language -/
inductive Star {β : Type} (L : Lang β) : Lang β
  | nil : Star L []
  | cons {u v : List β} : L u → Star L v → Star L (u ++ v)

/-- the strings that match -/
def RE.M : RE → Lang Nat
  | .eps => Lang.eps
  | .lit c => fun w => w = [c]
  | .cat r s => Lang.cat r.M s.M
  | .alt r s => fun w => r.M w ∨ s.M w
  | .star r => Star r.M
  | .plus r => Lang.cat r.M (Star r.M)
  | .opt r => fun w => w = [] ∨ r.M w

/-- what has been read since the last open parenthesis: the finished alternatives, the current one without its last item, and
the last item with whether it already has a quantifier -/
structure Frame where
  alts : Option RE
  pre : RE
  last : Option (RE × Bool)

def Frame.empty : Frame := ⟨none, .eps, none⟩
/-- the current alternative -/
def Frame.seq (f : Frame) : RE :=
  match f.last with
  | none => f.pre
  | some (r, _) => .cat f.pre r
/-- append an item -/
def Frame.push (f : Frame) (r : RE) (q : Bool) : Frame := ⟨f.alts, f.seq, some (r, q)⟩
/-- all alternatives -/
def Frame.all (f : Frame) : RE :=
  match f.alts with
  | none => f.seq
  | some r => .alt r f.seq
/-- `|` -/
def Frame.bar (f : Frame) : Frame := ⟨some f.all, .eps, none⟩

/-- the quantifier for a character -/
def quant (c : Nat) (r : RE) : RE := if c = 42 then .star r else if c = 43 then .plus r else .opt r

/-- reads a pattern.  `none`: not a valid pattern (unbalanced parentheses, nothing to repeat, multiple repeat) or one with other
special characters (`.`, `^`, `$`, `[`, `]`, `{`, `}`, backslash) -/
def go : List Nat → Frame → List Frame → Option Frame
  | [], f, [] => some f
  | [], _, _ :: _ => none
  | c :: s, f, fs =>
    if c = 40 then go s .empty (f :: fs)
    else if c = 41 then
      match fs with
      | [] => none
      | g :: gs => go s (g.push f.all false) gs
    else if c = 124 then go s f.bar fs
    else if c = 42 ∨ c = 43 ∨ c = 63 then
      match f.last with
      | some (r, false) => go s { f with last := some (quant c r, true) } fs
      | _ => none
    else if c ∈ [46, 94, 36, 91, 93, 123, 125, 92] then none
    else go s (f.push (.lit c) false) fs

/-- `re.match(pattern, w)` for a pattern `^...$` and a string without line breaks: between the anchors there is a single
alternative, and it matches the whole string -/
def reMatch (pattern : List Nat) (w : List Nat) : Prop :=
  ∃ body f, pattern = 94 :: body ++ [36] ∧ go body .empty [] = some f ∧ f.alts = none ∧ f.seq.M w

end Regex
end Verif
