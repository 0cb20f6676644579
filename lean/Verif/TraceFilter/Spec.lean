/-
C41: what the trace filters promise, stated on the sequence of events of a trace alone.
-/
namespace Verif.TraceFilter
variable {ε α σ : Type}

/-- `out` consists of exactly the elements of `log` that satisfy `P`, in their order and with their repetitions. -/
def Keeps {β : Type} (P : β → Prop) (log out : List β) : Prop :=
  ∃ d : DecidablePred P, out = log.filter fun t => @decide (P t) (d t)

/-- The rows of each case follow one another in the dataframe. -/
def Contiguous {κ : Type} (caseOf : ε → κ) (rows : List ε) : Prop :=
  ∀ x m y, (x :: m ++ [y]) <:+: rows → caseOf x = caseOf y → ∀ z ∈ m, caseOf z = caseOf x

/-- `out` consists of exactly the rows of the cases whose trace (the rows of the case, in their order) satisfies `P`. -/
def KeepsCases {κ : Type} [DecidableEq κ] (caseOf : ε → κ) (P : List ε → Prop) (rows out : List ε) : Prop :=
  Keeps (fun r => P (rows.filter fun s => decide (caseOf s = caseOf r))) rows out

/-- The values occur in the trace in this order (not necessarily contiguously): they form a subsequence of the attribute
values of the events. -/
def FollowsInOrder (act : ε → Option α) (values : List α) (t : List ε) : Prop := (values.map some).Sublist (t.map act)

/-- The values occur in the trace in this order, at events whose successive time differences are within the bounds. -/
def FollowsInOrderTimed (act : ε → Option α) (time : ε → Int) (values : List α) (bounds : List (Int × Int))
    (t : List ε) : Prop :=
  ∃ es : List ε, es.Sublist t ∧ es.map act = values.map some ∧
    ∀ i e f b, es[i]? = some e → es[i + 1]? = some f → bounds[i]? = some b → b.1 ≤ time f - time e ∧ time f - time e ≤ b.2

/-- The three values occur at three consecutive events. -/
def Consecutive3 (act : ε → Option α) (A B C : α) (t : List ε) : Prop :=
  [some A, some B, some C] <:+: t.map act

/-- `r` is the resource of some event of the trace with value `v`. -/
def Did (act : ε → Option α) (res : ε → Option σ) (t : List ε) (v : α) (r : σ) : Prop :=
  ∃ e ∈ t, act e = some v ∧ res e = some r

/-- Two consecutive events of the trace. -/
def DirectlyFollows (t : List ε) (e f : ε) : Prop := [e, f] <:+: t

/-- Timestamps never decrease along the trace. -/
def TimeSorted (time : ε → Int) (t : List ε) : Prop := t.Pairwise fun e f => time e ≤ time f

/-- `segs` are the subtraces of `t` that go from an event satisfying `p` to the next event satisfying `q`, searched from
left to right; after a subtrace has ended the search goes on behind it. -/
inductive Segments (p q : ε → Bool) : List ε → List (List ε) → Prop
  /-- no start event any more -/
  | none (u : List ε) (h : ∀ e ∈ u, p e = false) : Segments p q u []
  /-- a start event that no end event follows -/
  | unfinished (u : List ε) (s : ε) (m : List ε) (h : ∀ e ∈ u, p e = false) (hs : p s = true)
      (hm : ∀ e ∈ m, q e = false) : Segments p q (u ++ s :: m) []
  /-- a subtrace, and those of the rest of the trace -/
  | found (u : List ε) (s : ε) (m : List ε) (f : ε) (rest : List ε) (segs : List (List ε)) (h : ∀ e ∈ u, p e = false)
      (hs : p s = true) (hm : ∀ e ∈ m, q e = false) (hf : q f = true) (hr : Segments p q rest segs) :
      Segments p q (u ++ s :: (m ++ f :: rest)) ((s :: (m ++ [f])) :: segs)

/-- `segs` are the subtraces between consecutive events satisfying `p`; the event that ends one starts the next. -/
inductive Laps (p : ε → Bool) : List ε → List (List ε) → Prop
  /-- no start event -/
  | none (u : List ε) (h : ∀ e ∈ u, p e = false) : Laps p u []
  /-- only one start event left -/
  | last (u : List ε) (s : ε) (m : List ε) (h : ∀ e ∈ u, p e = false) (hs : p s = true) (hm : ∀ e ∈ m, p e = false) :
      Laps p (u ++ s :: m) []
  /-- a lap, and those from its last event on -/
  | lap (u : List ε) (s : ε) (m : List ε) (f : ε) (rest : List ε) (segs : List (List ε)) (h : ∀ e ∈ u, p e = false)
      (hs : p s = true) (hm : ∀ e ∈ m, p e = false) (hf : p f = true) (hr : Laps p (f :: rest) segs) :
      Laps p (u ++ s :: (m ++ f :: rest)) ((s :: (m ++ [f])) :: segs)

end Verif.TraceFilter
