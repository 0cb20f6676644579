import Verif.NetBpmn.Model
/-
Specification for C85: the firing rule of Petri nets, the token game of BPMN diagrams (OMG BPMN 2.0, 13.4), and their complete runs.
-/
namespace Verif
namespace NetBpmn

/-- the runs of a transition system and the labels of their steps -/
inductive Run {S : Type} (step : S → Option String → S → Prop) : S → List String → S → Prop
  | nil (s : S) : Run step s [] s
  | snoc {s s' s'' : S} {w : List String} {l : Option String} : Run step s w s' → step s' l s'' → Run step s (w ++ l.toList) s''

/-- firing a transition: one token from every place before it, one token to every place after it -/
def netStep (N : Net) (m : Nat → Nat) (l : Option String) (m' : Nat → Nat) : Prop :=
  ∃ t ∈ N.trans, (∀ p ∈ N.pre t, 1 ≤ m p) ∧ l = N.label t ∧ m' = fun p => m p - (if p ∈ N.pre t then 1 else 0) + (if p ∈ N.post t then 1 else 0)

/-- the labels of a run from the initial marking to the final marking -/
def NetAccepts (N : Net) (w : List String) : Prop :=
  Run (netStep N) (fun p => if p ∈ N.im then 1 else 0) w (fun p => if p ∈ N.fm then 1 else 0)

variable {ν φ : Type} [DecidableEq ν] [DecidableEq φ]

def ins (D : Diagram ν φ) (y : ν) : List φ := D.flows.filter fun f => decide (D.tgt f = y)
def outs (D : Diagram ν φ) (y : ν) : List φ := D.flows.filter fun f => decide (D.src f = y)

/-- the tokens a node takes and puts: an exclusive gateway passes a token from one flow to one flow, a parallel gateway takes a token from all incoming
flows and puts one on all outgoing flows, a task takes a token from one flow and puts one on all outgoing flows -/
def Fires (D : Diagram ν φ) (y : ν) (c d : List φ) : Prop :=
  match D.kind y with
  | .exclusive => ∃ a ∈ ins D y, ∃ b ∈ outs D y, c = [a] ∧ d = [b]
  | .parallel => c = ins D y ∧ d = outs D y
  | .activity _ => ∃ a ∈ ins D y, c = [a] ∧ d = outs D y
  | .event => False

def labelOf : Kind → Option String
  | .activity a => some a
  | _ => none

/-- one step of the token game; the state is the number of tokens on every flow -/
def bpmnStep (D : Diagram ν φ) (M : φ → Nat) (l : Option String) (M' : φ → Nat) : Prop :=
  ∃ y ∈ D.nodes, ∃ c d, Fires D y c d ∧ (∀ f, c.count f ≤ M f) ∧ (M' = fun f => M f - c.count f + d.count f) ∧ l = labelOf (D.kind y)

/-- the activities of a run from the start event (a token on all its flows) to the end event (a token on all its flows, none elsewhere) -/
def BpmnAccepts (D : Diagram ν φ) (w : List String) : Prop :=
  Run (bpmnStep D) (fun f => if f ∈ D.flows ∧ D.src f = D.start then 1 else 0) w (fun f => if f ∈ D.flows ∧ D.tgt f = D.stop then 1 else 0)

/-- no repeated places, transitions or arcs; every transition has a place before and a place after it -/
structure NetWF (N : Net) : Prop where
  places : N.places.Nodup
  trans : N.trans.Nodup
  pre : ∀ t ∈ N.trans, (N.pre t).Nodup ∧ N.pre t ≠ [] ∧ ∀ p ∈ N.pre t, p ∈ N.places
  post : ∀ t ∈ N.trans, (N.post t).Nodup ∧ N.post t ≠ [] ∧ ∀ p ∈ N.post t, p ∈ N.places
  im : N.im.Nodup ∧ ∀ p ∈ N.im, p ∈ N.places
  fm : N.fm.Nodup ∧ ∀ p ∈ N.fm, p ∈ N.places

end NetBpmn
end Verif
