import Verif.WfTree.Model
/-
C53: what a workflow net is.
-/
namespace Verif.WfTree

/-- the arcs of the net: from a place to a transition and from a transition to a place -/
inductive Arc (net : Net Nat Nat) : Node → Node → Prop
  | inp {t : Nat} {a : Nat × Int} : t ∈ net.transitions → a ∈ net.inArcs t → Arc net (.pl a.1) (.tr t)
  | out {t : Nat} {a : Nat × Int} : t ∈ net.transitions → a ∈ net.outArcs t → Arc net (.tr t) (.pl a.1)

/-- a directed path (possibly without arcs) -/
inductive Path {β : Type} (E : β → β → Prop) : β → β → Prop
  | refl (a : β) : Path E a a
  | snoc {a b c : β} : Path E a b → E b c → Path E a c

/-- a workflow net: `i` is the only place without incoming arcs, `o` is the only place without outgoing arcs, and each place and transition
lies on a path from `i` to `o` -/
structure IsWorkflowNet (net : Net Nat Nat) (i o : Nat) : Prop where
  source : ∀ p, (p ∈ net.places ∧ ∀ x, ¬ Arc net x (.pl p)) ↔ p = i
  sink : ∀ p, (p ∈ net.places ∧ ∀ x, ¬ Arc net (.pl p) x) ↔ p = o
  place : ∀ p ∈ net.places, Path (Arc net) (.pl i) (.pl p) ∧ Path (Arc net) (.pl p) (.pl o)
  transition : ∀ t ∈ net.transitions, Path (Arc net) (.pl i) (.tr t) ∧ Path (Arc net) (.tr t) (.pl o)

/-- what `is_strongly_connected` of networkx computes: there is a path from each node to each node -/
def StrongSpec (strong : List Nat → List (Nat × Nat) → Bool) : Prop :=
  ∀ ns es, strong ns es = true ↔ ∀ a ∈ ns, ∀ b ∈ ns, Path (fun x y => (x, y) ∈ es) a b

/-- the objects of the net and the transition that is added have different names -/
def DistinctNames (net : Net Nat Nat) (name : Node → Nat) : Prop :=
  ∀ a b, a ∈ .sc :: (net.places.map Node.pl ++ net.transitions.map Node.tr) → b ∈ .sc :: (net.places.map Node.pl ++ net.transitions.map Node.tr) →
    name a = name b → a = b

end Verif.WfTree
