import Verif.TreeRed.Theorems
/-
Examples and refutations for C54.
-/
namespace Verif
open TreeRed BU

namespace TreeRed.Example
/-- `->( 1, X( tau, *( 2, tau ) ) )` -/
abbrev good : PT Nat := BU.Example.good

/-- the two possible lists of nodes of `->( 1, 2, X( 1, 2 ) )` -/
theorem dup_list {ord : List (Nd Nat) → List (Nd Nat)} (hord : ∀ l, (ord l).Perm l) :
    bottomup ord BU.Example.dup = [⟨.leaf (some 1), [BU.Example.dup]⟩, ⟨.leaf (some 2), [BU.Example.dup]⟩] ∨
    bottomup ord BU.Example.dup = [⟨.leaf (some 2), [BU.Example.dup]⟩, ⟨.leaf (some 1), [BU.Example.dup]⟩] := by
  have hsz : BU.Example.dup.size = 6 := by simp [BU.Example.dup, PT.size]
  have h0 : (allNodes BU.Example.dup).filter (fun x => x.sub.children.isEmpty) =
      [⟨.leaf (some 1), [BU.Example.dup]⟩, ⟨.leaf (some 2), [BU.Example.dup]⟩] := by
    unfold allNodes; rw [hsz]; rfl
  have hf : ((ord (allNodes BU.Example.dup)).filter fun x => x.sub.children.isEmpty).Perm
      [⟨.leaf (some 1), [BU.Example.dup]⟩, ⟨.leaf (some 2), [BU.Example.dup]⟩] :=
    h0 ▸ (hord _).filter _
  have hl : (ord (allNodes BU.Example.dup)).filter (fun x => x.sub.children.isEmpty) =
        [⟨.leaf (some 1), [BU.Example.dup]⟩, ⟨.leaf (some 2), [BU.Example.dup]⟩] ∨
      (ord (allNodes BU.Example.dup)).filter (fun x => x.sub.children.isEmpty) =
        [⟨.leaf (some 2), [BU.Example.dup]⟩, ⟨.leaf (some 1), [BU.Example.dup]⟩] := by
    generalize (ord (allNodes BU.Example.dup)).filter (fun x => x.sub.children.isEmpty) = l at hf
    have hlen := hf.length_eq
    match l, hlen with
    | [x, y], _ =>
      have hx := hf.mem_iff.1 (List.mem_cons_self (a := x) (l := [y]))
      have hy := hf.mem_iff.1 (List.mem_cons_of_mem x (List.mem_cons_self (a := y) (l := [])))
      simp only [List.mem_cons, List.not_mem_nil, or_false] at hx hy
      have hnd : ([x, y].map Nd.sub).Nodup := (hf.map Nd.sub).nodup_iff.2 (by simp)
      rcases hx with rfl | rfl <;> rcases hy with rfl | rfl
      · simp at hnd
      · exact .inl rfl
      · exact .inr rfl
      · simp at hnd
  rcases hl with hl | hl
  · left; unfold bottomup; rw [hl, hsz]; rfl
  · right; unfold bottomup; rw [hl, hsz]; rfl
end TreeRed.Example

/-- C54 fails for trees with duplicate labels: for `->( 'a', 'b', X( 'a', 'b' ) )` and the trace `a b a`, whatever the order of
sets, the reduction returns a single leaf, although the tree has the trace. -/
theorem C54_duplicates_refuted : ∃ (t : PT Nat) (tr : List Nat), t.WF ∧ t.lang tr ∧
    ∀ ord : List (Nd Nat) → List (Nd Nat), (∀ l, (ord l).Perm l) →
    ∃ a t', TreeRed.apply ord (fun _ => 1) t tr = some t' ∧ (∀ w, t'.lang w ↔ w = [a]) ∧ ¬ t'.lang tr := by
  refine ⟨BU.Example.dup, [1, 2, 1], ?_, ?_, ?_⟩
  · refine .node _ _ (by simp) ?_
    simp only [List.mem_cons, List.not_mem_nil, or_false, forall_eq_or_imp, forall_eq]
    refine ⟨.leaf _, .leaf _, .node _ _ (by simp) ?_⟩
    simp only [List.mem_cons, List.not_mem_nil, or_false, forall_eq_or_imp, forall_eq]
    exact ⟨.leaf _, .leaf _⟩
  · simp only [BU.Example.dup, PT.lang, PT.opLang, PT.langs]
    refine ⟨[1], [2, 1], rfl, ⟨[2], [1], rfl, ⟨[1], [], ⟨_, List.mem_cons_self, rfl⟩, rfl, rfl⟩, rfl⟩, rfl⟩
  · intro ord hord
    have key : ∀ a, TreeRed.reduce ord BU.Example.dup [1, 2, 1] = some (.leaf (some a)) →
        ∃ a t', TreeRed.apply ord (fun _ => 1) BU.Example.dup [1, 2, 1] = some t' ∧ (∀ w, t'.lang w ↔ w = [a]) ∧ ¬ t'.lang [1, 2, 1] := by
      intro a ha
      obtain ⟨u, hu, hl, _⟩ := C10_fold (fun _ => 1) (.leaf (some a) : PT Nat) (.leaf _) _ (Nat.lt_succ_self _)
      refine ⟨a, u, by unfold TreeRed.apply; rw [ha]; exact hu, fun w => (hl w).trans (by simp), fun h => ?_⟩
      have := (hl _).1 h; simp at this
    rcases TreeRed.Example.dup_list hord with h | h
    · exact key 2 (by unfold TreeRed.reduce; rw [h]; rfl)
    · exact key 1 (by unfold TreeRed.reduce; rw [h]; rfl)

/-- the conditions of C54 hold for `->( 1, X( tau, *( 2, tau ) ) )` (see C34); reduced with respect to the trace `1` it becomes
`->( 1, tau )`, which is folded afterwards; with respect to the trace `1 2` it is unchanged -/
example : TreeRed.reduce id TreeRed.Example.good [1] = some (.node .seq [.leaf (some 1), .leaf none]) ∧
    TreeRed.reduce id TreeRed.Example.good [1, 2] = some TreeRed.Example.good := by
  have hsz : TreeRed.Example.good.size = 7 := by simp [TreeRed.Example.good, BU.Example.good, PT.size]
  constructor
  · unfold TreeRed.reduce bottomup allNodes; rw [hsz]; rfl
  · unfold TreeRed.reduce bottomup allNodes; rw [hsz]; rfl

/-- two siblings that become equal during the reduction: `+( ->( X( 1, tau ), X( 2, tau ) ), ->( X( 3, tau ), X( 4, tau ) ), 5 )` -/
def TreeRed.Example.twins : PT Nat := .node .par [
  .node .seq [.node .xor [.leaf (some 1), .leaf none], .node .xor [.leaf (some 2), .leaf none]],
  .node .seq [.node .xor [.leaf (some 3), .leaf none], .node .xor [.leaf (some 4), .leaf none]], .leaf (some 5)]

/-- they are removed in either order -/
example : TreeRed.reduce id TreeRed.Example.twins [5] = some (.node .par [.leaf none, .leaf none, .leaf (some 5)]) ∧
    TreeRed.reduce List.reverse TreeRed.Example.twins [5] = some (.node .par [.leaf none, .leaf none, .leaf (some 5)]) := by
  have hsz : TreeRed.Example.twins.size = 16 := by simp [TreeRed.Example.twins, PT.size]
  constructor
  · unfold TreeRed.reduce bottomup allNodes; rw [hsz]; rfl
  · unfold TreeRed.reduce bottomup allNodes; rw [hsz]; rfl

end Verif
