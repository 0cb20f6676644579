import Verif.PTree.ProofsNormal
import Verif.PTree.ProofsOther
/-
Property theorems C10, C11, C12 (process tree rewriting).
Specification vocabulary: `Verif.PTree.Lang` (what a tree accepts) and `Verif.PTree.Spec`.
-/
namespace Verif
open PT Lang

/-- C10: `reduce_tau_leafs` keeps the set of accepted traces, the labels (in order) and well-formedness. -/
theorem C10_reduce_tau_leafs {α : Type} [DecidableEq α] (t : PT α) (h : WF t) :
    LangEq (reduceTau t) t ∧ labels (reduceTau t) = labels t ∧ WF (reduceTau t) :=
  ⟨fun w => by rw [reduceTau_lang h], reduceTau_labels h, reduceTau_wf h⟩

/-- C10: `fold` terminates (after at most `len(str(t)) + 1` nested calls), does not fail, and returns a tree
that accepts the same traces, has the same labels in the same order, and is reduced. -/
theorem C10_fold {α : Type} [DecidableEq α] (sz : α → Nat) (t : PT α) (h : WF t) :
    ∀ fuel, strLen sz t < fuel → ∃ t', fold sz fuel t = some t' ∧
      LangEq t' t ∧ labels t' = labels t ∧ WF t' ∧ Reduced t' := by
  intro fuel hf
  obtain ⟨t', h1, h2⟩ := fold_good sz fuel t h hf
  exact ⟨t', h1, fun w => by rw [h2.lang], h2.labels, h2.wf, fold_reduced sz fuel t t' h h1⟩

/-- C10: `tree_sort` (canonical order of choice and parallel children) keeps the accepted traces and the
multiset of labels, whatever hash is used. -/
theorem C10_tree_sort {α : Type} (h : α → Nat) (t : PT α) :
    LangEq (treeSort h t) t ∧ (labels (treeSort h t)).Perm (labels t) :=
  ⟨fun w => by rw [treeSort_lang], treeSort_labels h t⟩

/-- A well-formed tree that `fold` really changes: `->( X( 'a', X( 'b', tau ), tau ), tau )`. -/
example : WF (.node .seq [.node .xor [.leaf (some "a"), .node .xor [.leaf (some "b"), .leaf none], .leaf none],
    .leaf none] : PT String) := by
  refine .node _ _ (by simp) ?_
  simp only [List.mem_cons, List.not_mem_nil, or_false, forall_eq_or_imp, forall_eq]
  refine ⟨.node _ _ (by simp) ?_, .leaf _⟩
  simp only [List.mem_cons, List.not_mem_nil, or_false, forall_eq_or_imp, forall_eq]
  refine ⟨.leaf _, .node _ _ (by simp) ?_, .leaf _⟩
  simp only [List.mem_cons, List.not_mem_nil, or_false, forall_eq_or_imp, forall_eq]
  exact ⟨.leaf _, .leaf _⟩

/-- ... and what `reduce_tau_leafs` makes of it. -/
example : reduceTau (.node .seq [.node .xor [.leaf (some "a"), .leaf none, .leaf none],
    .leaf none] : PT String) = .node .seq [.node .xor [.leaf (some "a"), .leaf none]] := by
  simp [reduceTau, reduceTauL, tauChildren, isTau, removeTausButOne, removeTausIterating, removeOneTau,
    pyRemove, pyEq, label, children, operator, List.countP, List.countP.go, List.eraseP, List.find?]

/-- C11: if `structurally_language_equal(t1, t2)` returns True, the trees accept the same traces. -/
theorem C11_structurally_language_equal_sound {α : Type} [DecidableEq α] (t1 t2 : PT α)
    (h1 : WF t1) (h2 : WF t2) (h : sle t1 t2 = true) : LangEq t1 t2 :=
  fun w => by rw [sle_sound t1 t2 h1 h2 h]

/-- C11: the check recognises every tree without interleaving nodes as equal to itself (so it is not sound for the
trivial reason of never succeeding).  For interleaving nodes the Python function returns `None`. -/
theorem C11_reflexive {α : Type} [DecidableEq α] (t : PT α) (h : OpFree .inter t) : sle t t = true := sle_refl t h

/-- The check succeeds on two different trees: `+( 'a', X( 'b', 'c' ) )` and `+( X( 'c', 'b' ), 'a' )`. -/
example : sle (.node .par [.leaf (some "a"), .node .xor [.leaf (some "b"), .leaf (some "c")]])
    (.node .par [.node .xor [.leaf (some "c"), .leaf (some "b")], .leaf (some "a")]) = true := by
  simp [sle, sleMatch, slePairs, operator, children, label, List.eraseP]

/-- C12: every node of the binarised tree has at most two children. -/
theorem C12_binary_arity {α : Type} (t : PT α) : MaxArity 2 (binarise t) := binarise_arity t

/-- C12: binarisation keeps the accepted traces of trees without interleaving nodes. -/
theorem C12_binary_language {α : Type} (t : PT α) (h : OpFree .inter t) : LangEq (binarise t) t :=
  fun w => by rw [binarise_lang t h]

example : OpFree .inter (.node .loop [.leaf (some "a"), .leaf (some "b"), .leaf (some "c")] : PT String) := by
  refine .node _ _ (by simp) ?_
  simp only [List.mem_cons, List.not_mem_nil, or_false, forall_eq_or_imp, forall_eq]
  exact ⟨.leaf _, .leaf _, .leaf _⟩

/-- C12, refuted for interleaving: `<>( 'a', 'b', 'c' )` accepts ⟨b,a,c⟩, its binarised form does not.
(So the restriction to trees without interleaving in `C12_binary_language` is needed.) -/
theorem C12_binary_interleaving_refuted :
    ∃ t : PT String, WF t ∧ ¬ LangEq (binarise t) t := by
  refine ⟨.node .inter [.leaf (some "a"), .leaf (some "b"), .leaf (some "c")], ?_, ?_⟩
  · refine .node _ _ (by simp) ?_
    simp only [List.mem_cons, List.not_mem_nil, or_false, forall_eq_or_imp, forall_eq]
    exact ⟨.leaf _, .leaf _, .leaf _⟩
  · intro h
    have h1 := (h ["b", "a", "c"]).2 (by
      rw [lang_node]
      refine ⟨[lang (.leaf (some "b")), lang (.leaf (some "a")), lang (.leaf (some "c"))], ?_, ?_⟩
      · simp only [List.map_cons, List.map_nil]; exact List.Perm.swap _ _ _
      · refine ⟨["b"], ["a", "c"], by simp, ⟨["a"], ["c"], by simp, ⟨["c"], [], by simp, rfl, rfl⟩, rfl⟩, rfl⟩)
    simp only [binarise, binariseNode, rightOp, lang_node, opLang, List.map_cons, List.map_nil, lang_act] at h1
    obtain ⟨Ms, hp, hw⟩ := h1
    have key : ∀ v, interL [fun w => w = ["b"], fun w => w = ["c"]] v → v.length = 2 ∧ "a" ∉ v := by
      rintro v ⟨Ns, hp, hv⟩
      have hN : Ns = [fun w => w = ["b"], fun w => w = ["c"]] ∨ Ns = [fun w => w = ["c"], fun w => w = ["b"]] := by
        have := hp.symm
        have hlen := hp.length_eq
        match Ns, hlen with
        | [x, y], _ =>
          have hx : x ∈ [fun w => w = ["b"], fun w : List String => w = ["c"]] := hp.mem_iff.1 (by simp)
          simp only [List.mem_cons, List.not_mem_nil, or_false] at hx
          rcases hx with rfl | rfl
          · have := List.perm_cons _ |>.1 hp
            rw [List.perm_singleton] at this
            left; rw [this]
          · have := List.perm_cons _ |>.1 (hp.trans (List.Perm.swap _ _ _))
            rw [List.perm_singleton] at this
            right; rw [this]
      rcases hN with rfl | rfl
      · obtain ⟨_, _, rfl, ⟨_, _, rfl, rfl, rfl⟩, rfl⟩ := hv; simp
      · obtain ⟨_, _, rfl, ⟨_, _, rfl, rfl, rfl⟩, rfl⟩ := hv; simp
    have hlen := hp.length_eq
    match Ms, hlen with
    | [x, y], _ =>
      obtain ⟨u, v, hu, ⟨v1, v2, hv1, rfl, rfl⟩, he⟩ := hw
      have hx : x ∈ [fun w => w = ["a"], interL [fun w : List String => w = ["b"], fun w => w = ["c"]]] :=
        hp.mem_iff.1 (by simp)
      simp only [List.mem_cons, List.not_mem_nil, or_false] at hx
      rcases hx with rfl | rfl
      · subst hu; simp at he
      · obtain ⟨h2, h3⟩ := key u hu
        match u, h2 with
        | [p, q], _ => simp at he h3; exact h3.2 he.2.1
end Verif
