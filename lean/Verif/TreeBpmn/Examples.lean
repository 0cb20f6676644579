import Verif.TreeBpmn.Theorems
/-
Examples and limits for C72.
-/
set_option linter.unusedSectionVars false
namespace Verif
open Sys Bpmn TreeBpmn
namespace TreeBpmn

/-- `->( 'a', *( +( 'b', X( 'c', tau ) ), 'd' ), ->( 'e', 'f' ) )` -/
def exTree : PT String :=
  .node .seq [.leaf (some "a"),
    .node .loop [.node .par [.leaf (some "b"), .node .xor [.leaf (some "c"), .leaf none]], .leaf (some "d")],
    .node .seq [.leaf (some "e"), .leaf (some "f")]]

theorem exTree_convertible : Convertible exTree := by
  refine .seq (by simp) ?_
  intro c hc
  simp only [List.mem_cons, List.not_mem_nil, or_false] at hc
  rcases hc with rfl | rfl | rfl
  · exact .act (by decide)
  · refine .loop (.par (by simp) ?_) ?_
    · intro c hc
      simp only [List.mem_cons, List.not_mem_nil, or_false] at hc
      rcases hc with rfl | rfl
      · exact .act (by decide)
      · refine .xor (by simp) ?_
        intro c hc
        simp only [List.mem_cons, List.not_mem_nil, or_false] at hc
        rcases hc with rfl | rfl
        · exact .act (by decide)
        · exact .tau
    · intro c hc
      simp only [List.mem_cons, List.not_mem_nil, or_false] at hc
      subst hc
      exact .act (by decide)
  · refine .seq (by simp) ?_
    intro c hc
    simp only [List.mem_cons, List.not_mem_nil, or_false] at hc
    rcases hc with rfl | rfl <;> exact .act (by decide)

/-- the graph of the example: the silent leaf has become a flow between the two exclusive gateways -/
example : (apply exTree).map (fun g => (g.nodes.map fun n => (n.kind, n.name), g.flows.length)) =
    some ([(.start, "start"), (.fin, "end"), (.task, "a"), (.xor, ""), (.xor, ""), (.par, ""), (.par, ""), (.task, "b"), (.xor, ""), (.xor, ""),
      (.task, "c"), (.task, "d"), (.task, "e"), (.task, "f")], 16) := by decide +kernel

/-- the hypotheses of the theorems are met -/
example : ∃ g, apply exTree = some g ∧ Sound g.moves 0 1 ∧ taskNames g = ["a", "b", "c", "d", "e", "f"] ∧ ∀ w, g.Trace w ↔ exTree.lang w := by
  obtain ⟨g, h1, _, h3⟩ := C72_language exTree exTree_convertible
  exact ⟨g, h1, (C72_sound _ exTree_convertible g h1).1, (C72_elements _ exTree_convertible g h1).1, h3⟩

def exEnv : IM.Env String := ⟨dedup, id, List.head?, true, true⟩

theorem exEnv_lawful : exEnv.Lawful :=
  ⟨fun l a => by simp [exEnv], fun l => nodup_dedup l, fun l => List.Perm.refl _,
    fun l a h => List.mem_of_mem_head? h, fun l h => List.head?_eq_none_iff.1 h⟩

def exLog : List (List String) := [[], ["a", "b", "c", "d"], ["a", "c", "b", "d"], ["a", "b", "c", "e", "c", "b", "d"], ["f"], ["f"]]

/-- the hypotheses of `C72_discover` are met -/
example (h sz : String → Nat) : ∃ n t g, IM.discover exEnv h sz n exLog = some t ∧ apply t = some g ∧
    g.Trace ["a", "b", "c", "e", "c", "b", "d"] ∧ g.Trace [] := by
  have hs : IM.SmallAlphabet exLog := by unfold IM.SmallAlphabet; decide
  obtain ⟨t, N, ht⟩ := C08_terminates exEnv_lawful h sz exLog hs
  obtain ⟨g, h1, _, h3, _⟩ := C72_discover exEnv_lawful h sz exLog hs (by decide) N t (ht N (Nat.le_refl _))
  exact ⟨N, t, g, ht N (Nat.le_refl _), h1, h3 _ (by simp [exLog]), h3 _ (by simp [exLog])⟩

/-- if no move gives the sink a token, there is no trace -/
theorem no_trace {g : Graph} (h : ∀ m ∈ g.moves, 1 ∉ m.post) (w : List String) : ¬ g.Trace w := by
  have key : ∀ M w, Run g.moves (toks [0]) w M → M 1 = 0 := by
    intro M w hr
    induction hr with
    | nil => simp [toks]
    | @snoc w M1 M2 t _ ht hf ih =>
      have h1 := hf.2 1
      rw [ih, List.count_eq_zero.2 (h t ht)] at h1
      omega
  intro hr
  have := key _ _ hr
  simp [toks] at this

end TreeBpmn

/-- C72, limits: a sequence with one child is converted to a graph whose end event has no incoming flow: it has no trace at all. -/
theorem C72_single_child_refuted : ∃ g, TreeBpmn.apply (.node .seq [.leaf (some "a")]) = some g ∧ (PT.node .seq [.leaf (some "a")]).lang ["a"] ∧
    ∀ w, ¬ g.Trace w := by
  refine ⟨⟨[⟨2, .start, "start"⟩, ⟨5, .fin, "end"⟩, ⟨11, .task, "a"⟩], [⟨0, 2, 11⟩]⟩, by decide +kernel, ?_, ?_⟩
  · simp [PT.lang, PT.langs, PT.opLang, Lang.seqL, Lang.cat, Lang.eps]
  · exact no_trace (by decide)

/-- C72, limits: an interleaving is dropped without an exception: the graph of the tree consists of the two events only, with no flow, and has no
trace. -/
theorem C72_interleaving_refuted (cs : List (PT String)) : ∃ g, TreeBpmn.apply (.node .inter cs) = some g ∧ g.flows = [] ∧ ∀ w, ¬ g.Trace w := by
  refine ⟨⟨[⟨2, .start, "start"⟩, ⟨5, .fin, "end"⟩], []⟩, rfl, rfl, ?_⟩
  exact no_trace (by decide)

/-- C72, limits: the conversion of an inclusive choice is a pair of inclusive gateways (the conversion itself raises no exception); see
`C65_inclusive_refuted` for what its Petri net accepts. -/
theorem C72_inclusive : TreeBpmn.apply (.node .or [.leaf (some "a"), .leaf (some "b")]) =
    some ⟨[⟨2, .start, "start"⟩, ⟨5, .fin, "end"⟩, ⟨8, .incl, ""⟩, ⟨11, .incl, ""⟩, ⟨14, .task, "a"⟩, ⟨17, .task, "b"⟩],
      [⟨3, 8, 14⟩, ⟨2, 14, 11⟩, ⟨5, 8, 17⟩, ⟨4, 17, 11⟩, ⟨0, 2, 8⟩, ⟨1, 11, 5⟩]⟩ := by decide +kernel

end Verif
