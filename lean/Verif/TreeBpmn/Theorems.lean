import Verif.TreeBpmn.Graph
import Verif.Inductive.Ops
/-
Property theorems C72: conversion of process trees to BPMN graphs.
-/
set_option linter.unusedSectionVars false
namespace Verif
open Conv Sys Bpmn Dict Lang TreeBpmn

namespace TreeBpmn

/-- the names of the visible tasks of a piece -/
def vis (l : List Node) : List String := (l.filter fun n => n.id % 3 == 2 && n.kind == .task).map Node.name

theorem vis_append (l m : List Node) : vis (l ++ m) = vis l ++ vis m := by simp [vis]
theorem vis_gates {a b : Nat} {k : Kind} (hk : k ≠ .task) : vis [⟨a, k, ""⟩, ⟨b, k, ""⟩] = [] := by
  cases k <;> first | rfl | exact absurd rfl hk | simp [vis]

theorem vis_kids {cs : List (PT String)} (h : ∀ c ∈ cs, ∀ k j, vis (body c k j).nodes = c.labels) {s e : Nat} : ∀ k j,
    vis (bodyKids cs s e k j).nodes = PT.labelsL cs := by
  induction cs with
  | nil => intro k j; simp [bodyKids, vis, PT.labelsL]
  | cons t ts ih =>
    intro k j
    rw [bodyKids.eq_2, PT.labelsL]
    simp only
    rw [vis_append, h t (by simp), ih fun c hc => h c (by simp [hc])]

theorem vis_seq {cs : List (PT String)} (h : ∀ c ∈ cs, ∀ k j, vis (body c k j).nodes = c.labels) : ∀ k j,
    vis (bodySeq cs k j).nodes = PT.labelsL cs := by
  induction cs with
  | nil => intro k j; simp [bodySeq, vis, PT.labelsL]
  | cons t ts ih =>
    intro k j
    rw [bodySeq.eq_2, PT.labelsL]
    split
    · next he =>
      rw [List.isEmpty_iff] at he
      subst he
      simp only
      rw [h t (by simp)]; simp [PT.labelsL]
    · simp only
      rw [vis_append, h t (by simp), ih fun c hc => h c (by simp [hc])]

theorem vis_body {t : PT String} (h : Convertible t) : ∀ k j, vis (body t k j).nodes = t.labels := by
  induction h with
  | tau => intro k j; simp [body, vis, PT.labels]
  | act => intro k j; simp [body, vis, PT.labels]
  | xor _ _ ih => intro k j; simp only [body, PT.labels]; rw [vis_append, vis_gates (by simp), vis_kids ih]; rfl
  | par _ _ ih => intro k j; simp only [body, PT.labels]; rw [vis_append, vis_gates (by simp), vis_kids ih]; rfl
  | seq _ _ ih => intro k j; simp only [body, PT.labels]; exact vis_seq ih _ _
  | loop _ _ ih1 ih2 =>
    intro k j; simp only [body, PT.labels, PT.labelsL]
    rw [vis_append, vis_append, vis_gates (by simp), ih1, vis_kids ih2]; rfl

theorem vis_rec (B : Nat) {t : PT String} (h : Convertible t) (src tgt fi fo : Nat) (c : Cnt) (h1 : src < 3 * c.k) (h2 : tgt < 3 * c.k) :
    vis (rec B t src tgt fi fo c).nodes = t.labels := by
  rw [← vis_body h c.k c.j, ← (rec_ok B h src tgt fi fo c h1 h2).1.nodes]
  unfold vis
  rw [List.filter_map, List.map_map, List.filter_filter]
  have e : ∀ n ∈ (rec B t src tgt fi fo c).nodes, ((fun n : Node => n.id % 3 == 2 && n.kind == .task) n) =
      (((fun n : Node => n.id % 3 == 2 && n.kind == .task) ∘ sil) n && real n) := by
    intro n _
    simp only [Function.comp_apply, (sil_id n).1, (sil_id n).2, real]
    by_cases h : n.id % 3 = 2 <;> simp [h]
  rw [List.filter_congr e]
  apply List.map_congr_left
  intro n hn
  have := (List.mem_filter.1 hn).2
  simp only [Function.comp_apply, (sil_id n).1, Bool.and_eq_true, beq_iff_eq] at this
  simp only [Function.comp_apply, sil]
  rw [if_neg (by omega)]

theorem no_kind {t : PT String} (h : Convertible t) (k : Kind) (hk : k = .start ∨ k = .fin) (B : Nat) (src tgt fi fo : Nat) (c : Cnt)
    (h1 : src < 3 * c.k) (h2 : tgt < 3 * c.k) : ∀ n ∈ (rec B t src tgt fi fo c).nodes, n.id % 3 = 2 → n.kind ≠ k := by
  intro n hn h3 e
  have hm : sil n ∈ (body t c.k c.j).nodes := by
    rw [← (rec_ok B h src tgt fi fo c h1 h2).1.nodes]
    exact List.mem_map.2 ⟨n, List.mem_filter.2 ⟨hn, by simp [real, h3]⟩, rfl⟩
  have := (good_body h c.k c.j).ids _ hm
  unfold NodeOK at this
  rw [(sil_id n).2] at this
  rcases hk with rfl | rfl
  · exact this.2.2.2.2.1 e
  · exact this.2.2.2.2.2.1 e

/-- everything about the result -/
theorem apply_ok {t : PT String} (h : Convertible t) : ∃ g, apply t = some g ∧ DInv g [] t.lang ∧
    g.nodes = (build t).1.nodes.filter fun n => decide (n.id ∉ (build t).2) :=
  delTaus_ok (dinv_build h)

theorem all_two {g : Graph} {L : Lang String} (h : DInv g [] L) : ∀ n ∈ g.nodes, n.id % 3 = 2 := by
  intro n hn
  refine Classical.byContradiction fun h3 => ?_
  have : n.id ∈ (g.nodes.map Node.id).filter fun x => x % 3 != 2 := List.mem_filter.2 ⟨List.mem_map.2 ⟨n, hn, rfl⟩, by simpa using h3⟩
  rw [← h.taus] at this
  simp at this

theorem gF_all {g : Graph} {L : Lang String} (h : DInv g [] L) : gF g = g.flows := by
  unfold gF
  rw [List.filter_eq_self]
  intro f hf
  refine Classical.byContradiction fun h3 => ?_
  have := (h.dead f hf (liveF_neg.1 h3)).2.2
  simp at this

theorem moves_eq {g : Graph} {L : Lang String} (h : DInv g [] L) : E (gN g) (gF g) = g.moves := by
  have hn : gN g = g.nodes := by
    unfold gN
    rw [List.filter_eq_self.2]
    · conv => rhs; rw [← List.map_id g.nodes]
      apply List.map_congr_left
      intro n hn
      have := all_two h n hn
      unfold sil; rw [if_neg (by omega)]; rfl
    · intro n hn
      have := all_two h n hn
      simp [real, this]
  have hk : (g.nodes.filter fun n => decide (n.kind ≠ .other)) = g.nodes := by
    rw [List.filter_eq_self]
    intro n hn
    simpa using (h.kinds n hn (by have := all_two h n hn; omega)).1
  rw [hn, gF_all h]
  unfold E Graph.moves
  rw [hk]
  rfl

theorem ok_graph {g : Graph} {L : Lang String} (h : DInv g [] L) : g.OK := by
  refine ⟨h.ids, by rw [← gF_all h]; exact h.fids, fun f hf => ?_, fun f hf => ?_⟩
  · obtain ⟨n, hn, e⟩ := List.mem_map.1 (h.ends f (by rw [gF_all h]; exact hf)).1
    exact ⟨n, hn, e, (h.kinds n hn (by have := all_two h n hn; omega)).1⟩
  · obtain ⟨n, hn, e⟩ := List.mem_map.1 (h.ends f (by rw [gF_all h]; exact hf)).2.2
    exact ⟨n, hn, e, (h.kinds n hn (by have := all_two h n hn; omega)).1⟩

theorem connected_graph {g : Graph} {L : Lang String} (h : DInv g [] L) : g.Connected := by
  constructor
  · intro n hn _
    rcases (h.conn n hn (by have := all_two h n hn; omega)).1 with h1 | h1
    · exact .inl h1
    · obtain ⟨f, hf, e⟩ := List.mem_map.1 h1
      exact .inr ⟨f, by rw [← gF_all h]; exact hf, e⟩
  · intro n hn _
    rcases (h.conn n hn (by have := all_two h n hn; omega)).2 with h1 | h1
    · exact .inl h1
    · obtain ⟨f, hf, e⟩ := List.mem_map.1 h1
      exact .inr ⟨f, by rw [← gF_all h]; exact hf, e⟩

theorem noIncl_graph {g : Graph} {L : Lang String} (h : DInv g [] L) : ∀ n ∈ g.nodes, n.kind ≠ .incl := fun n hn =>
  (h.kinds n hn (by have := all_two h n hn; omega)).2.1

/-- labels of a tree are not empty -/
theorem convertible_of {t : PT String} (h : PT.Reduced t) (h1 : PT.OpFree .or t) (h2 : PT.OpFree .inter t) (hl : ∀ a ∈ t.labels, a ≠ "") : Convertible t := by
  induction t using PT.induct with
  | leaf l =>
    cases l with
    | none => exact .tau
    | some a => exact .act (hl a (by simp [PT.labels]))
  | node op cs ih =>
    cases h with
    | node _ _ h3 h4 h5 h6 h7 =>
    have hk : ∀ c ∈ cs, Convertible c := fun c hc => ih c hc (h7 c hc) (h1.kids c hc) (h2.kids c hc) fun a ha => hl a (by
      rw [PT.labels, PT.labelsL_eq]; exact List.mem_flatMap.2 ⟨c, hc, ha⟩)
    have hne : cs ≠ [] := by intro e; rw [e] at h3; simp at h3
    cases op with
    | seq => exact .seq h3 hk
    | xor => exact .xor hne hk
    | par => exact .par hne hk
    | or => exact absurd rfl h1.op
    | inter => exact absurd rfl h2.op
    | loop =>
      cases cs with
      | nil => exact absurd rfl hne
      | cons c cs => exact .loop (hk c (by simp)) fun d hd => hk d (by simp [hd])

theorem convertible_sort (h : String → Nat) {t : PT String} (hc : Convertible t) : Convertible (PT.treeSort h t) := by
  induction hc with
  | tau => simp only [PT.treeSort]; exact .tau
  | act ha => simp only [PT.treeSort]; exact .act ha
  | @xor cs hne _ ih =>
    simp only [PT.treeSort, or_true, if_true]
    refine .xor (fun e => hne ?_) fun c hc => ?_
    · have := congrArg List.length e
      rw [List.length_mergeSort, PT.treeSortL_map, List.length_map] at this
      exact List.length_eq_zero_iff.1 this
    · rw [(List.mergeSort_perm _ _).mem_iff, PT.treeSortL_map] at hc
      obtain ⟨d, hd, rfl⟩ := List.mem_map.1 hc
      exact ih d hd
  | @par cs hne _ ih =>
    simp only [PT.treeSort, true_or, if_true]
    refine .par (fun e => hne ?_) fun c hc => ?_
    · have := congrArg List.length e
      rw [List.length_mergeSort, PT.treeSortL_map, List.length_map] at this
      exact List.length_eq_zero_iff.1 this
    · rw [(List.mergeSort_perm _ _).mem_iff, PT.treeSortL_map] at hc
      obtain ⟨d, hd, rfl⟩ := List.mem_map.1 hc
      exact ih d hd
  | seq hl _ ih =>
    simp only [PT.treeSort, reduceCtorEq, or_self, if_false, PT.treeSortL_map]
    refine .seq (by rw [List.length_map]; exact hl) fun c hc => ?_
    obtain ⟨d, hd, rfl⟩ := List.mem_map.1 hc
    exact ih d hd
  | loop _ _ ih1 ih2 =>
    simp only [PT.treeSort, reduceCtorEq, or_self, if_false, PT.treeSortL_map, List.map_cons]
    refine .loop ih1 fun c hc => ?_
    obtain ⟨d, hd, rfl⟩ := List.mem_map.1 hc
    exact ih2 d hd

end TreeBpmn

/-! ### C72 -/

/-- C72: converting a tree (labels not empty, every operator has a child, sequences have at least two, no inclusive choice and no interleaving) to
BPMN raises no exception; the traces of the graph are exactly the traces of the tree. -/
theorem C72_language (t : PT String) (h : Convertible t) : ∃ g, TreeBpmn.apply t = some g ∧ g.OK ∧ ∀ w, g.Trace w ↔ t.lang w := by
  obtain ⟨g, h1, h2, _⟩ := apply_ok h
  refine ⟨g, h1, ok_graph h2, fun w => ?_⟩
  unfold Graph.Trace
  rw [h2.lang w, moves_eq h2]

/-- C72: the graph is sound (from every reachable state the end can be reached; a token on the sink is the only token; no flow ever carries two
tokens; every move can be made), and every node can be entered and left. -/
theorem C72_sound (t : PT String) (h : Convertible t) (g : Graph) (hg : TreeBpmn.apply t = some g) : Sound g.moves 0 1 ∧ g.Connected := by
  obtain ⟨g', h1, h2, _⟩ := apply_ok h
  rw [h1] at hg
  cases hg
  exact ⟨by rw [← moves_eq h2]; exact h2.sound, connected_graph h2⟩

/-- C72: the graph has exactly one start event, exactly one end event and no inclusive gateway; its tasks are the labelled leaves of the tree, in the
same order: no silent task and no auxiliary task is left. -/
theorem C72_elements (t : PT String) (h : Convertible t) (g : Graph) (hg : TreeBpmn.apply t = some g) :
    taskNames g = t.labels ∧ (ofKind g .start).length = 1 ∧ (ofKind g .fin).length = 1 ∧ ofKind g .incl = [] := by
  obtain ⟨g', h1, h2, h3⟩ := apply_ok h
  rw [h1] at hg
  cases hg
  have hR : (TreeBpmn.build t).2 = ((TreeBpmn.build t).1.nodes.map Node.id).filter fun x => x % 3 != 2 := (dinv_build h).taus
  have hnodes : g.nodes = (TreeBpmn.build t).1.nodes.filter fun n => n.id % 3 == 2 := by
    rw [h3]
    apply List.filter_congr
    intro n hn
    rw [hR]
    by_cases e : n.id % 3 = 2
    · simp [List.mem_filter, e]
    · have : n.id ∈ ((TreeBpmn.build t).1.nodes.map Node.id).filter fun x => x % 3 != 2 := List.mem_filter.2 ⟨List.mem_map.2 ⟨n, hn, rfl⟩, by simpa using e⟩
      simp only [this, not_true_eq_false, decide_false]
      simpa using e
  have hb : (TreeBpmn.build t).1.nodes = [⟨2, .start, "start"⟩, ⟨5, .fin, "end"⟩] ++ (TreeBpmn.rec (2 * TreeBpmn.size t + 2) t 2 5 0 1 ⟨2, 2, 0⟩).nodes := rfl
  have hno : ∀ k, (k = .start ∨ k = .fin) → ((TreeBpmn.rec (2 * TreeBpmn.size t + 2) t 2 5 0 1 ⟨2, 2, 0⟩).nodes.filter fun n => n.id % 3 == 2).filter
      (fun n => n.kind == k) = [] := by
    intro k hk
    rw [List.filter_filter, List.filter_eq_nil_iff]
    intro n hn hc
    simp only [Bool.and_eq_true, beq_iff_eq] at hc
    exact no_kind h k hk _ 2 5 0 1 ⟨2, 2, 0⟩ (by simp) (by simp) n hn hc.2 hc.1
  refine ⟨?_, ?_, ?_, ?_⟩
  · unfold taskNames
    rw [hnodes, hb, List.filter_append, List.filter_append, List.filter_filter, List.map_append]
    have := vis_rec (2 * TreeBpmn.size t + 2) h 2 5 0 1 ⟨2, 2, 0⟩ (by simp) (by simp)
    unfold vis at this
    rw [List.filter_filter, ← this]
    simp [Bool.and_comm]
  · unfold ofKind
    rw [hnodes, hb, List.filter_append, List.filter_append, hno _ (.inl rfl)]
    rfl
  · unfold ofKind
    rw [hnodes, hb, List.filter_append, List.filter_append, hno _ (.inr rfl)]
    rfl
  · unfold ofKind
    rw [List.filter_eq_nil_iff]
    intro n hn
    simpa using noIncl_graph h2 n hn

/-- C72: a tree converted to BPMN and then to a Petri net (with or without reduction, whatever the iteration order of the sets) gives a sound and safe
net that accepts exactly the traces of the tree. -/
theorem C72_petri {ord : Gr String → List (Nat × Option String)} (hord : IterOrder ord) (ordP : List Nat → List Nat)
    (nearest : Nat → Option Nat) (reduce : Bool) (t : PT String) (h : Convertible t) (g : Graph) (hg : TreeBpmn.apply t = some g) :
    let n := g.toPetri nearest ord ordP reduce
    (∀ w, Accepts n initialMarking finalMarking w ↔ t.lang w) ∧
    (∀ m, CanReach n initialMarking m → ∃ m', CanReach n m m' ∧ Marking.eq m' finalMarking = true) ∧
    (∀ m, CanReach n initialMarking m → 1 ≤ count m 1 → Marking.eq m finalMarking = true) ∧
    (∀ m, CanReach n initialMarking m → ∀ p, 0 ≤ count m p ∧ count m p ≤ 1) ∧
    (∀ tr ∈ n.toNet.transitions, ∃ m, CanReach n initialMarking m ∧ n.toNet.isEnabled tr m = true) := by
  obtain ⟨hS, hc⟩ := C72_sound t h g hg
  obtain ⟨g', h1, ok, hl⟩ := C72_language t h
  have e := h1.symm.trans hg
  cases e
  obtain ⟨_, _, _, hincl⟩ := C72_elements t h g hg
  have hni : g.NoInclusivePair := by
    refine .inl fun n hn hk => ?_
    have : n ∈ ofKind g .incl := List.mem_filter.2 ⟨hn, by simpa using hk⟩
    rw [hincl] at this
    simp at this
  obtain ⟨a, b⟩ := C65_sound hord ordP nearest reduce g ok hni hc hS
  exact ⟨fun w => (a w).trans (hl w), b⟩

/-- C72: `discover_bpmn_inductive`: for a log whose activities have non-empty names, the inductive miner followed by the conversion gives a sound graph
that has every trace of the log; its tasks are the activities of the log, every activity once. -/
theorem C72_discover {env : IM.Env String} (henv : env.Lawful) (h sz : String → Nat) (log : List (List String))
    (hsz : IM.SmallAlphabet log) (hne : ∀ w ∈ log, "" ∉ w) (n : Nat) (t : PT String) (ht : IM.discover env h sz n log = some t) :
    ∃ g, TreeBpmn.apply t = some g ∧ g.OK ∧ (∀ w ∈ log, g.Trace w) ∧ Sound g.moves 0 1 ∧ (taskNames g).Nodup ∧
      ∀ a, a ∈ taskNames g ↔ ∃ w ∈ log, a ∈ w := by
  have hlab := C09_labels henv h sz log hsz n t ht
  have hc : Convertible t := by
    obtain ⟨m, t0, h0, hr⟩ := IM.discover_reduced henv h sz log hsz
    have e := C08_deterministic env h sz log n m t _ ht h0
    have hw : ∀ o, IM.Basic o → PT.OpFree o t := fun o ho => IM.opFree_discover ho env h sz n log t ht
    have hred : Convertible t0 := by
      refine convertible_of hr ?_ ?_ ?_
      · exact PT.opFree_of_sort h (e ▸ hw .or (.inl rfl))
      · exact PT.opFree_of_sort h (e ▸ hw .inter (.inr rfl))
      · intro a ha
        have : a ∈ t.labels := by
          rw [e]
          exact (C10_tree_sort h t0).2.mem_iff.2 ha
        obtain ⟨w, hw, haw⟩ := (hlab.2 a).1 this
        exact fun e => hne w hw (e ▸ haw)
    rw [e]
    exact convertible_sort h hred
  obtain ⟨g, hg, ok, hl⟩ := C72_language t hc
  obtain ⟨e1, _⟩ := C72_elements t hc g hg
  refine ⟨g, hg, ok, fun w hw => (hl w).2 (C07_fitness henv h sz log hsz n t ht w hw), (C72_sound t hc g hg).1, ?_, fun a => ?_⟩
  · rw [e1]; exact hlab.1
  · rw [e1]; exact hlab.2 a

end Verif
