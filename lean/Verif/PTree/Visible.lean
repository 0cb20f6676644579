import Verif.PTree.ProofsNormal
import Verif.PTree.ProofsOther
/-
Trees in which every operator has a visible activity below it; `fold` and `tree_sort` keep this.
-/
namespace Verif.PT
variable {α : Type}

/-- every operator has a visible leaf below it -/
inductive Vis : PT α → Prop
  | leaf (l : Option α) : Vis (.leaf l)
  | node (op : Op) (cs : List (PT α)) : (PT.node op cs).labels ≠ [] → (∀ c ∈ cs, Vis c) → Vis (.node op cs)

theorem Vis.children {op : Op} {cs : List (PT α)} (h : Vis (.node op cs)) : ∀ c ∈ cs, Vis c := by
  cases h with | node _ _ _ h => exact h

theorem Vis.labels {op : Op} {cs : List (PT α)} (h : Vis (.node op cs)) : (PT.node op cs).labels ≠ [] := by
  cases h with | node _ _ h _ => exact h

theorem Vis.of {t : PT α} (h : t.labels ≠ []) (hc : ∀ c ∈ t.children, Vis c) : Vis t := by
  cases t with
  | leaf l => exact .leaf l
  | node op cs => exact .node op cs h hc

variable [DecidableEq α]

theorem reduceTau_vis {t : PT α} (hw : WF t) (h : Vis t) : Vis (reduceTau t) := by
  induction t using PT.induct with
  | leaf l => rw [reduceTau_leaf]; exact .leaf l
  | node op cs ih =>
    have hl := reduceTau_labels hw
    rw [reduceTau_node] at hl ⊢
    refine .node _ _ (by rw [hl]; exact h.labels) ?_
    intro c hc
    obtain ⟨d, hd, rfl⟩ := List.mem_map.1 ((tauChildren_sublist _ _).mem hc)
    exact ih d hd (hw.children_wf d hd) (h.children d hd)

theorem foldNode_vis (sz : α → Nat) {op : Op} {cs : List (PT α)} (hw : ∀ c ∈ cs, WF c) (h : ∀ c ∈ cs, Vis c) (hl : (PT.node op cs).labels ≠ [])
    {t : PT α} {b : Bool} (ht : foldNode op cs = some (t, b)) : Vis t := by
  have hne : cs ≠ [] := by rintro rfl; simp [foldNode] at ht
  obtain ⟨t', b', h1, h2, _⟩ := foldNode_good sz op cs hw hne
  rw [h1] at ht
  simp only [Option.some.injEq, Prod.mk.injEq] at ht
  obtain ⟨rfl, _⟩ := ht
  have hlab : t'.labels ≠ [] := by rw [h2.labels]; exact hl
  refine Vis.of hlab ?_
  unfold foldNode at h1
  split at h1
  · cases h1
  · simp only [Option.some.injEq, Prod.mk.injEq] at h1
    obtain ⟨e, _⟩ := h1
    have := h _ List.mem_cons_self
    rw [e] at this
    intro d hd
    cases t' with
    | leaf l => cases hd
    | node o ds => exact this.children d hd
  · simp only [] at h1
    generalize hcs1 : (if op = .seq ∨ op = .par then cs.filter (fun c => !isTau c) else cs) = cs1 at h1
    have hsub : ∀ c ∈ cs1, c ∈ cs := by
      intro c hc
      rw [← hcs1] at hc
      split at hc
      · exact (List.mem_filter.1 hc).1
      · exact hc
    split at h1
    · simp only [Option.some.injEq, Prod.mk.injEq] at h1
      obtain ⟨rfl, _⟩ := h1
      intro d hd; cases hd
    · split at h1
      · simp only [Option.some.injEq, Prod.mk.injEq] at h1
        obtain ⟨rfl, _⟩ := h1
        refine (spliceSame_ind (fun c hc => hw c (hsub c hc)) (fun l => ∀ c ∈ l, Vis c) ?_ (fun c hc => h c (hsub c hc))).1
        intro pre post ds hp _ c hc
        rcases List.mem_append.1 hc with hc | hc
        · rcases List.mem_append.1 hc with hc | hc
          · exact hp c (by simp [hc])
          · exact (hp (.node op ds) (by simp)).children c hc
        · exact hp c (by simp [hc])
      · simp only [Option.some.injEq, Prod.mk.injEq] at h1
        obtain ⟨rfl, _⟩ := h1
        exact fun c hc => h c (hsub c hc)

theorem fold1_vis (sz : α → Nat) (t : PT α) (hw : WF t) (h : Vis t) {t' : PT α} {b : Bool} (ht : fold1 t = some (t', b)) : Vis t' := by
  have hr := reduceTau_wf hw
  have hv := reduceTau_vis hw h
  have hsize := size_reduceTau t
  rw [fold1_eq] at ht
  split at ht
  · simp only [Option.some.injEq, Prod.mk.injEq] at ht; obtain ⟨rfl, _⟩ := ht; exact .leaf _
  · next op h => rw [h] at hr; exact absurd rfl hr.children_ne
  · next op c cs h =>
    rw [h] at hr hsize hv
    generalize hl : c :: cs = l at *
    rw [size_node] at hsize
    have ih : ∀ d ∈ l, ∃ t' b, fold1 d = some (t', b) ∧ Good sz d t' ∧ Vis t' := by
      intro d hd
      have := size_lt_of_mem hd
      have hlt : size d < size t := by omega
      obtain ⟨t', b, h1, h2, _⟩ := fold1_good sz d (hr.children_wf d hd)
      exact ⟨t', b, h1, h2, fold1_vis sz d (hr.children_wf d hd) (hv.children d hd) h1⟩
    have hL : ∀ l : List (PT α), (∀ d ∈ l, ∃ t' b, fold1 d = some (t', b) ∧ Good sz d t' ∧ Vis t') →
        (∀ c ∈ (l.map fold1).filterMap (·.map Prod.fst), WF c ∧ Vis c) ∧
        ((l.map fold1).filterMap (·.map Prod.fst)).flatMap PT.labels = l.flatMap PT.labels := by
      intro l
      induction l with
      | nil => simp
      | cons d l ihl =>
        intro hd
        obtain ⟨t', b, h1, h2, h3⟩ := hd d (by simp)
        obtain ⟨h4, h6⟩ := ihl (fun e he => hd e (by simp [he]))
        simp only [List.map_cons, List.filterMap_cons, h1, Option.map_some, List.flatMap_cons, h2.labels, h6, and_true]
        intro c hc
        rcases List.mem_cons.1 hc with rfl | hc
        · exact ⟨h2.wf, h3⟩
        · exact h4 c hc
    obtain ⟨h4, h6⟩ := hL l ih
    refine foldNode_vis sz (fun c hc => (h4 c hc).1) (fun c hc => (h4 c hc).2) ?_ ht
    rw [labels_node, h6, ← labels_node op]; exact hv.labels
termination_by size t

omit [DecidableEq α] in
theorem stripRoot_vis {t : PT α} (h : Vis t) : Vis (stripRoot t) := by
  fun_induction stripRoot t with
  | case1 op c ih => exact ih (h.children c (by simp))
  | case2 t _ => exact h

theorem fold_vis (sz : α → Nat) (fuel : Nat) (t t' : PT α) (ht : WF t) (hv : Vis t)
    (h : fold sz fuel t = some t') : Vis t' := by
  induction fuel generalizing t t' with
  | zero => simp [fold] at h
  | succ fuel ih =>
    obtain ⟨t1, b, h1, g1, _⟩ := fold1_good sz t ht
    have v1 := fold1_vis sz t ht hv h1
    simp only [fold, h1] at h
    have g2 := stripRoot_good sz t1 g1.wf
    have v2 := stripRoot_vis v1
    generalize stripRoot t1 = t2 at *
    have w3 : WF (reduceTau t2) := reduceTau_wf g2.wf
    have v3 := reduceTau_vis g2.wf v2
    generalize reduceTau t2 = t3 at *
    have w4 : ∀ t4, (if strLen sz t3 ≠ strLen sz t2 then fold sz fuel t3 else some t3) = some t4 → WF t4 ∧ Vis t4 := by
      intro t4 h4
      split at h4
      · exact ⟨fold_wf sz fuel t3 t4 w3 h4, ih t3 t4 w3 v3 h4⟩
      · simp at h4; rw [← h4]; exact ⟨w3, v3⟩
    generalize (if strLen sz t3 ≠ strLen sz t2 then fold sz fuel t3 else some t3) = o at *
    cases o with
    | none => simp at h
    | some t4 =>
      obtain ⟨w4, v4⟩ := w4 t4 rfl
      simp only at h
      obtain ⟨t5, b5, h5, g5, h5s⟩ := fold1_good sz t4 w4
      have v5 := fold1_vis sz t4 w4 v4 h5
      simp only [h5] at h
      split at h
      · exact ih t5 t' g5.wf v5 h
      · cases b5 with
        | false => simp at h
        | true => simp at h; rw [← h]; exact v5

omit [DecidableEq α] in
theorem treeSort_vis (h : α → Nat) (t : PT α) (hv : Vis t) : Vis (treeSort h t) := by
  induction t using PT.induct with
  | leaf l => simpa [treeSort]
  | node op cs ih =>
    have hL : ∀ c ∈ treeSortL h cs, Vis c := by
      rw [treeSortL_eq]; intro c hc
      obtain ⟨d, hd, rfl⟩ := List.mem_map.1 hc
      exact ih d hd (hv.children d hd)
    have hlab := treeSort_labels h (.node op cs)
    refine Vis.of ?_ ?_
    · intro e; rw [e] at hlab; exact hv.labels hlab.symm.eq_nil
    · simp only [treeSort]
      split
      · intro c hc; exact hL c (List.mem_mergeSort.1 hc)
      · exact hL

end Verif.PT
