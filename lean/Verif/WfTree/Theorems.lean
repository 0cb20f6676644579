import Verif.WfTree.WfCheck
import Verif.PTree.Theorems
/-
C53: the process tree has the language of the workflow net.
-/
set_option linter.unusedSectionVars false
namespace Verif.WfTree
open Classical
variable {α : Type}

/-- the pairs that are tested are pairs of transitions of the net -/
def Env.OrdOk (e : Env α) : Prop := ∀ N, ∀ x ∈ e.ord N, x.1 ∈ N.trs ∧ x.2 ∈ N.trs

/-- C53: the loop ends within the number of transitions and places, for any net that passed the check: `group_blocks_in_net` only fails
because of the check -/
theorem _root_.Verif.C53_terminates (e : Env α) (hS : StrongSpec e.strong) (ho : e.OrdOk) {net : Net Nat Nat} (W : Plain net) (hN : DistinctNames net e.name)
    (lab : Nat → Option α) : (groupNet e (ofNet net lab)).isSome = true ↔ ∃ i o, IsWorkflowNet net i o := by
  rw [← C53_check W lab hS hN]
  unfold groupNet
  constructor
  · intro h
    split at h
    · assumption
    · cases h
  · intro h
    rw [if_pos h]
    obtain ⟨i, o, hw⟩ := (C53_check W lab hS hN).1 h
    by_cases h1 : net.transitions.length ≤ 1
    · have : (ofNet net lab).trs.length ≤ 1 := by simpa [ofNet] using h1
      generalize (ofNet net lab).trs.length + (ofNet net lab).places.length = n
      cases n <;> simp [groupLoop, this]
    · obtain ⟨I, G⟩ := wf_inv W lab (by rintro h; simp [h] at h1) hw
      obtain ⟨g, hg, _⟩ := groupLoop_ok (A := toA (ofNet net lab)) (i := i) (o := o) (ord := e.ord) ho (ofNet net lab).places
        ((ofNet net lab).trs.length + (ofNet net lab).places.length) (ofNet net lab) ⟨I, fun h => absurd h (by simp [ofNet]; omega), .inl ⟨G, .refl _ _ _⟩⟩
        I.plt (Nat.add_le_add_left (List.length_filter_le _ _) _)
      rw [hg]; rfl

/-- what the conversion does after the loop -/
theorem convert_some [DecidableEq α] {e : Env α} {net : Net Nat Nat} {lab : Nat → Option α} {T : PT α} (h : convert e net lab = some T) :
    ∃ g t, groupNet e (ofNet net lab) = some g ∧ g.trs = [t] ∧ (t.comp = true → PT.WF t.tree → PT.LangEq T t.tree) := by
  unfold convert at h
  split at h
  · cases h
  · rename_i g hg
    split at h
    · rename_i t ht
      refine ⟨g, t, hg, ht, fun hc hwf => ?_⟩
      rw [if_pos hc] at h
      simp only at h
      split at h
      · cases h
      · rename_i r hr
        cases h
        have : PT.LangEq r t.tree := by
          split at hr
          · obtain ⟨t', h1, h2, _⟩ := C10_fold e.sz t.tree hwf _ (Nat.lt_succ_self _)
            rw [h1] at hr; cases hr; exact h2
          · cases hr; exact fun _ => Iff.rfl
        exact fun w => ((C10_tree_sort e.hash r).1 w).trans (this w)
    · cases h

theorem convert_of [DecidableEq α] {e : Env α} {net : Net Nat Nat} {lab : Nat → Option α} {g : WN α} {t : WT α} (hg : groupNet e (ofNet net lab) = some g)
    (ht : g.trs = [t]) (hc : t.comp = true) (hw : PT.WF t.tree) : ∃ T, convert e net lab = some T ∧ PT.LangEq T t.tree := by
  have : ∃ r, (if e.doFold then PT.fold e.sz (PT.strLen e.sz t.tree + 1) t.tree else some t.tree) = some r ∧ PT.LangEq r t.tree := by
    split
    · obtain ⟨t', h1, h2, _⟩ := C10_fold e.sz t.tree hw _ (Nat.lt_succ_self _)
      exact ⟨t', h1, h2⟩
    · exact ⟨_, rfl, fun _ => Iff.rfl⟩
  obtain ⟨r, h1, h2⟩ := this
  refine ⟨PT.treeSort e.hash r, ?_, fun w => ((C10_tree_sort e.hash r).1 w).trans (h2 w)⟩
  unfold convert
  rw [hg]
  simp only [ht, if_pos hc, h1]

theorem convert_st [DecidableEq α] (e : Env α) (hS : StrongSpec e.strong) (ho : e.OrdOk) {net : Net Nat Nat} (W : Plain net) (hN : DistinctNames net e.name)
    (lab : Nat → Option α) (h2 : 2 ≤ net.transitions.length) {g : WN α} (hg : groupNet e (ofNet net lab) = some g) :
    ∃ i o, IsWorkflowNet net i o ∧ St (toA (ofNet net lab)) g i o := by
  obtain ⟨i, o, hw⟩ := (C53_terminates e hS ho W hN lab).1 (by rw [hg]; rfl)
  obtain ⟨I, G⟩ := wf_inv W lab (by rintro h; simp [h] at h2) hw
  obtain ⟨g', hg', S⟩ := groupLoop_ok (A := toA (ofNet net lab)) (i := i) (o := o) (ord := e.ord) ho (ofNet net lab).places
    ((ofNet net lab).trs.length + (ofNet net lab).places.length) (ofNet net lab) ⟨I, fun h => absurd h (by simp [ofNet]; omega), .inl ⟨G, .refl _ _ _⟩⟩
    I.plt (Nat.add_le_add_left (List.length_filter_le _ _) _)
  have := (C53_check W lab hS hN).2 ⟨i, o, hw⟩
  unfold groupNet at hg
  rw [if_pos this, hg'] at hg
  cases hg
  exact ⟨i, o, hw, S⟩

/-- C53: if the conversion returns a tree for a net with at least two transitions, the net is a workflow net, and if it has a complete run
from its source place to its sink place, the traces of the tree are exactly the traces of the net -/
theorem _root_.Verif.C53_language [DecidableEq α] (e : Env α) (hS : StrongSpec e.strong) (ho : e.OrdOk) {net : Net Nat Nat} (W : Plain net)
    (hN : DistinctNames net e.name) (lab : Nat → Option α) (h2 : 2 ≤ net.transitions.length) {T : PT α} (h : convert e net lab = some T) :
    ∃ i o, IsWorkflowNet net i o ∧
      ((∃ w, net.Accepts lab [(i, 1)] [(o, 1)] w) → ∀ w, T.lang w ↔ net.Accepts lab [(i, 1)] [(o, 1)] w) := by
  obtain ⟨g, t, hg, ht, hl⟩ := convert_some h
  obtain ⟨i, o, hw, S⟩ := convert_st e hS ho W hN lab h2 hg
  refine ⟨i, o, hw, ?_⟩
  rintro ⟨w0, h0⟩ w
  obtain ⟨a, b, c⟩ := final_ok S ht w0 ((accepts_iff W lab i o w0).1 h0)
  rw [accepts_iff W lab i o w, c w]
  exact hl a b w

/-- C53: if the conversion returns a tree, no marking the net can reach from its source place has two tokens in a place -/
theorem _root_.Verif.C53_safe [DecidableEq α] (e : Env α) (hS : StrongSpec e.strong) (ho : e.OrdOk) {net : Net Nat Nat} (W : Plain net)
    (hN : DistinctNames net e.name) (lab : Nat → Option α) (h2 : 2 ≤ net.transitions.length) {T : PT α} (h : convert e net lab = some T)
    {i o : Nat} (hw : IsWorkflowNet net i o) {ts : List Nat} {m : Marking Nat} (hm : net.FiringSequence [(i, 1)] ts m) (p : Nat) : Dict.count m p ≤ 1 := by
  obtain ⟨g, t, hg, ht, hl⟩ := convert_some h
  obtain ⟨i', o', hw', S⟩ := convert_st e hS ho W hN lab h2 hg
  have : i = i' := (hw'.source i).1 ((hw.source i).2 rfl)
  subst this
  have hmem : t ∈ g.trs := by simp [ht]
  rcases S.st with ⟨G, R⟩ | ⟨q, B⟩
  · have hT : ∀ x, (toA g).T x ↔ x = t.id := by
      intro x
      simp only [toA, ht, List.mem_singleton, exists_eq_left]
      exact eq_comm
    have hne : ∃ p, (toA g).pre t.id p := by
      obtain ⟨p, hp⟩ := List.exists_mem_of_ne_nil _ (S.inv.nePre t hmem)
      exact ⟨p, (toA_pre S.inv.nodup hmem p).2 hp⟩
    have hq : ¬ (toA g).post t.id i := by rw [toA_post S.inv.nodup hmem]; exact S.inv.iprod t hmem
    have hsafe := (R (single_safe hT hne hq)).1
    obtain ⟨M', h1, h3, _⟩ := fs_seq W lab (count_one W i) (pos_one W i) hm
    have hr := run_of_fs (A := toA (ofNet net lab)) (word := fun t => (lab t).toList)
      (fun t ht w => ofNet_L W lab ((ofNet_T W lab t).1 ht) w) (fun t => by cases lab t <;> simp) h1
    have := (hsafe _ ⟨_, hr.mono fun _ _ _ s => stepH_free s⟩).one p
    rw [h3 p]
    exact_mod_cast this
  · exact absurd (by simp [ht]) (B.not_single S.inv)

end Verif.WfTree
