import Verif.Inductive.Theorems
/-
Trees discovered by the inductive miner only have the operators sequence, exclusive choice, parallel and loop (used for C72).
-/
set_option linter.unusedSectionVars false
namespace Verif
namespace PT
variable {α : Type} {o : Op}

theorem OpFree.op {op : Op} {cs : List (PT α)} (h : OpFree o (.node op cs)) : op ≠ o := by cases h; assumption
theorem OpFree.kids {op : Op} {cs : List (PT α)} (h : OpFree o (.node op cs)) : ∀ c ∈ cs, OpFree o c := by cases h; assumption

theorem opFree_children {t : PT α} (h : OpFree o t) : ∀ c ∈ children t, OpFree o c := by
  cases t with
  | leaf l => simp [children]
  | node op cs => simpa [children] using h.kids

variable [DecidableEq α]

theorem opFree_reduceTau (t : PT α) (h : OpFree o t) : OpFree o (reduceTau t) := by
  induction t using PT.induct with
  | leaf l => rw [reduceTau_leaf]; exact h
  | node op cs ih =>
    rw [reduceTau_node]
    refine .node _ _ h.op fun c hc => ?_
    have := (tauChildren_sublist op (cs.map reduceTau)).subset hc
    obtain ⟨d, hd, rfl⟩ := List.mem_map.1 this
    exact ih d hd (h.kids d hd)

theorem opFree_spliceOne {l : List (PT α)} {c : PT α} (hl : ∀ d ∈ l, OpFree o d) (hc : OpFree o c) : ∀ d ∈ spliceOne l c, OpFree o d := by
  intro d hd
  unfold spliceOne at hd
  have hd := (pyRemove_sublist _ _).subset hd
  rw [List.mem_append, List.mem_append] at hd
  rcases hd with (hd | hd) | hd
  · exact hl d (List.mem_of_mem_take hd)
  · exact opFree_children hc d hd
  · exact hl d (List.mem_of_mem_drop hd)

theorem opFree_spliceSame {op : Op} {l : List (PT α)} (hl : ∀ d ∈ l, OpFree o d) : ∀ d ∈ spliceSame op l, OpFree o d := by
  unfold spliceSame
  have key : ∀ (m acc : List (PT α)), (∀ d ∈ m, OpFree o d) → (∀ d ∈ acc, OpFree o d) →
      ∀ d ∈ m.foldl (fun acc c => if operator c = some op then spliceOne acc c else acc) acc, OpFree o d := by
    intro m
    induction m with
    | nil => intro acc _ h; simpa using h
    | cons c m ih =>
      intro acc hm hacc
      rw [List.foldl_cons]
      refine ih _ (fun d hd => hm d (by simp [hd])) ?_
      split
      · exact opFree_spliceOne hacc (hm c (by simp))
      · exact hacc
  exact key l l hl hl

theorem opFree_foldNode {op : Op} {cs : List (PT α)} (hop : op ≠ o) (hl : ∀ d ∈ cs, OpFree o d) {r : PT α × Bool} (h : foldNode op cs = some r) :
    OpFree o r.1 := by
  unfold foldNode at h
  split at h
  · cases h
  · cases h; exact hl _ (by simp)
  · have h1 : ∀ d ∈ (if op = .seq ∨ op = .par then cs.filter (fun c => !isTau c) else cs), OpFree o d := by
      intro d hd
      split at hd
      · exact hl d (List.mem_filter.1 hd).1
      · exact hl d hd
    simp only at h
    generalize (if op = .seq ∨ op = .par then cs.filter (fun c => !isTau c) else cs) = cs1 at h h1
    split at h
    · cases h; exact .leaf _
    · split at h
      · cases h; exact .node _ _ hop (opFree_spliceSame h1)
      · cases h; exact .node _ _ hop h1

theorem opFree_fold1 : ∀ (n : Nat) (t : PT α), size t ≤ n → OpFree o t → ∀ r, fold1 t = some r → OpFree o r.1 := by
  intro n
  induction n with
  | zero =>
    intro t ht
    cases t with
    | leaf l => simp [size] at ht
    | node op cs => rw [size_node] at ht; omega
  | succ n ih =>
    intro t ht hf r hr
    have hrt := opFree_reduceTau t hf
    have hsz := size_reduceTau t
    rw [fold1] at hr
    split at hr
    · cases hr; exact .leaf _
    · next op h =>
      cases hr
      rw [h] at hrt; exact hrt
    · next op c cs h =>
      rw [h] at hrt hsz
      refine opFree_foldNode hrt.op ?_ hr
      intro d hd
      obtain ⟨x, hx, e⟩ := List.mem_filterMap.1 hd
      obtain ⟨y, hy, rfl⟩ := List.mem_map.1 hx
      rw [Option.map_eq_some_iff] at e
      obtain ⟨r', hr', rfl⟩ := e
      have h2 := size_lt_of_mem y.2
      rw [size_node] at hsz
      exact ih y.1 (by omega) (hrt.kids _ y.2) r' hr'

omit [DecidableEq α] in
theorem opFree_stripRoot (t : PT α) (h : OpFree o t) : OpFree o (stripRoot t) := by
  fun_induction stripRoot t with
  | case1 op c ih => exact ih (h.kids c (by simp))
  | case2 t _ => exact h

theorem opFree_fold (sz : α → Nat) : ∀ (n : Nat) (t t' : PT α), OpFree o t → fold sz n t = some t' → OpFree o t' := by
  intro n
  induction n with
  | zero => intro t t' _ h; cases h
  | succ n ih =>
    intro t t' hf h
    unfold fold at h
    split at h
    · cases h
    · next t1 b h1 =>
      have f1 := opFree_fold1 _ t (Nat.le_refl _) hf _ h1
      have f3 := opFree_reduceTau _ (opFree_stripRoot _ f1)
      simp only at h
      split at h
      · cases h
      · next t4 h4 =>
        have f4 : OpFree o t4 := by
          split at h4
          · exact ih _ _ f3 h4
          · cases h4; exact f3
        split at h
        · cases h
        · next t5 same h5 =>
          have f5 := opFree_fold1 _ t4 (Nat.le_refl _) f4 _ h5
          split at h
          · exact ih _ _ f5 h
          · split at h
            · cases h; exact f5
            · cases h

omit [DecidableEq α] in
theorem treeSortL_map (h : α → Nat) (cs : List (PT α)) : treeSortL h cs = cs.map (treeSort h) := by
  induction cs with
  | nil => simp [treeSortL]
  | cons c cs ih => simp [treeSortL, ih]

omit [DecidableEq α] in
theorem opFree_treeSort (h : α → Nat) (t : PT α) (hf : OpFree o t) : OpFree o (treeSort h t) := by
  induction t using PT.induct with
  | leaf l => simp only [treeSort]; exact .leaf _
  | node op cs ih =>
    have : ∀ c ∈ treeSortL h cs, OpFree o c := by
      intro c hc
      rw [treeSortL_map] at hc
      obtain ⟨d, hd, rfl⟩ := List.mem_map.1 hc
      exact ih d hd (hf.kids d hd)
    simp only [treeSort]
    split
    · exact .node _ _ hf.op fun c hc => this c ((List.mergeSort_perm _ _).mem_iff.1 hc)
    · exact .node _ _ hf.op this

omit [DecidableEq α] in
theorem opFree_of_sort (h : α → Nat) {t : PT α} (hf : OpFree o (treeSort h t)) : OpFree o t := by
  induction t using PT.induct with
  | leaf l => exact .leaf _
  | node op cs ih =>
    have hk : op ≠ o ∧ ∀ c ∈ cs.map (treeSort h), OpFree o c := by
      simp only [treeSort, treeSortL_map] at hf
      split at hf
      · exact ⟨hf.op, fun c hc => hf.kids c ((List.mergeSort_perm _ _).mem_iff.2 hc)⟩
      · exact ⟨hf.op, hf.kids⟩
    exact .node _ _ hk.1 fun c hc => ih c hc (hk.2 _ (List.mem_map.2 ⟨c, hc, rfl⟩))

end PT

namespace IM
open PT
variable {α : Type} [DecidableEq α]

/-- the operator of the step is not `o` -/
def Step.Not (o : Op) : Step α → Prop
  | .node op _ => op ≠ some o
  | .error => True

def Basic (o : Op) : Prop := o = .or ∨ o = .inter

theorem not_empty {o : Op} (ho : Basic o) {L : UVCL α} {r : Step α} (h : emptyTraces L = some r) : r.Not o := by
  unfold emptyTraces at h
  split at h
  · simp only at h
    split at h <;> cases h
    · rcases ho with rfl | rfl <;> simp [Step.Not]
    · simp [Step.Not]
  · cases h

theorem not_cut {o : Op} (ho : Basic o) {env : Env α} {L : UVCL α} {r : Step α} (h : findCut env L = some r) : r.Not o := by
  unfold findCut at h
  simp only at h
  split at h
  · cases h; rcases ho with rfl | rfl <;> simp [Step.Not]
  · split at h
    · cases h; rcases ho with rfl | rfl <;> simp [Step.Not]
    · split at h
      · cases h; rcases ho with rfl | rfl <;> simp [Step.Not]
      · split at h
        · split at h
          · cases h; rcases ho with rfl | rfl <;> simp [Step.Not]
          · cases h; trivial
        · cases h

theorem not_tauLoop {o : Op} (ho : Basic o) {cut : α → α → Bool} {L : UVCL α} {r : Step α} (h : tauLoop cut L = some r) : r.Not o := by
  unfold tauLoop at h
  simp only at h
  split at h
  · cases h; rcases ho with rfl | rfl <;> simp [Step.Not]
  · cases h

theorem not_fall {o : Op} (ho : Basic o) (env : Env α) (L : UVCL α) : (fallThrough env L).Not o := by
  have hs : ∀ c, (splitOff L c).Not o := by intro c; rcases ho with rfl | rfl <;> simp [Step.Not, splitOff]
  have hf : (flower env L).Not o := by rcases ho with rfl | rfl <;> simp [Step.Not, flower]
  unfold fallThrough
  split
  · next r h => exact not_empty ho h
  · split
    · split
      · exact hs _
      · split
        · exact hs _
        · split
          · next r h => exact not_tauLoop ho h
          · split
            · next r h => exact not_tauLoop ho h
            · exact hf
    · exact hf

theorem mapAll_mem {β γ : Type} {f : β → Option γ} : ∀ {l : List β} {r : List γ}, mapAll f l = some r → ∀ c ∈ r, ∃ b ∈ l, f b = some c := by
  intro l
  induction l with
  | nil => intro r h c hc; cases h; simp at hc
  | cons b bs ih =>
    intro r h c hc
    unfold mapAll at h
    split at h
    · next x xs h1 h2 =>
      cases h
      rcases List.mem_cons.1 hc with rfl | hc
      · exact ⟨b, by simp, h1⟩
      · obtain ⟨b', hb', e⟩ := ih h2 c hc
        exact ⟨b', by simp [hb'], e⟩
    · cases h

theorem opFree_recurse {o : Op} {f : UVCL α → Option (PT α)} (hf : ∀ L t, f L = some t → OpFree o t) {r : Step α} (hr : r.Not o) {t : PT α}
    (h : recurse f r = some t) : OpFree o t := by
  cases r with
  | error => cases h
  | node op logs =>
    simp only [recurse, Option.map_eq_some_iff] at h
    obtain ⟨cs, hcs, rfl⟩ := h
    cases op with
    | none => exact .leaf _
    | some p =>
      refine .node _ _ (fun e => hr (by rw [e])) fun c hc => ?_
      obtain ⟨L, _, e⟩ := mapAll_mem hcs c hc
      exact hf L c e

theorem opFree_im {o : Op} (ho : Basic o) (env : Env α) : ∀ (n : Nat) (L : UVCL α) (t : PT α), im env n L = some t → OpFree o t := by
  intro n
  induction n with
  | zero => intro L t h; cases h
  | succ n ih =>
    intro L t h
    unfold im at h
    split at h
    · next r hr => exact opFree_recurse ih (not_empty ho hr) h
    · split at h
      · next t' ht =>
        cases h
        unfold baseCase at ht
        split at ht <;> cases ht <;> exact .leaf _
      · refine opFree_recurse ih ?_ h
        unfold cutOrFall
        split
        · next r hr => exact not_cut ho hr
        · exact not_fall ho env L

/-- discovered trees contain no inclusive choice and no interleaving -/
theorem opFree_discover {o : Op} (ho : Basic o) (env : Env α) (h sz : α → Nat) (n : Nat) (log : List (List α)) (t : PT α)
    (ht : discover env h sz n log = some t) : OpFree o t := by
  unfold discover at ht
  split at ht
  · cases ht
  · next t0 h0 =>
    rw [Option.map_eq_some_iff] at ht
    obtain ⟨t1, h1, rfl⟩ := ht
    exact opFree_treeSort h _ (opFree_fold sz n t0 t1 (opFree_im ho env n _ t0 h0) h1)

end IM
end Verif
