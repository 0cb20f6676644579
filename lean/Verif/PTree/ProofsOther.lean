import Verif.PTree.ProofsFold
/- `structurally_language_equal`, `process_tree_to_binary_process_tree`, `tree_sort`. -/
namespace Verif.PT
open Verif.Lang
variable {α : Type}

/-! ### structurally_language_equal -/

theorem opLang_perm (op : Op) (hop : op = .par ∨ op = .xor ∨ op = .or) {Ls Ms : List (Lang α)}
    (h : Ls.Perm Ms) : opLang op Ls = opLang op Ms := by
  rcases hop with rfl | rfl | rfl
  · exact parL_perm h
  · exact xorL_perm h
  · exact orL_perm h

theorem sle_sound [DecidableEq α] (t1 : PT α) : ∀ t2, WF t1 → WF t2 → sle t1 t2 = true → lang t1 = lang t2 := by
  induction t1 using PT.induct with
  | leaf l =>
    intro t2 _ hw2 h
    cases l with
    | none =>
      cases t2 with
      | leaf m => cases m <;> simp_all [sle, label, children]
      | node op cs => cases hw2; simp_all [sle, label, children]
    | some a =>
      cases t2 with
      | leaf m => simp only [sle, label] at h; rw [of_decide_eq_true h]
      | node op cs => simp [sle, label] at h
  | node op cs ih =>
    intro t2 hw1 hw2 h
    have hne : cs.isEmpty = false := by have := hw1.children_ne; cases cs <;> simp_all
    rw [sle] at h
    simp only [hne, Bool.false_eq_true, if_false] at h
    cases t2 with
    | leaf m => simp [operator] at h
    | node op2 ds =>
      simp only [operator, children, Option.some.injEq] at h
      by_cases ho : op2 = op
      · subst ho
        simp only [if_true] at h
        by_cases hlen : cs.length = ds.length
        case neg => simp [hlen] at h
        · simp only [hlen, ne_eq, not_true_eq_false, if_false] at h
          have hw1c := hw1.children_wf
          have hw2c := hw2.children_wf
          rw [lang_node, lang_node]
          by_cases h1 : op2 = .seq ∨ op2 = .loop
          · rw [if_pos h1] at h
            congr 1
            clear hne hw1 hw2
            induction cs generalizing ds with
            | nil => cases ds <;> simp_all
            | cons c cs ihc =>
              cases ds with
              | nil => simp at hlen
              | cons d ds =>
                simp only [slePairs, Bool.and_eq_true] at h
                simp only [List.map_cons]
                rw [ih c (by simp) d (hw1c c (by simp)) (hw2c d (by simp)) h.1]
                rw [ihc (fun e he => ih e (by simp [he])) ds (by simpa using hlen) h.2
                  (fun e he => hw1c e (by simp [he])) (fun e he => hw2c e (by simp [he]))]
          · rw [if_neg h1] at h
            by_cases h2 : op2 = .par ∨ op2 = .xor ∨ op2 = .or
            · rw [if_pos h2] at h
              apply opLang_perm op2 h2
              clear hne hw1 hw2
              -- every step removes exactly one element
              have key : ∀ (cs rest : List (PT α)), (∀ c ∈ cs, ∀ t2, WF c → WF t2 → sle c t2 = true → lang c = lang t2) →
                  (∀ c ∈ cs, WF c) → (∀ c ∈ rest, WF c) → rest.length ≤ (sleMatch cs rest).length + cs.length ∧
                  (rest.length = (sleMatch cs rest).length + cs.length →
                    (rest.map lang).Perm (cs.map lang ++ (sleMatch cs rest).map lang)) := by
                intro cs
                induction cs with
                | nil => intro rest _ _ _; simp [sleMatch]
                | cons c cs ihc =>
                  intro rest h1 h2 h3
                  simp only [sleMatch]
                  by_cases hex : ∃ d ∈ rest, sle c d = true
                  · obtain ⟨d, hd, hsle⟩ := hex
                    obtain ⟨a, l1, l2, _, hp, hl, he⟩ := List.exists_of_eraseP (p := fun d => sle c d) hd hsle
                    rw [he]
                    have hr : ∀ e ∈ l1 ++ l2, WF e := fun e he => h3 e (by rw [hl]; simp at he ⊢; grind)
                    obtain ⟨h4, h5⟩ := ihc (l1 ++ l2) (fun e he => h1 e (by simp [he])) (fun e he => h2 e (by simp [he])) hr
                    have hlen : rest.length = (l1 ++ l2).length + 1 := by rw [hl]; simp; omega
                    refine ⟨by simp only [List.length_cons]; omega, fun h6 => ?_⟩
                    have h7 := h5 (by simp only [List.length_cons] at h6; omega)
                    have hca : lang c = lang a :=
                      h1 c (by simp) a (h2 c (by simp)) (h3 a (by rw [hl]; simp)) hp
                    rw [hl]
                    simp only [List.map_append, List.map_cons, List.cons_append, hca] at h7 ⊢
                    exact (List.perm_middle).trans (h7.cons _)
                  · have he : rest.eraseP (fun d => sle c d) = rest := by
                      apply List.eraseP_of_forall_not
                      intro d hd hcon
                      exact hex ⟨d, hd, hcon⟩
                    rw [he]
                    obtain ⟨h4, _⟩ := ihc rest (fun e he => h1 e (by simp [he])) (fun e he => h2 e (by simp [he])) h3
                    refine ⟨by simp only [List.length_cons]; omega, fun h6 => ?_⟩
                    simp only [List.length_cons] at h6; omega
              have hm : sleMatch cs ds = [] := by simpa using h
              obtain ⟨_, h4⟩ := key cs ds ih hw1c hw2c
              rw [hm] at h4
              simpa using (h4 (by simp [hlen])).symm
            · rw [if_neg h2] at h; simp at h
      · simp [ho] at h

/-! ### process_tree_to_binary_process_tree -/

theorem binariseNode_arity (op : Op) (cs : List (PT α)) (ih : ∀ c ∈ cs, MaxArity 2 (binarise c)) :
    MaxArity 2 (binariseNode op cs) := by
  induction cs generalizing op with
  | nil => simp only [binariseNode]; exact .node _ _ (by simp) (by simp)
  | cons a cs ihc =>
    match cs with
    | [] => simp only [binariseNode]; exact .node _ _ (by simp) (by simpa using ih)
    | [b] => simp only [binariseNode]; exact .node _ _ (by simp) (by simpa using ih)
    | b :: c :: rest =>
      simp only [binariseNode]
      refine .node _ _ (by simp) ?_
      intro d hd
      simp at hd
      rcases hd with rfl | rfl
      · exact ih a (by simp)
      · exact ihc _ (fun e he => ih e (by simp only [List.mem_cons] at he ⊢; exact .inr he))

theorem binarise_arity (t : PT α) : MaxArity 2 (binarise t) := by
  induction t using PT.induct with
  | leaf l => simp only [binarise]; exact .leaf l
  | node op cs ih => simp only [binarise]; exact binariseNode_arity op cs ih

theorem opLang_right (op : Op) (hop : op ≠ .inter) (L : Lang α) (Ls : List (Lang α)) :
    opLang op [L, opLang (rightOp op) Ls] = opLang op (L :: Ls) := by
  cases op with
  | seq => simp [opLang, rightOp, seqL, cat_eps_right]
  | xor => have := xorL_flatten [L] [] Ls; simpa [opLang, rightOp] using this
  | par => simp [opLang, rightOp, parL, shuf_eps_right]
  | loop => simp [opLang, rightOp, loopL_xor]
  | or => exact (orL_of_or L Ls).symm
  | inter => exact absurd rfl hop

theorem rightOp_ne (op : Op) (hop : op ≠ .inter) : rightOp op ≠ .inter := by
  cases op <;> simp_all [rightOp]

theorem binariseNode_lang (op : Op) (hop : op ≠ .inter) (cs : List (PT α))
    (ih : ∀ c ∈ cs, lang (binarise c) = lang c) : lang (binariseNode op cs) = opLang op (cs.map lang) := by
  induction cs generalizing op with
  | nil => simp [binariseNode, lang_node]
  | cons a cs ihc =>
    match cs with
    | [] => simp [binariseNode, lang_node, ih a (by simp)]
    | [b] => simp [binariseNode, lang_node, ih a (by simp), ih b (by simp)]
    | b :: c :: rest =>
      simp only [binariseNode, lang_node, List.map_cons, List.map_nil]
      rw [ihc _ (rightOp_ne op hop) (fun e he => ih e (by simp only [List.mem_cons] at he ⊢; exact .inr he)),
        ih a (by simp), opLang_right op hop]
      rfl

theorem binarise_lang (t : PT α) (h : OpFree .inter t) : lang (binarise t) = lang t := by
  induction t using PT.induct with
  | leaf l => simp [binarise]
  | node op cs ih =>
    cases h with
    | node _ _ hop hcs =>
      simp only [binarise]
      rw [binariseNode_lang op hop cs (fun c hc => ih c hc (hcs c hc)), lang_node]

/-! ### tree_sort -/

theorem treeSortL_eq (h : α → Nat) (cs : List (PT α)) : treeSortL h cs = cs.map (treeSort h) := by
  induction cs with
  | nil => simp [treeSortL]
  | cons c cs ih => simp [treeSortL, ih]

theorem treeSort_lang (h : α → Nat) (t : PT α) : lang (treeSort h t) = lang t := by
  induction t using PT.induct with
  | leaf l => simp [treeSort]
  | node op cs ih =>
    simp only [treeSort]
    have h1 : (treeSortL h cs).map lang = cs.map lang := by
      rw [treeSortL_eq, List.map_map]
      exact List.map_congr_left ih
    split
    · rename_i hop
      rw [lang_node, lang_node, ← h1]
      exact opLang_perm op (by rcases hop with h | h <;> simp [h]) ((List.mergeSort_perm _ _).map lang)
    · rw [lang_node, lang_node, h1]

theorem treeSort_labels (h : α → Nat) (t : PT α) : (labels (treeSort h t)).Perm (labels t) := by
  induction t using PT.induct with
  | leaf l => simp [treeSort]
  | node op cs ih =>
    simp only [treeSort]
    have h1 : ((treeSortL h cs).flatMap labels).Perm (cs.flatMap labels) := by
      rw [treeSortL_eq]
      induction cs with
      | nil => simp
      | cons c cs ihc =>
        simp only [List.map_cons, List.flatMap_cons]
        exact (ih c (by simp)).append (ihc (fun d hd => ih d (by simp [hd])))
    split
    · rw [labels_node, labels_node]
      exact ((List.mergeSort_perm _ _).flatMap_right labels).trans h1
    · rw [labels_node, labels_node]; exact h1

theorem treeSort_wf (h : α → Nat) (t : PT α) (hw : WF t) : WF (treeSort h t) := by
  induction t using PT.induct with
  | leaf l => simpa [treeSort]
  | node op cs ih =>
    simp only [treeSort]
    have hL : ∀ c ∈ treeSortL h cs, WF c := by
      rw [treeSortL_eq]; intro c hc
      obtain ⟨d, hd, rfl⟩ := List.mem_map.1 hc
      exact ih d hd (hw.children_wf d hd)
    have hne : treeSortL h cs ≠ [] := by
      rw [treeSortL_eq]; simpa using hw.children_ne
    split
    · refine .node _ _ ?_ ?_
      · intro hc
        apply hne
        have := (List.mergeSort_perm (treeSortL h cs) (fun x y => decide (hashSum h x ≤ hashSum h y))).symm
        rw [hc] at this
        exact this.eq_nil
      · intro c hc; exact hL c (List.mem_mergeSort.1 hc)
    · exact .node _ _ hne hL

theorem sleMatch_self [DecidableEq α] (cs : List (PT α)) (h : ∀ c ∈ cs, sle c c = true) : sleMatch cs cs = [] := by
  induction cs with
  | nil => simp [sleMatch]
  | cons c cs ih =>
    rw [sleMatch, List.eraseP_cons_of_pos (by exact h c (by simp))]
    exact ih fun d hd => h d (by simp [hd])

theorem slePairs_self [DecidableEq α] (cs : List (PT α)) (h : ∀ c ∈ cs, sle c c = true) : slePairs cs cs = true := by
  induction cs with
  | nil => simp [slePairs]
  | cons c cs ih =>
    rw [slePairs, h c (by simp), ih fun d hd => h d (by simp [hd])]; rfl

theorem sle_refl [DecidableEq α] (t : PT α) (h : OpFree .inter t) : sle t t = true := by
  induction t using PT.induct with
  | leaf l => cases l <;> simp [sle, label, children]
  | node op cs ih =>
    cases h with
    | node _ _ hop hcs =>
      have ih' : ∀ c ∈ cs, sle c c = true := fun c hc => ih c hc (hcs c hc)
      rw [sle]
      by_cases hn : cs = []
      · simp [hn, label, children]
      · cases op <;> simp_all [sleMatch_self cs ih', slePairs_self cs ih', operator, children, label]

end Verif.PT
