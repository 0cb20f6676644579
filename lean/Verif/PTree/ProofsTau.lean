import Verif.PTree.Model
import Verif.PTree.Spec
import Verif.PTree.LangLemmas
/- Language preservation of `reduce_tau_leafs`. -/
namespace Verif.PT
open Verif.Lang
variable {α : Type} [DecidableEq α]

omit [DecidableEq α] in
theorem isTau_iff (t : PT α) : isTau t = true ↔ t = .leaf none := by
  cases t with
  | leaf l => cases l <;> simp [isTau]
  | node op cs => simp [isTau]

omit [DecidableEq α] in
theorem WF.children_ne {op : Op} {cs : List (PT α)} (h : WF (.node op cs)) : cs ≠ [] := by
  cases h; assumption
omit [DecidableEq α] in
theorem WF.children_wf {op : Op} {cs : List (PT α)} (h : WF (.node op cs)) : ∀ c ∈ cs, WF c := by
  cases h; assumption

theorem pyEq_refl (t : PT α) : pyEq t t = true := by
  induction t using PT.induct with
  | leaf l => cases l <;> simp [pyEq, label, children]
  | node op cs ih =>
    have hL : pyEqL cs cs = true := by
      induction cs with
      | nil => simp [pyEqL]
      | cons c cs ihc =>
        simp [pyEqL, ih c (by simp), ihc (fun d hd => ih d (by simp [hd]))]
    cases cs <;> simp [pyEq, label, children, operator, hL]

/-- On well-formed trees `__eq__` is structural equality. -/
theorem pyEq_eq {t u : PT α} (ht : WF t) (hu : WF u) (h : pyEq t u = true) : t = u := by
  induction t using PT.induct generalizing u with
  | leaf l =>
    cases l with
    | none =>
      cases u with
      | leaf m => cases m <;> simp_all [pyEq, label, children]
      | node op cs => cases hu; simp_all [pyEq, label, children]
    | some a =>
      cases u with
      | leaf m => simp only [pyEq, label] at h; rw [of_decide_eq_true h]
      | node op cs => simp_all [pyEq, label]
  | node op cs ih =>
    have hne := ht.children_ne
    have hcs := ht.children_wf
    have hne' : cs.isEmpty = false := by cases cs <;> simp_all
    simp [pyEq, hne'] at h
    cases u with
    | leaf m => simp [operator] at h
    | node op' ds =>
      simp [operator, children] at h
      obtain ⟨rfl, h⟩ := h
      have hds := hu.children_wf
      congr 1
      clear hne hne' ht hu
      induction cs generalizing ds with
      | nil => cases ds with
        | nil => rfl
        | cons d ds => simp [pyEqL] at h
      | cons c cs ihc =>
        cases ds with
        | nil => simp [pyEqL] at h
        | cons d ds =>
          simp [pyEqL] at h
          rw [ih c (by simp) (hcs c (by simp)) (hds d (by simp)) h.1]
          rw [ihc (fun e he => ih e (by simp [he])) (fun e he => hcs e (by simp [he])) ds
            h.2 (fun e he => hds e (by simp [he]))]

theorem pyRemove_split {c : PT α} {l : List (PT α)} (hl : ∀ d ∈ l, WF d) (hc : c ∈ l) :
    ∃ pre post, l = pre ++ c :: post ∧ pyRemove c l = pre ++ post ∧ ∀ d ∈ pre, pyEq d c = false := by
  obtain ⟨a, l1, l2, h1, h2, h3, h4⟩ :=
    List.exists_of_eraseP (p := fun item => pyEq item c) hc (pyEq_refl c)
  have : a = c := pyEq_eq (hl a (by simp [h3])) (hl c hc) h2
  subst this
  exact ⟨l1, l2, h3, h4, fun d hd => by simpa using h1 d hd⟩

theorem removeTausIterating_ind (P : List (PT α) → Prop)
    (hP : ∀ pre post, P (pre ++ .leaf none :: post) → P (pre ++ post)) (n i : Nat)
    (l : List (PT α)) (hl : ∀ d ∈ l, WF d) (h : P l) : P (removeTausIterating n i l) := by
  induction n generalizing i l with
  | zero => simpa [removeTausIterating]
  | succ n ih =>
    simp only [removeTausIterating]
    split
    · exact h
    · rename_i c hc
      split
      · rename_i htau
        rw [isTau_iff] at htau
        subst htau
        obtain ⟨pre, post, h1, h2, _⟩ := pyRemove_split hl (List.mem_of_getElem? hc)
        rw [h2]
        apply ih
        · intro d hd; apply hl; rw [h1]
          simp at hd ⊢; rcases hd with hd | hd <;> simp [hd]
        · apply hP; rw [← h1]; exact h
      · exact ih _ _ hl h

theorem removeTausButOne_ind (P : List (PT α) → Prop)
    (hP : ∀ pre post, P (pre ++ .leaf none :: post) → .leaf none ∈ pre ++ post → P (pre ++ post)) (n : Nat)
    (l : List (PT α)) (hl : ∀ d ∈ l, WF d) (hn : n ≤ l.countP isTau) (h : P l) :
    P (removeTausButOne n l) := by
  fun_induction removeTausButOne n l with
  | case1 => exact h
  | case2 => exact h
  | case3 n l ih =>
    have h0 : (.leaf none : PT α) ∈ l := by
      have : 0 < l.countP isTau := by omega
      rw [List.countP_pos_iff] at this
      obtain ⟨a, ha, hat⟩ := this
      rw [isTau_iff] at hat; subst hat; exact ha
    have hfind : l.find? isTau = some (.leaf none) := by
      have : (l.find? isTau).isSome := by
        rw [List.find?_isSome]; exact ⟨_, h0, rfl⟩
      rw [Option.isSome_iff_exists] at this
      obtain ⟨a, ha⟩ := this
      have := List.find?_some ha
      rw [isTau_iff] at this
      rw [ha, this]
    have hr : removeOneTau l = pyRemove (.leaf none) l := by
      simp [removeOneTau, hfind]
    obtain ⟨pre, post, h1, h2, _⟩ := pyRemove_split hl h0
    rw [hr, h2] at ih
    rw [hr, h2]
    have hcnt : (pre ++ post).countP isTau + 1 = l.countP isTau := by
      rw [h1]; simp [List.countP_append, List.countP_cons, isTau]; omega
    apply ih
    · intro d hd; apply hl; rw [h1]
      simp at hd ⊢; rcases hd with hd | hd <;> simp [hd]
    · omega
    · apply hP
      · rw [← h1]; exact h
      · have : 0 < (pre ++ post).countP isTau := by omega
        rw [List.countP_pos_iff] at this
        obtain ⟨a, ha, hat⟩ := this
        rw [isTau_iff] at hat; subst hat; exact ha

omit [DecidableEq α] in
theorem opLang_drop (op : Op) (hop : op = .seq ∨ op = .par) (pre post : List (PT α)) :
    opLang op ((pre ++ .leaf none :: post).map lang) = opLang op ((pre ++ post).map lang) := by
  rcases hop with rfl | rfl
  · simp [opLang, seqL_drop_eps]
  · simp [opLang, parL_drop_eps]

omit [DecidableEq α] in
theorem opLang_drop' (op : Op) (hop : op = .seq ∨ op = .par ∨ op = .xor ∨ op = .or)
    (pre post : List (PT α)) (h : .leaf none ∈ pre ++ post) :
    opLang op ((pre ++ .leaf none :: post).map lang) = opLang op ((pre ++ post).map lang) := by
  have he : (eps : Lang α) ∈ pre.map lang ++ post.map lang := by
    rw [← List.map_append]
    exact List.mem_map.2 ⟨_, h, lang_tau⟩
  rcases hop with rfl | rfl | rfl | rfl
  · exact opLang_drop _ (.inl rfl) _ _
  · exact opLang_drop _ (.inr rfl) _ _
  · simp only [opLang, List.map_append, List.map_cons, lang_tau]
    exact xorL_drop_dup _ _ _ he
  · simp only [opLang, List.map_append, List.map_cons, lang_tau]
    exact orL_drop_eps _ _ he

theorem tauChildren_lang (op : Op) (cs : List (PT α)) (hcs : ∀ c ∈ cs, WF c) (hne : cs ≠ []) :
    opLang op ((tauChildren op cs).map lang) = opLang op (cs.map lang) ∧ tauChildren op cs ≠ [] := by
  unfold tauChildren
  simp only
  split
  · rename_i hpos
    split
    · rename_i hlen
      split
      · rename_i hop
        apply removeTausButOne_ind (P := fun l => opLang op (l.map lang) = opLang op (cs.map lang) ∧ l ≠ [])
        · intro pre post h hm
          rw [← h.1, opLang_drop' op (by grind) _ _ hm]
          exact ⟨rfl, List.ne_nil_of_mem hm⟩
        · exact hcs
        · exact Nat.le_refl _
        · exact ⟨rfl, hne⟩
      · split
        · rename_i hop
          obtain ⟨rfl, hl⟩ := hop
          match cs, hl with
          | [a, b], _ =>
            have ha : a = .leaf none := by
              have := List.countP_eq_length.1 hlen.symm
              exact (isTau_iff a).1 (this a (by simp))
            have hb : b = .leaf none := by
              have := List.countP_eq_length.1 hlen.symm
              exact (isTau_iff b).1 (this b (by simp))
            subst ha; subst hb
            simp [removeTausIterating, isTau, pyRemove, pyEq, label, children, opLang, loopL_nil, loopL_eps_only]
        · exact ⟨rfl, hne⟩
    · rename_i hlen
      split
      · rename_i hop
        have hnt : ∃ c ∈ cs, isTau c = false := by
          refine Classical.byContradiction fun hcon => hlen ?_
          symm; rw [List.countP_eq_length]
          intro a ha
          cases h : isTau a with
          | true => rfl
          | false => exact absurd ⟨a, ha, h⟩ hcon
        have := removeTausIterating_ind
          (P := fun l => opLang op (l.map lang) = opLang op (cs.map lang) ∧ ∃ c ∈ l, isTau c = false)
          (fun pre post h => by
            refine ⟨by rw [← h.1, opLang_drop op hop], ?_⟩
            obtain ⟨c, hc, ht⟩ := h.2
            refine ⟨c, ?_, ht⟩
            simp at hc ⊢
            rcases hc with hc | rfl | hc
            · exact .inl hc
            · simp [isTau] at ht
            · exact .inr hc) cs.length 0 cs hcs ⟨rfl, hnt⟩
        refine ⟨this.1, ?_⟩
        obtain ⟨c, hc, _⟩ := this.2
        exact List.ne_nil_of_mem hc
      · split
        · rename_i hop
          apply removeTausButOne_ind (P := fun l => opLang op (l.map lang) = opLang op (cs.map lang) ∧ l ≠ [])
          · intro pre post h hm
            rw [← h.1, opLang_drop' op (by grind) _ _ hm]
            exact ⟨rfl, List.ne_nil_of_mem hm⟩
          · exact hcs
          · exact Nat.le_refl _
          · exact ⟨rfl, hne⟩
        · exact ⟨rfl, hne⟩
  · exact ⟨rfl, hne⟩

theorem tauChildren_labels (op : Op) (cs : List (PT α)) (hcs : ∀ c ∈ cs, WF c) :
    (tauChildren op cs).flatMap labels = cs.flatMap labels := by
  have hd : ∀ pre post : List (PT α), (pre ++ .leaf none :: post).flatMap labels = cs.flatMap labels →
      (pre ++ post).flatMap labels = cs.flatMap labels := by
    intro pre post h
    rw [← h]; simp [labels]
  have h1 := fun n i => removeTausIterating_ind (P := fun l => l.flatMap labels = cs.flatMap labels)
    hd n i cs hcs rfl
  have h2 := fun n hn => removeTausButOne_ind (P := fun l => l.flatMap labels = cs.flatMap labels)
    (fun pre post h _ => hd pre post h) n cs hcs hn rfl
  unfold tauChildren
  simp only
  repeat' split
  all_goals first
    | exact h2 _ (Nat.le_refl _)
    | exact h1 _ _
    | rfl

theorem reduceTau_wf {t : PT α} (h : WF t) : WF (reduceTau t) := by
  induction t using PT.induct with
  | leaf l => simpa [reduceTau_leaf]
  | node op cs ih =>
    rw [reduceTau_node]
    have hcs : ∀ c ∈ cs.map reduceTau, WF c := by
      intro c hc
      obtain ⟨d, hd, rfl⟩ := List.mem_map.1 hc
      exact ih d hd (h.children_wf d hd)
    refine .node _ _ (tauChildren_lang op _ hcs (by simpa using h.children_ne)).2 ?_
    intro c hc
    exact hcs c ((tauChildren_sublist op _).subset hc)

omit [DecidableEq α] in
theorem labels_node (op : Op) (cs : List (PT α)) : labels (.node op cs) = cs.flatMap labels := by
  simp [labels, labelsL_eq]

theorem reduceTau_labels {t : PT α} (h : WF t) : labels (reduceTau t) = labels t := by
  induction t using PT.induct with
  | leaf l => simp [reduceTau_leaf]
  | node op cs ih =>
    have hcs : ∀ c ∈ cs.map reduceTau, WF c := by
      intro c hc
      obtain ⟨d, hd, rfl⟩ := List.mem_map.1 hc
      exact reduceTau_wf (h.children_wf d hd)
    rw [reduceTau_node, labels_node, labels_node, tauChildren_labels op _ hcs, List.flatMap_map]
    simp only [List.flatMap_def]
    congr 1
    exact List.map_congr_left fun c hc => ih c hc (h.children_wf c hc)

theorem reduceTau_lang {t : PT α} (h : WF t) : lang (reduceTau t) = lang t := by
  induction t using PT.induct with
  | leaf l => simp [reduceTau_leaf]
  | node op cs ih =>
    rw [reduceTau_node, lang_node, lang_node]
    have hcs : ∀ c ∈ cs.map reduceTau, WF c := by
      intro c hc
      obtain ⟨d, hd, rfl⟩ := List.mem_map.1 hc
      exact reduceTau_wf (h.children_wf d hd)
    rw [(tauChildren_lang op _ hcs (by simpa using h.children_ne)).1, List.map_map]
    congr 1
    apply List.map_congr_left
    intro c hc
    exact ih c hc (h.children_wf c hc)

end Verif.PT
