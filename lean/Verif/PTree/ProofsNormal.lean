import Verif.PTree.ProofsFold
/- The result of `fold` is reduced. -/
namespace Verif.PT
open Verif.Lang
variable {α : Type} [DecidableEq α]

omit [DecidableEq α] in
theorem listLen_sublist_eq (sz : α → Nat) {l l' : List (PT α)} (h : l.Sublist l')
    (he : listLen sz l = listLen sz l') : l = l' := by
  induction h with
  | slnil => rfl
  | cons a hs _ => have := listLen_sublist sz hs; rw [listLen_cons] at he; omega
  | cons_cons a _ ih => rw [listLen_cons, listLen_cons] at he; rw [ih (by omega)]

omit [DecidableEq α] in
theorem listLen_map_eq (sz : α → Nat) (f : PT α → PT α) (cs : List (PT α))
    (h : ∀ c ∈ cs, reprLen sz (f c) ≤ reprLen sz c) (he : listLen sz (cs.map f) = listLen sz cs) :
    ∀ c ∈ cs, reprLen sz (f c) = reprLen sz c := by
  induction cs with
  | nil => simp
  | cons c cs ih =>
    have h1 := h c (by simp)
    have h2 := listLen_map_le sz f cs (fun d hd => h d (by simp [hd]))
    rw [List.map_cons, listLen_cons, listLen_cons] at he
    intro d hd
    cases hd with
    | head => omega
    | tail _ hd => exact ih (fun d hd => h d (by simp [hd])) (by omega) d hd

theorem reduceTau_fix (sz : α → Nat) {t : PT α} (h : WF t) (he : reprLen sz (reduceTau t) = reprLen sz t) :
    reduceTau t = t := by
  induction t using PT.induct with
  | leaf l => simp [reduceTau_leaf]
  | node op cs ih =>
    have hwf := reduceTau_wf h
    rw [reduceTau_node] at hwf he ⊢
    rw [reprLen_node' _ _ _ hwf.children_ne, reprLen_node' _ _ _ h.children_ne] at he
    have h1 := listLen_sublist sz (tauChildren_sublist op (cs.map reduceTau))
    have h2 := listLen_map_le sz reduceTau cs (fun c hc => reduceTau_reprLen sz (h.children_wf c hc))
    have h3 := listLen_map_eq sz reduceTau cs (fun c hc => reduceTau_reprLen sz (h.children_wf c hc)) (by omega)
    rw [listLen_sublist_eq sz (tauChildren_sublist op (cs.map reduceTau)) (by omega)]
    congr 1
    have : cs.map reduceTau = cs.map id := List.map_congr_left fun c hc => by
      rw [ih c hc (h.children_wf c hc) (h3 c hc)]; rfl
    rw [this]; simp

theorem removeTausButOne_lt {n : Nat} {l : List (PT α)} (hl : ∀ d ∈ l, WF d) (hn : 2 ≤ n)
    (hc : n ≤ l.countP isTau) : (removeTausButOne n l).length < l.length := by
  match n, hn with
  | n + 2, _ =>
    simp only [removeTausButOne]
    have h1 := (removeTausButOne_sublist (n + 1) (removeOneTau l)).length_le
    have h2 : (removeOneTau l).length < l.length := by
      have h0 : (.leaf none : PT α) ∈ l := by
        have : 0 < l.countP isTau := by omega
        rw [List.countP_pos_iff] at this
        obtain ⟨a, ha, hat⟩ := this
        rw [isTau_iff] at hat; subst hat; exact ha
      have hfind : l.find? isTau = some (.leaf none) := by
        have : (l.find? isTau).isSome := by
          rw [List.find?_isSome]; exact ⟨_, h0, rfl⟩
        rw [Option.isSome_iff_exists] at this
        obtain ⟨a, ha⟩ := this
        have := List.find?_some ha
        rw [isTau_iff] at this
        rw [ha, this]
      have hr : removeOneTau l = pyRemove (.leaf none) l := by
        simp [removeOneTau, hfind]
      obtain ⟨pre, post, h1, h2, _⟩ := pyRemove_split hl h0
      rw [hr, h2, h1]; simp
    omega

theorem tauChildren_fix {op : Op} {cs : List (PT α)} (hcs : ∀ c ∈ cs, WF c) (hop : op = .xor ∨ op = .or)
    (h : tauChildren op cs = cs) : cs.countP isTau ≤ 1 := by
  refine Classical.byContradiction fun hcon => ?_
  have h1 := removeTausButOne_lt (n := cs.countP isTau) hcs (by omega) (Nat.le_refl _)
  have h2 : tauChildren op cs = removeTausButOne (cs.countP isTau) cs := by
    have hpos : cs.countP isTau > 0 := by omega
    unfold tauChildren
    rcases hop with rfl | rfl <;> simp [hpos]
  rw [← h2, h] at h1
  omega

theorem spliceOne_lt (sz : α → Nat) {op : Op} {cs l : List (PT α)} (hl : ∀ d ∈ l, WF d)
    (hc : .node op cs ∈ l) : listLen sz (spliceOne l (.node op cs)) < listLen sz l := by
  obtain ⟨pre, post, h1, h2⟩ := spliceOne_split hl hc
  have hne := (hl _ hc).children_ne
  rw [h2, h1]
  simp only [listLen_append, listLen_cons, reprLen_node' _ _ _ hne]
  omega

theorem spliceSame_len (sz : α → Nat) {op : Op} {cs : List (PT α)} (hcs : ∀ c ∈ cs, WF c) :
    listLen sz (spliceSame op cs) = listLen sz cs → ∀ ds, .node op ds ∉ cs := by
  intro he ds hm
  unfold spliceSame at he
  obtain ⟨l1, l2, h12⟩ := List.append_of_mem hm
  -- the first part
  have key : ∀ (rem acc : List (PT α)), (∃ M, acc.Perm (rem ++ M)) → (∀ c ∈ acc, WF c) →
      listLen sz (rem.foldl (fun acc c => if operator c = some op then spliceOne acc c else acc) acc) ≤ listLen sz acc ∧
      ((∃ ds, .node op ds ∈ rem) → listLen sz (rem.foldl (fun acc c => if operator c = some op then spliceOne acc c else acc) acc) < listLen sz acc) := by
    intro rem
    induction rem with
    | nil => intro acc _ h1; simp
    | cons c rem ih =>
      rintro acc ⟨M, hM⟩ h1
      simp only [List.foldl_cons]
      have hmem : c ∈ acc := hM.mem_iff.2 (by simp)
      by_cases hop : operator c = some op
      · simp only [hop, if_true]
        cases c with
        | leaf l => simp [operator] at hop
        | node o ds =>
          simp [operator] at hop; subst hop
          obtain ⟨pre, post, h3, h4⟩ := spliceOne_split h1 hmem
          have hwf := h1 _ hmem
          have hlt := spliceOne_lt sz h1 hmem
          rw [h4] at hlt ⊢
          have := ih (pre ++ ds ++ post) (by
            refine ⟨ds ++ M, ?_⟩
            rw [h3] at hM
            have h5 : (pre ++ post).Perm (rem ++ M) := by
              have := (List.perm_middle (a := PT.node o ds) (l₁ := pre) (l₂ := post)).symm.trans hM
              exact this.cons_inv
            have h6 : (pre ++ ds ++ post).Perm (ds ++ (pre ++ post)) := by
              rw [← List.append_assoc]
              exact (List.perm_append_comm).append_right post
            refine h6.trans ((h5.append_left ds).trans ?_)
            rw [← List.append_assoc, ← List.append_assoc]
            exact (List.perm_append_comm).append_right M) (by
            intro d hd
            simp at hd
            rcases hd with hd | hd | hd
            · exact h1 d (by simp [h3, hd])
            · exact hwf.children_wf d hd
            · exact h1 d (by simp [h3, hd]))
          exact ⟨by omega, fun _ => by omega⟩
      · simp only [hop, if_false]
        have := ih acc ⟨c :: M, hM.trans (List.perm_middle).symm⟩ h1
        refine ⟨this.1, ?_⟩
        rintro ⟨ds, hds⟩
        cases hds with
        | head => simp [operator] at hop
        | tail _ hds => exact this.2 ⟨ds, hds⟩
  have := (key cs cs ⟨[], by simp⟩ hcs).2 ⟨ds, hm⟩
  omega

theorem spliceSame_id {op : Op} {cs : List (PT α)} (h : ∀ ds, .node op ds ∉ cs) : spliceSame op cs = cs := by
  unfold spliceSame
  have : ∀ (rem acc : List (PT α)), (∀ ds, .node op ds ∉ rem) →
      rem.foldl (fun acc c => if operator c = some op then spliceOne acc c else acc) acc = acc := by
    intro rem
    induction rem with
    | nil => simp
    | cons c rem ih =>
      intro acc h
      simp only [List.foldl_cons]
      have : ¬ operator c = some op := by
        cases c with
        | leaf l => simp [operator]
        | node o ds =>
          simp [operator]; rintro rfl
          exact h ds (by simp)
      rw [if_neg this]
      exact ih acc (fun ds hd => h ds (by simp [hd]))
  exact this cs cs h

theorem foldNode_fix (sz : α → Nat) (op : Op) (cs : List (PT α)) (hcs : ∀ c ∈ cs, WF c) (hne : cs ≠ [])
    (t' : PT α) (b : Bool) (h : foldNode op cs = some (t', b)) (he : reprLen sz t' = reprLen sz (.node op cs)) :
    t' = .node op cs ∧ 2 ≤ cs.length ∧ (op = .seq ∨ op = .par → (.leaf none) ∉ cs) ∧
      (op = .seq ∨ op = .xor ∨ op = .par → ∀ ds, .node op ds ∉ cs) := by
  match cs, hne with
  | [c], _ =>
    simp only [foldNode, Option.some.injEq, Prod.mk.injEq] at h
    rw [← h.1, reprLen_node' _ _ _ (by simp), listLen_cons] at he
    omega
  | a :: b' :: cs, _ =>
    have hlen2 : 2 ≤ (a :: b' :: cs).length := by simp
    generalize hall : a :: b' :: cs = l at *
    have hlne : l ≠ [] := by rw [← hall]; simp
    have hfn : foldNode op l =
      (let cs1 := if op = .seq ∨ op = .par then l.filter (fun c => !isTau c) else l
       if (op = .seq ∨ op = .par) ∧ cs1 = [] then some (.leaf none, true)
       else if op = .seq ∨ op = .xor ∨ op = .par then some (.node op (spliceSame op cs1), true)
       else some (.node op cs1, true)) := by rw [← hall]; rfl
    rw [hfn] at h; clear hfn
    have hcs1 : ∃ cs1, cs1 = (if op = .seq ∨ op = .par then l.filter (fun c => !isTau c) else l) ∧
        cs1.Sublist l := by
      by_cases hop : op = .seq ∨ op = .par
      · exact ⟨_, rfl, by simp [hop, List.filter_sublist]⟩
      · exact ⟨_, rfl, by simp [hop]⟩
    obtain ⟨cs1, hce, hsub⟩ := hcs1
    simp only [← hce] at h
    have hlen := listLen_sublist sz hsub
    have hcw : ∀ c ∈ cs1, WF c := fun c hc => hcs c (hsub.subset hc)
    rw [reprLen_node' _ _ _ hlne] at he
    by_cases h0 : (op = .seq ∨ op = .par) ∧ cs1 = []
    · rw [if_pos h0] at h
      simp only [Option.some.injEq, Prod.mk.injEq] at h
      rw [← h.1, ← hall, listLen_cons] at he
      simp [reprLen] at he
      have : 1 ≤ opLen op := by cases op <;> simp [opLen]
      omega
    · rw [if_neg h0] at h
      have hne1 : cs1 ≠ [] := by
        intro hc
        by_cases hop : op = .seq ∨ op = .par
        · exact h0 ⟨hop, hc⟩
        · rw [if_neg hop] at hce; exact hlne (hce ▸ hc)
      have htau : cs1 = l → (op = .seq ∨ op = .par → (.leaf none) ∉ l) := by
        intro heq hop hm
        rw [if_pos hop, heq] at hce
        have := List.filter_eq_self.1 hce.symm _ hm
        simp [isTau] at this
      by_cases hop3 : op = .seq ∨ op = .xor ∨ op = .par
      · rw [if_pos hop3] at h
        simp only [Option.some.injEq, Prod.mk.injEq] at h
        obtain ⟨⟨h3, h4⟩, _⟩ := spliceSame_ind (op := op) hcw (fun l' => listLen sz l' ≤ listLen sz cs1 ∧ l' ≠ [])
          (by
            rintro pre post ds ⟨h3, h4⟩ hds
            refine ⟨?_, by simp [hds]⟩
            simp only [listLen_append, listLen_cons] at h3 ⊢
            rw [reprLen_node' _ _ _ hds] at h3
            omega)
          ⟨Nat.le_refl _, hne1⟩
        rw [← h.1, reprLen_node' _ _ _ h4] at he
        have heq := listLen_sublist_eq sz hsub (by omega)
        have hs := spliceSame_len sz (op := op) hcw (by omega)
        refine ⟨?_, hlen2, htau heq, fun _ => ?_⟩
        · rw [← h.1, spliceSame_id hs, heq]
        · rw [heq] at hs; exact hs
      · rw [if_neg hop3] at h
        simp only [Option.some.injEq, Prod.mk.injEq] at h
        have hcl : cs1 = l := by rw [hce, if_neg (by grind)]
        refine ⟨by rw [← h.1, hcl], hlen2, ?_⟩
        exact ⟨fun hop => absurd hop (by grind), fun hop => absurd hop hop3⟩

theorem fold1_fix (sz : α → Nat) (t : PT α) (ht : WF t) (t' : PT α) (b : Bool)
    (h : fold1 t = some (t', b)) (he : reprLen sz t' = reprLen sz t) : t' = t ∧ reduceTau t = t ∧ Reduced t := by
  have hr := reduceTau_wf ht
  have hlen := reduceTau_reprLen sz ht
  obtain ⟨t'', b'', h1, h2, h3⟩ := fold1_good sz t ht
  rw [h] at h1; simp only [Option.some.injEq, Prod.mk.injEq] at h1
  obtain ⟨rfl, rfl⟩ := h1
  rw [fold1_eq] at h
  cases t with
  | leaf l =>
    rw [reduceTau_leaf] at h; simp at h
    exact ⟨h.1.symm, reduceTau_leaf l, .leaf l⟩
  | node op cs0 =>
    have hrn := reduceTau_node op cs0
    generalize hl : tauChildren op (cs0.map reduceTau) = l at hrn
    rw [hrn] at h hr hlen
    have hsize : size (.node op l) ≤ size (.node op cs0) := hrn ▸ size_reduceTau (.node op cs0)
    rw [size_node op l] at hsize
    have hlne := hr.children_ne
    match l, hlne with
    | c :: cs, hlne =>
      simp only at h
      have hgood : ∀ d ∈ c :: cs, ∃ t' b, fold1 d = some (t', b) ∧ Good sz d t' ∧ (b = false → reprLen sz t' < reprLen sz d) :=
        fun d hd => fold1_good sz d (hr.children_wf d hd)
      -- the folded children
      have hL : ∀ l : List (PT α), (∀ d ∈ l, ∃ t' b, fold1 d = some (t', b) ∧ Good sz d t' ∧ (b = false → reprLen sz t' < reprLen sz d)) →
          ((l.map fold1).filterMap (·.map Prod.fst)).length = l.length ∧
          (∀ c ∈ (l.map fold1).filterMap (·.map Prod.fst), WF c) ∧
          listLen sz ((l.map fold1).filterMap (·.map Prod.fst)) ≤ listLen sz l ∧
          (listLen sz ((l.map fold1).filterMap (·.map Prod.fst)) = listLen sz l →
            ∀ d ∈ l, ∀ t' b, fold1 d = some (t', b) → reprLen sz t' = reprLen sz d) := by
        intro l
        induction l with
        | nil => simp
        | cons d l ihl =>
          intro hd
          obtain ⟨t', b, h1, h2, _⟩ := hd d (by simp)
          obtain ⟨h3, h4, h5, h6⟩ := ihl (fun e he => hd e (by simp [he]))
          simp only [List.map_cons, List.filterMap_cons, h1, Option.map_some, List.length_cons, h3,
            listLen_cons, true_and]
          have hlen := h2.len
          refine ⟨?_, by omega, ?_⟩
          · intro c hc
            cases hc with
            | head => exact h2.wf
            | tail _ hc => exact h4 c hc
          · intro heq e he t'' b'' h7
            cases he with
            | head => rw [h1] at h7; simp at h7; rw [← h7.1]; omega
            | tail _ he => exact h6 (by omega) e he t'' b'' h7
      obtain ⟨h4, h5, h6, h7⟩ := hL _ hgood
      have hsame : ∀ d ∈ c :: cs, ∀ t' b, fold1 d = some (t', b) → reprLen sz t' = reprLen sz d →
          t' = d ∧ reduceTau d = d ∧ Reduced d := by
        intro d hd t' b h8 h9
        have := size_lt_of_mem hd
        have hlt : size d < size (.node op cs0) := by omega
        exact fold1_fix sz d (hr.children_wf d hd) t' b h8 h9
      generalize hl' : ((c :: cs).map fold1).filterMap (·.map Prod.fst) = l' at *
      have hlne' : l' ≠ [] := by
        rintro rfl; simp at h4
      obtain ⟨t2, b2, h8, h9, _⟩ := foldNode_good sz op l' h5 hlne'
      rw [h] at h8; simp only [Option.some.injEq, Prod.mk.injEq] at h8
      obtain ⟨rfl, rfl⟩ := h8
      have hlen2 := h9.len
      have e1 : reprLen sz (.node op (c :: cs)) = reprLen sz (.node op cs0) := by
        rw [reprLen_node' _ _ _ hlne'] at hlen2
        rw [reprLen_node' sz op (c :: cs) (by simp)] at hlen ⊢
        omega
      have e2 : listLen sz l' = listLen sz (c :: cs) := by
        rw [reprLen_node' _ _ _ hlne'] at hlen2
        rw [reprLen_node' sz op (c :: cs) (by simp)] at e1
        omega
      have e3 : reprLen sz t' = reprLen sz (.node op l') := by
        rw [he, ← e1, reprLen_node' _ _ _ hlne', reprLen_node' sz op (c :: cs) (by simp), e2]
      have hfix := reduceTau_fix sz ht (by rw [hrn]; exact e1)
      rw [hrn] at hfix
      injection hfix with _ hcs0
      have hch : ∀ d ∈ c :: cs, (∃ b, fold1 d = some (d, b)) ∧ reduceTau d = d ∧ Reduced d := by
        intro d hd
        obtain ⟨t3, b3, h10, _⟩ := hgood d hd
        obtain ⟨h11, h12⟩ := hsame d hd t3 b3 h10 (h7 e2 d hd t3 b3 h10)
        subst h11
        exact ⟨⟨b3, h10⟩, h12⟩
      have hl'' : l' = c :: cs := by
        have : ∀ ds : List (PT α), (∀ d ∈ ds, ∃ b, fold1 d = some (d, b)) →
            (ds.map fold1).filterMap (·.map Prod.fst) = ds := by
          intro ds
          induction ds with
          | nil => simp
          | cons d ds ih =>
            intro hds
            obtain ⟨b, hb⟩ := hds d (by simp)
            simp only [List.map_cons, List.filterMap_cons, hb, Option.map_some]
            rw [ih (fun e he => hds e (by simp [he]))]
        rw [← hl', this _ (fun d hd => (hch d hd).1)]
      rw [hl''] at h e3 h5
      obtain ⟨h13, h14, h15, h16⟩ := foldNode_fix sz op (c :: cs) h5 (by simp) t' b h e3
      rw [← hcs0]
      refine ⟨h13, by rw [hcs0, hrn, hcs0], .node _ _ h14 h15 ?_ h16 (fun d hd => (hch d hd).2.2)⟩
      intro hop pre mid post hsplit
      have hmap : cs0.map reduceTau = cs0 := by
        have : cs0.map reduceTau = cs0.map id := List.map_congr_left fun d hd => by
          rw [← hcs0] at hd; rw [(hch d hd).2.1]; rfl
        rw [this]; simp
      rw [hmap, hcs0] at hl
      have hcount := tauChildren_fix ht.children_wf hop hl
      rw [← hcs0, hsplit] at hcount
      simp [List.countP_append, List.countP_cons, isTau] at hcount
      omega
termination_by size t
decreasing_by subst_vars; exact hlt

theorem fold_wf (sz : α → Nat) (fuel : Nat) (t t' : PT α) (ht : WF t)
    (h : fold sz fuel t = some t') : WF t' := by
  induction fuel generalizing t t' with
  | zero => simp [fold] at h
  | succ fuel ih =>
    obtain ⟨t1, b, h1, g1, _⟩ := fold1_good sz t ht
    simp only [fold, h1] at h
    have g2 := stripRoot_good sz t1 g1.wf
    generalize stripRoot t1 = t2 at *
    have w3 : WF (reduceTau t2) := reduceTau_wf g2.wf
    generalize reduceTau t2 = t3 at *
    have w4 : ∀ t4, (if strLen sz t3 ≠ strLen sz t2 then fold sz fuel t3 else some t3) = some t4 → WF t4 := by
      intro t4 h4
      split at h4
      · exact ih t3 t4 w3 h4
      · simp at h4; rw [← h4]; exact w3
    generalize (if strLen sz t3 ≠ strLen sz t2 then fold sz fuel t3 else some t3) = o at *
    cases o with
    | none => simp at h
    | some t4 =>
      have w4 := w4 t4 rfl
      simp only at h
      obtain ⟨t5, b5, h5, g5, h5s⟩ := fold1_good sz t4 w4
      simp only [h5] at h
      split at h
      · exact ih t5 t' g5.wf h
      · cases b5 with
        | false => simp at h
        | true => simp at h; rw [← h]; exact g5.wf

theorem fold_reduced (sz : α → Nat) (fuel : Nat) (t t' : PT α) (ht : WF t)
    (h : fold sz fuel t = some t') : Reduced t' := by
  induction fuel generalizing t with
  | zero => simp [fold] at h
  | succ fuel ih =>
    obtain ⟨t1, b, h1, g1, _⟩ := fold1_good sz t ht
    simp only [fold, h1] at h
    have g2 := stripRoot_good sz t1 g1.wf
    generalize stripRoot t1 = t2 at *
    have w3 : WF (reduceTau t2) := reduceTau_wf g2.wf
    generalize reduceTau t2 = t3 at *
    have w4 : ∀ t4, (if strLen sz t3 ≠ strLen sz t2 then fold sz fuel t3 else some t3) = some t4 → WF t4 := by
      intro t4 h4
      split at h4
      · exact fold_wf sz fuel t3 t4 w3 h4
      · simp at h4; rw [← h4]; exact w3
    generalize (if strLen sz t3 ≠ strLen sz t2 then fold sz fuel t3 else some t3) = o at *
    cases o with
    | none => simp at h
    | some t4 =>
      have w4 := w4 t4 rfl
      simp only at h
      obtain ⟨t5, b5, h5, g5, h5s⟩ := fold1_good sz t4 w4
      simp only [h5] at h
      split at h
      · exact ih t5 g5.wf h
      · next hlen =>
        cases b5 with
        | false => simp at h
        | true =>
          simp at h hlen
          subst h
          have he : reprLen sz t5 = reprLen sz t4 := by
            cases t4 with
            | leaf l => rw [fold1_eq, reduceTau_leaf] at h5; simp at h5; rw [h5]
            | node op cs =>
              rw [strLen_node] at hlen
              cases t5 with
              | leaf l =>
                cases l with
                | none => simpa [strLen] using hlen
                | some a =>
                  have h8 := g5.len
                  simp only [strLen, reprLen] at hlen h8
                  omega
              | node op' cs' => rw [strLen_node] at hlen; exact hlen
          obtain ⟨h6, _, h7⟩ := fold1_fix sz t4 w4 t5 true h5 he
          rw [h6]; exact h7

end Verif.PT
