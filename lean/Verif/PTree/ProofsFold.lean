import Verif.PTree.ProofsTau
/- Language preservation and termination of `_fold` and `fold`. -/
namespace Verif.PT
open Verif.Lang
variable {α : Type} [DecidableEq α]

omit [DecidableEq α] in
theorem opLang_single (op : Op) (L : Lang α) : opLang op [L] = L := by
  cases op with
  | seq => simp [opLang]
  | xor => simp [opLang]
  | par => simp [opLang]
  | loop => simp [opLang, loopL_nil]
  | or =>
    apply Lang.ext; intro w; simp only [opLang]; constructor
    · rintro ⟨Ms, hne, hs, hw⟩
      cases hs with
      | cons _ hs => simp at hs; exact absurd hs hne
      | cons_cons _ hs => simp at hs; subst hs; simpa using hw
    · intro h; exact ⟨[L], by simp, by simp, by simpa using h⟩
  | inter =>
    apply Lang.ext; intro w; simp only [opLang]; constructor
    · rintro ⟨Ms, hp, hw⟩
      rw [List.perm_singleton] at hp; subst hp; simpa using hw
    · intro h; exact ⟨[L], .refl _, by simpa using h⟩

omit [DecidableEq α] in
theorem opLang_flatten (op : Op) (hop : op = .seq ∨ op = .xor ∨ op = .par) (pre post Ls : List (Lang α)) :
    opLang op (pre ++ opLang op Ls :: post) = opLang op (pre ++ Ls ++ post) := by
  rcases hop with rfl | rfl | rfl
  · exact seqL_flatten _ _ _
  · exact xorL_flatten _ _ _
  · exact parL_flatten _ _ _

theorem spliceOne_split {op : Op} {cs l : List (PT α)} (hl : ∀ d ∈ l, WF d)
    (hc : .node op cs ∈ l) :
    ∃ pre post, l = pre ++ .node op cs :: post ∧ spliceOne l (.node op cs) = pre ++ cs ++ post := by
  obtain ⟨pre, post, h1, _, h3⟩ := pyRemove_split hl hc
  have hwf := hl _ hc
  refine ⟨pre, post, h1, ?_⟩
  have hidx : l.findIdx (fun item => pyEq item (.node op cs)) = pre.length := by
    rw [h1, List.findIdx_append]
    have : pre.findIdx (fun item => pyEq item (.node op cs)) = pre.length := by
      rw [List.findIdx_eq_length]; exact h3
    rw [this]
    simp [List.findIdx_cons, pyEq_refl]
  simp only [spliceOne, hidx, children]
  rw [h1]
  simp only [List.take_left', List.drop_left', pyRemove]
  rw [List.eraseP_append_right]
  · simp [List.eraseP_cons, pyEq_refl]
  · intro b hb
    simp at hb
    rcases hb with hb | hb
    · simp [h3 b hb]
    · intro hcon
      have := pyEq_eq (hwf.children_wf b hb) hwf hcon
      have h4 := size_lt_of_mem hb
      rw [this, size_node] at h4
      omega

/-- What a splice keeps, in one place. -/
theorem spliceSame_ind {op : Op} {cs : List (PT α)} (hcs : ∀ c ∈ cs, WF c) (P : List (PT α) → Prop)
    (hP : ∀ pre post ds, P (pre ++ .node op ds :: post) → ds ≠ [] → P (pre ++ ds ++ post)) (h : P cs) :
    P (spliceSame op cs) ∧ ∀ c ∈ spliceSame op cs, WF c := by
  unfold spliceSame
  have key : ∀ (rem acc : List (PT α)), (∃ M, acc.Perm (rem ++ M)) → (∀ c ∈ acc, WF c) → P acc →
      P (rem.foldl (fun acc c => if operator c = some op then spliceOne acc c else acc) acc) ∧
      ∀ c ∈ rem.foldl (fun acc c => if operator c = some op then spliceOne acc c else acc) acc, WF c := by
    intro rem
    induction rem with
    | nil => intro acc _ h1 h2; exact ⟨h2, h1⟩
    | cons c rem ih =>
      rintro acc ⟨M, hM⟩ h1 h2
      simp only [List.foldl_cons]
      have hmem : c ∈ acc := hM.mem_iff.2 (by simp)
      by_cases hop : operator c = some op
      · simp only [hop, if_true]
        cases c with
        | leaf l => simp [operator] at hop
        | node o ds =>
          simp [operator] at hop; subst hop
          obtain ⟨pre, post, h3, h4⟩ := spliceOne_split h1 hmem
          have hwf := h1 _ hmem
          rw [h4]
          apply ih
          · refine ⟨ds ++ M, ?_⟩
            rw [h3] at hM
            have h5 : (pre ++ post).Perm (rem ++ M) := by
              have := (List.perm_middle (a := PT.node o ds) (l₁ := pre) (l₂ := post)).symm.trans hM
              exact this.cons_inv
            have h6 : (pre ++ ds ++ post).Perm (ds ++ (pre ++ post)) := by
              rw [← List.append_assoc]
              exact (List.perm_append_comm).append_right post
            refine h6.trans ((h5.append_left ds).trans ?_)
            rw [← List.append_assoc, ← List.append_assoc]
            exact (List.perm_append_comm).append_right M
          · intro d hd
            simp at hd
            rcases hd with hd | hd | hd
            · exact h1 d (by simp [h3, hd])
            · exact hwf.children_wf d hd
            · exact h1 d (by simp [h3, hd])
          · apply hP; rw [← h3]; exact h2
            exact hwf.children_ne
      · simp only [hop, if_false]
        apply ih acc _ h1 h2
        exact ⟨c :: M, hM.trans (List.perm_middle).symm⟩
  exact key cs cs ⟨[], by simp⟩ hcs h

/-! ### lengths of string representations -/

omit [DecidableEq α] in
theorem reprLen_node (sz : α → Nat) (op : Op) (cs : List (PT α)) :
    reprLen sz (.node op cs) = opLen op + 2
      + ((cs.map (reprLen sz)).sum + 2 * (cs.length - 1)) + 2 := by
  rw [reprLen]
  simp [List.attach_map_val (f := reprLen sz)]

/-- Σ (length of child + separator). -/
def listLen (sz : α → Nat) (cs : List (PT α)) : Nat := (cs.map fun c => reprLen sz c + 2).sum

omit [DecidableEq α] in
theorem listLen_append (sz : α → Nat) (l l' : List (PT α)) :
    listLen sz (l ++ l') = listLen sz l + listLen sz l' := by simp [listLen]

omit [DecidableEq α] in
theorem listLen_cons (sz : α → Nat) (c : PT α) (l : List (PT α)) :
    listLen sz (c :: l) = reprLen sz c + 2 + listLen sz l := by simp [listLen]

omit [DecidableEq α] in
theorem listLen_sublist (sz : α → Nat) {l l' : List (PT α)} (h : l.Sublist l') :
    listLen sz l ≤ listLen sz l' := by
  induction h with
  | slnil => simp
  | cons a _ ih => rw [listLen_cons]; omega
  | cons_cons a _ ih => rw [listLen_cons, listLen_cons]; omega

omit [DecidableEq α] in
theorem reprLen_node' (sz : α → Nat) (op : Op) (cs : List (PT α)) (h : cs ≠ []) :
    reprLen sz (.node op cs) = opLen op + 2 + listLen sz cs := by
  rw [reprLen_node]
  have : listLen sz cs = (cs.map (reprLen sz)).sum + 2 * cs.length := by
    clear h
    induction cs with
    | nil => simp [listLen]
    | cons c cs ih => rw [listLen_cons, ih]; simp; omega
  have h2 : cs.length ≥ 1 := by cases cs <;> simp_all
  omega

omit [DecidableEq α] in
theorem strLen_le (sz : α → Nat) (t : PT α) : strLen sz t ≤ reprLen sz t := by
  cases t with
  | leaf l => cases l <;> simp [strLen, reprLen]
  | node op cs => simp [strLen]

omit [DecidableEq α] in
theorem strLen_node (sz : α → Nat) (op : Op) (cs : List (PT α)) :
    strLen sz (.node op cs) = reprLen sz (.node op cs) := by simp [strLen]

omit [DecidableEq α] in
theorem listLen_map_le (sz : α → Nat) (f : PT α → PT α) (cs : List (PT α))
    (h : ∀ c ∈ cs, reprLen sz (f c) ≤ reprLen sz c) : listLen sz (cs.map f) ≤ listLen sz cs := by
  induction cs with
  | nil => simp [listLen]
  | cons c cs ih =>
    have h1 := h c (by simp)
    have h2 := ih (fun d hd => h d (by simp [hd]))
    rw [List.map_cons, listLen_cons, listLen_cons]; omega

theorem reduceTau_reprLen (sz : α → Nat) {t : PT α} (h : WF t) : reprLen sz (reduceTau t) ≤ reprLen sz t := by
  induction t using PT.induct with
  | leaf l => simp [reduceTau_leaf]
  | node op cs ih =>
    have hwf := reduceTau_wf h
    rw [reduceTau_node] at hwf ⊢
    rw [reprLen_node' _ _ _ hwf.children_ne, reprLen_node' _ _ _ h.children_ne]
    have h1 := listLen_sublist sz (tauChildren_sublist op (cs.map reduceTau))
    have h2 := listLen_map_le sz reduceTau cs (fun c hc => ih c hc (h.children_wf c hc))
    omega

/-! ### `_fold` -/

/-- Everything we need of a rewriting result. -/
structure Good (sz : α → Nat) (t t' : PT α) : Prop where
  wf : WF t'
  lang : t'.lang = t.lang
  labels : t'.labels = t.labels
  len : reprLen sz t' ≤ reprLen sz t

theorem foldNode_good (sz : α → Nat) (op : Op) (cs : List (PT α)) (hcs : ∀ c ∈ cs, WF c) (hne : cs ≠ []) :
    ∃ t' b, foldNode op cs = some (t', b) ∧ Good sz (.node op cs) t' ∧
      (b = false → reprLen sz t' < reprLen sz (.node op cs)) := by
  match cs, hne with
  | [c], hne0 =>
    refine ⟨c, false, rfl, ⟨hcs c (by simp), ?_, ?_, ?_⟩, fun _ => ?_⟩
    · rw [lang_node]; simp [opLang_single]
    · simp [labels_node]
    · rw [reprLen_node' _ _ _ (by simp), listLen_cons]; omega
    · rw [reprLen_node' _ _ _ (by simp), listLen_cons]; omega
  | a :: b :: cs, hne0 =>
    generalize hall : a :: b :: cs = l at *
    have hlne : l ≠ [] := by rw [← hall]; simp
    have hfn : foldNode op l =
      (let cs1 := if op = .seq ∨ op = .par then l.filter (fun c => !isTau c) else l
       if (op = .seq ∨ op = .par) ∧ cs1 = [] then some (.leaf none, true)
       else if op = .seq ∨ op = .xor ∨ op = .par then some (.node op (spliceSame op cs1), true)
       else some (.node op cs1, true)) := by rw [← hall]; rfl
    rw [hfn]; clear hfn
    -- the tau filter
    have hfil : (op = .seq ∨ op = .par) →
        opLang op ((l.filter (fun c => !isTau c)).map lang) = opLang op (l.map lang) ∧
        (l.filter (fun c => !isTau c)).flatMap labels = l.flatMap labels := by
      intro hop
      clear hall hcs hlne hne0
      induction l with
      | nil => simp
      | cons c l ih =>
        by_cases ht : isTau c = true
        · rw [isTau_iff] at ht
          subst ht
          have := opLang_drop op hop [] l
          simp only [List.nil_append] at this
          rw [this, ← ih.1]
          have ht : isTau (.leaf none : PT α) = true := rfl
          simpa [ht, labels] using ih.2
        · simp [ht]
          refine ⟨?_, by simpa using ih.2⟩
          rcases hop with rfl | rfl
          · simp only [opLang, seqL] at ih ⊢; rw [ih.1]
          · simp only [opLang, parL] at ih ⊢; rw [ih.1]
    -- the list after the tau filter
    have hcs1 : ∃ cs1, cs1 = (if op = .seq ∨ op = .par then l.filter (fun c => !isTau c) else l) ∧
        opLang op (cs1.map lang) = opLang op (l.map lang) ∧ cs1.flatMap labels = l.flatMap labels ∧
        cs1.Sublist l := by
      by_cases hop : op = .seq ∨ op = .par
      · exact ⟨_, rfl, by simpa [hop] using (hfil hop).1, by simpa [hop] using (hfil hop).2, by
          simp [hop, List.filter_sublist]⟩
      · exact ⟨_, rfl, by simp [hop], by simp [hop], by simp [hop]⟩
    obtain ⟨cs1, he, hl1, hlab, hsub⟩ := hcs1
    simp only [← he]
    have hlen := listLen_sublist sz hsub
    by_cases h0 : (op = .seq ∨ op = .par) ∧ cs1 = []
    · rw [if_pos h0]
      obtain ⟨hop, h0⟩ := h0
      rw [h0] at hl1 hlab
      refine ⟨_, _, rfl, ⟨.leaf _, ?_, ?_, ?_⟩, by simp⟩
      · rw [lang_node, ← hl1]
        rcases hop with rfl | rfl <;> simp [opLang, seqL, parL]
      · rw [labels_node, ← hlab]; simp [labels]
      · rw [reprLen_node' _ _ _ hlne]; rw [← hall, listLen_cons]; simp [reprLen]
        rcases hop with rfl | rfl <;> simp [opLen] <;> omega
    · rw [if_neg h0]
      have hne1 : cs1 ≠ [] := by
        intro hc
        by_cases hop : op = .seq ∨ op = .par
        · exact h0 ⟨hop, hc⟩
        · rw [if_neg hop] at he; exact hlne (he ▸ hc)
      have hcw : ∀ c ∈ cs1, WF c := fun c hc => hcs c (hsub.subset hc)
      by_cases hop3 : op = .seq ∨ op = .xor ∨ op = .par
      · rw [if_pos hop3]
        obtain ⟨⟨h1, h2, h3, h4⟩, h5⟩ := spliceSame_ind hcw
          (fun l' => opLang op (l'.map lang) = opLang op (l.map lang) ∧
            l'.flatMap labels = l.flatMap labels ∧ listLen sz l' ≤ listLen sz l ∧ l' ≠ [])
          (by
            rintro pre post ds ⟨h1, h2, h3, h4⟩ hds
            refine ⟨?_, ?_, ?_, ?_⟩
            · rw [← h1]
              simp only [List.map_append, List.map_cons, lang_node]
              rw [opLang_flatten op hop3]
            · rw [← h2]; simp [labels_node]
            · simp only [listLen_append, listLen_cons] at h3 ⊢
              rw [reprLen_node' _ _ _ hds] at h3
              omega
            · simp [hds])
          ⟨hl1, hlab, hlen, hne1⟩
        refine ⟨_, _, rfl, ⟨.node _ _ h4 h5, ?_, ?_, ?_⟩, by simp⟩
        · rw [lang_node, lang_node, h1]
        · rw [labels_node, labels_node, h2]
        · rw [reprLen_node' _ _ _ h4, reprLen_node' _ _ _ hlne]; omega
      · rw [if_neg hop3]
        refine ⟨_, _, rfl, ⟨.node _ _ hne1 hcw, ?_, ?_, ?_⟩, by simp⟩
        · rw [lang_node, lang_node, hl1]
        · rw [labels_node, labels_node, hlab]
        · rw [reprLen_node' _ _ _ hne1, reprLen_node' _ _ _ hlne]; omega

theorem fold1_eq (t : PT α) : fold1 t = match reduceTau t with
    | .leaf l => some (.leaf l, true)
    | .node op [] => some (.node op [], true)
    | .node op (c :: cs) => foldNode op (((c :: cs).map fold1).filterMap (·.map Prod.fst)) := by
  rw [fold1]
  split
  · next h => simp [h]
  · next h => simp [h]
  · next op c cs h =>
    simp only [h]
    congr 2
    simp [List.attach_map_val (f := fold1)]

theorem fold1_good (sz : α → Nat) (t : PT α) (ht : WF t) :
    ∃ t' b, fold1 t = some (t', b) ∧ Good sz t t' ∧ (b = false → reprLen sz t' < reprLen sz t) := by
  have hr := reduceTau_wf ht
  have hlang := reduceTau_lang ht
  have hlab := reduceTau_labels ht
  have hlen := reduceTau_reprLen sz ht
  have hsize := size_reduceTau t
  rw [fold1_eq]
  split
  · next l h =>
    rw [h] at hlang hlab hlen
    exact ⟨_, _, rfl, ⟨.leaf _, hlang, hlab, hlen⟩, by simp⟩
  · next op h => rw [h] at hr; exact absurd rfl hr.children_ne
  · next op c cs h =>
    rw [h] at hlang hlab hlen hr hsize
    generalize hl : c :: cs = l at *
    rw [size_node] at hsize
    have ih : ∀ d ∈ l, ∃ t' b, fold1 d = some (t', b) ∧ Good sz d t' ∧ (b = false → reprLen sz t' < reprLen sz d) := by
      intro d hd
      have := size_lt_of_mem hd
      have hlt : size d < size t := by omega
      exact fold1_good sz d (hr.children_wf d hd)
    -- the list of folded children
    have hL : ∀ l : List (PT α), (∀ d ∈ l, ∃ t' b, fold1 d = some (t', b) ∧ Good sz d t' ∧ (b = false → reprLen sz t' < reprLen sz d)) →
        ((l.map fold1).filterMap (·.map Prod.fst)).length = l.length ∧
        (∀ c ∈ (l.map fold1).filterMap (·.map Prod.fst), WF c) ∧
        ((l.map fold1).filterMap (·.map Prod.fst)).map lang = l.map lang ∧
        ((l.map fold1).filterMap (·.map Prod.fst)).flatMap labels = l.flatMap labels ∧
        listLen sz ((l.map fold1).filterMap (·.map Prod.fst)) ≤ listLen sz l := by
      intro l
      induction l with
      | nil => simp
      | cons d l ihl =>
        intro hd
        obtain ⟨t', b, h1, h2, _⟩ := hd d (by simp)
        obtain ⟨h3, h4, h5, h6, h7⟩ := ihl (fun e he => hd e (by simp [he]))
        simp only [List.map_cons, List.filterMap_cons, h1, Option.map_some, List.length_cons, h3,
          List.flatMap_cons, h2.labels, h6, h5, h2.lang, listLen_cons, true_and]
        refine ⟨?_, ?_⟩
        · intro c hc
          cases hc with
          | head => exact h2.wf
          | tail _ hc => exact h4 c hc
        · have := h2.len; omega
    obtain ⟨h3, h4, h5, h6, h7⟩ := hL l ih
    generalize (l.map fold1).filterMap (·.map Prod.fst) = l' at *
    have hlne : l ≠ [] := by rw [← hl]; simp
    have hlne' : l' ≠ [] := by
      rintro rfl
      have h3 : 0 = l.length := h3
      exact hlne (List.eq_nil_of_length_eq_zero h3.symm)
    obtain ⟨t', b, h8, h9, h10⟩ := foldNode_good sz op l' h4 hlne'
    have h11 : reprLen sz (.node op l') ≤ reprLen sz (.node op l) := by
      rw [reprLen_node' _ _ _ hlne, reprLen_node' _ _ _ hlne']; omega
    refine ⟨t', b, h8, ⟨h9.wf, ?_, ?_, ?_⟩, ?_⟩
    · rw [h9.lang, ← hlang, lang_node, lang_node, h5]
    · rw [h9.labels, ← hlab, labels_node, labels_node, h6]
    · have := h9.len; omega
    · intro hb; have := h10 hb; omega
termination_by size t
decreasing_by omega

omit [DecidableEq α] in
theorem stripRoot_good (sz : α → Nat) (t : PT α) (ht : WF t) : Good sz t (stripRoot t) := by
  fun_induction stripRoot t with
  | case1 op c ih =>
    have h := ih (ht.children_wf c (by simp))
    refine ⟨h.wf, ?_, ?_, ?_⟩
    · rw [h.lang, lang_node]; simp [opLang_single]
    · rw [h.labels, labels_node]; simp
    · have := h.len
      rw [reprLen_node' _ _ _ (by simp), listLen_cons]; omega
  | case2 t _ => exact ⟨ht, rfl, rfl, Nat.le_refl _⟩

omit [DecidableEq α] in
theorem Good.trans {sz : α → Nat} {a b c : PT α} (h1 : Good sz a b) (h2 : Good sz b c) : Good sz a c :=
  ⟨h2.wf, h2.lang.trans h1.lang, h2.labels.trans h1.labels, Nat.le_trans h2.len h1.len⟩

omit [DecidableEq α] in
/-- rewriting never turns a leaf into a longer leaf -/
theorem Good.strLen {sz : α → Nat} {t t' : PT α} (h : Good sz t t')
    : strLen sz t' ≤ strLen sz t := by
  have h1 := h.len
  have h2 := strLen_le sz t'
  cases t with
  | leaf l =>
    cases l with
    | none => simp [PT.strLen] at *; omega
    | some a =>
      cases t' with
      | leaf l' =>
        cases l' with
        | none => have := h.labels; simp [PT.labels] at this
        | some b => have := h.labels; simp [PT.labels] at this; subst this; simp
      | node op cs =>
        rw [strLen_node]
        have hl := h.labels
        have hne := h.wf.children_ne
        have : a ∈ (PT.node op cs).labels := by rw [hl]; simp [PT.labels]
        rw [labels_node] at this
        rw [List.mem_flatMap] at this
        obtain ⟨c, hc, hac⟩ := this
        rw [reprLen_node' _ _ _ hne] at h1
        have h3 : ∀ t : PT α, a ∈ t.labels → sz a + 2 ≤ reprLen sz t := by
          intro t
          induction t using PT.induct with
          | leaf l =>
            cases l with
            | none => simp [PT.labels]
            | some b => simp [PT.labels, reprLen]; rintro rfl; omega
          | node op cs ih =>
            intro hm
            rw [labels_node, List.mem_flatMap] at hm
            obtain ⟨c, hc, hm⟩ := hm
            rw [reprLen_node' _ _ _ (List.ne_nil_of_mem hc)]
            have h4 := listLen_sublist sz (List.singleton_sublist.2 hc)
            rw [listLen_cons] at h4
            have := ih c hc hm
            omega
        have h4 := listLen_sublist sz (List.singleton_sublist.2 hc)
        rw [listLen_cons] at h4
        have := h3 c hac
        simp [reprLen] at h1
        omega
  | node op cs => rw [strLen_node]; omega

theorem fold1_strict (sz : α → Nat) (t t' : PT α) (ht : WF t) (h : fold1 t = some (t', false)) :
    strLen sz t' < strLen sz t := by
  obtain ⟨t'', b, h1, h2, h3⟩ := fold1_good sz t ht
  rw [h] at h1
  simp at h1
  obtain ⟨rfl, rfl⟩ := h1
  have h4 := h3 rfl
  have h5 := strLen_le sz t'
  cases t with
  | leaf l => rw [fold1_eq, reduceTau_leaf] at h; simp at h
  | node op cs => rw [strLen_node]; omega

theorem fold_good (sz : α → Nat) (fuel : Nat) (t : PT α) (ht : WF t) (hf : strLen sz t < fuel) :
    ∃ t', fold sz fuel t = some t' ∧ Good sz t t' := by
  induction fuel generalizing t with
  | zero => omega
  | succ fuel ih =>
    obtain ⟨t1, b, h1, g1, _⟩ := fold1_good sz t ht
    simp only [fold, h1]
    have g2 := stripRoot_good sz t1 g1.wf
    generalize stripRoot t1 = t2 at *
    have g3 : Good sz t2 (reduceTau t2) :=
      ⟨reduceTau_wf g2.wf, reduceTau_lang g2.wf, reduceTau_labels g2.wf, reduceTau_reprLen sz g2.wf⟩
    generalize reduceTau t2 = t3 at *
    have g03 := (g1.trans g2).trans g3
    have h4 : ∃ t4, (if strLen sz t3 ≠ strLen sz t2 then fold sz fuel t3 else some t3) = some t4 ∧
        Good sz t3 t4 := by
      split
      · apply ih _ g3.wf
        have := g3.strLen; have := (g1.trans g2).strLen; omega
      · exact ⟨t3, rfl, g3.wf, rfl, rfl, Nat.le_refl _⟩
    obtain ⟨t4, h4, g4⟩ := h4
    rw [h4]; simp only
    have g04 := g03.trans g4
    obtain ⟨t5, b5, h5, g5, h5s⟩ := fold1_good sz t4 g4.wf
    simp only [h5]
    split
    · obtain ⟨t6, h6, g6⟩ := ih t5 g5.wf (by have := g5.strLen; have := g04.strLen; omega)
      exact ⟨t6, h6, (g04.trans g5).trans g6⟩
    · next hlen =>
      cases b5 with
      | true => exact ⟨t5, rfl, g04.trans g5⟩
      | false =>
        have := fold1_strict sz t4 t5 g4.wf h5
        simp at hlen; omega

end Verif.PT
