import Verif.Inductive.Basic
/-
Inductive miner: what is known about the groups of the xor, concurrency and loop cuts.
-/
namespace Verif.IM
open Verif Dict Counter Dfg
variable {α : Type} [DecidableEq α]

/-! ### partitions -/

theorem Partn.congr {V W : α → Prop} {gs : List (List α)} (h : Partn V gs) (hw : ∀ a, V a ↔ W a) : Partn W gs :=
  ⟨fun a => (hw a).symm.trans (h.cover a), h.disj, h.ne⟩

/-- merging the first two groups -/
theorem Partn.merge {V : α → Prop} {g h u : List α} {gs : List (List α)} (hp : Partn V (g :: h :: gs))
    (hu : ∀ a, a ∈ u ↔ a ∈ g ∨ a ∈ h) : Partn V (u :: gs) where
  cover a := by
    rw [hp.cover]
    simp only [List.mem_cons, exists_eq_or_imp, hu]
    grind
  disj := by
    have := hp.disj
    simp only [List.pairwise_cons, List.mem_cons, forall_eq_or_imp] at this ⊢
    refine ⟨?_, this.2.2⟩
    intro x hx a ha
    rcases (hu a).1 ha with ha | ha
    · exact this.1.2 x hx a ha
    · exact this.2.1 x hx a ha
  ne k hk := by
    rcases List.mem_cons.1 hk with rfl | hk
    · intro he
      have hg := hp.ne g (by simp)
      cases g with
      | nil => exact hg rfl
      | cons x g => have := (hu x).2 (.inl (by simp)); rw [he] at this; simp at this
    · exact hp.ne k (by simp [hk])

theorem Partn.pos {V : α → Prop} {gs : List (List α)} (h : Partn V gs) {g : List α} (hg : g ∈ gs) : ∃ a, a ∈ g := by
  have := h.ne g hg
  cases g with
  | nil => exact absurd rfl this
  | cons a g => exact ⟨a, by simp⟩

theorem perm_eraseIdx {β : Type} (l : List β) (i : Nat) (h : i < l.length) : l.Perm (l[i] :: l.eraseIdx i) := by
  induction l generalizing i with
  | nil => simp at h
  | cons x l ih =>
    cases i with
    | zero => simp
    | succ i =>
      simp only [List.getElem_cons_succ, List.eraseIdx_cons_succ]
      exact ((ih i (by simpa using h)).cons x).trans (List.Perm.swap _ _ _)

theorem perm_modify {β : Type} (l : List β) (i : Nat) (f : β → β) (h : i < l.length) :
    (l.modify i f).Perm (f l[i] :: l.eraseIdx i) := by
  induction l generalizing i with
  | nil => simp at h
  | cons x l ih =>
    cases i with
    | zero => simp
    | succ i =>
      simp only [List.modify_succ_cons, List.getElem_cons_succ, List.eraseIdx_cons_succ]
      exact ((ih i (by simpa using h)).cons x).trans (List.Perm.swap _ _ _)

/-! ### exclusive choice -/

theorem holdsXor_spec {env : Env α} (henv : env.Lawful) {L : UVCL α} {gs : List (List α)}
    (h : holdsXor env (discoverUvcl L) = some gs) :
    Partn (Occ L) gs ∧ 1 < gs.length ∧ ∀ a b, Fol L a b → ∀ g ∈ gs, a ∈ g ↔ b ∈ g := by
  unfold holdsXor at h
  simp only [] at h
  split at h
  · rename_i hl
    cases h
    obtain ⟨h1, h2, _⟩ := components_spec (verts env (discoverUvcl L)) (edge (discoverUvcl L))
    refine ⟨h1.congr fun a => vert_iff env henv L a, hl, ?_⟩
    intro a b hab
    obtain ⟨t, ht, u, v, rfl⟩ := hab
    exact h2 a ((vert_iff env henv L a).2 ⟨_, ht, by simp⟩) b ((vert_iff env henv L b).2 ⟨_, ht, by simp⟩)
      ((edge_iff L a b).2 ⟨_, ht, u, v, rfl⟩)
  · cases h

/-! ### concurrency -/

theorem concRow_perm (g : DFG α) (grp : List α) (gs : List (List α)) (r : List α × List (List α))
    (h : concRow g grp gs = some r) : ∃ h', r.1 = union grp h' ∧ gs.Perm (h' :: r.2) := by
  induction gs generalizing r with
  | nil => simp [concRow] at h
  | cons x gs ih =>
    rw [concRow] at h
    split at h
    · cases h; exact ⟨x, rfl, List.Perm.refl _⟩
    · rw [Option.map_eq_some_iff] at h
      obtain ⟨r', hr', rfl⟩ := h
      obtain ⟨h', e1, e2⟩ := ih r' hr'
      exact ⟨h', e1, (e2.cons x).trans (List.Perm.swap _ _ _)⟩

theorem concStep_perm (g : DFG α) (gs gs' : List (List α)) (h : concStep g gs = some gs') :
    ∃ x y rest, gs.Perm (x :: y :: rest) ∧ gs'.Perm (union x y :: rest) := by
  induction gs generalizing gs' with
  | nil => simp [concStep] at h
  | cons grp gs ih =>
    rw [concStep] at h
    split at h
    · rename_i r hr
      cases h
      obtain ⟨h', e1, e2⟩ := concRow_perm g grp gs r hr
      exact ⟨grp, h', r.2, e2.cons grp, by rw [e1]⟩
    · rw [Option.map_eq_some_iff] at h
      obtain ⟨gs'', hr, rfl⟩ := h
      obtain ⟨x, y, rest, e1, e2⟩ := ih gs'' hr
      refine ⟨x, y, grp :: rest, ?_, ?_⟩
      · exact (e1.cons grp).trans ((List.Perm.swap _ _ _).trans ((List.Perm.swap _ _ _).cons x))
      · exact (e2.cons grp).trans (List.Perm.swap _ _ _)

theorem concLoop_partn {V : α → Prop} (g : DFG α) (n : Nat) (gs : List (List α)) (h : Partn V gs) :
    Partn V (concLoop g n gs) := by
  induction n generalizing gs with
  | zero => exact h
  | succ n ih =>
    rw [concLoop]
    split
    · exact h
    · rename_i gs' hs
      obtain ⟨x, y, rest, e1, e2⟩ := concStep_perm g gs gs' hs
      exact ih _ (((h.perm e1).merge (mem_union x y)).perm e2.symm)

theorem concFix_partn {V : α → Prop} (g : DFG α) (n i : Nat) (gs : List (List α)) (h : Partn V gs) :
    Partn V (concFix g n i gs) := by
  induction n generalizing gs i with
  | zero => exact h
  | succ n ih =>
    rw [concFix]
    split
    · rename_i hc
      split
      · exact ih _ _ h
      · apply ih
        have hl : (gs.eraseIdx i).length = gs.length - 1 := by rw [List.length_eraseIdx]; simp [hc.1]
        have hi : i - 1 < (gs.eraseIdx i).length := by omega
        have p1 := perm_eraseIdx gs i hc.1
        have p2 := perm_eraseIdx (gs.eraseIdx i) (i - 1) hi
        have p3 := perm_modify (gs.eraseIdx i) (i - 1) (fun h => union h (gs.getD i [])) hi
        have e : gs.getD i [] = gs[i] := by simp [hc.1]
        rw [e] at p3 ⊢
        refine Partn.perm ?_ p3.symm
        exact (h.perm (p1.trans (p2.cons _))).merge (fun a => by rw [mem_union]; exact or_comm)
    · exact h

theorem holdsPar_spec {env : Env α} (henv : env.Lawful) {L : UVCL α} {gs : List (List α)}
    (h : holdsPar env (discoverUvcl L) = some gs) : Partn (Occ L) gs ∧ 1 < gs.length := by
  unfold holdsPar at h
  simp only [] at h
  split at h
  · cases h
  · split at h
    · rename_i hl
      cases h
      refine ⟨?_, hl⟩
      apply concFix_partn
      refine Partn.perm ?_ (List.mergeSort_perm _ _).symm
      apply concLoop_partn
      have hn : (env.sorted (verts env (discoverUvcl L))).Nodup :=
        (henv.sorted_perm _).symm.nodup (verts_nodup env henv _)
      refine (Partn.singletons _ hn).congr fun a => ?_
      rw [(henv.sorted_perm _).mem_iff, vert_iff env henv]
    · cases h

/-! ### loop -/

/-- What holds throughout the computation of the loop groups: the first group has all start and end activities, and no two
of the other groups are connected. -/
structure LoopInv (L : UVCL α) (gs : List (List α)) : Prop where
  part : Partn (Occ L) gs
  ends : ∃ d rs, gs = d :: rs ∧ (∀ a, IsStart L a → a ∈ d) ∧ (∀ a, IsEnd L a → a ∈ d) ∧
    ∀ a b, Fol L a b → ∀ g ∈ rs, ∀ h ∈ rs, a ∈ g → b ∈ h → a ∈ h

theorem groupOf_foldl (gs : List (List α)) (a : α) (g : List α) (hg : g ∈ gs) (ha : a ∈ g)
    (hu : ∀ h ∈ gs, a ∈ h → h = g) (r : Option (List α)) :
    gs.foldl (fun r grp => if a ∈ grp then some grp else r) r = some g := by
  have key : ∀ (l : List (List α)) (r : Option (List α)), (∀ h ∈ l, a ∈ h → h = g) → (r = some g ∨ g ∈ l) →
      l.foldl (fun r grp => if a ∈ grp then some grp else r) r = some g := by
    intro l
    induction l with
    | nil => intro r _ h; simpa using h
    | cons x l ih =>
      intro r hu h
      rw [List.foldl_cons]
      apply ih _ fun h hh => hu h (by simp [hh])
      by_cases hx : a ∈ x
      · left; rw [if_pos hx, hu x (by simp) hx]
      · simp only [hx, if_false]
        rcases h with h | h
        · exact .inl h
        · rcases List.mem_cons.1 h with rfl | h
          · exact absurd ha hx
          · exact .inr h
  exact key gs r hu (.inr hg)

theorem Partn.eq_of_mem {V : α → Prop} {gs : List (List α)} (h : Partn V gs) {g g' : List α} (hg : g ∈ gs) (hg' : g' ∈ gs)
    {a : α} (ha : a ∈ g) (ha' : a ∈ g') : g = g' := by
  obtain ⟨i, hi⟩ := List.getElem?_of_mem hg
  obtain ⟨j, hj⟩ := List.getElem?_of_mem hg'
  have := h.unique hi hj ha ha'
  subst this
  rw [hi] at hj; exact Option.some.inj hj

theorem groupOf_eq {V : α → Prop} {gs : List (List α)} (h : Partn V gs) {g : List α} (hg : g ∈ gs) {a : α} (ha : a ∈ g) :
    groupOf gs a = some g :=
  groupOf_foldl gs a g hg ha (fun _ hh hah => h.eq_of_mem hh hg hah ha) none

theorem setNe_iff (g h : List α) : setNe g h = true ↔ ¬ ∀ a, a ∈ g ↔ a ∈ h := by
  unfold setNe
  rw [Bool.not_eq_true', Bool.eq_false_iff, ne_eq, Bool.and_eq_true]
  simp only [List.all_eq_true, decide_eq_true_iff]
  constructor
  · intro hn h'; exact hn ⟨fun a ha => (h' a).1 ha, fun a ha => (h' a).2 ha⟩
  · rintro hn ⟨h1, h2⟩; exact hn fun a => ⟨h1 a, h2 a⟩

theorem Partn.setNe {V : α → Prop} {gs : List (List α)} (h : Partn V gs) {g g' : List α} (hg : g ∈ gs) (hg' : g' ∈ gs) :
    setNe g g' = true ↔ g ≠ g' := by
  rw [setNe_iff]
  constructor
  · rintro hn rfl; exact hn fun _ => Iff.rfl
  · intro hne hall
    obtain ⟨a, ha⟩ := h.pos hg
    exact hne (h.eq_of_mem hg hg' ha ((hall a).1 ha))

theorem Partn.nodup {V : α → Prop} {gs : List (List α)} (h : Partn V gs) : gs.Nodup := by
  unfold List.Nodup
  refine List.Pairwise.imp_of_mem ?_ h.disj
  intro g g' hg _ hd he
  obtain ⟨a, ha⟩ := h.pos hg
  exact hd a ha (he ▸ ha)

/-- merging another group into the first -/
theorem LoopInv.absorb {L : UVCL α} {d : List α} {rs : List (List α)} (h : LoopInv L (d :: rs)) (x u : List α)
    (hx : x ∈ d :: rs) (hu : ∀ a, a ∈ u ↔ a ∈ d ∨ a ∈ x) :
    LoopInv L (u :: rs.filter fun r => decide (r ≠ x)) := by
  obtain ⟨d', rs', he, h1, h2, h3⟩ := h.ends
  obtain ⟨rfl, rfl⟩ := List.cons.inj he
  refine ⟨?_, u, _, rfl, fun a ha => (hu a).2 (.inl (h1 a ha)), fun a ha => (hu a).2 (.inl (h2 a ha)), ?_⟩
  · rcases List.mem_cons.1 hx with rfl | hx
    · have hd := List.pairwise_cons.1 h.part.nodup
      have : rs.filter (fun r => decide (r ≠ x)) = rs := by
        rw [List.filter_eq_self]; intro r hr; simp only [decide_eq_true_iff]; exact fun e => hd.1 r hr e.symm
      rw [this]
      have hd' := List.pairwise_cons.1 h.part.disj
      have hux : ∀ a, a ∈ u ↔ a ∈ x := fun a => by rw [hu]; simp
      refine ⟨?_, ?_, ?_⟩
      · intro a; rw [h.part.cover]; simp [hux]
      · rw [List.pairwise_cons]
        exact ⟨fun g hg a ha => hd'.1 g hg a ((hux a).1 ha), hd'.2⟩
      · intro g hg
        rcases List.mem_cons.1 hg with rfl | hg
        · obtain ⟨a, ha⟩ := h.part.pos (g := x) (by simp)
          intro e; have := (hux a).2 ha; rw [e] at this; simp at this
        · exact h.part.ne g (by simp [hg])
    · have hn := (List.nodup_cons.1 h.part.nodup).2
      have hp : rs.Perm (x :: rs.filter fun r => decide (r ≠ x)) := by
        have := List.perm_cons_erase hx
        refine this.trans (List.Perm.cons _ ?_)
        rw [hn.erase_eq_filter]
        apply List.Perm.of_eq
        apply List.filter_congr
        intro r _; rw [Bool.eq_iff_iff]; simp
      exact (h.part.perm (hp.cons d)).merge hu
  · intro a b hab g hg h' hh
    exact h3 a b hab g (List.mem_filter.1 hg).1 h' (List.mem_filter.1 hh).1

theorem mergeFirst_inv {L : UVCL α} {gs : List (List α)} (h : LoopInv L gs) {a b : α} (ha : Occ L a) (hb : Occ L b)
    (hab : (IsStart L a ∨ IsEnd L a) ∨ (IsStart L b ∨ IsEnd L b)) : LoopInv L (mergeFirst gs a b) := by
  obtain ⟨d, rs, rfl, h1, h2, h3⟩ := h.ends
  have hh := h
  obtain ⟨ga, hga, haa⟩ := (h.part.cover a).1 ha
  obtain ⟨gb, hgb, hbb⟩ := (h.part.cover b).1 hb
  unfold mergeFirst
  rw [groupOf_eq h.part hga haa, groupOf_eq h.part hgb hbb]
  simp only []
  have hd : d ∈ d :: rs := by simp
  have hfilt : ∀ x, x ∈ d :: rs → ∀ p : List α → Bool, (∀ g ∈ d :: rs, p g = (decide (g ≠ d) && decide (g ≠ x))) →
      (d :: rs).filter p = rs.filter fun r => decide (r ≠ x) := by
    intro x hx p hp
    have hn := List.pairwise_cons.1 h.part.nodup
    rw [List.filter_cons, hp d (by simp)]
    rw [if_neg (by simp)]
    apply List.filter_congr
    intro g hg
    rw [hp g (by simp [hg])]
    have hgd : g ≠ d := fun e => hn.1 g hg e.symm
    rw [decide_eq_true hgd, Bool.true_and]
  by_cases hda : ga = d
  · subst hda
    have := hfilt gb hgb (fun grp => setNe grp ga && setNe grp gb) (by
      intro g hg
      rw [Bool.eq_iff_iff, Bool.and_eq_true, Bool.and_eq_true, h.part.setNe hg hga, h.part.setNe hg hgb]; simp)
    rw [this]
    exact hh.absorb gb _ hgb (mem_union _ _)
  · have hdb : gb = d := by
      rcases hab with (hs | hs) | (hs | hs)
      · exact absurd (h.part.eq_of_mem hga hd haa (h1 a hs)) hda
      · exact absurd (h.part.eq_of_mem hga hd haa (h2 a hs)) hda
      · exact h.part.eq_of_mem hgb hd hbb (h1 b hs)
      · exact h.part.eq_of_mem hgb hd hbb (h2 b hs)
    subst hdb
    have := hfilt ga hga (fun grp => setNe grp ga && setNe grp gb) (by
      intro g hg
      rw [Bool.eq_iff_iff, Bool.and_eq_true, Bool.and_eq_true, h.part.setNe hg hga, h.part.setNe hg hgb]; simp [and_comm])
    rw [this]
    exact hh.absorb ga _ hga (fun x => by rw [mem_union]; exact or_comm)

theorem foldl_inv {β σ : Type} (P : σ → Prop) (f : σ → β → σ) (l : List β) (s : σ) (hs : P s)
    (hf : ∀ b ∈ l, ∀ s, P s → P (f s b)) : P (l.foldl f s) := by
  induction l generalizing s with
  | nil => exact hs
  | cons b l ih => exact ih _ (hf b (by simp) s hs) fun c hc => hf c (by simp [hc])

theorem occ_of_fol {L : UVCL α} {a b : α} (h : Fol L a b) : Occ L a ∧ Occ L b := by
  obtain ⟨t, ht, u, v, rfl⟩ := h
  exact ⟨⟨_, ht, by simp⟩, ⟨_, ht, by simp⟩⟩

theorem fol_of_key {L : UVCL α} {e : α × α} (h : e ∈ keys (discoverUvcl L).graph) : Fol L e.1 e.2 :=
  (edge_iff L e.1 e.2).1 (by unfold edge; simpa using h)

theorem exclStart_inv {env : Env α} (henv : env.Lawful) {L : UVCL α} {gs : List (List α)} (h : LoopInv L gs) :
    LoopInv L (exclStart env (discoverUvcl L) gs) := by
  unfold exclStart
  apply foldl_inv (LoopInv L) _ _ _ h
  intro a ha s hs
  apply foldl_inv (LoopInv L) _ _ _ hs
  intro e he s hs
  split
  · rename_i hea
    rw [henv.iter_mem, List.mem_filter, start_iff] at ha
    have := occ_of_fol (fol_of_key he)
    subst hea
    exact mergeFirst_inv hs this.1 this.2 (.inl (.inl ha.1))
  · exact hs

theorem exclEnd_inv {env : Env α} (henv : env.Lawful) {L : UVCL α} {gs : List (List α)} (h : LoopInv L gs) :
    LoopInv L (exclEnd env (discoverUvcl L) gs) := by
  unfold exclEnd
  apply foldl_inv (LoopInv L) _ _ _ h
  intro a ha s hs
  apply foldl_inv (LoopInv L) _ _ _ hs
  intro e he s hs
  split
  · rename_i hea
    rw [henv.iter_mem, List.mem_filter, end_iff] at ha
    have := occ_of_fol (fol_of_key he)
    subst hea
    exact mergeFirst_inv hs this.1 this.2 (.inr (.inr ha.1))
  · exact hs

theorem mergeIntoFirst_inv {L : UVCL α} (bad : List α → Bool) {gs : List (List α)} (h : LoopInv L gs) :
    LoopInv L (mergeIntoFirst bad gs) := by
  obtain ⟨d, rs, rfl, h1, h2, h3⟩ := h.ends
  rw [mergeIntoFirst]
  have hm : ∀ (l : List (List α)) (d : List α) (a : α),
      a ∈ l.foldl (fun d r => if bad r then union d r else d) d ↔ a ∈ d ∨ ∃ r ∈ l, bad r = true ∧ a ∈ r := by
    intro l
    induction l with
    | nil => simp
    | cons x l ih =>
      intro d a
      rw [List.foldl_cons, ih]
      by_cases hx : bad x = true
      · simp only [hx, if_true, mem_union, List.mem_cons, exists_eq_or_imp, true_and]; grind
      · simp only [hx, List.mem_cons, exists_eq_or_imp]; simp
  have hc := List.pairwise_cons.1 h.part.disj
  refine ⟨⟨?_, ?_, ?_⟩, _, _, rfl, fun a ha => (hm _ _ a).2 (.inl (h1 a ha)), fun a ha => (hm _ _ a).2 (.inl (h2 a ha)), ?_⟩
  · intro a
    rw [h.part.cover]
    simp only [List.mem_cons, exists_eq_or_imp, hm, List.mem_filter, Bool.not_eq_true']
    constructor
    · rintro (ha | ⟨r, hr, ha⟩)
      · exact .inl (.inl ha)
      · cases hb : bad r
        · exact .inr ⟨r, ⟨hr, hb⟩, ha⟩
        · exact .inl (.inr ⟨r, hr, hb, ha⟩)
    · rintro ((ha | ⟨r, hr, _, ha⟩) | ⟨r, ⟨hr, _⟩, ha⟩)
      · exact .inl ha
      · exact .inr ⟨r, hr, ha⟩
      · exact .inr ⟨r, hr, ha⟩
  · rw [List.pairwise_cons]
    refine ⟨?_, hc.2.filter _⟩
    intro g hg a ha hag
    rw [List.mem_filter] at hg
    rcases (hm _ _ a).1 ha with ha | ⟨r, hr, hb, har⟩
    · exact hc.1 g hg.1 a ha hag
    · have := h.part.eq_of_mem (g := r) (g' := g) (by simp [hr]) (by simp [hg.1]) har hag
      subst this
      simp [hb] at hg
  · intro g hg
    rcases List.mem_cons.1 hg with rfl | hg
    · obtain ⟨a, ha⟩ := h.part.pos (g := d) (by simp)
      intro e
      have := (hm rs d a).2 (.inl ha)
      rw [e] at this; simp at this
    · exact h.part.ne g (by simp [(List.mem_filter.1 hg).1])
  · intro a b hab g hg h' hh
    exact h3 a b hab g (List.mem_filter.1 hg).1 h' (List.mem_filter.1 hh).1

theorem loopInit_inv {env : Env α} (henv : env.Lawful) {L : UVCL α} (hne : ∃ a b, Fol L a b) :
    LoopInv L (union (keys (discoverUvcl L).starts) (keys (discoverUvcl L).ends) :: loopComps env (discoverUvcl L)) := by
  have hm : ∀ a, a ∈ union (keys (discoverUvcl L).starts) (keys (discoverUvcl L).ends) ↔ IsStart L a ∨ IsEnd L a := by
    intro a; rw [mem_union, start_iff, end_iff]
  have hocc : ∀ a, IsStart L a ∨ IsEnd L a → Occ L a := by
    rintro a (⟨v, hv⟩ | ⟨u, hu⟩)
    · exact ⟨_, hv, by simp⟩
    · exact ⟨_, hu, by simp⟩
  obtain ⟨c1, c2, _⟩ := components_spec ((verts env (discoverUvcl L)).filter fun a =>
    decide (a ∉ keys (discoverUvcl L).starts) && decide (a ∉ keys (discoverUvcl L).ends)) (edge (discoverUvcl L))
  have hnode : ∀ a, (a ∈ (verts env (discoverUvcl L)).filter fun a =>
      decide (a ∉ keys (discoverUvcl L).starts) && decide (a ∉ keys (discoverUvcl L).ends)) ↔
      Occ L a ∧ ¬ (IsStart L a ∨ IsEnd L a) := by
    intro a
    rw [List.mem_filter, vert_iff env henv, Bool.and_eq_true, decide_eq_true_iff, decide_eq_true_iff, start_iff, end_iff,
      not_or]
  refine ⟨⟨?_, ?_, ?_⟩, _, _, rfl, fun a ha => (hm a).2 (.inl ha), fun a ha => (hm a).2 (.inr ha), ?_⟩
  · intro a
    simp only [List.mem_cons, exists_eq_or_imp, hm]
    have := c1.cover a
    simp only [hnode] at this
    unfold loopComps
    simp only []
    rw [← this]
    by_cases hse : IsStart L a ∨ IsEnd L a
    · simp [hse, hocc a hse]
    · simp [hse]
  · rw [List.pairwise_cons]
    refine ⟨?_, c1.disj⟩
    intro g hg a ha hag
    have := (c1.cover a).2 ⟨g, hg, hag⟩
    simp only [hnode] at this
    exact this.2 ((hm a).1 ha)
  · intro g hg
    rcases List.mem_cons.1 hg with rfl | hg
    · obtain ⟨a, b, t, ht, u, v, rfl⟩ := hne
      cases u with
      | nil => intro e; have := (hm a).2 (.inl ⟨_, ht⟩); rw [e] at this; simp at this
      | cons x u => intro e; have := (hm x).2 (.inl ⟨_, ht⟩); rw [e] at this; simp at this
    · exact c1.ne g hg
  · intro a b hab g hg h' hh ha hb
    have ha' := (c1.cover a).2 ⟨g, hg, ha⟩
    have hb' := (c1.cover b).2 ⟨h', hh, hb⟩
    exact (c2 a ha' b hb' ((edge_iff L a b).2 hab) h' hh).2 hb

theorem holdsLoop_spec {env : Env α} (henv : env.Lawful) {L : UVCL α} {gs : List (List α)}
    (h : holdsLoop env (discoverUvcl L) = some gs) : LoopInv L gs ∧ 1 < gs.length := by
  unfold holdsLoop at h
  simp only [] at h
  split at h
  · cases h
  · rename_i hg
    have hne : ∃ a b, Fol L a b := by
      cases hk : keys (discoverUvcl L).graph with
      | nil => rw [hk] at hg; simp at hg
      | cons e l => exact ⟨e.1, e.2, fol_of_key (by rw [hk]; simp)⟩
    have hinv := mergeIntoFirst_inv (endIncomplete (discoverUvcl L)) (mergeIntoFirst_inv (startIncomplete (discoverUvcl L))
      (exclEnd_inv henv (exclStart_inv henv (loopInit_inv henv hne))))
    have hf : ∀ l : List (List α), Partn (Occ L) l → (l.filter fun grp => decide (grp.length > 0)) = l := by
      intro l hl
      rw [List.filter_eq_self]
      intro g hg
      have := hl.ne g hg
      cases g <;> simp_all
    rw [hf _ hinv.part] at h
    split at h
    · rename_i hl; cases h; exact ⟨hinv, hl⟩
    · cases h

end Verif.IM
