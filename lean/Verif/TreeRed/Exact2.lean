import Verif.TreeRed.Exact
set_option linter.unusedSectionVars false
/-
Proofs for C54: one iteration of the loop keeps the invariant and finds a slot.
-/
namespace Verif
namespace TreeRed
open PT BU Foot
variable {α : Type} [DecidableEq α] {A : List α} {t : PT α} {N : Nat} {R D : List Path}

theorem append_snoc_inj {p p' : Path} {i j : Nat} (h : p ++ [i] = p' ++ [j]) : p = p' ∧ i = j := by
  have := List.append_inj' h rfl
  simpa using this

/-- siblings have disjoint labels -/
theorem labels_sibling (hlab : t.labels.Nodup) {p : Path} {i j : Nat} {c d : PT α} (hij : i ≠ j) (hc : subAt t (p ++ [i]) = some c)
    (hd : subAt t (p ++ [j]) = some d) (a : α) (h1 : a ∈ c.labels) (h2 : a ∈ d.labels) : False := by
  rw [subAt_snoc] at hc hd
  cases hp : subAt t p with
  | none => simp [hp] at hc
  | some s =>
    rw [hp, Option.bind_some] at hc hd
    have hn : s.labels.Nodup := by
      clear hc hd
      induction p generalizing t with
      | nil => simp only [subAt, Option.some.injEq] at hp; exact hp ▸ hlab
      | cons k p ih =>
        simp only [subAt] at hp
        cases hk : t.children[k]? with
        | none => simp [hk] at hp
        | some e => rw [hk] at hp; exact ih (nodup_child (List.mem_of_getElem? hk) hlab) hp
    cases s with
    | leaf l => simp [PT.children] at hc
    | node op cs =>
      simp only [PT.children] at hc hd
      rw [labels_node] at hn
      have hpw := (List.pairwise_flatMap.1 hn).2
      have key : ∀ (i j : Nat) (c d : PT α), i < j → cs[i]? = some c → cs[j]? = some d → a ∈ c.labels → a ∈ d.labels → False := by
        intro i j c d hlt hc hd h1 h2
        obtain ⟨hi, rfl⟩ := List.getElem?_eq_some_iff.1 hc
        obtain ⟨hj, rfl⟩ := List.getElem?_eq_some_iff.1 hd
        exact List.pairwise_iff_getElem.1 hpw i j hi hj hlt a h1 a h2 rfl
      rcases Nat.lt_or_gt_of_ne hij with h | h
      · exact key i j c d h hc hd h1 h2
      · exact key j i d c h hd hc h2 h1

/-- a sibling with the same content as a completed node -/
theorem LInv.twin (h : LInv A t N R D) (hN : ∀ p i s, subAt t (p ++ [i]) = some s → i < N) (ht : WF t) (hlab : t.labels.Nodup) {f : FP α}
    (hf : footprints t = some f) {p : Path} {i j : Nat} {op op' : Op} {cs ds : List (PT α)} (hij : i ≠ j) (hi : subAt t (p ++ [i]) = some (.node op cs))
    (hj : subAt t (p ++ [j]) = some (.node op' ds)) (hb : Below t D (p ++ [i]))
    (he : cur R (p ++ [j]) (.node op' ds) = cur R (p ++ [i]) (.node op cs)) : RemAt A t (p ++ [j]) ∧ Below t D (p ++ [j]) := by
  have hfin := h.cur_fin hN _ _ hi hb
  have hnl : (fin A (.node op cs)).labels = [] := by
    rw [List.eq_nil_iff_forall_not_mem]
    intro a ha
    rw [← hfin] at ha
    refine labels_sibling hlab hij hi hj a (cur_labels R _ _ a ha) (cur_labels R _ (p ++ [j]) a ?_)
    rw [he]; exact ha
  obtain ⟨g, hg⟩ := footprints_child ht hf hi
  have hrem := fin_nolabels (wf_subAt ht hi) hg hnl
  rw [hfin, cur, fin, finL_eq] at he
  simp only [PT.node.injEq] at he
  obtain ⟨_, he⟩ := he
  -- all slots of the sibling are silent
  have hslot : ∀ (k : Nat) (c : PT α), ds[k]? = some c → c = .leaf none ∨ (p ++ [j]) ++ [k] ∈ R := by
    intro k c hc
    have h1 := curL_get R (p ++ [j]) ds 0 k
    rw [he, hc, List.getElem?_map, Option.map_some, Nat.zero_add] at h1
    obtain ⟨e, he1, he2⟩ := Option.map_eq_some_iff.1 h1
    rw [if_pos (hrem e (List.mem_of_getElem? he1))] at he2
    by_cases hin : (p ++ [j]) ++ [k] ∈ R
    · exact .inr hin
    · rw [if_neg hin] at he2
      left
      cases c with
      | leaf l => simpa [cur] using he2.symm
      | node _ _ => simp [cur] at he2
  have hch : ∀ (k : Nat) (c : PT α), ds[k]? = some c → rem A c = true := by
    intro k c hc
    rcases hslot k c hc with rfl | h1
    · exact rem_tau A
    · exact (remAt_iff (by rw [subAt_snoc, hj]; exact hc)).1 (h.remo _ h1)
  obtain ⟨g', hg'⟩ := footprints_child ht hf hj
  have hwf := wf_subAt ht hj
  constructor
  · refine (remAt_iff hj).2 (rem_of_children ?_ hg' fun c hc => ?_)
    · cases hwf; assumption
    · obtain ⟨k, hk⟩ := List.getElem?_of_mem hc; exact hch k c hk
  · -- the inner children of the sibling have been processed
    have hinner : ∀ k, InnerAt t ((p ++ [j]) ++ [k]) → (p ++ [j]) ++ [k] ∈ R := by
      rintro k ⟨o, es, hk⟩
      have hk' := hk
      rw [subAt_snoc, hj, Option.bind_some] at hk'
      rcases hslot k _ hk' with h1 | h1
      · cases h1
      · exact h1
    have hcard := h.cnt (p ++ [j]) (fun _ => True)
    have hsub : DS A t N R D (p ++ [j]) (fun _ => True) ⊆ RS t N R (p ++ [j]) (fun _ => True) := by
      intro k hk
      simp only [RS, DS, Finset.mem_filter] at hk ⊢
      exact ⟨hk.1, hk.2.1, hinner k hk.2.1, fun _ _ => trivial⟩
    have heq := Finset.eq_of_subset_of_card_le hsub (by rw [hcard])
    have hdone : ∀ k, InnerAt t ((p ++ [j]) ++ [k]) → (p ++ [j]) ++ [k] ∈ D := by
      intro k hk
      have : k ∈ RS t N R (p ++ [j]) (fun _ => True) := by
        simp only [RS, Finset.mem_filter, Finset.mem_range]
        obtain ⟨o, es, hs⟩ := hk
        exact ⟨hN _ _ _ hs, ⟨o, es, hs⟩, hinner k ⟨o, es, hs⟩, fun _ _ => trivial⟩
      rw [← heq] at this
      simp only [DS, Finset.mem_filter] at this
      exact this.2.2.2.1
    intro r hr hi'
    cases r with
    | nil => exact absurd rfl hr
    | cons k r =>
      have hpre : InnerAt t ((p ++ [j]) ++ [k]) := by
        by_cases hr' : r = []
        · subst hr'; exact hi'
        · obtain ⟨o, es, hs⟩ := hi'
          rw [show (p ++ [j]) ++ (k :: r) = ((p ++ [j]) ++ [k]) ++ r by simp] at hs
          cases hq : subAt t ((p ++ [j]) ++ [k]) with
          | none =>
            exfalso
            have : ∀ (u : PT α) (a b : Path), subAt u a = none → subAt u (a ++ b) = none := by
              intro u a
              induction a generalizing u with
              | nil => intro b h; simp [subAt] at h
              | cons x a ih =>
                intro b h
                simp only [subAt, List.cons_append] at h ⊢
                cases hx : u.children[x]? with
                | none => rfl
                | some y => rw [hx] at h; exact ih y b h
            rw [this t _ r hq] at hs; cases hs
          | some y =>
            have hsplit : ∀ (u : PT α) (a b : Path), subAt u (a ++ b) = (subAt u a).bind fun v => subAt v b := by
              intro u a
              induction a generalizing u with
              | nil => intro b; simp [subAt]
              | cons x a ih =>
                intro b
                simp only [subAt, List.cons_append]
                cases hx : u.children[x]? with
                | none => rfl
                | some y => simp [ih]
            rw [hsplit, hq, Option.bind_some] at hs
            cases y with
            | leaf l =>
              cases r with
              | nil => exact absurd rfl hr'
              | cons z r => simp [subAt, PT.children] at hs
            | node o' es' => exact ⟨o', es', hq⟩
      have hin := hdone k hpre
      by_cases hr' : r = []
      · subst hr'; exact hin
      · rw [show (p ++ [j]) ++ (k :: r) = ((p ++ [j]) ++ [k]) ++ r by simp] at hi' ⊢
        exact h.below _ (.inr hin) r hr' hi'

/-- processing a removable inner node -/
theorem LInv.step (h : LInv A t N R D) (hN : ∀ p i s, subAt t (p ++ [i]) = some s → i < N) (ht : WF t) (hlab : t.labels.Nodup) {f : FP α}
    (hf : footprints t = some f) {p : Path} {i j : Nat} {op op' : Op} {cs ds : List (PT α)} (hi : subAt t (p ++ [i]) = some (.node op cs))
    (hr : rem A (.node op cs) = true) (hD : p ++ [i] ∉ D) (hb : Below t D (p ++ [i]))
    (hj : subAt t (p ++ [j]) = some (.node op' ds)) (hjR : p ++ [j] ∉ R)
    (he : cur R (p ++ [j]) (.node op' ds) = cur R (p ++ [i]) (.node op cs)) :
    LInv A t N ((p ++ [j]) :: R) ((p ++ [i]) :: D) := by
  have htw : RemAt A t (p ++ [j]) ∧ Below t D (p ++ [j]) := by
    by_cases hij : i = j
    · subst hij; exact ⟨(remAt_iff hi).2 hr, hb⟩
    · exact h.twin hN ht hlab hf hij hi hj hb he
  -- a node below which everything is processed is not above the slot
  have hnot : ∀ q, Below t D q → ∀ r, r ≠ [] → p ++ [j] ≠ q ++ r := by
    intro q hq r hr' e
    rcases List.eq_nil_or_concat r with rfl | ⟨r0, k, rfl⟩
    · exact hr' rfl
    · rw [List.concat_eq_append, ← List.append_assoc] at e
      obtain ⟨rfl, _⟩ := append_snoc_inj e
      apply hD
      rw [List.append_assoc]
      exact hq (r0 ++ [i]) (by simp) ⟨op, cs, by rw [← List.append_assoc]; exact hi⟩
  have hstab : ∀ q, (∀ r, r ≠ [] → p ++ [j] ≠ q ++ r) → ∀ s : PT α, cur ((p ++ [j]) :: R) q s = cur R q s := by
    intro q hq s
    refine cur_congr (fun r hr' => ?_) s
    rw [List.mem_cons]
    constructor
    · rintro (e | h')
      · exact absurd e.symm (hq r hr')
      · exact h'
    · exact .inr
  have hsib : ∀ k (s : PT α), cur ((p ++ [j]) :: R) (p ++ [k]) s = cur R (p ++ [k]) s := by
    intro k s
    refine hstab _ (fun r hr' e => ?_) s
    have := congrArg List.length e
    simp only [List.length_append, List.length_singleton] at this
    have := List.length_pos_of_ne_nil hr'
    omega
  refine ⟨?_, ?_, ?_⟩
  · intro q hq
    rcases List.mem_cons.1 hq with rfl | hq
    · exact htw.1
    · exact h.remo q hq
  · intro p' V
    by_cases hp : p' = p
    · subst hp
      have hv : V (cur R (p' ++ [j]) (.node op' ds)) ↔ V (cur R (p' ++ [i]) (.node op cs)) := by rw [he]
      by_cases hV : V (cur R (p' ++ [i]) (.node op cs))
      · have e1 : RS t N ((p' ++ [j]) :: R) p' V = insert j (RS t N R p' V) := by
          ext k
          simp only [RS, Finset.mem_insert, Finset.mem_filter, Finset.mem_range, hsib, List.mem_cons]
          constructor
          · rintro ⟨h1, h2, h3 | h3, h4⟩
            · exact .inl (append_snoc_inj h3).2
            · exact .inr ⟨h1, h2, h3, h4⟩
          · rintro (rfl | ⟨h1, h2, h3, h4⟩)
            · exact ⟨hN _ _ _ hj, ⟨op', ds, hj⟩, .inl rfl, fun s hs => by rw [hj, Option.some.injEq] at hs; subst hs; exact hv.2 hV⟩
            · exact ⟨h1, h2, .inr h3, h4⟩
        have e2 : DS A t N ((p' ++ [j]) :: R) ((p' ++ [i]) :: D) p' V = insert i (DS A t N R D p' V) := by
          ext k
          simp only [DS, Finset.mem_insert, Finset.mem_filter, Finset.mem_range, hsib, List.mem_cons]
          constructor
          · rintro ⟨h1, h2, h3, h4 | h4, h5⟩
            · exact .inl (append_snoc_inj h4).2
            · exact .inr ⟨h1, h2, h3, h4, h5⟩
          · rintro (rfl | ⟨h1, h2, h3, h4, h5⟩)
            · exact ⟨hN _ _ _ hi, ⟨op, cs, hi⟩, (remAt_iff hi).2 hr, .inl rfl, fun s hs => by rw [hi, Option.some.injEq] at hs; subst hs; exact hV⟩
            · exact ⟨h1, h2, h3, .inr h4, h5⟩
        rw [e1, e2, Finset.card_insert_of_notMem, Finset.card_insert_of_notMem, h.cnt]
        · simp only [DS, Finset.mem_filter]
          exact fun hm => hD hm.2.2.2.1
        · simp only [RS, Finset.mem_filter]
          exact fun hm => hjR hm.2.2.1
      · have e1 : RS t N ((p' ++ [j]) :: R) p' V = RS t N R p' V := by
          ext k
          simp only [RS, Finset.mem_filter, Finset.mem_range, hsib, List.mem_cons]
          constructor
          · rintro ⟨h1, h2, h3 | h3, h4⟩
            · exfalso
              obtain ⟨_, rfl⟩ := append_snoc_inj h3
              exact hV (hv.1 (h4 _ hj))
            · exact ⟨h1, h2, h3, h4⟩
          · rintro ⟨h1, h2, h3, h4⟩; exact ⟨h1, h2, .inr h3, h4⟩
        have e2 : DS A t N ((p' ++ [j]) :: R) ((p' ++ [i]) :: D) p' V = DS A t N R D p' V := by
          ext k
          simp only [DS, Finset.mem_filter, Finset.mem_range, hsib, List.mem_cons]
          constructor
          · rintro ⟨h1, h2, h3, h4 | h4, h5⟩
            · exfalso
              obtain ⟨_, rfl⟩ := append_snoc_inj h4
              exact hV (h5 _ hi)
            · exact ⟨h1, h2, h3, h4, h5⟩
          · rintro ⟨h1, h2, h3, h4, h5⟩; exact ⟨h1, h2, h3, .inr h4, h5⟩
        rw [e1, e2, h.cnt]
    · have e1 : RS t N ((p ++ [j]) :: R) p' V = RS t N R p' V := by
        ext k
        simp only [RS, Finset.mem_filter, Finset.mem_range, List.mem_cons]
        constructor
        · rintro ⟨h1, h2, h3 | h3, h4⟩
          · exact absurd (append_snoc_inj h3).1 hp
          · refine ⟨h1, h2, h3, fun s hs => ?_⟩
            rw [← hstab _ (hnot _ (h.below _ (.inl h3)))]; exact h4 s hs
        · rintro ⟨h1, h2, h3, h4⟩
          refine ⟨h1, h2, .inr h3, fun s hs => ?_⟩
          rw [hstab _ (hnot _ (h.below _ (.inl h3)))]; exact h4 s hs
      have e2 : DS A t N ((p ++ [j]) :: R) ((p ++ [i]) :: D) p' V = DS A t N R D p' V := by
        ext k
        simp only [DS, Finset.mem_filter, Finset.mem_range, List.mem_cons]
        constructor
        · rintro ⟨h1, h2, h3, h4 | h4, h5⟩
          · exact absurd (append_snoc_inj h4).1 hp
          · refine ⟨h1, h2, h3, h4, fun s hs => ?_⟩
            rw [← hstab _ (hnot _ (h.below _ (.inr h4)))]; exact h5 s hs
        · rintro ⟨h1, h2, h3, h4, h5⟩
          refine ⟨h1, h2, h3, .inr h4, fun s hs => ?_⟩
          rw [hstab _ (hnot _ (h.below _ (.inr h4)))]; exact h5 s hs
      rw [e1, e2, h.cnt]
  · intro q hq r hr' hin
    apply List.mem_cons_of_mem
    rcases hq with hq | hq
    · rcases List.mem_cons.1 hq with rfl | hq
      · exact htw.2 r hr' hin
      · exact h.below q (.inl hq) r hr' hin
    · rcases List.mem_cons.1 hq with rfl | hq
      · exact hb r hr' hin
      · exact h.below q (.inr hq) r hr' hin

/-- processing a node that is not removable, or not an inner node -/
theorem LInv.skip (h : LInv A t N R D) {q : Path} (hq : ¬ (InnerAt t q ∧ RemAt A t q)) (hb : Below t D q) : LInv A t N R (q :: D) := by
  refine ⟨h.remo, fun p V => ?_, ?_⟩
  · have e2 : DS A t N R (q :: D) p V = DS A t N R D p V := by
      ext k
      simp only [DS, Finset.mem_filter, Finset.mem_range, List.mem_cons]
      constructor
      · rintro ⟨h1, h2, h3, h4 | h4, h5⟩
        · rw [h4] at h2 h3; exact absurd ⟨h2, h3⟩ hq
        · exact ⟨h1, h2, h3, h4, h5⟩
      · rintro ⟨h1, h2, h3, h4, h5⟩; exact ⟨h1, h2, h3, .inr h4, h5⟩
    rw [e2, h.cnt]
  · intro q' hq' r hr hin
    apply List.mem_cons_of_mem
    rcases hq' with hq' | hq'
    · exact h.below q' (.inl hq') r hr hin
    · rcases List.mem_cons.1 hq' with rfl | hq'
      · exact hb r hr hin
      · exact h.below q' (.inr hq') r hr hin

mutual
theorem cur_tau {R : List Path} {p : Path} {j : Nat} (hj : subAt t (p ++ [j]) = some (.leaf none) ∨ p ++ [j] ∈ R) : ∀ (s : PT α) (q : Path),
    subAt t q = some s → cur ((p ++ [j]) :: R) q s = cur R q s
  | .leaf l, _, _ => by simp [cur]
  | .node op cs, q, hs => by
    rw [cur, cur, curL_tau hj cs q 0 (fun k c hc => by rw [subAt_snoc, hs, Nat.zero_add]; exact hc)]
theorem curL_tau {R : List Path} {p : Path} {j : Nat} (hj : subAt t (p ++ [j]) = some (.leaf none) ∨ p ++ [j] ∈ R) : ∀ (cs : List (PT α)) (q : Path) (i : Nat),
    (∀ k c, cs[k]? = some c → subAt t (q ++ [i + k]) = some c) → curL ((p ++ [j]) :: R) q i cs = curL R q i cs
  | [], _, _, _ => by simp [curL]
  | c :: cs, q, i, h => by
    have hc : subAt t (q ++ [i]) = some c := h 0 c rfl
    rw [curL, curL, curL_tau hj cs q (i + 1) (fun k d hd => by rw [show i + 1 + k = i + (k + 1) by omega]; exact h (k + 1) d hd),
      cur_tau hj c (q ++ [i]) hc]
    congr 1
    by_cases hin : q ++ [i] ∈ R
    · rw [if_pos hin, if_pos (List.mem_cons_of_mem _ hin)]
    · by_cases he : q ++ [i] = p ++ [j]
      · rw [if_neg hin, he, if_pos List.mem_cons_self]
        rcases hj with h1 | h1
        · rw [← he, hc, Option.some.injEq] at h1; subst h1; simp [cur]
        · exact absurd (he ▸ h1) hin
      · rw [if_neg hin, if_neg]
        rw [List.mem_cons]; rintro (h1 | h1)
        · exact he h1
        · exact hin h1
end

/-- overwriting a slot that is silent already -/
theorem LInv.tau (h : LInv A t N R D) {p : Path} {j : Nat} (hj : subAt t (p ++ [j]) = some (.leaf none) ∨ p ++ [j] ∈ R) :
    LInv A t N ((p ++ [j]) :: R) D := by
  refine ⟨?_, fun p' V => ?_, ?_⟩
  · intro q hq
    rcases List.mem_cons.1 hq with rfl | hq
    · rcases hj with hj | hj
      · exact (remAt_iff hj).2 (rem_tau A)
      · exact h.remo _ hj
    · exact h.remo q hq
  · have e1 : RS t N ((p ++ [j]) :: R) p' V = RS t N R p' V := by
      ext k
      simp only [RS, Finset.mem_filter, Finset.mem_range, List.mem_cons]
      have hval : ∀ s, subAt t (p' ++ [k]) = some s → cur ((p ++ [j]) :: R) (p' ++ [k]) s = cur R (p' ++ [k]) s := fun s hs => cur_tau hj s _ hs
      constructor
      · rintro ⟨h1, h2, h3, h4⟩
        refine ⟨h1, h2, ?_, fun s hs => by rw [← hval s hs]; exact h4 s hs⟩
        rcases h3 with h3 | h3
        · rcases hj with hj | hj
          · obtain ⟨op, cs, hs⟩ := h2
            rw [h3, hj] at hs; cases hs
          · exact h3 ▸ hj
        · exact h3
      · rintro ⟨h1, h2, h3, h4⟩
        exact ⟨h1, h2, .inr h3, fun s hs => by rw [hval s hs]; exact h4 s hs⟩
    have e2 : DS A t N ((p ++ [j]) :: R) D p' V = DS A t N R D p' V := by
      ext k
      simp only [DS, Finset.mem_filter, Finset.mem_range]
      have hval : ∀ s, subAt t (p' ++ [k]) = some s → cur ((p ++ [j]) :: R) (p' ++ [k]) s = cur R (p' ++ [k]) s := fun s hs => cur_tau hj s _ hs
      constructor
      · rintro ⟨h1, h2, h3, h4, h5⟩
        exact ⟨h1, h2, h3, h4, fun s hs => by rw [← hval s hs]; exact h5 s hs⟩
      · rintro ⟨h1, h2, h3, h4, h5⟩
        exact ⟨h1, h2, h3, h4, fun s hs => by rw [hval s hs]; exact h5 s hs⟩
    rw [e1, e2, h.cnt]
  · intro q hq r hr hin
    rcases hq with hq | hq
    · rcases List.mem_cons.1 hq with rfl | hq
      · rcases hj with hj | hj
        · exfalso
          obtain ⟨op, cs, hs⟩ := hin
          have hsplit : ∀ (u : PT α) (a b : Path), subAt u (a ++ b) = (subAt u a).bind fun v => subAt v b := by
            intro u a
            induction a generalizing u with
            | nil => intro b; simp [subAt]
            | cons x a ih =>
              intro b
              simp only [subAt, List.cons_append]
              cases hx : u.children[x]? with
              | none => rfl
              | some y => simp [ih]
          rw [hsplit, hj, Option.bind_some] at hs
          cases r with
          | nil => exact hr rfl
          | cons z r => simp [subAt, PT.children] at hs
        · exact h.below _ (.inl hj) r hr hin
      · exact h.below q (.inl hq) r hr hin
    · exact h.below q (.inr hq) r hr hin

end TreeRed
end Verif
