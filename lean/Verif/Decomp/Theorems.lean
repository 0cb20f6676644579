import Verif.Decomp.Parts
import Mathlib.Data.List.Dedup
/-
Property theorems C78: the maximal decomposition of a Petri net.
-/
set_option linter.unusedSectionVars false
namespace Verif
open Decomp
namespace Decomp
variable {ν : Type} [DecidableEq ν]

theorem place_comp {N : ANet ν} {p : ν} (hp : p ∈ N.net.places) : ∃ cmp ∈ graphComponents N.net, p ∈ (compNet N cmp).net.places ∧ compNet N cmp ∈ decompose N := by
  obtain ⟨cmp, hc, h⟩ := gc_cover N.net (.inl hp)
  have h' := (mem_compNet_places N cmp p).2 ⟨h, hp⟩
  exact ⟨cmp, hc, h', (mem_decompose N _).2 ⟨cmp, hc, rfl, .inl (List.ne_nil_of_mem h')⟩⟩

theorem within_fires {N : PNet ν} (h : Proper N) {t : ν} {M M' : ν → Nat} (hM : Within N M) (hf : Fires N t M M') : Within N M' := by
  intro p hp
  have h1 : taken N p t = 0 := by
    unfold taken
    rw [List.filter_eq_nil_iff.2]
    · rfl
    · intro a ha hd
      have := (of_decide_eq_true hd).2.1
      exact hp (this ▸ (h.arcs a ha).1)
  have h2 : given N p t = 0 := by
    unfold given
    rw [List.filter_eq_nil_iff.2]
    · rfl
    · intro a ha hd
      have := (of_decide_eq_true hd).2.1
      exact hp (this ▸ (h.arcs a ha).1)
  have := hf.2.2 p
  rw [h1, h2, hM p hp] at this
  simpa using this

theorem fires_comp {N : ANet ν} (hw : Unweighted N.net) {cmp : List ν} (hc : cmp ∈ graphComponents N.net) {t : ν} {M M' : ν → Nat}
    (hf : Fires N.net t M M') :
    (t ∈ compTrs N.net cmp → Fires (compNet N cmp).net t (onto (compNet N cmp).net M) (onto (compNet N cmp).net M')) ∧
    (t ∉ compTrs N.net cmp → onto (compNet N cmp).net M = onto (compNet N cmp).net M') := by
  constructor
  · intro ht
    refine ⟨by rw [compNet_names]; exact ht, fun p => ?_, fun p => ?_⟩
    · rw [taken_comp hw hc]
      unfold onto
      split
      · exact hf.2.1 p
      · exact Nat.le_refl _
    · rw [taken_comp hw hc, given_comp hw hc]
      unfold onto
      split
      · exact hf.2.2 p
      · rfl
  · intro ht
    funext p
    unfold onto
    split
    · next hp =>
      obtain ⟨h1, h2⟩ := no_effect hp ht
      have := hf.2.2 p
      rw [h1, h2] at this
      simpa using this.symm
    · rfl

theorem fires_unique {N : PNet ν} {t : ν} {M M1 M2 : ν → Nat} (h1 : Fires N t M M1) (h2 : Fires N t M M2) : M1 = M2 := by
  funext p
  have a := h1.2.2 p
  have b := h2.2.2 p
  omega

theorem run_comp {N : ANet ν} (hw : Unweighted N.net) {cmp : List ν} (hc : cmp ∈ graphComponents N.net) (s : List ν) : ∀ (M M' : ν → Nat),
    Run N.net M s M' → Run (compNet N cmp).net (onto (compNet N cmp).net M) (part (compNet N cmp).net s) (onto (compNet N cmp).net M') := by
  induction s with
  | nil => intro M M' h; rw [show M = M' from h]; exact rfl
  | cons t s ih =>
    rintro M M' ⟨M1, hf, hr⟩
    have hi := ih M1 M' hr
    obtain ⟨h1, h2⟩ := fires_comp hw hc hf
    unfold part at hi ⊢
    rw [List.filter_cons, compNet_names] at *
    by_cases ht : t ∈ compTrs N.net cmp
    · rw [if_pos (by simpa using ht)]
      exact ⟨_, h1 ht, hi⟩
    · rw [if_neg (by simpa using ht), h2 ht]
      exact hi

theorem run_of_comp {N : ANet ν} (h : Proper N.net) (hw : Unweighted N.net) (s : List ν) : ∀ (M M' : ν → Nat), Within N.net M → Within N.net M' →
    (∀ t ∈ s, t ∈ N.net.trs.map Tr.name) →
    (∀ C ∈ decompose N, Run C.net (onto C.net M) (part C.net s) (onto C.net M')) → Run N.net M s M' := by
  induction s with
  | nil =>
    intro M M' hM hM' _ hr
    show M = M'
    funext p
    by_cases hp : p ∈ N.net.places
    · obtain ⟨cmp, hc, h1, h2⟩ := place_comp hp
      have := congrFun (show onto _ M = onto _ M' from hr _ h2) p
      unfold onto at this
      rw [if_pos h1, if_pos h1] at this
      exact this
    · rw [hM p hp, hM' p hp]
  | cons t s ih =>
    intro M M' hM hM' hs hr
    have en : ∀ p, taken N.net p t ≤ M p := by
      intro p
      by_cases hp : p ∈ N.net.places
      · obtain ⟨cmp, hc, h1, h2⟩ := place_comp hp
        by_cases ht : t ∈ compTrs N.net cmp
        · have := hr _ h2
          unfold part at this
          rw [List.filter_cons, if_pos (by rw [compNet_names]; simpa using ht)] at this
          obtain ⟨M1, hf, _⟩ := this
          have := hf.2.1 p
          rw [taken_comp hw hc, if_pos h1] at this
          unfold onto at this
          rw [if_pos h1] at this
          exact this
        · rw [(no_effect h1 ht).1]; exact Nat.zero_le _
      · have h1 : taken N.net p t = 0 := by
          unfold taken
          rw [List.filter_eq_nil_iff.2]
          · rfl
          · intro a ha hd
            have := (of_decide_eq_true hd).2.1
            exact hp (this ▸ (h.arcs a ha).1)
        rw [h1]; exact Nat.zero_le _
    have hf : Fires N.net t M (fun p => M p - taken N.net p t + given N.net p t) := by
      refine ⟨hs t (List.mem_cons_self ..), en, fun p => ?_⟩
      have := en p
      simp only
      omega
    refine ⟨_, hf, ih _ M' (within_fires h hM hf) hM' (fun u hu => hs u (List.mem_cons_of_mem _ hu)) ?_⟩
    intro C hC
    have hrC := hr C hC
    obtain ⟨cmp, hc, rfl, _⟩ := (mem_decompose N C).1 hC
    obtain ⟨f1, f2⟩ := fires_comp hw hc hf
    unfold part at hrC ⊢
    rw [List.filter_cons] at hrC
    by_cases ht : t ∈ compTrs N.net cmp
    · rw [if_pos (by rw [compNet_names]; simpa using ht)] at hrC
      obtain ⟨M1, hf', hr'⟩ := hrC
      rw [fires_unique hf' (f1 ht)] at hr'
      exact hr'
    · rw [if_neg (by rw [compNet_names]; simpa using ht)] at hrC
      rw [← f2 ht]
      exact hrC

theorem run_names {N : PNet ν} : ∀ (s : List ν) (M M' : ν → Nat), Run N M s M' → ∀ t ∈ s, t ∈ N.trs.map Tr.name := by
  intro s
  induction s with
  | nil => intro _ _ _ t ht; simp at ht
  | cons u s ih =>
    rintro M M' ⟨M1, hf, hr⟩ t ht
    rcases List.mem_cons.1 ht with rfl | ht
    · exact hf.1
    · exact ih _ _ hr t ht

/-! ### composing the sequences of the components -/

theorem flatMap_part {ι : Type} [DecidableEq ι] (T : ι → ν → Bool) (f : ι → List ν) (hf : ∀ i, ∀ t ∈ f i, T i t = true ∧ ∀ j, T j t = true → j = i) :
    ∀ I : List ι, I.Nodup → ∀ i, (I.flatMap f).filter (T i) = if i ∈ I then f i else [] := by
  intro I
  induction I with
  | nil => intro _ i; rfl
  | cons j I ih =>
    intro hn i
    obtain ⟨h1, h2⟩ := List.nodup_cons.1 hn
    rw [List.flatMap_cons, List.filter_append, ih h2]
    by_cases hij : i = j
    · subst hij
      rw [if_neg h1, List.append_nil, if_pos (List.mem_cons_self ..), List.filter_eq_self.2 fun t ht => (hf i t ht).1]
    · have : (f j).filter (T i) = [] := by
        rw [List.filter_eq_nil_iff]
        intro t ht hT
        exact hij ((hf j t ht).2 i hT)
      rw [this, List.nil_append]
      simp [hij]

/-- words of the components that agree with one word can be merged -/
theorem compose {ι : Type} [DecidableEq ι] (I : List ι) (hI : I.Nodup) (T : ι → ν → Bool) (lab : ν → Option ν) (tOf : ν → ν)
    (hpriv : ∀ i ∈ I, ∀ j ∈ I, ∀ t, lab t = none → T i t = true → T j t = true → j = i) :
    ∀ (w : List ν), (∀ a ∈ w, lab (tOf a) = some a) → ∀ (σ : ι → List ν),
    (∀ i ∈ I, ∀ t ∈ σ i, T i t = true ∧ ∀ a, lab t = some a → t = tOf a) →
    (∀ i ∈ I, (σ i).filterMap lab = w.filter fun a => T i (tOf a)) →
    ∃ s : List ν, (∀ i ∈ I, s.filter (T i) = σ i) ∧ s.filterMap lab = w ∧ ∀ t ∈ s, (∃ i ∈ I, T i t = true) ∨ ∃ a ∈ w, t = tOf a := by
  have silentPart : ∀ u : ι → List ν, (∀ i ∈ I, ∀ t ∈ u i, T i t = true ∧ lab t = none) →
      (∀ i ∈ I, (I.flatMap u).filter (T i) = u i) ∧ (I.flatMap u).filterMap lab = [] ∧ ∀ t ∈ I.flatMap u, ∃ i ∈ I, T i t = true := by
    intro u hu
    refine ⟨fun i hi => ?_, ?_, ?_⟩
    · have e : I.flatMap u = I.flatMap fun i => if i ∈ I then u i else [] := by
        apply List.flatMap_congr
        intro j hj
        rw [if_pos hj]
      have e2 : (I.flatMap u).filter (T i) = (I.flatMap u).filter (fun t => decide (i ∈ I) && T i t) := by
        apply List.filter_congr
        intro t _
        simp [hi]
      rw [e2, e, flatMap_part (fun j t => decide (j ∈ I) && T j t) (fun i => if i ∈ I then u i else []) ?_ I hI i, if_pos hi, if_pos hi]
      intro j t ht
      by_cases hj : j ∈ I
      · rw [if_pos hj] at ht
        obtain ⟨h1, h2⟩ := hu j hj t ht
        refine ⟨by simp [hj, h1], fun k hk => ?_⟩
        simp only [Bool.and_eq_true, decide_eq_true_eq] at hk
        exact hpriv j hj k hk.1 t h2 h1 hk.2
      · rw [if_neg hj] at ht
        simp at ht
    · rw [List.filterMap_eq_nil_iff]
      intro t ht
      obtain ⟨i, hi, ht⟩ := List.mem_flatMap.1 ht
      exact (hu i hi t ht).2
    · intro t ht
      obtain ⟨i, hi, ht⟩ := List.mem_flatMap.1 ht
      exact ⟨i, hi, (hu i hi t ht).1⟩
  intro w
  induction w with
  | nil =>
    intro _ σ hσ hl
    have hu : ∀ i ∈ I, ∀ t ∈ σ i, T i t = true ∧ lab t = none := by
      intro i hi t ht
      refine ⟨(hσ i hi t ht).1, ?_⟩
      have := hl i hi
      rw [List.filter_nil, List.filterMap_eq_nil_iff] at this
      exact this t ht
    obtain ⟨h1, h2, h3⟩ := silentPart σ hu
    exact ⟨_, h1, h2, fun t ht => .inl (h3 t ht)⟩
  | cons a w ih =>
    intro hw σ hσ hl
    have split : ∀ l : List ν, ∀ r, l.filterMap lab = a :: r → (∀ t ∈ l, ∀ a, lab t = some a → t = tOf a) →
        ∃ u v, l = u ++ tOf a :: v ∧ (∀ t ∈ u, lab t = none) ∧ v.filterMap lab = r := by
      intro l
      induction l with
      | nil => intro r h; simp at h
      | cons t l ihl =>
        intro r h hu
        cases ht : lab t with
        | none =>
          rw [List.filterMap_cons_none ht] at h
          obtain ⟨u, v, h1, h2, h3⟩ := ihl r h fun t ht => hu t (List.mem_cons_of_mem _ ht)
          refine ⟨t :: u, v, by rw [h1]; rfl, ?_, h3⟩
          intro x hx
          rcases List.mem_cons.1 hx with rfl | hx
          · exact ht
          · exact h2 x hx
        | some b =>
          rw [List.filterMap_cons_some ht] at h
          obtain ⟨rfl, h'⟩ := List.cons.inj h
          exact ⟨[], l, by rw [hu t (List.mem_cons_self ..) _ ht]; rfl, by simp, h'⟩
    have ex : ∀ i, ∃ u v, i ∈ I → (if T i (tOf a) = true then σ i = u ++ tOf a :: v else u = [] ∧ σ i = v) ∧ (∀ t ∈ u, lab t = none) ∧
        v.filterMap lab = w.filter fun a => T i (tOf a) := by
      intro i
      by_cases hi : i ∈ I
      · have h := hl i hi
        by_cases hT : T i (tOf a) = true
        · rw [List.filter_cons_of_pos (p := fun a => T i (tOf a)) hT] at h
          obtain ⟨u, v, h1, h2, h3⟩ := split _ _ h fun t ht => (hσ i hi t ht).2
          exact ⟨u, v, fun _ => ⟨by rw [if_pos hT]; exact h1, h2, h3⟩⟩
        · rw [List.filter_cons_of_neg (p := fun a => T i (tOf a)) hT] at h
          exact ⟨[], σ i, fun _ => ⟨by rw [if_neg hT]; exact ⟨rfl, rfl⟩, by simp, h⟩⟩
      · exact ⟨[], [], fun h => absurd h hi⟩
    choose u v huv using ex
    have hmem : ∀ i ∈ I, (∀ t ∈ u i, t ∈ σ i) ∧ ∀ t ∈ v i, t ∈ σ i := by
      intro i hi
      have h := (huv i hi).1
      split at h
      · rw [h]
        exact ⟨fun t ht => List.mem_append_left _ ht, fun t ht => List.mem_append_right _ (List.mem_cons_of_mem _ ht)⟩
      · rw [h.1, h.2]
        exact ⟨by simp, fun t ht => ht⟩
    obtain ⟨s, h1, h2, h3⟩ := ih (fun b hb => hw b (List.mem_cons_of_mem _ hb)) v (fun i hi t ht => hσ i hi t ((hmem i hi).2 t ht))
      (fun i hi => (huv i hi).2.2)
    obtain ⟨g1, g2, g3⟩ := silentPart u fun i hi t ht => ⟨(hσ i hi t ((hmem i hi).1 t ht)).1, (huv i hi).2.1 t ht⟩
    refine ⟨I.flatMap u ++ tOf a :: s, fun i hi => ?_, ?_, ?_⟩
    · rw [List.filter_append, g1 i hi, List.filter_cons, h1 i hi]
      have h := (huv i hi).1
      split at h
      · next hT => rw [if_pos hT]; exact h.symm
      · next hT => rw [if_neg hT, h.1, h.2]; rfl
    · rw [List.filterMap_append, g2, List.nil_append, List.filterMap_cons_some (hw a (List.mem_cons_self ..)), h2]
    · intro t ht
      rcases List.mem_append.1 ht with ht | ht
      · exact .inl (g3 t ht)
      · rcases List.mem_cons.1 ht with rfl | ht
        · exact .inr ⟨a, List.mem_cons_self .., rfl⟩
        · rcases h3 t ht with h | ⟨b, hb, e⟩
          · exact .inl h
          · exact .inr ⟨b, List.mem_cons_of_mem _ hb, e⟩

theorem flatMap_filter_skip {β γ : Type} (L : List β) (p : β → Bool) (f : β → List γ) (h : ∀ x ∈ L, p x = false → f x = []) :
    (L.filter p).flatMap f = L.flatMap f := by
  induction L with
  | nil => rfl
  | cons x L ih =>
    have ih := ih fun y hy => h y (List.mem_cons_of_mem _ hy)
    cases hp : p x with
    | true => rw [List.filter_cons_of_pos hp, List.flatMap_cons, List.flatMap_cons, ih]
    | false => rw [List.filter_cons_of_neg (by simp [hp]), List.flatMap_cons, h x (List.mem_cons_self ..) hp, List.nil_append, ih]

theorem decompose_places (N : ANet ν) : (decompose N).flatMap (fun C => C.net.places) =
    (graphComponents N.net).flatten.filter fun x => decide (x ∈ N.net.places) := by
  unfold decompose
  rw [flatMap_filter_skip, List.flatMap_map, List.filter_flatten, List.flatMap_def]
  · rfl
  · intro C _ h
    have := of_decide_eq_false h
    apply List.eq_nil_of_length_eq_zero
    omega

theorem places_perm {N : ANet ν} (h : Proper N.net) : ((decompose N).flatMap fun C => C.net.places).Perm N.net.places := by
  rw [decompose_places]
  have hn : N.net.places.Nodup := (List.nodup_append.1 h.names).1
  rw [List.perm_ext_iff_of_nodup ((gc_nodup N.net).filter _) hn]
  intro p
  rw [List.mem_filter, decide_eq_true_eq]
  constructor
  · exact fun h => h.2
  · intro hp
    obtain ⟨cmp, hc, h'⟩ := gc_cover N.net (.inl hp)
    exact ⟨List.mem_flatten.2 ⟨cmp, hc, h'⟩, hp⟩

theorem silent_comp_perm {N : ANet ν} (h : Proper N.net) {cmp : List ν} (hc : cmp ∈ graphComponents N.net) :
    (silent (compNet N cmp).net).Perm (cmp.filter fun x => decide (x ∈ silent N.net)) := by
  have e : silent (compNet N cmp).net = (compTrs N.net cmp).filter fun n => decide (labelOf N.net n = none) := by
    unfold silent compNet
    simp only
    rw [List.filter_map, List.map_map]
    exact (List.map_congr_left fun x _ => rfl).trans (List.map_id _)
  have hnd : (compTrs N.net cmp).Nodup := nodup_dedup _
  rw [e, List.perm_ext_iff_of_nodup (hnd.filter _) ((cmp_nodup N.net hc).filter _)]
  intro t
  rw [List.mem_filter, List.mem_filter, decide_eq_true_eq, decide_eq_true_eq]
  constructor
  · rintro ⟨h1, h2⟩
    have hs := (silent_iff h (compTrs_sub h h1)).2 h2
    exact ⟨(silent_compTrs h hs hc).1 h1, hs⟩
  · rintro ⟨h1, h2⟩
    exact ⟨(silent_compTrs h h2 hc).2 h1, (silent_iff h (silent_name h2)).1 h2⟩

theorem silent_perm {N : ANet ν} (h : Proper N.net) : ((decompose N).flatMap fun C => silent C.net).Perm (silent N.net) := by
  unfold decompose
  rw [flatMap_filter_skip, List.flatMap_map]
  · refine (List.Perm.flatMap_left _ fun cmp hc => silent_comp_perm h hc).trans ?_
    have : ((graphComponents N.net).flatMap fun cmp => cmp.filter fun x => decide (x ∈ silent N.net)) =
        (graphComponents N.net).flatten.filter fun x => decide (x ∈ silent N.net) := by
      rw [List.filter_flatten, List.flatMap_def]
    rw [this]
    have hn : (silent N.net).Nodup := ((List.nodup_append.1 h.names).2.1).sublist (List.filter_sublist.map _)
    rw [List.perm_ext_iff_of_nodup ((gc_nodup N.net).filter _) hn]
    intro p
    rw [List.mem_filter, decide_eq_true_eq]
    constructor
    · exact fun h => h.2
    · intro hp
      obtain ⟨cmp, hc, h'⟩ := gc_cover N.net (.inr hp)
      exact ⟨List.mem_flatten.2 ⟨cmp, hc, h'⟩, hp⟩
  · intro C _ h
    have := of_decide_eq_false h
    have : C.net.trs = [] := by
      apply List.eq_nil_of_length_eq_zero
      omega
    unfold silent
    rw [this]
    rfl

theorem arcs_perm {N : ANet ν} (h : Proper N.net) (hw : Unweighted N.net) : ((decompose N).flatMap fun C => C.net.arcs).Perm N.net.arcs := by
  have e : ((decompose N).flatMap fun C => C.net.arcs) = ((decompose N).flatMap fun C => C.net.places).flatMap (placeArcs N.net) := by
    rw [List.flatMap_assoc]
    apply List.flatMap_congr
    intro C hC
    obtain ⟨cmp, hc, rfl, _⟩ := (mem_decompose N C).1 hC
    rfl
  rw [e]
  refine ((places_perm h).flatMap_right _).trans ((flatMap_perm hw _ (List.nodup_append.1 h.names).1).trans (List.Perm.of_eq ?_))
  rw [List.filter_eq_self]
  intro a ha
  simpa using (h.arcs a ha).1

theorem comp_proper {N : ANet ν} (h : Proper N.net) {cmp : List ν} (hc : cmp ∈ graphComponents N.net) : Proper (compNet N cmp).net := by
  refine ⟨?_, ?_⟩
  · rw [compNet_names, List.nodup_append]
    refine ⟨(cmp_nodup N.net hc).filter _, nodup_dedup _, ?_⟩
    rintro x hx y hy rfl
    rw [mem_compNet_places] at hx
    exact names_disjoint h (compTrs_sub h hy) hx.2
  · intro a ha
    obtain ⟨p, hp, ha⟩ := List.mem_flatMap.1 ha
    have hp' : p ∈ (compNet N cmp).net.places := hp
    rw [mem_compNet_places] at hp'
    unfold placeArcs at ha
    rw [compNet_names]
    rcases List.mem_append.1 ha with ha | ha <;>
    · obtain ⟨b, hb, rfl⟩ := List.mem_map.1 ha
      obtain ⟨hb, hd⟩ := List.mem_filter.1 hb
      have e := (of_decide_eq_true hd).1
      simp only
      rw [e]
      exact ⟨hp, (mem_compTrs _ _ _).2 (.inr ⟨b, hb, e ▸ hp'.1, e ▸ hp'.2, rfl⟩)⟩

theorem dup_nil {N : PNet ν} (h : Proper N) (hu : UniqueLabels N) : dupLabels N = [] := by
  have hnd : N.trs.Nodup := List.Nodup.of_map _ (List.nodup_append.1 h.names).2.1
  have key : ∀ l, ¬ (N.trs.filter fun u => decide (u.label = some l)).length > 1 := by
    intro l hlen
    have hnd' := hnd.filter fun u => decide (u.label = some l)
    have hmem : ∀ x ∈ N.trs.filter fun u => decide (u.label = some l), x ∈ N.trs ∧ x.label = some l := by
      intro x hx
      obtain ⟨h1, h2⟩ := List.mem_filter.1 hx
      exact ⟨h1, of_decide_eq_true h2⟩
    generalize (N.trs.filter fun u => decide (u.label = some l)) = F at hlen hnd' hmem
    match F, hlen, hnd', hmem with
    | [], hlen, _, _ => simp at hlen
    | [_], hlen, _, _ => simp at hlen
    | x :: y :: r, _, hnd', hmem =>
      obtain ⟨hx1, hx2⟩ := hmem x (by simp)
      obtain ⟨hy1, hy2⟩ := hmem y (by simp)
      have := hu x hx1 y hy1 (by rw [hx2, hy2]) (by rw [hx2]; simp)
      subst this
      simp at hnd'
  rw [List.eq_nil_iff_forall_not_mem]
  intro l hl
  unfold dupLabels at hl
  rw [mem_dedup, List.mem_filterMap] at hl
  obtain ⟨t, ht, e⟩ := hl
  split at e
  · rw [if_neg (key _)] at e
    simp at e
  · simp at e

theorem edges_iff {N : PNet ν} (h : Proper N) (hu : UniqueLabels N) (x y : ν) :
    (x, y) ∈ graphEdges N ↔ ∃ a ∈ N.arcs, a.t ∈ silent N ∧ (x, y) = if a.pt then (a.p, a.t) else (a.t, a.p) := by
  unfold graphEdges inserted
  rw [dup_nil h hu]
  simp only [List.map_nil, List.nil_append, List.filterMap_nil, List.append_nil, List.mem_map, List.mem_filter, decide_eq_true_eq]
  constructor
  · rintro ⟨a, ⟨h1, h2⟩, e⟩; exact ⟨a, h1, h2, e.symm⟩
  · rintro ⟨a, h1, h2, e⟩; exact ⟨a, ⟨h1, h2⟩, e.symm⟩

theorem nodes_iff {N : PNet ν} (h : Proper N) (hu : UniqueLabels N) (x : ν) : x ∈ graphNodes N ↔ x ∈ N.places ∨ x ∈ silent N := by
  unfold graphNodes
  rw [mem_dedup, dup_nil h hu]
  simp only [List.append_nil, List.mem_append, List.mem_flatMap]
  constructor
  · rintro (h1 | ⟨⟨a, b⟩, he, h1⟩)
    · exact h1
    · obtain ⟨c, hc, hs, e⟩ := (edges_iff h hu a b).1 he
      have hp := (h.arcs c hc).1
      simp only [List.mem_cons, List.not_mem_nil, or_false] at h1
      split at e <;>
      · obtain ⟨rfl, rfl⟩ := Prod.mk.inj e
        rcases h1 with rfl | rfl
        · tauto
        · tauto
  · exact .inl

/-- the transition with the given label -/
def tOf (N : PNet ν) (a : ν) : ν := ((N.trs.find? fun t => decide (t.label = some a)).map Tr.name).getD a

theorem tOf_ok {N : PNet ν} (h : Proper N) {a : ν} (ha : some a ∈ N.trs.map Tr.label) :
    tOf N a ∈ N.trs.map Tr.name ∧ labelOf N (tOf N a) = some a := by
  unfold tOf
  cases hf : N.trs.find? fun t => decide (t.label = some a) with
  | none =>
    rw [List.find?_eq_none] at hf
    obtain ⟨t, ht, e⟩ := List.mem_map.1 ha
    exact absurd (by simpa using e) (hf t ht)
  | some t =>
    have h1 := List.mem_of_find?_eq_some hf
    have h2 := List.find?_some hf
    have h2 := of_decide_eq_true h2
    simp only [Option.map_some, Option.getD_some]
    exact ⟨List.mem_map_of_mem h1, by rw [labelOf_mem h h1, h2]⟩

theorem tOf_unique {N : PNet ν} (h : Proper N) (hu : UniqueLabels N) {t a : ν} (ht : t ∈ N.trs.map Tr.name) (hl : labelOf N t = some a) : t = tOf N a := by
  obtain ⟨u, hu1, rfl⟩ := List.mem_map.1 ht
  rw [labelOf_mem h hu1] at hl
  obtain ⟨h1, h2⟩ := tOf_ok h (a := a) (List.mem_map.2 ⟨u, hu1, hl⟩)
  obtain ⟨v, hv, e⟩ := List.mem_map.1 h1
  rw [← e, labelOf_mem h hv] at h2
  rw [← e, hu u hu1 v hv (by rw [hl, h2]) (by rw [hl]; simp)]

theorem compLabel_iff {N : ANet ν} (h : Proper N.net) (hu : UniqueLabels N.net) {a : ν} (ha : some a ∈ N.net.trs.map Tr.label) (cmp : List ν) :
    some a ∈ (compNet N cmp).net.trs.map Tr.label ↔ tOf N.net a ∈ compTrs N.net cmp := by
  unfold compNet
  simp only
  rw [List.map_map, List.mem_map]
  constructor
  · rintro ⟨n, hn, e⟩
    rw [← tOf_unique h hu (compTrs_sub h hn) e]
    exact hn
  · intro h1
    exact ⟨_, h1, (tOf_ok h ha).2⟩

theorem labels_part {N : ANet ν} (h : Proper N.net) (hu : UniqueLabels N.net) (cmp : List ν) (s : List ν) (hs : ∀ t ∈ s, t ∈ N.net.trs.map Tr.name) :
    labels (compNet N cmp).net (part (compNet N cmp).net s) = word (compNet N cmp).net (labels N.net s) := by
  unfold labels part word
  rw [compNet_names]
  induction s with
  | nil => rfl
  | cons t s ih =>
    have ih := ih fun u hu => hs u (List.mem_cons_of_mem _ hu)
    have ht := hs t (List.mem_cons_self ..)
    cases hl : labelOf N.net t with
    | none =>
      rw [List.filterMap_cons_none hl, ← ih]
      by_cases hc : t ∈ compTrs N.net cmp
      · rw [List.filter_cons_of_pos (by simpa using hc), List.filterMap_cons_none (by rw [labelOf_comp hc]; exact hl)]
      · rw [List.filter_cons_of_neg (by simpa using hc)]
    | some a =>
      rw [List.filterMap_cons_some hl]
      have e := tOf_unique h hu ht hl
      have hla : some a ∈ N.net.trs.map Tr.label := by
        obtain ⟨u, hu1, rfl⟩ := List.mem_map.1 ht
        exact List.mem_map.2 ⟨u, hu1, by rw [← hl, labelOf_mem h hu1]⟩
      have hiff := compLabel_iff h hu hla cmp
      rw [← e] at hiff
      by_cases hc : t ∈ compTrs N.net cmp
      · rw [List.filter_cons_of_pos (by simpa using hc), List.filterMap_cons_some (by rw [labelOf_comp hc]; exact hl),
          List.filter_cons_of_pos (by simpa using hiff.2 hc), ih]
      · rw [List.filter_cons_of_neg (by simpa using hc), List.filter_cons_of_neg (p := fun a => decide (some a ∈ (compNet N cmp).net.trs.map Tr.label)) (fun h => hc (hiff.1 (of_decide_eq_true h))), ih]

end Decomp

variable {ν : Type} [DecidableEq ν]

/-- C78: every place, every silent transition and every arc of the net is in exactly one component; the components are nets again, their transitions and
labels are those of the net, and their markings those of the net on their places. -/
theorem C78_parts (N : ANet ν) (h : Proper N.net) :
    ((decompose N).flatMap fun C => C.net.places).Perm N.net.places ∧
    ((decompose N).flatMap fun C => silent C.net).Perm (silent N.net) ∧
    (Unweighted N.net → ((decompose N).flatMap fun C => C.net.arcs).Perm N.net.arcs) ∧
    ∀ C ∈ decompose N, Proper C.net ∧ (∀ t ∈ C.net.trs, t ∈ N.net.trs) ∧ C.im = onto C.net N.im ∧ C.fm = onto C.net N.fm := by
  refine ⟨places_perm h, silent_perm h, arcs_perm h, ?_⟩
  intro C hC
  obtain ⟨cmp, hc, rfl, _⟩ := (mem_decompose N C).1 hC
  refine ⟨comp_proper h hc, ?_, rfl, rfl⟩
  intro t ht
  obtain ⟨n, hn, rfl⟩ := List.mem_map.1 ht
  obtain ⟨u, hu, rfl⟩ := List.mem_map.1 (compTrs_sub h hn)
  rw [labelOf_mem h hu]
  exact hu

/-- C78: without duplicated labels, the decomposition is maximal: places and silent transitions are in one component only if arcs force them to; a
visible transition is in the components of its places. -/
theorem C78_maximal (N : ANet ν) (h : Proper N.net) (hu : UniqueLabels N.net) :
    (∀ x y, (x ∈ N.net.places ∨ x ∈ silent N.net) → (y ∈ N.net.places ∨ y ∈ silent N.net) →
      ((∃ C ∈ decompose N, x ∈ C.net.places ++ C.net.trs.map Tr.name ∧ y ∈ C.net.places ++ C.net.trs.map Tr.name) ↔
        Relation.EqvGen (Adjacent N.net) x y)) ∧
    (∀ t ∈ N.net.trs, t.label ≠ none → ∀ C ∈ decompose N, t ∈ C.net.trs ↔ ∃ a ∈ N.net.arcs, a.t = t.name ∧ a.p ∈ C.net.places) := by
  have hin : ∀ x, (x ∈ N.net.places ∨ x ∈ silent N.net) → ∀ cmp ∈ graphComponents N.net,
      (x ∈ (compNet N cmp).net.places ++ (compNet N cmp).net.trs.map Tr.name ↔ x ∈ cmp) := by
    intro x hx cmp hc
    rw [List.mem_append, mem_compNet_places, compNet_names]
    rcases hx with hx | hx
    · have : x ∉ compTrs N.net cmp := fun h' => names_disjoint h (compTrs_sub h h') hx
      tauto
    · rw [silent_compTrs h hx hc]
      tauto
  refine ⟨fun x y hx hy => ?_, ?_⟩
  · have hrel : Relation.EqvGen (Adjacent N.net) x y ↔ Relation.EqvGen (fun a b => (a, b) ∈ graphEdges N.net) x y := by
      constructor
      · intro hxy
        clear hx hy
        induction hxy with
        | rel a b hab =>
          obtain ⟨c, hc, hs, hab⟩ := hab
          have he : (if c.pt then (c.p, c.t) else (c.t, c.p)) ∈ graphEdges N.net :=
            (edges_iff h hu _ _).2 ⟨c, hc, hs, rfl⟩
          cases hp : c.pt with
          | true =>
            rw [hp, if_pos rfl] at he
            rcases hab with ⟨rfl, rfl⟩ | ⟨rfl, rfl⟩
            · exact .rel _ _ he
            · exact .symm _ _ (.rel _ _ he)
          | false =>
            rw [hp, if_neg (by simp)] at he
            rcases hab with ⟨rfl, rfl⟩ | ⟨rfl, rfl⟩
            · exact .symm _ _ (.rel _ _ he)
            · exact .rel _ _ he
        | refl a => exact .refl _
        | symm a b _ ih => exact .symm _ _ ih
        | trans a b c _ _ ih1 ih2 => exact .trans _ _ _ ih1 ih2
      · intro hxy
        clear hx hy
        induction hxy with
        | rel a b hab =>
          obtain ⟨c, hc, hs, e⟩ := (edges_iff h hu a b).1 hab
          refine .rel _ _ ⟨c, hc, hs, ?_⟩
          split at e
          · obtain ⟨rfl, rfl⟩ := Prod.mk.inj e; exact .inl ⟨rfl, rfl⟩
          · obtain ⟨rfl, rfl⟩ := Prod.mk.inj e; exact .inr ⟨rfl, rfl⟩
        | refl a => exact .refl _
        | symm a b _ ih => exact .symm _ _ ih
        | trans a b c _ _ ih1 ih2 => exact .trans _ _ _ ih1 ih2
    rw [hrel, ← gc_same N.net x y ((nodes_iff h hu x).2 hx) ((nodes_iff h hu y).2 hy)]
    constructor
    · rintro ⟨C, hC, h1, h2⟩
      obtain ⟨cmp, hc, rfl, _⟩ := (mem_decompose N C).1 hC
      exact ⟨cmp, hc, (hin x hx cmp hc).1 h1, (hin y hy cmp hc).1 h2⟩
    · rintro ⟨cmp, hc, h1, h2⟩
      have h1' := (hin x hx cmp hc).2 h1
      refine ⟨compNet N cmp, (mem_decompose N _).2 ⟨cmp, hc, rfl, ?_⟩, h1', (hin y hy cmp hc).2 h2⟩
      rcases List.mem_append.1 h1' with h' | h'
      · exact .inl (List.ne_nil_of_mem h')
      · right
        intro e
        rw [e] at h'
        simp at h'
  · intro t ht hl C hC
    obtain ⟨cmp, hc, rfl, _⟩ := (mem_decompose N C).1 hC
    have : t ∈ (compNet N cmp).net.trs ↔ t.name ∈ compTrs N.net cmp := by
      constructor
      · intro h1
        rw [← compNet_names]
        exact List.mem_map_of_mem h1
      · intro h1
        refine List.mem_map.2 ⟨t.name, h1, ?_⟩
        rw [labelOf_mem h ht]
    rw [this, mem_compTrs]
    constructor
    · rintro (⟨h1, h2, h3⟩ | ⟨a, ha, h1, h2, h3⟩)
      · have : t.name ∈ graphNodes N.net := (gc_perm N.net).mem_iff.1 (List.mem_flatten.2 ⟨cmp, hc, h1⟩)
        rcases (nodes_iff h hu _).1 this with h4 | h4
        · exact absurd h4 h2
        · rw [silent_iff h h3, labelOf_mem h ht] at h4
          exact absurd h4 hl
      · exact ⟨a, ha, h3, (mem_compNet_places N cmp _).2 ⟨h1, h2⟩⟩
    · rintro ⟨a, ha, h1, h2⟩
      rw [mem_compNet_places] at h2
      exact .inr ⟨a, ha, h2.1, h2.2, h1⟩

/-- C78: a sequence of transitions leads from one marking to another one exactly if this holds in every component, for the part of the sequence and of the
markings that belongs to it. -/
theorem C78_run (N : ANet ν) (h : Proper N.net) (hw : Unweighted N.net) (M M' : ν → Nat) (hM : Within N.net M) (hM' : Within N.net M') (s : List ν)
    (hs : ∀ t ∈ s, t ∈ N.net.trs.map Tr.name) :
    Run N.net M s M' ↔ ∀ C ∈ decompose N, Run C.net (onto C.net M) (part C.net s) (onto C.net M') := by
  constructor
  · intro hr C hC
    obtain ⟨cmp, hc, rfl, _⟩ := (mem_decompose N C).1 hC
    exact run_comp hw hc s M M' hr
  · exact run_of_comp h hw s M M' hM hM' hs

/-- C78: without duplicated labels, a word is accepted by the net exactly if every component accepts its part of the word. -/
theorem C78_language (N : ANet ν) (h : Proper N.net) (hw : Unweighted N.net) (hu : UniqueLabels N.net) (hi : Within N.net N.im) (hf : Within N.net N.fm)
    (w : List ν) (hl : ∀ a ∈ w, some a ∈ N.net.trs.map Tr.label) :
    Accepts N w ↔ ∀ C ∈ decompose N, Accepts C (word C.net w) := by
  constructor
  · rintro ⟨s, hr, rfl⟩ C hC
    have := (C78_run N h hw _ _ hi hf s (run_names s _ _ hr)).1 hr C hC
    obtain ⟨cmp, hc, rfl, _⟩ := (mem_decompose N C).1 hC
    exact ⟨_, this, labels_part h hu cmp s (run_names s _ _ hr)⟩
  · intro hacc
    have ex : ∀ cmp, ∃ s, cmp ∈ graphComponents N.net → compNet N cmp ∈ decompose N →
        Run (compNet N cmp).net (compNet N cmp).im s (compNet N cmp).fm ∧ labels (compNet N cmp).net s = word (compNet N cmp).net w := by
      intro cmp
      by_cases hd : compNet N cmp ∈ decompose N
      · obtain ⟨s, h1, h2⟩ := hacc _ hd
        exact ⟨s, fun _ _ => ⟨h1, h2⟩⟩
      · exact ⟨[], fun _ h' => absurd h' hd⟩
    choose σ0 hσ0 using ex
    classical
    let σ : List ν → List ν := fun cmp => if compNet N cmp ∈ decompose N then σ0 cmp else []
    have hnone : ∀ cmp ∈ graphComponents N.net, compNet N cmp ∉ decompose N → compTrs N.net cmp = [] := by
      intro cmp hc hd
      by_contra hne
      apply hd
      refine (mem_decompose N _).2 ⟨cmp, hc, rfl, .inr ?_⟩
      intro e
      apply hne
      rw [← compNet_names, e]
      rfl
    have hsub : ∀ cmp ∈ graphComponents N.net, ∀ t ∈ σ cmp, t ∈ compTrs N.net cmp := by
      intro cmp hc t ht
      simp only [σ] at ht
      split at ht
      · next hd =>
        have := run_names _ _ _ (hσ0 cmp hc hd).1 t ht
        rw [compNet_names] at this
        exact this
      · simp at ht
    have hA : ∀ i ∈ (graphComponents N.net).dedup, ∀ j ∈ (graphComponents N.net).dedup, ∀ t, labelOf N.net t = none → decide (t ∈ compTrs N.net i) = true →
        decide (t ∈ compTrs N.net j) = true → j = i := by
      intro i hi' j hj t hlt hTi hTj
      have hTi := of_decide_eq_true hTi
      have hTj := of_decide_eq_true hTj
      have hi' := List.mem_dedup.1 hi'
      have hj := List.mem_dedup.1 hj
      have hst := (silent_iff h (compTrs_sub h hTi)).2 hlt
      exact gc_unique N.net hj hi' ((silent_compTrs h hst hj).1 hTj) ((silent_compTrs h hst hi').1 hTi)
    have hB : ∀ cmp ∈ (graphComponents N.net).dedup, ∀ t ∈ σ cmp, decide (t ∈ compTrs N.net cmp) = true ∧ ∀ a, labelOf N.net t = some a → t = tOf N.net a := by
      intro cmp hc t ht
      have := hsub cmp (List.mem_dedup.1 hc) t ht
      exact ⟨decide_eq_true this, fun a ha => tOf_unique h hu (compTrs_sub h this) ha⟩
    have hC' : ∀ cmp ∈ (graphComponents N.net).dedup, (σ cmp).filterMap (labelOf N.net) = w.filter fun a => decide (tOf N.net a ∈ compTrs N.net cmp) := by
      intro cmp hc
      have hc := List.mem_dedup.1 hc
      have hword : word (compNet N cmp).net w = w.filter fun a => decide (tOf N.net a ∈ compTrs N.net cmp) := by
        unfold word
        apply List.filter_congr
        intro a ha
        exact decide_eq_decide.2 (compLabel_iff h hu (hl a ha) cmp)
      rw [← hword]
      by_cases hd : compNet N cmp ∈ decompose N
      · have e : σ cmp = σ0 cmp := if_pos hd
        rw [← (hσ0 cmp hc hd).2, e]
        unfold labels
        apply List.filterMap_congr
        intro t ht
        rw [labelOf_comp (hsub cmp hc t (e ▸ ht))]
      · have e : σ cmp = [] := if_neg hd
        rw [e, hword, hnone cmp hc hd]
        simp
    obtain ⟨s, h1, h2, h3⟩ := compose (graphComponents N.net).dedup (List.nodup_dedup _) (fun cmp t => decide (t ∈ compTrs N.net cmp)) (labelOf N.net)
      (tOf N.net) hA w (fun a ha => (tOf_ok h (hl a ha)).2) σ hB hC'
    have hs : ∀ t ∈ s, t ∈ N.net.trs.map Tr.name := by
      intro t ht
      rcases h3 t ht with ⟨cmp, hc, h'⟩ | ⟨a, ha, rfl⟩
      · exact compTrs_sub h (of_decide_eq_true h')
      · exact (tOf_ok h (hl a ha)).1
    refine ⟨s, (C78_run N h hw _ _ hi hf s hs).2 ?_, h2⟩
    intro C hC
    obtain ⟨cmp, hc, rfl, _⟩ := (mem_decompose N C).1 hC
    have e : part (compNet N cmp).net s = σ0 cmp := by
      unfold part
      rw [compNet_names, h1 cmp (List.mem_dedup.2 hc)]
      simp only [σ]
      rw [if_pos hC]
    rw [e]
    exact (hσ0 cmp hc hC).1

end Verif
