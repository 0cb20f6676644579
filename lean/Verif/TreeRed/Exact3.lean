import Verif.TreeRed.Exact2
import Verif.TreeRed.Theorems
set_option linter.unusedSectionVars false
/-
Proofs for C54: the whole loop.
-/
namespace Verif
namespace TreeRed
open PT BU Foot
variable {α : Type} [DecidableEq α] {A : List α} {t : PT α} {N : Nat} {R D : List Path}

/-- the path of a node object -/
abbrev pth (x : Nd α) : Path := pathOf x.sub x.anc

/-- the path of a child with a label -/
theorem pth_child (ht : WF t) (hlab : t.labels.Nodup) {x : Nd α} (hx : IsNode t x) {k : Nat} {c : PT α} (hc : x.sub.children[k]? = some c)
    (hl : c.labels ≠ []) : pathOf c (x.sub :: x.anc) = pth x ++ [k] := by
  rw [pathOf]
  congr 1
  have hcm := List.mem_of_getElem? hc
  have hlt := List.findIdx_lt_length_of_exists (xs := x.sub.children) (p := fun d => pyEq d c) ⟨c, hcm, pyEq_refl c⟩
  have hp := List.findIdx_getElem (w := hlt)
  have he := pyEq_eq (wf_children (hx.wf ht) (List.getElem_mem hlt)) (wf_children (hx.wf ht) hcm) hp
  by_cases hk : x.sub.children.findIdx (fun d => pyEq d c) = k
  · rw [hk]
  · exfalso
    obtain ⟨a, ha⟩ := List.exists_mem_of_ne_nil _ hl
    have h1 : subAt t (pth x ++ [x.sub.children.findIdx fun d => pyEq d c]) = some c := by
      rw [subAt_snoc, pathOf_spec ht hx, Option.bind_some, List.getElem?_eq_getElem hlt, he]
    have h2 : subAt t (pth x ++ [k]) = some c := by
      rw [subAt_snoc, pathOf_spec ht hx]; exact hc
    exact labels_sibling hlab hk h1 h2 a ha ha

theorem inner_prefix {q r : Path} (hr : r ≠ []) (hi : InnerAt t (q ++ r)) : InnerAt t q := by
  obtain ⟨o, es, hs⟩ := hi
  have hsplit : ∀ (u : PT α) (a b : Path), subAt u (a ++ b) = (subAt u a).bind fun v => subAt v b := by
    intro u a
    induction a generalizing u with
    | nil => intro b; simp [subAt]
    | cons x a ih =>
      intro b
      simp only [subAt, List.cons_append]
      cases hx : u.children[x]? with
      | none => rfl
      | some y => simp [ih]
  rw [hsplit] at hs
  cases hq : subAt t q with
  | none => rw [hq] at hs; cases hs
  | some y =>
    rw [hq, Option.bind_some] at hs
    cases y with
    | leaf l =>
      cases r with
      | nil => exact absurd rfl hr
      | cons z r => simp [subAt, PT.children] at hs
    | node o' es' => exact ⟨o', es', hq⟩

/-- what the loop relies on -/
structure Ctx (A : List α) (t : PT α) (N : Nat) (bu : List (Nd α)) (fps : List (PT α × FP α)) : Prop where
  wf : WF t
  lab : t.labels.Nodup
  vis : ∀ x : Nd α, IsNode t x → x.sub.children ≠ [] → x.sub.labels ≠ []
  bound : ∀ p i s, subAt t (p ++ [i]) = some s → i < N
  fp : ∃ f, footprints t = some f
  nodes : ∀ x ∈ bu, IsNode t x
  nodup : (bu.map Nd.sub).Nodup
  order : ∀ (j : Nat) x, bu[j]? = some x → ∀ c ∈ x.sub.children, c ∈ (bu.take j).map Nd.sub
  look : ∀ x ∈ bu, BU.look fps x.sub = footprints x.sub

theorem Ctx.below {bu : List (Nd α)} {fps : List (PT α × FP α)} (C : Ctx A t N bu fps) {pre rest : List (Nd α)} {x : Nd α}
    (hbu : bu = pre ++ x :: rest) (h : LInv A t N R (pre.map pth).reverse) : Below t (pre.map pth).reverse (pth x) := by
  have hx := C.nodes x (by rw [hbu]; simp)
  have hchild : ∀ k, InnerAt t (pth x ++ [k]) → pth x ++ [k] ∈ (pre.map pth).reverse := by
    rintro k ⟨op, cs, hk⟩
    rw [subAt_snoc, pathOf_spec C.wf hx, Option.bind_some] at hk
    have hn : IsNode t ⟨.node op cs, x.sub :: x.anc⟩ := .step hx (mem_kids.2 ⟨_, List.mem_of_getElem? hk, rfl⟩)
    have hne : cs ≠ [] := by have := hn.wf C.wf; cases this; assumption
    have hl := C.vis _ hn hne
    have := C.order pre.length x (by rw [hbu]; simp) _ (List.mem_of_getElem? hk)
    rw [hbu, List.take_left' rfl] at this
    obtain ⟨y, hy, hys⟩ := List.mem_map.1 this
    have hyn := C.nodes y (by rw [hbu]; exact List.mem_append_left _ hy)
    have := unique C.lab hyn hn hys (by rw [hys]; exact hl)
    rw [List.mem_reverse, ← pth_child C.wf C.lab hx hk hl]
    exact List.mem_map.2 ⟨y, hy, by rw [this]⟩
  intro r hr hi
  cases r with
  | nil => exact absurd rfl hr
  | cons k r =>
    rw [show pth x ++ (k :: r) = (pth x ++ [k]) ++ r by simp] at hi ⊢
    by_cases hr' : r = []
    · subst hr'; rw [List.append_nil] at hi ⊢; exact hchild k hi
    · exact h.below _ (.inr (hchild k (inner_prefix hr' hi))) r hr' hi

theorem find_slot {R : List Path} {p : Path} {cs : List (PT α)} {v : PT α} {m : Nat} {u : PT α} (hv : WF v) (hcs : ∀ c ∈ cs, WF c)
    (hm : (curL R p 0 cs)[m]? = some u) (he : u = v) :
    ∃ j c, (curL R p 0 cs).findIdx? (fun c => pyEq c v) = some j ∧ cs[j]? = some c ∧
      (if p ++ [j] ∈ R then .leaf none else cur R (p ++ [j]) c) = v := by
  have hex : ∃ j, (curL R p 0 cs).findIdx? (fun c => pyEq c v) = some j := by
    cases hf : (curL R p 0 cs).findIdx? (fun c => pyEq c v) with
    | some j => exact ⟨j, rfl⟩
    | none =>
      rw [List.findIdx?_eq_none_iff] at hf
      have := hf u (List.mem_of_getElem? hm)
      rw [he, pyEq_refl] at this; cases this
  obtain ⟨j, hj⟩ := hex
  have hj' := hj
  rw [List.findIdx?_eq_some_iff_getElem] at hj'
  obtain ⟨hlt, heq, _⟩ := hj'
  have hg := curL_get R p cs 0 j
  rw [List.getElem?_eq_getElem hlt, Nat.zero_add] at hg
  obtain ⟨c, hc, hce⟩ := Option.map_eq_some_iff.1 hg.symm
  refine ⟨j, c, hj, hc, ?_⟩
  rw [hce]
  refine pyEq_eq ?_ hv heq
  rw [← hce]
  split
  · exact .leaf _
  · exact cur_wf R c (hcs c (List.mem_of_getElem? hc)) _

theorem step_exact {bu : List (Nd α)} {fps : List (PT α × FP α)} (C : Ctx A t N bu fps) {pre rest : List (Nd α)} {x : Nd α}
    (hbu : bu = pre ++ x :: rest) (hroot : x ≠ ⟨t, []⟩) (h : LInv A t N R (pre.map pth).reverse) :
    ∃ R', step fps A R x = some R' ∧ LInv A t N R' ((pre ++ [x]).map pth).reverse := by
  have hxm : x ∈ bu := by rw [hbu]; simp
  have hx := C.nodes x hxm
  have hxs := pathOf_spec C.wf hx
  have hb := C.below hbu h
  obtain ⟨f0, hf0⟩ := C.fp
  obtain ⟨f, hf⟩ := footprints_child C.wf hf0 hxs
  have hlook := C.look x hxm
  rw [hf] at hlook
  have hD : ((pre ++ [x]).map pth).reverse = pth x :: (pre.map pth).reverse := by simp
  rw [hD]
  have hcond : (f.skip && (inter f.acts A).isEmpty) = rem A x.sub := by unfold rem; rw [hf]
  unfold step
  simp only [Option.bind_eq_bind, hlook, Option.bind_some, hcond]
  cases hr : rem A x.sub with
  | false =>
    refine ⟨R, by simp, h.skip ?_ hb⟩
    rintro ⟨_, h2⟩
    rw [remAt_iff hxs, hr] at h2; cases h2
  | true =>
    simp only [if_true]
    -- the parent
    have hpar : ∃ p, x.parent = some p ∧ IsNode t p ∧ x.sub ∈ p.sub.children ∧ pth x = pth p ++ [p.sub.children.findIdx fun c => pyEq c x.sub] := by
      cases hx with
      | refl => exact absurd rfl hroot
      | @step y _ hy hk =>
        obtain ⟨c, hc, rfl⟩ := mem_kids.1 hk
        exact ⟨y, rfl, hy, hc, rfl⟩
    obtain ⟨p, hp, hpn, hxp, hpath⟩ := hpar
    generalize hi : p.sub.children.findIdx (fun c => pyEq c x.sub) = i at hpath
    have hxs' := hxs
    rw [show pathOf x.sub x.anc = pth p ++ [i] from hpath] at hxs'
    have hci : p.sub.children[i]? = some x.sub := by
      rw [subAt_snoc, pathOf_spec C.wf hpn, Option.bind_some] at hxs'; exact hxs'
    have hwfp : ∀ c ∈ p.sub.children, WF c := fun c hc => wf_children (hpn.wf C.wf) hc
    have hsub : ∀ (k : Nat) c, p.sub.children[k]? = some c → subAt t (pth p ++ [k]) = some c := by
      intro k c hc; rw [subAt_snoc, pathOf_spec C.wf hpn]; exact hc
    rw [hp]
    simp only [Option.bind_some]
    have hown := curL_get R (pth p) p.sub.children 0 i
    rw [hci, Option.map_some, Nat.zero_add] at hown
    cases hsx : x.sub with
    | leaf l =>
      cases l with
      | some a => rw [hsx, rem_act] at hr; cases hr
      | none =>
        rw [hsx] at hown hci
        have hown' : (curL R (pth p) 0 p.sub.children)[i]? = some (.leaf none) := by
          rw [hown]; simp [cur]
        obtain ⟨j, c, hj, hc, hval⟩ := find_slot (v := .leaf none) (.leaf _) hwfp hown' rfl
        refine ⟨(pth p ++ [j]) :: R, ?_, ?_⟩
        · simp only [cur]; rw [hj]; rfl
        · refine (h.tau (p := pth p) (j := j) ?_).skip ?_ hb
          · by_cases hin : pth p ++ [j] ∈ R
            · exact .inr hin
            · rw [if_neg hin] at hval
              left; rw [hsub j c hc]
              cases c with
              | leaf l => simpa [cur] using hval
              | node _ _ => simp [cur] at hval
          · rintro ⟨⟨op, cs, h1⟩, _⟩
            rw [show subAt t (pth x) = some x.sub from hxs, hsx] at h1; cases h1
    | node op cs =>
      rw [hsx] at hown hci hxs' hr
      have hnotD : pth p ++ [i] ∉ (pre.map pth).reverse := by
        rw [List.mem_reverse]
        intro hm
        obtain ⟨y, hy, hye⟩ := List.mem_map.1 hm
        have h1 := pathOf_spec C.wf (C.nodes y (by rw [hbu]; exact List.mem_append_left _ hy))
        rw [show pathOf y.sub y.anc = pth p ++ [i] from hye, hxs', Option.some.injEq] at h1
        have hnd := C.nodup
        rw [hbu, List.map_append, List.map_cons, List.nodup_append] at hnd
        exact hnd.2.2 y.sub (List.mem_map_of_mem hy) x.sub List.mem_cons_self (by rw [← h1, hsx])
      have hb' : Below t (pre.map pth).reverse (pth p ++ [i]) := hpath ▸ hb
      -- a slot with the content of the node
      have hslot : ∃ (m : Nat) (u : PT α), (curL R (pth p) 0 p.sub.children)[m]? = some u ∧ u = cur R (pth p ++ [i]) (.node op cs) := by
        by_cases hin : pth p ++ [i] ∈ R
        · have hcard := h.cnt (pth p) (fun u => u = cur R (pth p ++ [i]) (.node op cs))
          have hiR : i ∈ RS t N R (pth p) (fun u => u = cur R (pth p ++ [i]) (.node op cs)) := by
            simp only [RS, Finset.mem_filter, Finset.mem_range]
            exact ⟨C.bound _ _ _ hxs', ⟨op, cs, hxs'⟩, hin, fun s hs => by rw [hxs', Option.some.injEq] at hs; subst hs; rfl⟩
          have hiD : i ∉ DS A t N R (pre.map pth).reverse (pth p) (fun u => u = cur R (pth p ++ [i]) (.node op cs)) := by
            simp only [DS, Finset.mem_filter]
            exact fun hm => hnotD hm.2.2.2.1
          have : ∃ m ∈ DS A t N R (pre.map pth).reverse (pth p) (fun u => u = cur R (pth p ++ [i]) (.node op cs)),
              m ∉ RS t N R (pth p) (fun u => u = cur R (pth p ++ [i]) (.node op cs)) := by
            refine Classical.byContradiction fun hcon => ?_
            have hss : DS A t N R (pre.map pth).reverse (pth p) (fun u => u = cur R (pth p ++ [i]) (.node op cs)) ⊆
                RS t N R (pth p) (fun u => u = cur R (pth p ++ [i]) (.node op cs)) := fun m hm =>
              Classical.byContradiction fun hm' => hcon ⟨m, hm, hm'⟩
            have := Finset.eq_of_subset_of_card_le hss (by rw [hcard])
            rw [← this] at hiR; exact hiD hiR
          obtain ⟨m, hmD, hmR⟩ := this
          simp only [DS, RS, Finset.mem_filter, Finset.mem_range] at hmD hmR
          obtain ⟨h1, ⟨o, es, h2⟩, h3, h4, h5⟩ := hmD
          have hnR : pth p ++ [m] ∉ R := fun hm => hmR ⟨h1, ⟨o, es, h2⟩, hm, h5⟩
          refine ⟨m, cur R (pth p ++ [m]) (.node o es), ?_, h5 _ h2⟩
          have hg := curL_get R (pth p) p.sub.children 0 m
          rw [subAt_snoc, pathOf_spec C.wf hpn, Option.bind_some] at h2
          rw [hg, h2, Option.map_some, Nat.zero_add, if_neg hnR]
        · exact ⟨i, _, hown, by rw [if_neg hin]⟩
      obtain ⟨m, u, hm, hu⟩ := hslot
      have hwfx : WF (PT.node op cs) := hsx ▸ hx.wf C.wf
      obtain ⟨j, c, hj, hc, hval⟩ := find_slot (cur_wf R _ hwfx _) hwfp hm hu
      have hjR : pth p ++ [j] ∉ R := by
        intro hin; rw [if_pos hin, cur] at hval; cases hval
      rw [if_neg hjR] at hval
      refine ⟨(pth p ++ [j]) :: R, ?_, ?_⟩
      · have : pathOf (.node op cs) x.anc = pth p ++ [i] := by rw [← hpath, ← hsx]
        rw [this, hj]; rfl
      · cases c with
        | leaf l => simp [cur] at hval
        | node op' ds =>
          rw [hpath]
          exact h.step C.bound C.wf C.lab hf0 hxs' hr hnotD hb' (hsub j _ hc) hjR hval

theorem loop_exact {bu : List (Nd α)} {fps : List (PT α × FP α)} (C : Ctx A t N bu fps) (hlast : bu.getLast? = some ⟨t, []⟩)
    (rest pre : List (Nd α)) (R : List Path) (hbu : bu.dropLast = pre ++ rest) (h : LInv A t N R (pre.map pth).reverse) :
    ∃ R', loop fps A R rest = some R' ∧ LInv A t N R' (bu.dropLast.map pth).reverse := by
  have hsplit : bu = bu.dropLast ++ [⟨t, []⟩] := by
    obtain ⟨l, hl⟩ := List.getLast?_eq_some_iff.1 hlast
    rw [hl]; simp
  induction rest generalizing pre R with
  | nil => exact ⟨R, rfl, by rw [hbu, List.append_nil]; exact h⟩
  | cons x rest ih =>
    have hbu' : bu = pre ++ x :: (rest ++ [⟨t, []⟩]) := by rw [hsplit, hbu]; simp
    have hroot : x ≠ ⟨t, []⟩ := by
      rintro rfl
      have hnd := C.nodup
      rw [hbu', List.map_append, List.nodup_append] at hnd
      have := hnd.2.1
      simp at this
    obtain ⟨R1, h1, h2⟩ := step_exact C hbu' hroot h
    obtain ⟨R', h3, h4⟩ := ih (pre ++ [x]) R1 (by rw [hbu]; simp) h2
    exact ⟨R', by rw [loop, h1]; exact h3, h4⟩

end TreeRed
end Verif
