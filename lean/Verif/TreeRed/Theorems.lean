import Verif.TreeRed.Red
set_option linter.unusedSectionVars false
/-
Property theorems C54: reduction of a process tree with respect to a trace.
-/
namespace Verif
namespace TreeRed
open PT BU Foot
variable {α : Type} [DecidableEq α]

theorem footprints_strict (t : PT α) : footprints t = evalT fpLeaf fpOp t := footprints_eval t

/-- the last node of the list is the root -/
theorem last_root {ord : List (Nd α) → List (Nd α)} (hord : ∀ l, (ord l).Perm l) (t : PT α) (ht : t.WF) (hlab : t.labels.Nodup)
    (hvis : ∀ op cs, Subtree t (.node op cs) → (PT.node op cs).labels ≠ []) : (bottomup ord t).getLast? = some ⟨t, []⟩ := by
  obtain ⟨h1, h2, h3⟩ := C34_bottomup hord t ht hlab hvis
  obtain ⟨n0, hinv⟩ := bottomup_inv hord t ht
  have hne : bottomup ord t ≠ [] := by
    intro e
    have := (h1 t).2 .root
    rw [e] at this; cases this
  rw [List.getLast?_eq_getElem?, List.getElem?_eq_getElem (by have := List.length_pos_of_ne_nil hne; omega)]
  have hlen := List.length_pos_of_ne_nil hne
  generalize hy : (bottomup ord t)[(bottomup ord t).length - 1] = y
  have hym : y ∈ bottomup ord t := hy ▸ List.getElem_mem _
  have hyn := hinv.nodes y hym
  cases hyn with
  | refl => rfl
  | @step z _ hz hk =>
    exfalso
    obtain ⟨c, hc, rfl⟩ := mem_kids.1 hk
    have hzs : z.sub ∈ (bottomup ord t).map Nd.sub := (h1 _).2 ((subtree_iff t _).2 ⟨z, hz, rfl⟩)
    obtain ⟨j, hj⟩ := List.getElem?_of_mem hzs
    cases hzsub : z.sub with
    | leaf l => rw [hzsub] at hc; cases hc
    | node op cs =>
      rw [hzsub] at hj hc
      obtain ⟨i, hi, hci⟩ := h3 j op cs hj c hc
      have hlast : ((bottomup ord t).map Nd.sub)[(bottomup ord t).length - 1]? = some c := by
        rw [List.getElem?_map, List.getElem?_eq_getElem (by omega), hy]; rfl
      obtain ⟨hjl, _⟩ := List.getElem?_eq_some_iff.1 hj
      rw [List.length_map] at hjl
      rw [← hlast] at hci
      have := (List.getElem?_inj (by rw [List.length_map]; omega) h2).1 hci
      omega

end TreeRed
open TreeRed BU
variable {α : Type} [DecidableEq α]

/-- C54: for every iteration order of sets of nodes, every trace and every tree in which no label occurs twice and every inner
node has a visible leaf: when the reduction of the tree with respect to the trace returns a tree, the tree returned has the
trace iff the tree given has it; indeed both have the same words over the activities of the trace.  The tree returned has no
new labels. -/
theorem C54_language {ord : List (Nd α) → List (Nd α)} (hord : ∀ l, (ord l).Perm l) (sz : α → Nat) (t : PT α) (ht : t.WF)
    (hlab : t.labels.Nodup) (hvis : ∀ op cs, Subtree t (.node op cs) → (PT.node op cs).labels ≠ []) (tr : List α) (t' : PT α)
    (h : TreeRed.apply ord sz t tr = some t') :
    (t'.lang tr ↔ t.lang tr) ∧ (∀ w : List α, (∀ a ∈ w, a ∈ tr) → (t'.lang w ↔ t.lang w)) ∧
    (∀ a ∈ t'.labels, a ∈ t.labels) ∧ t'.WF := by
  obtain ⟨n0, hinv⟩ := bottomup_inv hord t ht
  unfold TreeRed.apply TreeRed.reduce at h
  simp only [Option.bind_eq_bind, Option.bind_eq_some_iff] at h
  obtain ⟨t0, ⟨fps, hfps, R, hR, r, hr, ht0⟩, h⟩ := h
  simp only [pure, Option.some.injEq] at ht0
  subst ht0
  rw [last_root hord t ht hlab hvis, Option.some.injEq] at hr
  subst hr
  have hf : ∀ e ∈ fps, e.1.WF ∧ Foot.footprints e.1 = some e.2 := by
    have := fill_spec Foot.fpLeaf Foot.fpOp (bottomup ord t) [] (by simp) (fun x hx => (hinv.nodes x hx).wf ht)
      (fun j x hx c hc => .inr (hinv.order j x hx c hc))
    rcases this with ⟨d, h1, h2, _⟩ | ⟨h1, _⟩
    · rw [h1, Option.some.injEq] at hfps; subst hfps
      intro e he
      rw [footprints_eval]; exact h2 e he
    · rw [h1] at hfps; cases hfps
  have hgood : Good tr t R := loop_good ht hf _ (R := []) (fun q hq => by cases hq)
    (fun x hx => hinv.nodes x (List.dropLast_subset _ hx)) hR
  have hcur := cur_eqOn hgood t [] rfl
  obtain ⟨u, hu, hlang, hl, hwf, _⟩ := C10_fold sz (cur R [] t) (cur_wf R t ht []) _ (Nat.lt_succ_self _)
  have hu' : some u = some t' := by rw [← hu]; exact h
  rw [Option.some.injEq] at hu'; subst hu'
  have key : ∀ w : List α, (∀ a ∈ w, a ∈ tr) → (u.lang w ↔ t.lang w) := fun w hw => (hlang w).trans (hcur w hw)
  exact ⟨key tr (fun a ha => ha), key, fun a ha => cur_labels R t [] a (by rw [← hl]; exact ha), hwf⟩

/-- C54: trees discovered by the inductive miner satisfy the conditions, so that reducing them with respect to a trace keeps
whether they have the trace. -/
theorem C54_discovered {env : IM.Env α} (henv : env.Lawful) (h sz : α → Nat) (log : List (List α)) (hsz : IM.SmallAlphabet log)
    (n : Nat) (t : PT α) (hd : IM.discover env h sz n log = some t) {ord : List (Nd α) → List (Nd α)} (hord : ∀ l, (ord l).Perm l)
    (tr : List α) (t' : PT α) (hr : TreeRed.apply ord sz t tr = some t') : t'.lang tr ↔ t.lang tr := by
  obtain ⟨m, t1, h1, hwf, hvis⟩ := IM.discover_vis henv h sz log hsz
  have := C08_deterministic env h sz log n m t t1 hd h1
  subst this
  have hlab := (C09_labels henv h sz log hsz n t hd).1
  have hv : ∀ op cs, Subtree t (.node op cs) → (PT.node op cs).labels ≠ [] := fun op cs hs => (BU.vis_subtree hvis hs).labels
  exact (C54_language hord sz t hwf hlab hv tr t' hr).1

end Verif
