import Verif.TreeRed.Exact3
set_option linter.unusedSectionVars false
/-
Property theorems C54: what the reduction replaces.
-/
namespace Verif
namespace TreeRed
open PT BU Foot
variable {α : Type} [DecidableEq α]

/-! ### Specification -/

/-- the tree has the empty trace, and none of its traces has an activity of `tr` -/
def Needless (tr : List α) (c : PT α) : Prop := c.lang [] ∧ ∀ w, c.lang w → ∀ a ∈ w, a ∉ tr

/-- `t'` is `t` with every needless node below the root replaced by a silent leaf -/
inductive Replaced (tr : List α) : PT α → PT α → Prop
  | leaf (l : Option α) : Replaced tr (.leaf l) (.leaf l)
  | node (op : Op) {cs ds : List (PT α)} : cs.length = ds.length →
      (∀ (k : Nat) c d, cs[k]? = some c → ds[k]? = some d → Needless tr c → d = .leaf none) →
      (∀ (k : Nat) c d, cs[k]? = some c → ds[k]? = some d → ¬ Needless tr c → Replaced tr c d) →
      Replaced tr (.node op cs) (.node op ds)

/-! ### Proofs -/

theorem rem_needless {tr : List α} {c : PT α} (hc : Plain c) : rem tr c = true ↔ Needless tr c := by
  obtain ⟨f, hf, he⟩ := footprints_exact c hc
  rw [rem_iff hf, he.skip]
  unfold Needless
  constructor
  · rintro ⟨h1, h2⟩
    exact ⟨h1, fun w hw a ha => h2 a ((he.acts a).2 ⟨w, hw, ha⟩)⟩
  · rintro ⟨h1, h2⟩
    refine ⟨h1, fun a ha => ?_⟩
    obtain ⟨w, hw, ha⟩ := (he.acts a).1 ha
    exact h2 w hw a ha

theorem fin_replaced (tr : List α) (s : PT α) (hs : Plain s) : Replaced tr s (fin tr s) := by
  induction s using PT.induct with
  | leaf l => rw [fin]; exact .leaf l
  | node op cs ih =>
    have hcs : ∀ c ∈ cs, Plain c := by cases hs; assumption
    rw [fin, finL_eq]
    refine .node op (by simp) (fun k c d hc hd hn => ?_) (fun k c d hc hd hn => ?_)
    · rw [List.getElem?_map, hc, Option.map_some, Option.some.injEq] at hd
      rw [← hd, if_pos ((rem_needless (hcs c (List.mem_of_getElem? hc))).2 hn)]
    · rw [List.getElem?_map, hc, Option.map_some, Option.some.injEq] at hd
      have hcm := List.mem_of_getElem? hc
      rw [← hd, if_neg fun h => hn ((rem_needless (hcs c hcm)).1 h)]
      exact ih c hcm (hcs c hcm)

theorem bound_exists (t : PT α) : ∀ p i s, subAt t (p ++ [i]) = some s → i < size t := by
  intro p i s h
  have key : ∀ (u : PT α) (p : Path) (i : Nat), subAt u (p ++ [i]) = some s → i < size u := by
    intro u p
    induction p generalizing u with
    | nil =>
      intro i h
      simp only [List.nil_append, subAt] at h
      cases u with
      | leaf l => simp [PT.children] at h
      | node op cs =>
        rw [size_node]
        simp only [PT.children] at h
        have hlt : i < cs.length := by
          by_cases hl : i < cs.length
          · exact hl
          · rw [List.getElem?_eq_none (by omega)] at h; simp at h
        have : cs.length ≤ (cs.map size).sum := by
          clear h hlt
          induction cs with
          | nil => simp
          | cons c cs ih => have := size_pos c; simp only [List.length_cons, List.map_cons, List.sum_cons]; omega
        omega
    | cons x p ih =>
      intro i h
      simp only [List.cons_append, subAt] at h
      cases hx : u.children[x]? with
      | none => simp [hx] at h
      | some y =>
        rw [hx] at h
        have h1 := ih y i h
        cases u with
        | leaf l => simp [PT.children] at hx
        | node op cs =>
          have hy : y ∈ cs := List.mem_of_getElem? hx
          have h2 : size y ≤ (cs.map size).sum := by
            clear hx h h1
            induction cs with
            | nil => cases hy
            | cons c cs ih =>
              simp only [List.map_cons, List.sum_cons]
              rcases List.mem_cons.1 hy with rfl | hy
              · omega
              · have := ih hy; omega
          rw [size_node]; omega
  exact key t p i h

theorem reduce_exact {ord : List (Nd α) → List (Nd α)} (hord : ∀ l, (ord l).Perm l) (t : PT α) (ht : t.WF)
    (hlab : t.labels.Nodup) (hvis : ∀ op cs, Subtree t (.node op cs) → (PT.node op cs).labels ≠ []) (tr : List α)
    (hf : ∃ f, footprints t = some f) : reduce ord t tr = some (fin tr t) := by
  obtain ⟨n0, hinv⟩ := bottomup_inv hord t ht
  obtain ⟨h1, h2, h3⟩ := C34_bottomup hord t ht hlab hvis
  have hlast := last_root hord t ht hlab hvis
  have hfill : ∃ fps, fill fpLeaf fpOp [] (bottomup ord t) = some fps ∧ ∀ x ∈ bottomup ord t, look fps x.sub = footprints x.sub := by
    have := fill_spec fpLeaf fpOp (bottomup ord t) [] (by simp) (fun x hx => (hinv.nodes x hx).wf ht)
      (fun j x hx c hc => .inr (hinv.order j x hx c hc))
    rcases this with ⟨d, h1, h2, h3⟩ | ⟨h1, x, hx, he⟩
    · refine ⟨d, h1, fun x hx => ?_⟩
      rw [footprints_eval]
      exact look_spec fpLeaf fpOp h2 ((hinv.nodes x hx).wf ht) (h3 _ (.inr (List.mem_map_of_mem hx)))
    · exfalso
      obtain ⟨f, hf⟩ := hf
      obtain ⟨g, hg⟩ := footprints_child ht hf (pathOf_spec ht (hinv.nodes x hx))
      rw [footprints_eval, he] at hg; cases hg
  obtain ⟨fps, hfps, hlook⟩ := hfill
  have C : Ctx tr t (size t) (bottomup ord t) fps := by
    refine ⟨ht, hlab, ?_, bound_exists t, hf, hinv.nodes, h2, fun j x hx c hc => hinv.order j x hx c hc, hlook⟩
    intro x hx hne
    have : Subtree t x.sub := (subtree_iff t _).2 ⟨x, hx, rfl⟩
    cases hs : x.sub with
    | leaf l => rw [hs] at hne; exact absurd rfl hne
    | node op cs => rw [hs] at this; exact hvis op cs this
  have h0 : LInv tr t (size t) [] (([] : List (Nd α)).map pth).reverse := by
    refine ⟨fun q hq => (List.not_mem_nil hq).elim, fun p V => ?_, fun q hq => ?_⟩
    · have e1 : RS t (size t) [] p V = ∅ := by
        ext k; simp [RS]
      have e2 : DS tr t (size t) [] (([] : List (Nd α)).map pth).reverse p V = ∅ := by
        ext k; simp [DS]
      rw [e1, e2]
    · rcases hq with hq | hq
      · cases hq
      · cases hq
  obtain ⟨R, hR, hI⟩ := loop_exact C hlast (bottomup ord t).dropLast [] [] rfl h0
  have hbelow : Below t ((bottomup ord t).dropLast.map pth).reverse [] := by
    obtain ⟨l, hl⟩ := List.getLast?_eq_some_iff.1 hlast
    have hd : (bottomup ord t).dropLast = l := by rw [hl]; simp
    rw [hd] at hI ⊢
    exact C.below (x := ⟨t, []⟩) (rest := []) hl hI
  have hcur := hI.cur_fin (bound_exists t) t [] rfl hbelow
  unfold reduce
  simp only [Option.bind_eq_bind, hfps, Option.bind_some, hR, hlast]
  exact congrArg some hcur

end TreeRed
open TreeRed BU
variable {α : Type} [DecidableEq α]

/-- C54: under the conditions of C54_language, for trees without OR and interleaving whose loops have two children, the reduction
returns a tree, for every iteration order of sets: before folding it is the tree with every node below the root that has the
empty trace and no trace with an activity of the given trace replaced by a silent leaf.  The tree returned has the same traces
and labels as that tree. -/
theorem C54_exact {ord : List (Nd α) → List (Nd α)} (hord : ∀ l, (ord l).Perm l) (sz : α → Nat) (t : PT α) (ht : t.WF)
    (hlab : t.labels.Nodup) (hvis : ∀ op cs, Subtree t (.node op cs) → (PT.node op cs).labels ≠ []) (hpl : Foot.Plain t) (tr : List α) :
    ∃ t0 t', TreeRed.reduce ord t tr = some t0 ∧ Replaced tr t t0 ∧ TreeRed.apply ord sz t tr = some t' ∧
      (∀ w, t'.lang w ↔ t0.lang w) ∧ t'.labels = t0.labels := by
  obtain ⟨f, hf, _⟩ := Foot.footprints_exact t hpl
  have hr := reduce_exact hord t ht hlab hvis tr ⟨f, hf⟩
  have hwf : (fin tr t).WF := by
    have hr' := hr
    unfold TreeRed.reduce at hr'
    simp only [Option.bind_eq_bind, Option.bind_eq_some_iff] at hr'
    obtain ⟨fps, _, R, _, r, hrl, hr'⟩ := hr'
    rw [last_root hord t ht hlab hvis, Option.some.injEq] at hrl
    subst hrl
    simp only [pure, Option.some.injEq] at hr'
    rw [← hr']
    exact cur_wf R t ht _
  obtain ⟨u, hu, hl, hlb, _⟩ := C10_fold sz (fin tr t) hwf _ (Nat.lt_succ_self _)
  refine ⟨fin tr t, u, hr, fin_replaced tr t hpl, ?_, hl, hlb⟩
  unfold TreeRed.apply; rw [hr]; exact hu

/-- C54: the reduction returns a tree for every tree with footprints, hence also for OR nodes and loops with more children -/
theorem C54_returns {ord : List (Nd α) → List (Nd α)} (hord : ∀ l, (ord l).Perm l) (sz : α → Nat) (t : PT α) (ht : t.WF)
    (hlab : t.labels.Nodup) (hvis : ∀ op cs, Subtree t (.node op cs) → (PT.node op cs).labels ≠ [])
    (hf : ∃ f, Foot.footprints t = some f) (tr : List α) : ∃ t', TreeRed.apply ord sz t tr = some t' := by
  have hr := reduce_exact hord t ht hlab hvis tr hf
  have hwf : (fin tr t).WF := by
    have hr' := hr
    unfold TreeRed.reduce at hr'
    simp only [Option.bind_eq_bind, Option.bind_eq_some_iff] at hr'
    obtain ⟨fps, _, R, _, r, hrl, hr'⟩ := hr'
    rw [last_root hord t ht hlab hvis, Option.some.injEq] at hrl
    subst hrl
    simp only [pure, Option.some.injEq] at hr'
    rw [← hr']
    exact cur_wf R t ht _
  obtain ⟨u, hu, _⟩ := C10_fold sz (fin tr t) hwf _ (Nat.lt_succ_self _)
  exact ⟨u, by unfold TreeRed.apply; rw [hr]; exact hu⟩

end Verif
