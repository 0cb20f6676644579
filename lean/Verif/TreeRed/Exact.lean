import Verif.TreeRed.Red
import Mathlib.Data.Finset.Card
set_option linter.unusedSectionVars false
/-
Proofs for C54: the loop of `reduce` overwrites exactly the slots of the removable nodes, in every order of sets.
-/
namespace Verif
namespace TreeRed
open PT BU Foot
variable {α : Type} [DecidableEq α]

/-- the test of the loop (tree_tr_based.py:103-106), from the footprints of the subtree -/
def rem (A : List α) (s : PT α) : Bool :=
  match footprints s with
  | some f => f.skip && (inter f.acts A).isEmpty
  | none => false

mutual
/-- the tree with all removable nodes below the root replaced -/
def fin (A : List α) : PT α → PT α
  | .leaf l => .leaf l
  | .node op cs => .node op (finL A cs)
/-- its children -/
def finL (A : List α) : List (PT α) → List (PT α)
  | [] => []
  | c :: cs => (if rem A c then .leaf none else fin A c) :: finL A cs
end

theorem finL_eq (A : List α) (cs : List (PT α)) : finL A cs = cs.map fun c => if rem A c then .leaf none else fin A c := by
  induction cs with
  | nil => rfl
  | cons c cs ih => rw [finL, ih]; rfl

/-! ### The test -/

theorem rem_tau (A : List α) : rem A (.leaf none) = true := by simp [rem, footprints, fpLeaf, inter]
theorem rem_act (A : List α) (a : α) : rem A (.leaf (some a)) = false := by simp [rem, footprints, fpLeaf]

theorem fpOp_facts {op : Op} {fs : List (FP α)} {f : FP α} (hne : fs ≠ []) (h : fpOp op fs = some f) :
    f.acts = fs.flatMap FP.acts ∧ ((∀ g ∈ fs, g.skip = true) → f.skip = true) ∧ (f.skip = false → ∃ g ∈ fs, g.skip = false) := by
  have hand : ∀ (x : Bool), x = fs.foldl (fun b n => b && n.skip) true →
      ((∀ g ∈ fs, g.skip = true) → x = true) ∧ (x = false → ∃ g ∈ fs, g.skip = false) := by
    rintro x rfl
    refine ⟨fun h => (foldl_and fs true).2 ⟨rfl, h⟩, fun h => Classical.byContradiction fun hc => ?_⟩
    have : fs.foldl (fun b n => b && n.skip) true = true := (foldl_and fs true).2 ⟨rfl, fun g hg => by
      cases hs : g.skip with
      | true => rfl
      | false => exact absurd ⟨g, hg, hs⟩ hc⟩
    rw [this] at h; cases h
  cases op with
  | seq => simp only [fpOp, Option.some.injEq] at h; subst h; exact ⟨rfl, hand _ rfl⟩
  | par => simp only [fpOp, Option.some.injEq] at h; subst h; exact ⟨rfl, hand _ rfl⟩
  | or => simp only [fpOp, Option.some.injEq] at h; subst h; exact ⟨rfl, hand _ rfl⟩
  | xor =>
    simp only [fpOp, Option.some.injEq] at h; subst h
    obtain ⟨g, hg⟩ := List.exists_mem_of_ne_nil _ hne
    refine ⟨rfl, fun h => (foldl_or fs false).2 (.inr ⟨g, hg, h g hg⟩), fun h => ⟨g, hg, ?_⟩⟩
    cases hs : g.skip with
    | false => rfl
    | true =>
      have : fs.foldl (fun b n => b || n.skip) false = true := (foldl_or fs false).2 (.inr ⟨g, hg, hs⟩)
      exact absurd (this.symm.trans h) (by simp)
  | inter => simp [fpOp] at h
  | loop =>
    rw [fpOp] at h
    match fs, h with
    | [], h => simp [fpLoop] at h
    | [d], h => simp [fpLoop] at h
    | d :: r :: fs', h =>
      simp only [fpLoop, Option.some.injEq] at h; subst h
      exact ⟨rfl, fun h => h d List.mem_cons_self, fun h => ⟨d, List.mem_cons_self, h⟩⟩

/-- the footprints of the children of a node -/
theorem footprints_node {op : Op} {cs : List (PT α)} {f : FP α} (hne : cs ≠ []) (h : footprints (.node op cs) = some f) :
    ∃ fs, fs ≠ [] ∧ List.Forall₂ (fun c g => footprints c = some g) cs fs ∧ fpOp op fs = some f := by
  have hemp : cs.isEmpty = false := by cases cs <;> simp_all
  rw [footprints, hemp] at h
  simp only [Bool.false_eq_true, if_false, Option.bind_eq_bind, Option.bind_eq_some_iff] at h
  obtain ⟨fs, h1, h2⟩ := h
  have hL : List.Forall₂ (fun c g => footprints c = some g) cs fs := by
    clear hne hemp h2
    induction cs generalizing fs with
    | nil => rw [footprintsL, Option.some.injEq] at h1; subst h1; exact .nil
    | cons c cs ih =>
      rw [footprintsL] at h1
      simp only [Option.bind_eq_bind, Option.bind_eq_some_iff] at h1
      obtain ⟨g, hg, gs, hgs, h1⟩ := h1
      simp only [pure, Option.some.injEq] at h1; subst h1
      exact .cons hg (ih gs hgs)
  refine ⟨fs, ?_, hL, h2⟩
  rintro rfl; cases hL; exact hne rfl

theorem rem_iff {A : List α} {s : PT α} {f : FP α} (h : footprints s = some f) :
    rem A s = true ↔ f.skip = true ∧ ∀ a ∈ f.acts, a ∉ A := by
  unfold rem
  rw [h]
  simp only [Bool.and_eq_true, List.isEmpty_iff, List.eq_nil_iff_forall_not_mem]
  constructor
  · rintro ⟨h1, h2⟩
    exact ⟨h1, fun a ha hA => h2 a (List.mem_filter.2 ⟨ha, by simpa using hA⟩)⟩
  · rintro ⟨h1, h2⟩
    exact ⟨h1, fun a ha => by have := List.mem_filter.1 ha; exact h2 a this.1 (by simpa using this.2)⟩

/-- a node whose children are all removable is removable -/
theorem rem_of_children {A : List α} {op : Op} {cs : List (PT α)} {f : FP α} (hne : cs ≠ []) (h : footprints (.node op cs) = some f)
    (hc : ∀ c ∈ cs, rem A c = true) : rem A (.node op cs) = true := by
  obtain ⟨fs, hfs, hL, hop⟩ := footprints_node hne h
  obtain ⟨h1, h2, _⟩ := fpOp_facts hfs hop
  have hall : ∀ g ∈ fs, g.skip = true ∧ ∀ a ∈ g.acts, a ∉ A := by
    intro g hg
    obtain ⟨c, hcm, hcg⟩ := forall₂_mem (List.Forall₂.flip hL) hg
    exact (rem_iff hcg).1 (hc c hcm)
  rw [rem_iff h, h1]
  refine ⟨h2 fun g hg => (hall g hg).1, fun a ha => ?_⟩
  obtain ⟨g, hg, ha⟩ := List.mem_flatMap.1 ha
  exact (hall g hg).2 a ha

/-- a label of the trace stays -/
theorem fin_keeps {A : List α} (s : PT α) (hs : WF s) {f : FP α} (hf : footprints s = some f) (a : α) (ha : a ∈ s.labels) (hA : a ∈ A) :
    a ∈ (fin A s).labels := by
  induction s using PT.induct generalizing f with
  | leaf l => simpa [fin] using ha
  | node op cs ih =>
    cases hs with
    | node _ _ hne hcs =>
    obtain ⟨fs, hfs, hL, hop⟩ := footprints_node hne hf
    rw [labels_node, List.mem_flatMap] at ha
    obtain ⟨c, hc, ha⟩ := ha
    obtain ⟨g, hg, hcg⟩ := forall₂_mem hL hc
    have hnr : rem A c = false := by
      cases hr : rem A c with
      | false => rfl
      | true => exact absurd hA (((rem_iff hcg).1 hr).2 a ((footprints_ok c (hcs c hc) g hcg).acts a ha))
    rw [fin, finL_eq, labels_node, List.mem_flatMap]
    exact ⟨_, List.mem_map_of_mem hc, by rw [hnr]; exact ih c hc (hcs c hc) hcg ha⟩

/-- what is left of a node that is not removable has a label -/
theorem fin_labels {A : List α} (s : PT α) (hs : WF s) {f : FP α} (hf : footprints s = some f) (hr : rem A s = false) :
    (fin A s).labels ≠ [] := by
  induction s using PT.induct generalizing f with
  | leaf l =>
    cases l with
    | none => rw [rem_tau] at hr; cases hr
    | some a => simp [fin, labels]
  | node op cs ih =>
    cases hs with
    | node _ _ hne hcs =>
    obtain ⟨fs, hfs, hL, hop⟩ := footprints_node hne hf
    obtain ⟨h1, _, h3⟩ := fpOp_facts hfs hop
    have : ∃ c ∈ cs, rem A c = false := by
      refine Classical.byContradiction fun hc => ?_
      have := rem_of_children hne hf (A := A) fun c hcm => by
        cases h : rem A c with
        | true => rfl
        | false => exact absurd ⟨c, hcm, h⟩ hc
      rw [this] at hr; cases hr
    obtain ⟨c, hc, hcr⟩ := this
    obtain ⟨g, hg, hcg⟩ := forall₂_mem hL hc
    obtain ⟨a, ha⟩ := List.exists_mem_of_ne_nil _ (ih c hc (hcs c hc) hcg hcr)
    intro e
    have : a ∈ (fin A (.node op cs)).labels := by
      rw [fin, finL_eq, labels_node, List.mem_flatMap]
      exact ⟨_, List.mem_map_of_mem hc, by rw [hcr]; exact ha⟩
    rw [e] at this; cases this

/-- a node of which nothing visible is left: all its children are removable -/
theorem fin_nolabels {A : List α} {op : Op} {cs : List (PT α)} (hs : WF (.node op cs)) {f : FP α} (hf : footprints (.node op cs) = some f)
    (hl : (fin A (.node op cs)).labels = []) : ∀ c ∈ cs, rem A c = true := by
  intro c hc
  cases hs with
  | node _ _ hne hcs =>
  obtain ⟨fs, hfs, hL, hop⟩ := footprints_node hne hf
  obtain ⟨g, hg, hcg⟩ := forall₂_mem hL hc
  cases hcr : rem A c with
  | true => rfl
  | false =>
    obtain ⟨a, ha⟩ := List.exists_mem_of_ne_nil _ (fin_labels c (hcs c hc) hcg hcr)
    have : a ∈ (fin A (.node op cs)).labels := by
      rw [fin, finL_eq, labels_node, List.mem_flatMap]
      exact ⟨_, List.mem_map_of_mem hc, by rw [hcr]; exact ha⟩
    rw [hl] at this; cases this

/-! ### The invariant -/

/-- an inner node at a path -/
def InnerAt (t : PT α) (q : Path) : Prop := ∃ op cs, subAt t q = some (.node op cs)

/-- a removable node at a path -/
def RemAt (A : List α) (t : PT α) (q : Path) : Prop := ∃ s, subAt t q = some s ∧ rem A s = true

open Classical in
/-- the overwritten slots of the node `p` that originally had an inner node, with a current value in `V` -/
noncomputable def RS (t : PT α) (N : Nat) (R : List Path) (p : Path) (V : PT α → Prop) : Finset Nat :=
  (Finset.range N).filter fun i => InnerAt t (p ++ [i]) ∧ p ++ [i] ∈ R ∧ ∀ s, subAt t (p ++ [i]) = some s → V (cur R (p ++ [i]) s)

open Classical in
/-- the removable inner children of the node `p` that have been processed, with a current value in `V` -/
noncomputable def DS (A : List α) (t : PT α) (N : Nat) (R D : List Path) (p : Path) (V : PT α → Prop) : Finset Nat :=
  (Finset.range N).filter fun i => InnerAt t (p ++ [i]) ∧ RemAt A t (p ++ [i]) ∧ p ++ [i] ∈ D ∧
    ∀ s, subAt t (p ++ [i]) = some s → V (cur R (p ++ [i]) s)

/-- all inner nodes strictly below `q` have been processed -/
def Below (t : PT α) (D : List Path) (q : Path) : Prop := ∀ r, r ≠ [] → InnerAt t (q ++ r) → q ++ r ∈ D

structure LInv (A : List α) (t : PT α) (N : Nat) (R D : List Path) : Prop where
  remo : ∀ q ∈ R, RemAt A t q
  cnt : ∀ p V, (RS t N R p V).card = (DS A t N R D p V).card
  below : ∀ q, (q ∈ R ∨ q ∈ D) → Below t D q

mutual
theorem cur_congr {R R' : List Path} {q : Path} (h : ∀ r, r ≠ [] → (q ++ r ∈ R ↔ q ++ r ∈ R')) : ∀ s : PT α, cur R q s = cur R' q s
  | .leaf l => by simp [cur]
  | .node op cs => by rw [cur, cur, curL_congr h 0 cs]
theorem curL_congr {R R' : List Path} {q : Path} (h : ∀ r, r ≠ [] → (q ++ r ∈ R ↔ q ++ r ∈ R')) : ∀ (i : Nat) (cs : List (PT α)),
    curL R q i cs = curL R' q i cs
  | _, [] => by simp [curL]
  | i, c :: cs => by
    rw [curL, curL, curL_congr h (i + 1) cs]
    have h1 : q ++ [i] ∈ R ↔ q ++ [i] ∈ R' := h [i] (by simp)
    rw [cur_congr (R' := R') (fun r hr => by rw [List.append_assoc]; exact h _ (by simp)) c]
    simp only [h1]
end

theorem below_child {t : PT α} {D : List Path} {q : Path} (h : Below t D q) (k : Nat) : Below t D (q ++ [k]) := by
  intro r hr hi
  rw [List.append_assoc] at hi ⊢
  exact h _ (by simp) hi

theorem footprints_child {t s : PT α} {q : Path} (ht : WF t) {f : FP α} (hf : footprints t = some f) (hs : subAt t q = some s) :
    ∃ g, footprints s = some g := by
  induction q generalizing t f with
  | nil => simp only [subAt, Option.some.injEq] at hs; subst hs; exact ⟨f, hf⟩
  | cons i q ih =>
    simp only [subAt] at hs
    cases hc : t.children[i]? with
    | none => simp [hc] at hs
    | some c =>
      rw [hc] at hs
      cases t with
      | leaf l => simp [PT.children] at hc
      | node op cs =>
        have hcm : c ∈ cs := List.mem_of_getElem? hc
        cases ht with
        | node _ _ hne hcs =>
        obtain ⟨fs, _, hL, _⟩ := footprints_node hne hf
        obtain ⟨g, _, hg⟩ := forall₂_mem hL hcm
        exact ih (hcs c hcm) hg hs

variable {A : List α} {t : PT α} {N : Nat} {R D : List Path}

theorem remAt_iff {q : Path} {s : PT α} (hs : subAt t q = some s) : RemAt A t q ↔ rem A s = true := by
  constructor
  · rintro ⟨s', h1, h2⟩; rw [hs, Option.some.injEq] at h1; subst h1; exact h2
  · intro h; exact ⟨s, hs, h⟩

/-- all removable inner children of a node are overwritten when they have been processed -/
theorem LInv.all_removed (h : LInv A t N R D) (hN : ∀ p i s, subAt t (p ++ [i]) = some s → i < N) {q : Path} {k : Nat}
    (hk : InnerAt t (q ++ [k])) (hD : ∀ i, InnerAt t (q ++ [i]) → RemAt A t (q ++ [i]) → q ++ [i] ∈ D) (hr : RemAt A t (q ++ [k])) : q ++ [k] ∈ R := by
  have hsub : RS t N R q (fun _ => True) ⊆ DS A t N R D q (fun _ => True) := by
    intro i hi
    simp only [RS, DS, Finset.mem_filter] at hi ⊢
    exact ⟨hi.1, hi.2.1, h.remo _ hi.2.2.1, hD i hi.2.1 (h.remo _ hi.2.2.1), fun _ _ => trivial⟩
  have heq := Finset.eq_of_subset_of_card_le hsub (by rw [h.cnt])
  have hkm : k ∈ DS A t N R D q (fun _ => True) := by
    simp only [DS, Finset.mem_filter, Finset.mem_range]
    obtain ⟨op, cs, hcs⟩ := hk
    exact ⟨hN _ _ _ hcs, ⟨op, cs, hcs⟩, hr, hD k ⟨op, cs, hcs⟩ hr, fun _ _ => trivial⟩
  rw [← heq] at hkm
  simp only [RS, Finset.mem_filter] at hkm
  exact hkm.2.2.1

/-- when all inner nodes below a node have been processed, its content is the final one -/
theorem LInv.cur_fin (h : LInv A t N R D) (hN : ∀ p i s, subAt t (p ++ [i]) = some s → i < N) (s : PT α) (q : Path) (hs : subAt t q = some s)
    (hb : Below t D q) : cur R q s = fin A s := by
  induction s using PT.induct generalizing q with
  | leaf l => simp [cur, fin]
  | node op cs ih =>
    rw [cur, fin]
    congr 1
    rw [finL_eq]
    refine List.ext_getElem? fun k => ?_
    rw [curL_get, List.getElem?_map, Nat.zero_add]
    cases hc : cs[k]? with
    | none => rfl
    | some c =>
      simp only [Option.map_some, Option.some.injEq]
      have hsub : subAt t (q ++ [k]) = some c := by rw [subAt_snoc, hs]; exact hc
      by_cases hin : q ++ [k] ∈ R
      · rw [if_pos hin, if_pos ((remAt_iff hsub).1 (h.remo _ hin))]
      · rw [if_neg hin]
        cases c with
        | leaf l =>
          cases l with
          | none => rw [rem_tau]; simp [cur]
          | some a => rw [rem_act]; simp [cur, fin]
        | node op' ds =>
          have hnr : rem A (.node op' ds) = false := by
            cases hr : rem A (.node op' ds) with
            | false => rfl
            | true => exact absurd (h.all_removed hN ⟨op', ds, hsub⟩ (fun i hi _ => hb [i] (by simp) hi) ((remAt_iff hsub).2 hr)) hin
          rw [hnr]
          exact ih _ (List.mem_of_getElem? hc) _ hsub (below_child hb k)

end TreeRed
end Verif
