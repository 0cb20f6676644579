import Verif.Decomp.Spec
import Mathlib.Data.List.Nodup
import Mathlib.Data.List.Pairwise
import Mathlib.Data.List.Perm.Basic
import Mathlib.Algebra.BigOperators.Group.List.Basic
import Mathlib.Tactic.ByContra
import Mathlib.Tactic.Tauto
/-
C78: connected components.
-/
set_option linter.unusedSectionVars false
namespace Verif.Decomp
variable {ν : Type} [DecidableEq ν]

/-- the two nodes are in one block -/
def Same (bs : List (List ν)) (x y : ν) : Prop := ∃ b ∈ bs, x ∈ b ∧ y ∈ b

theorem filter_flatten_perm (bs : List (List ν)) (p : List ν → Bool) :
    ((bs.filter p).flatten ++ (bs.filter fun b => !p b).flatten).Perm bs.flatten := by
  induction bs with
  | nil => exact .refl _
  | cons b bs ih =>
    cases h : p b with
    | true =>
      simp only [List.filter_cons, h, if_true, Bool.not_true, Bool.false_eq_true, if_false, List.flatten_cons, List.append_assoc]
      exact ih.append_left b
    | false =>
      simp only [List.filter_cons, h, Bool.false_eq_true, if_false, Bool.not_false, if_true, List.flatten_cons]
      refine (List.perm_append_comm_assoc _ _ _).trans ?_
      exact ih.append_left b

theorem join_flatten (bs : List (List ν)) (e : ν × ν) : (join bs e).flatten.Perm bs.flatten := by
  unfold join
  rw [List.flatten_cons]
  exact filter_flatten_perm bs _

theorem same_unique {bs : List (List ν)} (h : bs.flatten.Nodup) {b b' : List ν} (hb : b ∈ bs) (hb' : b' ∈ bs) {x : ν} (hx : x ∈ b) (hx' : x ∈ b') :
    b = b' := by
  rw [List.nodup_flatten] at h
  by_contra hne
  have : Std.Symm (List.Disjoint : List ν → List ν → Prop) := ⟨fun _ _ h => List.disjoint_symm h⟩
  exact (h.2.forall hb hb' hne) hx hx'

theorem same_trans {bs : List (List ν)} (h : bs.flatten.Nodup) {x y z : ν} (h1 : Same bs x y) (h2 : Same bs y z) : Same bs x z := by
  obtain ⟨b, hb, hx, hy⟩ := h1
  obtain ⟨b', hb', hy', hz⟩ := h2
  have := same_unique h hb hb' hy hy'
  subst this
  exact ⟨b, hb, hx, hz⟩

theorem same_join_mono {bs : List (List ν)} {e : ν × ν} {x y : ν} (h : Same bs x y) : Same (join bs e) x y := by
  obtain ⟨b, hb, hx, hy⟩ := h
  unfold join
  by_cases hc : e.1 ∈ b ∨ e.2 ∈ b
  · have : b ∈ bs.filter fun b => decide (e.1 ∈ b ∨ e.2 ∈ b) := List.mem_filter.2 ⟨hb, by simpa using hc⟩
    exact ⟨_, List.mem_cons_self .., List.mem_flatten.2 ⟨b, this, hx⟩, List.mem_flatten.2 ⟨b, this, hy⟩⟩
  · exact ⟨b, List.mem_cons_of_mem _ (List.mem_filter.2 ⟨hb, by simpa using hc⟩), hx, hy⟩

/-- what holds after the edges in `E` -/
structure CInv (V : List ν) (E : List (ν × ν)) (bs : List (List ν)) : Prop where
  perm : bs.flatten.Perm V
  sound : ∀ x y, Same bs x y → Relation.EqvGen (fun a b => (a, b) ∈ E) x y
  edges : ∀ e ∈ E, Same bs e.1 e.2

theorem join_inv {V : List ν} {E : List (ν × ν)} {bs : List (List ν)} (h : CInv V E bs) (e : ν × ν) (h1 : e.1 ∈ V) (h2 : e.2 ∈ V) :
    CInv V (E ++ [e]) (join bs e) := by
  have mono : ∀ x y, Relation.EqvGen (fun a b => (a, b) ∈ E) x y → Relation.EqvGen (fun a b => (a, b) ∈ E ++ [e]) x y := by
    intro x y hxy
    induction hxy with
    | rel a b h => exact .rel _ _ (List.mem_append_left _ h)
    | refl a => exact .refl _
    | symm a b _ ih => exact .symm _ _ ih
    | trans a b c _ _ i1 i2 => exact .trans _ _ _ i1 i2
  have he : Relation.EqvGen (fun a b => (a, b) ∈ E ++ [e]) e.1 e.2 := .rel _ _ (by simp)
  refine ⟨(join_flatten bs e).trans h.perm, ?_, ?_⟩
  · rintro x y ⟨b, hb, hx, hy⟩
    unfold join at hb
    rcases List.mem_cons.1 hb with rfl | hb
    · have key : ∀ z, z ∈ (bs.filter fun b => decide (e.1 ∈ b ∨ e.2 ∈ b)).flatten → Relation.EqvGen (fun a b => (a, b) ∈ E ++ [e]) z e.1 := by
        intro z hz
        obtain ⟨b, hb, hz⟩ := List.mem_flatten.1 hz
        obtain ⟨hb, hc⟩ := List.mem_filter.1 hb
        rcases of_decide_eq_true hc with hc | hc
        · exact mono _ _ (h.sound _ _ ⟨b, hb, hz, hc⟩)
        · exact .trans _ _ _ (mono _ _ (h.sound _ _ ⟨b, hb, hz, hc⟩)) (.symm _ _ he)
      exact .trans _ _ _ (key x hx) (.symm _ _ (key y hy))
    · exact mono _ _ (h.sound _ _ ⟨b, List.mem_of_mem_filter hb, hx, hy⟩)
  · intro f hf
    rcases List.mem_append.1 hf with hf | hf
    · exact same_join_mono (h.edges f hf)
    · rw [List.mem_singleton] at hf
      subst hf
      have m1 := h.perm.mem_iff.2 h1
      have m2 := h.perm.mem_iff.2 h2
      obtain ⟨b1, hb1, hx1⟩ := List.mem_flatten.1 m1
      obtain ⟨b2, hb2, hx2⟩ := List.mem_flatten.1 m2
      refine ⟨_, List.mem_cons_self .., List.mem_flatten.2 ⟨b1, List.mem_filter.2 ⟨hb1, ?_⟩, hx1⟩, List.mem_flatten.2 ⟨b2, List.mem_filter.2 ⟨hb2, ?_⟩, hx2⟩⟩
      · simp [hx1]
      · simp [hx2]

theorem fold_inv {V : List ν} : ∀ (E' E : List (ν × ν)) (bs : List (List ν)), CInv V E bs → (∀ e ∈ E', e.1 ∈ V ∧ e.2 ∈ V) →
    CInv V (E ++ E') (E'.foldl join bs) := by
  intro E'
  induction E' with
  | nil => intro E bs h _; simpa using h
  | cons e E' ih =>
    intro E bs h he
    have h1 := he e (List.mem_cons_self ..)
    have := ih (E ++ [e]) (join bs e) (join_inv h e h1.1 h1.2) fun f hf => he f (List.mem_cons_of_mem _ hf)
    simpa using this

/-- the components are the classes of the equivalence relation generated by the edges -/
theorem components_ok (V : List ν) (E : List (ν × ν)) (hV : V.Nodup) (hE : ∀ e ∈ E, e.1 ∈ V ∧ e.2 ∈ V) :
    (components V E).flatten.Perm V ∧
    ∀ x ∈ V, ∀ y ∈ V, Same (components V E) x y ↔ Relation.EqvGen (fun a b => (a, b) ∈ E) x y := by
  have h0 : CInv V [] (V.map fun v => [v]) := by
    refine ⟨?_, ?_, by simp⟩
    · have : (V.map fun v => [v]).flatten = V := by
        clear hV hE
        induction V with
        | nil => rfl
        | cons v V ih => rw [List.map_cons, List.flatten_cons, ih]; rfl
      rw [this]
    · rintro x y ⟨b, hb, hx, hy⟩
      obtain ⟨v, hv, rfl⟩ := List.mem_map.1 hb
      simp only [List.mem_singleton] at hx hy
      subst hx hy
      exact .refl _
  have h := fold_inv E [] _ h0 hE
  rw [List.nil_append] at h
  refine ⟨h.perm, fun x hx y hy => ⟨h.sound x y, fun hxy => ?_⟩⟩
  have hn : (E.foldl join (V.map fun v => [v])).flatten.Nodup := h.perm.nodup_iff.2 hV
  have key : ∀ a b, Relation.EqvGen (fun a b => (a, b) ∈ E) a b → a = b ∨ Same (components V E) a b := by
    intro a b hab
    induction hab with
    | rel a b h' => exact .inr (h.edges _ h')
    | refl a => exact .inl rfl
    | symm a b _ ih =>
      rcases ih with rfl | ⟨c, hc, h1, h2⟩
      · exact .inl rfl
      · exact .inr ⟨c, hc, h2, h1⟩
    | trans a b c _ _ ih1 ih2 =>
      rcases ih1 with rfl | ih1
      · exact ih2
      · rcases ih2 with rfl | ih2
        · exact .inr ih1
        · exact .inr (same_trans hn ih1 ih2)
  rcases key x y hxy with rfl | hs
  · obtain ⟨b, hb, hx⟩ := List.mem_flatten.1 (h.perm.mem_iff.2 hx)
    exact ⟨b, hb, hx, hx⟩
  · exact hs

end Verif.Decomp
