import Verif.TreeRed.Model
import Mathlib.Data.List.Forall2
import Mathlib.Data.List.Perm.Basic
set_option linter.unusedSectionVars false
/-
Proofs for C54: languages restricted to words over a set of activities.
-/
namespace Verif
namespace TreeRed
open PT BU Foot
variable {α : Type}

/-- every word of `L` over the activities `A` is a word of `M` -/
def SubOn (A : List α) (L M : Lang α) : Prop := ∀ w, (∀ a ∈ w, a ∈ A) → L w → M w

variable {A : List α}

theorem subOn_seq {Ls Ms : List (Lang α)} (h : List.Forall₂ (SubOn A) Ls Ms) : SubOn A (Lang.seqL Ls) (Lang.seqL Ms) := by
  induction h with
  | nil => intro w _ h; exact h
  | cons h _ ih =>
    rintro w hw ⟨u, v, hu, hv, rfl⟩
    exact ⟨u, v, h u (fun a ha => hw a (by simp [ha])) hu, ih v (fun a ha => hw a (by simp [ha])) hv, rfl⟩

theorem subOn_par {Ls Ms : List (Lang α)} (h : List.Forall₂ (SubOn A) Ls Ms) : SubOn A (Lang.parL Ls) (Lang.parL Ms) := by
  induction h with
  | nil => intro w _ h; exact h
  | cons h _ ih =>
    rintro w hw ⟨u, v, hu, hv, hs⟩
    exact ⟨u, v, h u (fun a ha => hw a ((hs.mem a).2 (.inl ha))) hu, ih v (fun a ha => hw a ((hs.mem a).2 (.inr ha))) hv, hs⟩

theorem forall₂_mem {β γ : Type _} {r : β → γ → Prop} {l : List β} {m : List γ} (h : List.Forall₂ r l m) {x : β} (hx : x ∈ l) :
    ∃ y ∈ m, r x y := by
  induction h with
  | nil => cases hx
  | cons h _ ih =>
    rcases List.mem_cons.1 hx with rfl | hx
    · exact ⟨_, List.mem_cons_self, h⟩
    · obtain ⟨y, hy, h⟩ := ih hx; exact ⟨y, List.mem_cons_of_mem _ hy, h⟩

theorem subOn_xor {Ls Ms : List (Lang α)} (h : List.Forall₂ (SubOn A) Ls Ms) : SubOn A (Lang.xorL Ls) (Lang.xorL Ms) := by
  rintro w hw ⟨L, hL, h1⟩
  obtain ⟨M, hM, h2⟩ := forall₂_mem h hL
  exact ⟨M, hM, h2 w hw h1⟩

theorem subOn_loop {D D' : Lang α} {Rs Rs' : List (Lang α)} (hD : SubOn A D D') (h : List.Forall₂ (SubOn A) Rs Rs') :
    SubOn A (Lang.loopL D Rs) (Lang.loopL D' Rs') := by
  intro w hw hl
  induction hl with
  | exit h => exact .exit (hD _ hw h)
  | again R hd hR hr _ ih =>
    obtain ⟨R', hR', h2⟩ := forall₂_mem h hR
    exact .again R' (hD _ (fun a ha => hw a (by simp [ha])) hd) hR' (h2 _ (fun a ha => hw a (by simp [ha])) hr)
      (ih fun a ha => hw a (by simp [ha]))

theorem forall₂_sublist {β γ : Type _} {r : β → γ → Prop} {l : List β} {m : List γ} (h : List.Forall₂ r l m) {l' : List β} (hs : l'.Sublist l) :
    ∃ m', m'.Sublist m ∧ List.Forall₂ r l' m' := by
  induction h generalizing l' with
  | nil => cases hs; exact ⟨[], List.Sublist.refl _, .nil⟩
  | cons h _ ih =>
    cases hs with
    | cons _ hs => obtain ⟨m', h1, h2⟩ := ih hs; exact ⟨m', h1.cons _, h2⟩
    | cons_cons _ hs => obtain ⟨m', h1, h2⟩ := ih hs; exact ⟨_, h1.cons_cons _, .cons h h2⟩

theorem subOn_or {Ls Ms : List (Lang α)} (h : List.Forall₂ (SubOn A) Ls Ms) : SubOn A (Lang.orL Ls) (Lang.orL Ms) := by
  rintro w hw ⟨Ls', hne, hs, hp⟩
  obtain ⟨Ms', h1, h2⟩ := forall₂_sublist h hs
  refine ⟨Ms', ?_, h1, subOn_par h2 w hw hp⟩
  rintro rfl; cases h2; exact hne rfl

theorem subOn_inter {Ls Ms : List (Lang α)} (h : List.Forall₂ (SubOn A) Ls Ms) : SubOn A (Lang.interL Ls) (Lang.interL Ms) := by
  rintro w hw ⟨Ls', hp, hs⟩
  obtain ⟨Ms', h1, h2⟩ := List.perm_comp_forall₂ hp h
  exact ⟨Ms', h2, subOn_seq h1 w hw hs⟩

theorem subOn_op (op : Op) {Ls Ms : List (Lang α)} (h : List.Forall₂ (SubOn A) Ls Ms) : SubOn A (opLang op Ls) (opLang op Ms) := by
  cases op with
  | seq => exact subOn_seq h
  | xor => exact subOn_xor h
  | par => exact subOn_par h
  | or => exact subOn_or h
  | inter => exact subOn_inter h
  | loop =>
    cases h with
    | nil => intro w _ h; exact h
    | cons h1 h2 => exact subOn_loop h1 h2

end TreeRed
end Verif
