import Verif.WfTree.Spec
import Verif.WfTree.Atomic
/-
C53: the check whether a net is a workflow net.
-/
set_option linter.unusedSectionVars false
namespace Verif.WfTree
variable {α : Type}

theorem Path.trans {β : Type} {E : β → β → Prop} {a b c : β} (h1 : Path E a b) (h2 : Path E b c) : Path E a c := by
  induction h2 with
  | refl => exact h1
  | snoc _ e ih => exact .snoc ih e

theorem Path.one {β : Type} {E : β → β → Prop} {a b : β} (h : E a b) : Path E a b := .snoc (.refl _) h

theorem Path.head {β : Type} {E : β → β → Prop} {a b : β} (h : Path E a b) : a = b ∨ ∃ c, E a c ∧ Path E c b := by
  induction h with
  | refl => exact .inl rfl
  | snoc _ e ih =>
    rcases ih with rfl | ⟨c, h1, h2⟩
    · exact .inr ⟨_, e, .refl _⟩
    · exact .inr ⟨c, h1, .snoc h2 e⟩

theorem Path.revInduct {β : Type} {E : β → β → Prop} {b : β} {P : β → Prop} (hb : P b) (hs : ∀ a c, E a c → Path E c b → P c → P a) {a : β}
    (h : Path E a b) : P a := by
  induction h with
  | refl => exact hb
  | @snoc b c hp e ih =>
    refine ih (hs _ _ e (.refl _) hb) fun x y hxy hyb => hs x y hxy (.snoc hyb e)

section
variable {net : Net Nat Nat} (W : Plain net) (lab : Nat → Option α)
include W

theorem mem_scArcs {i o : Nat} {a b : Node} : (a, b) ∈ scArcs (ofNet net lab) i o ↔ (a = .pl o ∧ b = .sc) ∨ (a = .sc ∧ b = .pl i) ∨ Arc net a b := by
  simp only [scArcs, List.mem_append, List.mem_cons, Prod.mk.injEq, List.not_mem_nil, or_false, List.mem_flatMap, List.mem_map]
  constructor
  · rintro ((h | h) | ⟨t, ht, h⟩)
    · exact .inl h
    · exact .inr (.inl h)
    · obtain ⟨x, hx, rfl⟩ := (ofNet_mem W lab).1 ht
      rcases h with ⟨p, hp, rfl, rfl⟩ | ⟨p, hp, rfl, rfl⟩
      · obtain ⟨e, he, rfl⟩ := List.mem_map.1 hp
        exact .inr (.inr (.inp hx he))
      · obtain ⟨e, he, rfl⟩ := List.mem_map.1 hp
        exact .inr (.inr (.out hx he))
  · rintro (h | h | h)
    · exact .inl (.inl h)
    · exact .inl (.inr h)
    · cases h with
      | inp ht ha => exact .inr ⟨_, (ofNet_mem W lab).2 ⟨_, ht, rfl⟩, .inl ⟨_, List.mem_map_of_mem ha, rfl, rfl⟩⟩
      | out ht ha => exact .inr ⟨_, (ofNet_mem W lab).2 ⟨_, ht, rfl⟩, .inr ⟨_, List.mem_map_of_mem ha, rfl, rfl⟩⟩

theorem mem_scNodes {a : Node} : a ∈ scNodes (ofNet net lab) ↔ a ∈ .sc :: (net.places.map Node.pl ++ net.transitions.map Node.tr) := by
  simp [scNodes, ofNet]

theorem arc_nodes {a b : Node} (h : Arc net a b) : a ∈ scNodes (ofNet net lab) ∧ b ∈ scNodes (ofNet net lab) := by
  rw [mem_scNodes W lab, mem_scNodes W lab]
  cases h with
  | inp ht ha => simp [ht, (W.inP _ ht _ ha).1]
  | out ht ha => simp [ht, (W.outP _ ht _ ha).1]

theorem sources_iff {p : Nat} : p ∈ (ofNet net lab).sources ↔ p ∈ net.places ∧ ∀ x, ¬ Arc net x (.pl p) := by
  rw [mem_sources]
  refine and_congr Iff.rfl ⟨fun h x hx => ?_, fun h t ht hp => ?_⟩
  · cases hx with
    | out ht ha => exact h _ ((ofNet_mem W lab).2 ⟨_, ht, rfl⟩) (List.mem_map_of_mem ha)
  · obtain ⟨x, hx, rfl⟩ := (ofNet_mem W lab).1 ht
    obtain ⟨a, ha, rfl⟩ := List.mem_map.1 hp
    exact h _ (.out hx ha)

theorem sinks_iff {p : Nat} : p ∈ (ofNet net lab).sinks ↔ p ∈ net.places ∧ ∀ x, ¬ Arc net (.pl p) x := by
  rw [mem_sinks]
  refine and_congr Iff.rfl ⟨fun h x hx => ?_, fun h t ht hp => ?_⟩
  · cases hx with
    | inp ht ha => exact h _ ((ofNet_mem W lab).2 ⟨_, ht, rfl⟩) (List.mem_map_of_mem ha)
  · obtain ⟨x, hx, rfl⟩ := (ofNet_mem W lab).1 ht
    obtain ⟨a, ha, rfl⟩ := List.mem_map.1 hp
    exact h _ (.inp hx ha)

theorem single_list {l : List Nat} (hn : l.Nodup) {i : Nat} (h : ∀ p, p ∈ l ↔ p = i) : l = [i] := by
  match l, hn with
  | [], _ => have := (h i).2 rfl; cases this
  | [x], _ => have := (h x).1 (by simp); rw [this]
  | x :: y :: l, hn =>
    have h1 := (h x).1 (by simp)
    have h2 := (h y).1 (by simp)
    simp [h1, h2] at hn

variable {strong : List Nat → List (Nat × Nat) → Bool} (hS : StrongSpec strong) {name : Node → Nat} (hN : DistinctNames net name)
include hS hN

/-- a path of the graph of names is a path of the short-circuited net -/
theorem lift_path {i o : Nat} (hi : i ∈ net.places) (ho : o ∈ net.places) {a : Node} (ha : a ∈ scNodes (ofNet net lab)) {y : Nat}
    (h : Path (fun x y => (x, y) ∈ (scArcs (ofNet net lab) i o).map fun e => (name e.1, name e.2)) (name a) y) :
    ∃ b ∈ scNodes (ofNet net lab), name b = y ∧ Path (fun a b => (a, b) ∈ scArcs (ofNet net lab) i o) a b := by
  have nodes : ∀ a b, (a, b) ∈ scArcs (ofNet net lab) i o → a ∈ scNodes (ofNet net lab) ∧ b ∈ scNodes (ofNet net lab) := by
    intro a b h
    rcases (mem_scArcs W lab).1 h with ⟨rfl, rfl⟩ | ⟨rfl, rfl⟩ | h
    · rw [mem_scNodes W lab, mem_scNodes W lab]; simp [ho]
    · rw [mem_scNodes W lab, mem_scNodes W lab]; simp [hi]
    · exact arc_nodes W lab h
  induction h with
  | refl => exact ⟨a, ha, rfl, .refl _⟩
  | snoc _ e ih =>
    obtain ⟨b, hb, hbn, hp⟩ := ih
    obtain ⟨⟨x, y⟩, hxy, he⟩ := List.mem_map.1 e
    simp at he
    obtain ⟨h1, h2⟩ := nodes x y hxy
    have : b = x := hN b x ((mem_scNodes W lab).1 hb) ((mem_scNodes W lab).1 h1) (by rw [hbn, he.1])
    subst this
    exact ⟨y, h2, he.2, .snoc hp hxy⟩

theorem _root_.Verif.C53_check : isWfNet strong name (ofNet net lab) = true ↔ ∃ i o, IsWorkflowNet net i o := by
  constructor
  · intro h
    unfold isWfNet at h
    split at h
    · rename_i i o hi ho
      have hsrc : ∀ p, (p ∈ net.places ∧ ∀ x, ¬ Arc net x (.pl p)) ↔ p = i := by
        intro p; rw [← sources_iff W lab, hi]; simp
      have hsnk : ∀ p, (p ∈ net.places ∧ ∀ x, ¬ Arc net (.pl p) x) ↔ p = o := by
        intro p; rw [← sinks_iff W lab, ho]; simp
      have hip := ((hsrc i).2 rfl).1
      have hop := ((hsnk o).2 rfl).1
      have conn : ∀ a ∈ scNodes (ofNet net lab), ∀ b ∈ scNodes (ofNet net lab), Path (fun a b => (a, b) ∈ scArcs (ofNet net lab) i o) a b := by
        intro a ha b hb
        have := (hS _ _).1 h (name a) (List.mem_map_of_mem ha) (name b) (List.mem_map_of_mem hb)
        obtain ⟨b', hb', he, hp⟩ := lift_path W lab hS hN hip hop ha this
        have : b' = b := hN b' b ((mem_scNodes W lab).1 hb') ((mem_scNodes W lab).1 hb) he
        subst this; exact hp
      have fromI : ∀ b, Path (fun a b => (a, b) ∈ scArcs (ofNet net lab) i o) (.pl i) b → b ≠ .sc → Path (Arc net) (.pl i) b := by
        intro b hb
        induction hb with
        | refl => exact fun _ => .refl _
        | @snoc b c hp e ih =>
          intro hc
          rcases (mem_scArcs W lab).1 e with ⟨_, rfl⟩ | ⟨_, rfl⟩ | h
          · exact absurd rfl hc
          · exact .refl _
          · refine .snoc (ih ?_) h
            rintro rfl; cases h
      have toO : ∀ a, Path (fun a b => (a, b) ∈ scArcs (ofNet net lab) i o) a (.pl o) → a ≠ .sc → Path (Arc net) a (.pl o) := by
        intro a ha
        refine Path.revInduct (P := fun a => a ≠ .sc → Path (Arc net) a (.pl o)) (fun _ => .refl _) ?_ ha
        intro a c e _ ih hn
        rcases (mem_scArcs W lab).1 e with ⟨rfl, rfl⟩ | ⟨rfl, rfl⟩ | h
        · exact .refl _
        · exact absurd rfl hn
        · refine (Path.one h).trans (ih ?_)
          rintro rfl; cases h
      have nI : Node.pl i ∈ scNodes (ofNet net lab) := by rw [mem_scNodes W lab]; simp [hip]
      have nO : Node.pl o ∈ scNodes (ofNet net lab) := by rw [mem_scNodes W lab]; simp [hop]
      refine ⟨i, o, hsrc, hsnk, fun p hp => ?_, fun t ht => ?_⟩
      · have n : Node.pl p ∈ scNodes (ofNet net lab) := by rw [mem_scNodes W lab]; simp [hp]
        exact ⟨fromI _ (conn _ nI _ n) (by simp), toO _ (conn _ n _ nO) (by simp)⟩
      · have n : Node.tr t ∈ scNodes (ofNet net lab) := by rw [mem_scNodes W lab]; simp [ht]
        exact ⟨fromI _ (conn _ nI _ n) (by simp), toO _ (conn _ n _ nO) (by simp)⟩
    · cases h
  · rintro ⟨i, o, hw⟩
    have hi : (ofNet net lab).sources = [i] := single_list W (W.nodupP.filter _) fun p => by rw [← hw.source]; exact sources_iff W lab
    have ho : (ofNet net lab).sinks = [o] := single_list W (W.nodupP.filter _) fun p => by rw [← hw.sink]; exact sinks_iff W lab
    unfold isWfNet
    rw [hi, ho]
    simp only
    rw [hS]
    have emb : ∀ {a b : Node}, Path (Arc net) a b → Path (fun x y => (x, y) ∈ (scArcs (ofNet net lab) i o).map fun e => (name e.1, name e.2)) (name a) (name b) := by
      intro a b h
      induction h with
      | refl => exact .refl _
      | @snoc b c _ e ih => exact .snoc ih (List.mem_map.2 ⟨(b, c), (mem_scArcs W lab).2 (.inr (.inr e)), rfl⟩)
    have e1 : Path (fun x y => (x, y) ∈ (scArcs (ofNet net lab) i o).map fun e => (name e.1, name e.2)) (name (.pl o)) (name .sc) :=
      .one (List.mem_map.2 ⟨(.pl o, .sc), (mem_scArcs W lab).2 (.inl ⟨rfl, rfl⟩), rfl⟩)
    have e2 : Path (fun x y => (x, y) ∈ (scArcs (ofNet net lab) i o).map fun e => (name e.1, name e.2)) (name .sc) (name (.pl i)) :=
      .one (List.mem_map.2 ⟨(.sc, .pl i), (mem_scArcs W lab).2 (.inr (.inl ⟨rfl, rfl⟩)), rfl⟩)
    have toSc : ∀ a ∈ scNodes (ofNet net lab), Path (fun x y => (x, y) ∈ (scArcs (ofNet net lab) i o).map fun e => (name e.1, name e.2)) (name a) (name .sc) := by
      intro a ha
      rw [mem_scNodes W lab] at ha
      simp only [List.mem_cons, List.mem_append, List.mem_map] at ha
      rcases ha with rfl | ⟨p, hp, rfl⟩ | ⟨t, ht, rfl⟩
      · exact .refl _
      · exact (emb (hw.place p hp).2).trans e1
      · exact (emb (hw.transition t ht).2).trans e1
    have fromSc : ∀ a ∈ scNodes (ofNet net lab), Path (fun x y => (x, y) ∈ (scArcs (ofNet net lab) i o).map fun e => (name e.1, name e.2)) (name .sc) (name a) := by
      intro a ha
      rw [mem_scNodes W lab] at ha
      simp only [List.mem_cons, List.mem_append, List.mem_map] at ha
      rcases ha with rfl | ⟨p, hp, rfl⟩ | ⟨t, ht, rfl⟩
      · exact .refl _
      · exact e2.trans (emb (hw.place p hp).1)
      · exact e2.trans (emb (hw.transition t ht).1)
    intro a ha b hb
    obtain ⟨x, hx, rfl⟩ := List.mem_map.1 ha
    obtain ⟨y, hy, rfl⟩ := List.mem_map.1 hb
    exact (toSc x hx).trans (fromSc y hy)
end

theorem foldl_max_ge (l : List Nat) (a : Nat) : a ≤ l.foldl Nat.max a ∧ ∀ x ∈ l, x ≤ l.foldl Nat.max a := by
  induction l generalizing a with
  | nil => simp
  | cons b l ih =>
    obtain ⟨h1, h2⟩ := ih (Nat.max a b)
    have m1 : a ≤ Nat.max a b := Nat.le_max_left a b
    have m2 : b ≤ Nat.max a b := Nat.le_max_right a b
    refine ⟨Nat.le_trans m1 h1, fun x hx => ?_⟩
    rcases List.mem_cons.1 hx with rfl | hx
    · exact Nat.le_trans m2 h1
    · exact h2 x hx

/-- a workflow net satisfies the invariants -/
theorem wf_inv {net : Net Nat Nat} (W : Plain net) (lab : Nat → Option α) (h1 : net.transitions ≠ []) {i o : Nat} (hw : IsWorkflowNet net i o) :
    Inv (ofNet net lab) i o ∧ Good (ofNet net lab) i := by
  have lt : ∀ x, x ∈ net.places ∨ x ∈ net.transitions → x < (ofNet net lab).next := by
    intro x hx
    have := (foldl_max_ge (net.places ++ net.transitions) 0).2 x (by simpa using hx)
    simp only [ofNet]; omega
  have noIn : ∀ t ∈ net.transitions, ∀ a ∈ net.outArcs t, a.1 ≠ i := by
    intro t ht a ha e
    exact ((hw.source i).2 rfl).2 _ (e ▸ Arc.out ht ha)
  have noOut : ∀ t ∈ net.transitions, ∀ a ∈ net.inArcs t, a.1 ≠ o := by
    intro t ht a ha e
    exact ((hw.sink o).2 rfl).2 _ (e ▸ Arc.inp ht ha)
  have io : i ≠ o := by
    rintro rfl
    obtain ⟨t, ht⟩ := List.exists_mem_of_ne_nil _ h1
    have hp := (hw.transition t ht).2
    cases hp with
    | snoc _ e => exact ((hw.source i).2 rfl).2 _ e
  refine ⟨⟨?_, ?_, fun p hp => lt p (.inl hp), W.nodupP, ?_, ?_, ?_, ?_, ((hw.source i).2 rfl).1, ((hw.sink o).2 rfl).1, ?_, ?_, io, ?_, ?_⟩, ?_⟩
  · rw [ofNet_ids W lab]; exact W.nodupT
  · intro t ht
    obtain ⟨x, hx, rfl⟩ := (ofNet_mem W lab).1 ht
    exact lt x (.inr hx)
  · intro t ht p hp
    obtain ⟨x, hx, rfl⟩ := (ofNet_mem W lab).1 ht
    obtain ⟨a, ha, rfl⟩ := List.mem_map.1 hp
    exact (W.inP x hx a ha).1
  · intro t ht p hp
    obtain ⟨x, hx, rfl⟩ := (ofNet_mem W lab).1 ht
    obtain ⟨a, ha, rfl⟩ := List.mem_map.1 hp
    exact (W.outP x hx a ha).1
  · intro t ht e
    obtain ⟨x, hx, rfl⟩ := (ofNet_mem W lab).1 ht
    have hp := (hw.transition x hx).1
    cases hp with
    | snoc _ h =>
      cases h with
      | inp _ ha =>
        have : net.inArcs x = [] := List.map_eq_nil_iff.1 e
        rw [this] at ha; cases ha
  · intro t ht e
    obtain ⟨x, hx, rfl⟩ := (ofNet_mem W lab).1 ht
    rcases (hw.transition x hx).2.head with h | ⟨c, h, _⟩
    · cases h
    · cases h with
      | out _ ha =>
        have : net.outArcs x = [] := List.map_eq_nil_iff.1 e
        rw [this] at ha; cases ha
  · intro t ht e
    obtain ⟨x, hx, rfl⟩ := (ofNet_mem W lab).1 ht
    obtain ⟨a, ha, e⟩ := List.mem_map.1 e
    exact noIn x hx a ha e
  · intro t ht e
    obtain ⟨x, hx, rfl⟩ := (ofNet_mem W lab).1 ht
    obtain ⟨a, ha, e⟩ := List.mem_map.1 e
    exact noOut x hx a ha e
  · rcases (hw.place i ((hw.source i).2 rfl).1).2.head with h | ⟨c, h, _⟩
    · cases h; exact absurd rfl io
    · generalize hn : Node.pl i = n at h
      cases h with
      | inp ht ha =>
        cases hn
        exact ⟨_, (ofNet_mem W lab).2 ⟨_, ht, rfl⟩, List.mem_map_of_mem ha⟩
      | out ht ha => cases hn
  · intro t ht
    obtain ⟨x, hx, rfl⟩ := (ofNet_mem W lab).1 ht
    exact .leaf _
  · have key : ∀ n, Path (Arc net) (.pl i) n → (∀ p, n = .pl p → RP (ofNet net lab) i p) ∧
        (∀ t, n = .tr t → ∃ a ∈ net.inArcs t, RP (ofNet net lab) i a.1) := by
      intro n h
      induction h with
      | refl => exact ⟨fun p e => (by cases e; exact .base), fun t e => by cases e⟩
      | snoc _ e ih =>
        cases e with
        | inp ht ha => exact ⟨fun p e => (by cases e), fun t e => (by cases e; exact ⟨_, ha, ih.1 _ rfl⟩)⟩
        | out ht ha =>
          refine ⟨fun p e => ?_, fun t e => by cases e⟩
          cases e
          obtain ⟨b, hb, hr⟩ := ih.2 _ rfl
          exact .step ((ofNet_mem W lab).2 ⟨_, ht, rfl⟩) (List.mem_map_of_mem hb) (List.mem_map_of_mem ha) hr
    intro p hp
    exact (key _ (hw.place p hp).1).1 p rfl

end Verif.WfTree
