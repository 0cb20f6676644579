import Verif.TreePlayout.Proofs
/-
C46: playout of process trees.
-/
namespace Verif.TreePlayout
open Lang
variable {α : Type}

/-- Trees the default playout is made for: no OR, loops with a do and a redo part. -/
inductive Playable : PT α → Prop
  | leaf (l) : Playable (.leaf l)
  | node {op cs} : op ≠ .or → (op = .loop → cs.length = 2) → (∀ c ∈ cs, Playable c) → Playable (.node op cs)

theorem perm_map_inv {β γ : Type} (f : β → γ) (l : List β) (k : List γ) (hp : k.Perm (l.map f)) :
    ∃ l' : List β, l'.Perm l ∧ l'.map f = k := by
  generalize hk : l.map f = m at hp
  induction hp generalizing l with
  | nil => rw [List.map_eq_nil_iff] at hk; exact ⟨[], by rw [hk], rfl⟩
  | @cons x l1 l2 _ ih =>
    obtain ⟨a, l', rfl, rfl, hl⟩ := List.map_eq_cons_iff.1 hk
    obtain ⟨l3, h1, h2⟩ := ih l' hl
    exact ⟨a :: l3, h1.cons a, by rw [List.map_cons, h2]⟩
  | swap x y l0 =>
    obtain ⟨a, l', rfl, rfl, hl⟩ := List.map_eq_cons_iff.1 hk
    obtain ⟨b, l'', rfl, rfl, hl⟩ := List.map_eq_cons_iff.1 hl
    exact ⟨b :: a :: l'', List.Perm.swap _ _ _, by simpa using by assumption⟩
  | trans _ _ ih1 ih2 =>
    obtain ⟨O2, h1, h2⟩ := ih2 l hk
    obtain ⟨O1, h3, h4⟩ := ih1 O2 h2
    exact ⟨O1, h3.trans h1, h4⟩

/-- **C46.** The traces the default playout can produce are exactly the traces of the process tree. -/
theorem _root_.Verif.C46_topbottom (t : PT α) (h : Playable t) (w : List α) : (∃ s, outs t s ∧ visible s = w) ↔ t.lang w := by
  show view (outs t) w ↔ t.lang w
  suffices view (outs t) = t.lang by rw [this]
  induction h with
  | leaf l =>
    apply Lang.ext; intro w
    cases l with
    | none =>
      rw [PT.lang_tau]
      constructor
      · rintro ⟨s, hs, rfl⟩
        have : s = [none] := hs
        rw [this]; rfl
      · rintro rfl; exact ⟨[none], rfl, rfl⟩
    | some a =>
      rw [PT.lang_act]
      constructor
      · rintro ⟨s, hs, rfl⟩
        have : s = [some a] := hs
        rw [this]; rfl
      · rintro rfl; exact ⟨[some a], rfl, rfl⟩
  | @node op cs h1 h2 hc ih =>
    have hm : (cs.map outs).map view = cs.map PT.lang := by
      rw [List.map_map]
      exact List.map_congr_left ih
    rw [PT.lang_node, outs, outsL_eq]
    cases op with
    | seq => exact (view_seq _).trans (by rw [hm]; rfl)
    | xor =>
      apply Lang.ext; intro w
      show _ ↔ xorL (cs.map PT.lang) w
      rw [← hm]
      constructor
      · rintro ⟨s, ⟨O, hO, hs⟩, rfl⟩
        exact ⟨view O, List.mem_map.2 ⟨O, hO, rfl⟩, s, hs, rfl⟩
      · rintro ⟨L, hL, hw⟩
        obtain ⟨O, hO, rfl⟩ := List.mem_map.1 hL
        obtain ⟨s, hs, rfl⟩ := hw
        exact ⟨s, ⟨O, hO, hs⟩, rfl⟩
    | par => exact (view_par _).trans (by rw [hm]; rfl)
    | loop =>
      have := h2 rfl
      match cs, this with
      | [d, r], _ =>
        simp only [List.map_cons, List.map_nil, List.cons.injEq, and_true] at hm
        refine (view_loop (outs d) (outs r)).trans ?_
        rw [hm.1, hm.2]; rfl
    | or => exact absurd rfl h1
    | inter =>
      apply Lang.ext; intro w
      show _ ↔ interL (cs.map PT.lang) w
      rw [← hm]
      constructor
      · rintro ⟨s, ⟨Os, hp, ss, hs, rfl⟩, rfl⟩
        refine ⟨Os.map view, hp.map view, ?_⟩
        rw [← view_seq]
        exact ⟨_, ⟨ss, hs, rfl⟩, rfl⟩
      · rintro ⟨Ms, hp, hw⟩
        obtain ⟨Os, hp2, rfl⟩ := perm_map_inv view _ _ hp
        rw [← view_seq] at hw
        obtain ⟨s, ⟨ss, hs, rfl⟩, rfl⟩ := hw
        exact ⟨_, ⟨Os, hp2, ss, hs, rfl⟩, rfl⟩

/-- **C46.** Whatever order `random.shuffle` produces, the parallel operator never pops from an empty list. -/
theorem _root_.Verif.C46_parallel_no_error {β : Type} (ts : List (List β)) (cs : List Nat) (h : cs.Perm (choices 0 ts)) :
    (popAll cs ts).isSome := popAll_some h

/-- **C46, refuted.** "Every trace of a process tree can be played out" fails for trees with the OR operator (the code returns
`None` for it, which is a `TypeError` in the caller) and for loops with two redo parts (only the first is used). -/
theorem _root_.Verif.C46_other_operators_refuted :
    (¬ ∀ (cs : List (PT Nat)) (w : List Nat), (PT.node .or cs).lang w → ∃ s, outs (.node .or cs) s ∧ visible s = w) ∧
    ¬ ∀ (cs : List (PT Nat)) (w : List Nat), (PT.node .loop cs).lang w → ∃ s, outs (.node .loop cs) s ∧ visible s = w := by
  constructor
  · intro h
    obtain ⟨s, hs, _⟩ := h [.leaf (some 1)] [1] (by
      rw [PT.lang_node]
      exact ⟨[PT.lang (.leaf (some 1))], by simp, by simp, by simp⟩)
    rw [outs] at hs
    exact hs
  · intro h
    obtain ⟨s, hs, hv⟩ := h [.leaf (some 1), .leaf (some 2), .leaf (some 3)] [1, 3, 1] (by
      rw [PT.lang_node]
      exact .again (d := [1]) (r := [3]) (w := [1]) (PT.lang (.leaf (some 3))) (by simp) (by simp) (by simp) (.exit (by simp)))
    rw [outs, outsL_eq] at hs
    have hs : LoopRun (outs (.leaf (some 1))) (outs (.leaf (some 2))) [] s := hs
    have hv2 : loopL (view (outs (.leaf (some 1)))) [view (outs (.leaf (some 2)))] [1, 3, 1] := by
      rw [← view_loop]; exact ⟨s, hs, hv⟩
    have key : ∀ w, loopL (view (outs (.leaf (some 1)))) [view (outs (.leaf (some 2)))] w → 3 ∉ w := by
      have hl : ∀ (a : Nat) w, view (outs (.leaf (some a))) w → w = [a] := by
        rintro a w ⟨s, hs, rfl⟩
        rw [outs] at hs
        rw [hs]; rfl
      intro w hw
      induction hw with
      | exit hd => rw [hl _ _ hd]; simp
      | again R hd hR hr _ ih =>
        simp at hR; subst hR
        rw [hl _ _ hd, hl _ _ hr]
        simpa using ih
    exact key _ hv2 (by simp)

/-- `C46_topbottom`: a tree with all playable operators. -/
example : Playable (PT.node .seq [.leaf (some 0), .node .par [.leaf (some 1), .node .xor [.leaf none, .leaf (some 2)]],
    .node .loop [.leaf (some 3), .leaf none], .node .inter [.leaf (some 4), .leaf (some 5)]]) := by
  refine .node (by simp) (by simp) ?_
  intro c hc
  simp at hc
  rcases hc with rfl | rfl | rfl | rfl
  · exact .leaf _
  · refine .node (by simp) (by simp) ?_
    intro c hc
    simp at hc
    rcases hc with rfl | rfl
    · exact .leaf _
    · refine .node (by simp) (by simp) ?_
      intro c hc
      simp at hc
      rcases hc with rfl | rfl <;> exact .leaf _
  · refine .node (by simp) (by simp) ?_
    intro c hc
    simp at hc
    rcases hc with rfl | rfl <;> exact .leaf _
  · refine .node (by simp) (by simp) ?_
    intro c hc
    simp at hc
    rcases hc with rfl | rfl <;> exact .leaf _

/-- `C46_parallel_no_error`: an order. -/
example : [1, 0, 1].Perm (choices 0 [["a"], ["b", "c"]]) ∧ popAll [1, 0, 1] [["a"], ["b", "c"]] = some ["b", "a", "c"] := by decide

end Verif.TreePlayout
