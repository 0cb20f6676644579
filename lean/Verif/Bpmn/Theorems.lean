import Verif.Bpmn.Net
/-
Property theorems C65: conversion of BPMN graphs to Petri nets.
-/
set_option linter.unusedSectionVars false
namespace Verif
open Conv Sys Bpmn Dict

namespace Bpmn
variable {g : Graph}

/-! ### removal of isolated places -/

theorem filter_all {β : Type} {l : List β} {q : β → Bool} (h : ∀ x ∈ l, q x = true) : l.filter q = l := List.filter_eq_self.2 h

theorem drop_eq (n : Gr String) (p : Nat) : ∃ ps, dropIsolated n p = { n with places := ps } ∧ (∀ q ∈ n.places, q ∈ ps ∨
    (n.ppre q = [] ∧ n.ppost q = [])) ∧ (∀ q ∈ ps, q ∈ n.places) := by
  unfold dropIsolated
  split
  · next h =>
    obtain ⟨h1, h2, _, _⟩ := h
    rw [List.length_eq_zero_iff] at h1 h2
    unfold Gr.removePlace
    split
    · refine ⟨n.places.filter fun q => !(q == p), ?_, fun q hq => ?_, fun q hq => (List.mem_filter.1 hq).1⟩
      · rw [filter_all (l := n.pt), filter_all (l := n.tp)]
        · intro a ha
          simp only [Bool.not_eq_eq_eq_not, Bool.not_true, beq_eq_false_iff_ne, ne_eq]
          intro e
          have : a.1 ∈ n.ppre p := Gr.mem_ppre.2 (by rw [← e]; exact ha)
          rw [h1] at this; simp at this
        · intro a ha
          simp only [Bool.not_eq_eq_eq_not, Bool.not_true, beq_eq_false_iff_ne, ne_eq]
          intro e
          have : a.2 ∈ n.ppost p := Gr.mem_ppost.2 (by rw [← e]; exact ha)
          rw [h2] at this; simp at this
      · by_cases e : q = p
        · exact .inr (e ▸ ⟨h1, h2⟩)
        · exact .inl (List.mem_filter.2 ⟨hq, by simpa using e⟩)
    · exact ⟨n.places, rfl, fun q hq => .inl hq, fun q hq => hq⟩
  · exact ⟨n.places, rfl, fun q hq => .inl hq, fun q hq => hq⟩

theorem drops_eq (l : List Nat) : ∀ n : Gr String, ∃ ps, l.foldl dropIsolated n = { n with places := ps } ∧ (∀ q ∈ n.places, q ∈ ps ∨
    (n.ppre q = [] ∧ n.ppost q = [])) ∧ (∀ q ∈ ps, q ∈ n.places) := by
  induction l with
  | nil => intro n; exact ⟨n.places, rfl, fun q hq => .inl hq, fun q hq => hq⟩
  | cons p l ih =>
    intro n
    obtain ⟨ps, h1, h2, h3⟩ := drop_eq n p
    obtain ⟨ps', h4, h5, h6⟩ := ih (dropIsolated n p)
    refine ⟨ps', ?_, fun q hq => ?_, fun q hq => ?_⟩
    · rw [List.foldl_cons, h4, h1]
    · rcases h2 q hq with h | h
      · have := h5 q (by rw [h1]; exact h)
        rw [h1] at this
        exact this
      · exact .inr h
    · have := h6 q hq
      rw [h1] at this
      exact h3 q this

theorem drops_trs (l : List Nat) (n : Gr String) : (l.foldl dropIsolated n).trs = n.trs := by
  obtain ⟨ps, h1, _, _⟩ := drops_eq l n
  rw [h1]; rfl

theorem drops_inv (l : List Nat) {n : Gr String} (hi : n.Inv) : (l.foldl dropIsolated n).Inv := by
  obtain ⟨ps, h1, h2, _⟩ := drops_eq l n
  rw [h1]
  refine ⟨hi.nodup, fun t ht p hp => ?_, fun t ht p hp => ?_⟩
  · rcases h2 p (hi.pt t ht p hp) with h | ⟨_, h⟩
    · exact h
    · have : t ∈ n.ppost p := Gr.mem_ppost.2 (Gr.mem_pre.1 hp)
      rw [h] at this; simp at this
  · rcases h2 p (hi.tp t ht p hp) with h | ⟨h, _⟩
    · exact h
    · have : t ∈ n.ppre p := Gr.mem_ppre.2 (Gr.mem_post.1 hp)
      rw [h] at this; simp at this

/-! ### source and sink -/

theorem no_zero {p : Nat} {I : List Nat} (ok : g.OK) {n : Node} (hn : n ∈ g.nodes) (hI : I ∈ g.gives n) (hp : p ∈ I) : p ≠ 0 := by
  rcases (mem_gives ok hn).1 hI with ⟨_, rfl⟩ | ⟨_, rfl⟩ | ⟨_, f, hf, _, rfl⟩
  · rw [List.mem_singleton] at hp; omega
  · obtain ⟨f, _, rfl⟩ := List.mem_map.1 hp
    unfold flowPlace; omega
  · rw [List.mem_singleton] at hp; subst hp; unfold flowPlace; omega

theorem no_one {p : Nat} {I : List Nat} (ok : g.OK) {n : Node} (hn : n ∈ g.nodes) (hI : I ∈ g.takes n) (hp : p ∈ I) : p ≠ 1 := by
  rcases (mem_takes ok hn).1 hI with ⟨_, rfl⟩ | ⟨_, rfl⟩ | ⟨_, f, hf, _, rfl⟩
  · rw [List.mem_singleton] at hp; omega
  · obtain ⟨f, _, rfl⟩ := List.mem_map.1 hp
    unfold flowPlace; omega
  · rw [List.mem_singleton] at hp; subst hp; unfold flowPlace; omega

theorem fine_cases (ok : g.OK) {t : Tr String} (ht : t ∈ g.build.trs) : ∃ n ∈ g.nodes,
    (∃ I ∈ g.takes n, t = ⟨I, [g.entP n.id], none⟩) ∨ t = ⟨[g.entP n.id], [g.exiP n.id], n.label⟩ ∨
        ∃ O ∈ g.gives n, t = ⟨[g.exiP n.id], O, none⟩ := by
  have ht := (mem_build ok t).1 ht
  rw [Graph.hubs, List.flatMap_map] at ht
  obtain ⟨n, hn, ht⟩ := List.mem_flatMap.1 ht
  exact ⟨n, (List.mem_filter.1 hn).1, mem_fine.1 ht⟩

theorem build_ppre0 (ok : g.OK) : g.build.ppre 0 = [] := by
  refine List.eq_nil_iff_forall_not_mem.2 fun t ht => ?_
  have hm := Gr.mem_ppre.1 ht
  obtain ⟨a, ha, e⟩ := List.mem_map.1 ((build_isNet ok).tp _ hm).1
  have hp : 0 ∈ g.build.post a.1 := Gr.mem_post.2 (by rw [e]; exact hm)
  have := two_le g
  obtain ⟨n, hn, ⟨I, hI, e⟩ | e | ⟨O, hO, e⟩⟩ := fine_cases ok (mem_trs.2 ⟨a, ha, rfl⟩)
  · rw [(Tr.mk.inj e).2.1] at hp; simp only [List.mem_singleton, Graph.entP] at hp; omega
  · rw [(Tr.mk.inj e).2.1] at hp; simp only [List.mem_singleton, Graph.exiP] at hp; omega
  · rw [(Tr.mk.inj e).2.1] at hp; exact no_zero ok hn hO hp rfl

theorem build_ppost1 (ok : g.OK) : g.build.ppost 1 = [] := by
  refine List.eq_nil_iff_forall_not_mem.2 fun t ht => ?_
  have hm := Gr.mem_ppost.1 ht
  obtain ⟨a, ha, e⟩ := List.mem_map.1 ((build_isNet ok).pt _ hm).2
  have hp : 1 ∈ g.build.pre a.1 := Gr.mem_pre.2 (by rw [e]; exact hm)
  have := two_le g
  obtain ⟨n, hn, ⟨I, hI, e⟩ | e | ⟨O, hO, e⟩⟩ := fine_cases ok (mem_trs.2 ⟨a, ha, rfl⟩)
  · rw [(Tr.mk.inj e).1] at hp; exact no_one ok hn hI hp rfl
  · rw [(Tr.mk.inj e).1] at hp; simp only [List.mem_singleton, Graph.entP] at hp; omega
  · rw [(Tr.mk.inj e).1] at hp; simp only [List.mem_singleton, Graph.exiP] at hp; omega

theorem nodup_map_inj {β : Type} {F : β → Nat} {l : List β} (h : ∀ x y, F x = F y → x = y) (hn : l.Nodup) : (l.map F).Nodup := by
  induction l with
  | nil => simp
  | cons x xs ih =>
    rw [List.nodup_cons] at hn
    rw [List.map_cons, List.nodup_cons]
    refine ⟨fun hm => ?_, ih hn.2⟩
    obtain ⟨y, hy, e⟩ := List.mem_map.1 hm
    exact hn.1 (h _ _ e ▸ hy)

theorem takes_nodup (ok : g.OK) {n : Node} (hn : n ∈ g.nodes) {I : List Nat} (hI : I ∈ g.takes n) : I.Nodup := by
  rcases (mem_takes ok hn).1 hI with ⟨_, rfl⟩ | ⟨_, rfl⟩ | ⟨_, f, hf, _, rfl⟩
  · simp
  · have : (g.inFlows n.id).map flowPlace = ((g.inFlows n.id).map Flow.id).map (· + 2) := by rw [List.map_map]; rfl
    rw [this]
    exact nodup_map_inj (fun x y h => by simpa using h) (ok.flows.sublist (List.Sublist.map _ List.filter_sublist))
  · simp

theorem build_simple (ok : g.OK) : ∀ t ∈ g.build.trans.map Prod.fst, (g.build.pre t).Nodup := by
  intro t ht
  obtain ⟨a, ha, rfl⟩ := List.mem_map.1 ht
  obtain ⟨n, hn, ⟨I, hI, e⟩ | e | ⟨O, hO, e⟩⟩ := fine_cases ok (mem_trs.2 ⟨a, ha, rfl⟩)
  · rw [(Tr.mk.inj e).1]; exact takes_nodup ok hn hI
  · rw [(Tr.mk.inj e).1]; simp
  · rw [(Tr.mk.inj e).1]; simp

/-- No pair of an inclusive split and an inclusive join: no inclusive gateway has more than one outgoing flow, or none has more than one
incoming flow. -/
def Graph.NoInclusivePair (g : Graph) : Prop :=
  (∀ n ∈ g.nodes, n.kind = .incl → (g.outFlows n.id).length ≤ 1) ∨ (∀ n ∈ g.nodes, n.kind = .incl → (g.inFlows n.id).length ≤ 1)

theorem unreduced_eq (ok : g.OK) (h : g.NoInclusivePair) (nearest : Nat → Option Nat) : g.unreduced nearest = g.build := by
  unfold Graph.unreduced
  rw [if_neg]
  rintro ⟨h1, h2⟩
  rcases h with h | h
  · obtain ⟨f, hf⟩ := List.exists_mem_of_ne_nil _ h1
    rw [Graph.inclExit, List.mem_filter, Bool.and_eq_true, beq_iff_eq, decide_eq_true_eq] at hf
    obtain ⟨n, hn, e, _⟩ := ok.src f hf.1
    rw [← e, kindOf_node ok.nodes hn] at hf
    have := h n hn hf.2.1
    omega
  · obtain ⟨f, hf⟩ := List.exists_mem_of_ne_nil _ h2
    rw [Graph.inclEntry, List.mem_filter, Bool.and_eq_true, Bool.and_eq_true, beq_iff_eq, decide_eq_true_eq] at hf
    obtain ⟨n, hn, e, _⟩ := ok.tgt f hf.1
    have hk := hf.2.2
    rw [← e, kindOf_node ok.nodes hn] at hk
    have := h n hn hk.1
    omega

theorem toPetri_run {ord : Gr String → List (Nat × Option String)} (hord : IterOrder ord) (ordP : List Nat → List Nat)
    (nearest : Nat → Option Nat) (red : Bool) (ok : g.OK) (hi : g.NoInclusivePair) (w : List String) :
    Run (g.toPetri nearest ord ordP red).trs (toks [0]) w (toks [1]) ↔ g.Trace w := by
  unfold Graph.toPetri
  simp only [drops_trs, unreduced_eq ok hi]
  cases red with
  | false => exact build_lang ok w
  | true =>
    rw [← build_lang ok w]
    have := (C15_token_game hord g.build (build_isNet ok) initialMarking finalMarking (by
      intro p h1 _
      by_cases e : p = 0
      · subst e; rw [build_ppre0 ok] at h1; simp at h1
      · show count [(0, 1)] p = 0
        simp [count, get?, Ne.symm e]) (by
      intro p _ h1
      by_cases e : p = 1
      · subst e; rw [build_ppost1 ok] at h1; simp at h1
      · show count [(1, 1)] p = 0
        simp [count, get?, Ne.symm e]) w).2.2
    unfold initialMarking finalMarking at this
    rw [cnt_single, cnt_single] at this
    exact this

theorem toPetri_inv {ord : Gr String → List (Nat × Option String)} (hord : IterOrder ord) (ordP : List Nat → List Nat)
    (nearest : Nat → Option Nat) (red : Bool) (ok : g.OK) (hi : g.NoInclusivePair) : (g.toPetri nearest ord ordP red).Inv := by
  unfold Graph.toPetri
  simp only [unreduced_eq ok hi]
  refine drops_inv _ ?_
  cases red with
  | false => exact (build_isNet ok).inv
  | true => exact (simpleReduction_reds hord.mem (build_isNet ok).inv).inv

end Bpmn

/-! ### C65 -/

/-- C65: in the token game of Petri nets, the net returned by the conversion of a BPMN graph (with or without reduction) has exactly the
traces of the token game of the graph — whatever order the sets of transitions and places are iterated in. -/
theorem C65_token_game {ord : Gr String → List (Nat × Option String)} (hord : IterOrder ord) (ordP : List Nat → List Nat)
    (nearest : Nat → Option Nat) (reduce : Bool) (g : Graph) (ok : g.OK) (hi : g.NoInclusivePair) (w : List String) :
    Run (g.toPetri nearest ord ordP reduce).trs (toks [0]) w (toks [1]) ↔ g.Trace w :=
  toPetri_run hord ordP nearest reduce ok hi w

/-- C65: executed with `semantics.execute`, the net returned without reduction accepts exactly the traces of the graph; so does the
reduced net if none of its transitions has two arcs from the same place. -/
theorem C65_language {ord : Gr String → List (Nat × Option String)} (hord : IterOrder ord) (ordP : List Nat → List Nat)
    (nearest : Nat → Option Nat) (g : Graph) (ok : g.OK) (hi : g.NoInclusivePair) (w : List String) :
    (Accepts (g.toPetri nearest ord ordP false) initialMarking finalMarking w ↔ g.Trace w) ∧
    ((g.toPetri nearest ord ordP true).toNet.Simple →
      (Accepts (g.toPetri nearest ord ordP true) initialMarking finalMarking w ↔ g.Trace w)) := by
  have key : ∀ red, (g.toPetri nearest ord ordP red).toNet.Simple →
      (Accepts (g.toPetri nearest ord ordP red) initialMarking finalMarking w ↔ g.Trace w) := by
    intro red hs
    unfold initialMarking finalMarking
    rw [accepts_iff hs (toPetri_inv hord ordP nearest red ok hi) (pos_single 0) (pos_single 1), cnt_single, cnt_single]
    exact toPetri_run hord ordP nearest red ok hi w
  refine ⟨key false (simple_of ?_), key true⟩
  unfold Graph.toPetri
  simp only [unreduced_eq ok hi, Bool.false_eq_true, if_false]
  obtain ⟨ps, h1, _, _⟩ := drops_eq (ordP g.build.places) g.build
  rw [h1]
  exact build_simple ok

/-- C65: a graph whose token game is sound (from every reachable state the end can be reached; a token on the sink is the only token; no
flow ever carries two tokens; every move can be made) and in which every node can be entered and left is converted to a sound net, with
and without reduction, and the net accepts exactly the traces of the graph. -/
theorem C65_sound {ord : Gr String → List (Nat × Option String)} (hord : IterOrder ord) (ordP : List Nat → List Nat)
    (nearest : Nat → Option Nat) (reduce : Bool) (g : Graph) (ok : g.OK) (hi : g.NoInclusivePair) (hc : g.Connected)
    (hS : Sound g.moves 0 1) :
    let n := g.toPetri nearest ord ordP reduce
    (∀ w, Accepts n initialMarking finalMarking w ↔ g.Trace w) ∧
    (∀ m, CanReach n initialMarking m → ∃ m', CanReach n m m' ∧ Marking.eq m' finalMarking = true) ∧
    (∀ m, CanReach n initialMarking m → 1 ≤ count m 1 → Marking.eq m finalMarking = true) ∧
    (∀ m, CanReach n initialMarking m → ∀ p, 0 ≤ count m p ∧ count m p ≤ 1) ∧
    (∀ tr ∈ n.toNet.transitions, ∃ m, CanReach n initialMarking m ∧ n.toNet.isEnabled tr m = true) := by
  intro n
  have hInv : n.Inv := toPetri_inv hord ordP nearest reduce ok hi
  have hSn : Sound n.trs 0 1 := by
    show Sound (g.toPetri nearest ord ordP reduce).trs 0 1
    unfold Graph.toPetri
    simp only [drops_trs, unreduced_eq ok hi]
    have hb := build_sound ok hc hS
    cases reduce with
    | false => exact hb
    | true => exact (simpleReduction_reds hord.mem (build_isNet ok).inv).sound hb (build_ppre0 ok) (build_ppost1 ok)
  exact ⟨fun w => (accepts_run hInv hSn w).trans (toPetri_run hord ordP nearest reduce ok hi w), sound_execute hInv hSn⟩

end Verif
