import Verif.BpmnReduce.Model
import Mathlib.Data.List.Perm.Basic
import Mathlib.Data.List.Count
set_option linter.unusedSectionVars false
/-
C84: reduction of exclusive gateways.
-/
namespace Verif
namespace BpmnReduce

/-! ### Specification -/

/-- nodes without repetition, flows between nodes -/
structure WF (g : Graph) : Prop where
  nodup : g.nodes.Nodup
  ends : ∀ f ∈ g.flows, f.1 ∈ g.nodes ∧ f.2 ∈ g.nodes

/-- every node can be reached from a node which is not an exclusive gateway (as the start event) -/
def Rooted (xor : Nat → Bool) (g : Graph) : Prop :=
  ∀ y ∈ g.nodes, ∃ r ∈ g.nodes, xor r = false ∧ Relation.ReflTransGen (fun a b => (a, b) ∈ g.flows) r y

/-- exclusive gateway with exactly one incoming and one outgoing flow -/
def Useless (xor : Nat → Bool) (g : Graph) (x : Nat) : Prop :=
  x ∈ g.nodes ∧ xor x = true ∧ (∃ q, g.flows.filter (fun f => decide (f.1 = x)) = [(x, q)]) ∧ (∃ p, g.flows.filter (fun f => decide (f.2 = x)) = [(p, x)])

/-- following the flow `f` through useless gateways leads to `v` -/
inductive Leads (xor : Nat → Bool) (g : Graph) : Nat × Nat → Nat → Prop
  | here (f : Nat × Nat) : Leads xor g f f.2
  | through (f f' : Nat × Nat) (v : Nat) : Useless xor g f.2 → f' ∈ g.flows → f'.1 = f.2 → Leads xor g f' v → Leads xor g f v

/-! ### Lemmas -/

variable {xor : Nat → Bool} {g g' : Graph}

theorem useless_iff (x : Nat) : reducible xor g x = true ↔ Useless xor g x := by
  unfold reducible Useless outs ins
  simp only [Bool.and_eq_true, decide_eq_true_eq, and_assoc, List.length_eq_one_iff]
  refine and_congr Iff.rfl (and_congr Iff.rfl (and_congr ?_ ?_))
  · constructor
    · rintro ⟨⟨a, b⟩, h⟩
      have : (a, b) ∈ g.flows.filter (fun f => decide (f.1 = x)) := by rw [h]; simp
      have := of_decide_eq_true (List.mem_filter.1 this).2
      simp only at this; subst this
      exact ⟨b, h⟩
    · rintro ⟨q, h⟩; exact ⟨_, h⟩
  · constructor
    · rintro ⟨⟨a, b⟩, h⟩
      have : (a, b) ∈ g.flows.filter (fun f => decide (f.2 = x)) := by rw [h]; simp
      have := of_decide_eq_true (List.mem_filter.1 this).2
      simp only at this; subst this
      exact ⟨a, h⟩
    · rintro ⟨q, h⟩; exact ⟨_, h⟩

/-- what a reduction step does, if the removed gateway is not only connected with itself -/
structure Reduces (g : Graph) (x p q : Nat) (g' : Graph) : Prop where
  px : p ≠ x
  qx : q ≠ x
  hp : (p, x) ∈ g.flows
  hq : (x, q) ∈ g.flows
  perm : g.flows.Perm ((p, x) :: (x, q) :: g.flows.filter fun f => decide (f.1 ≠ x ∧ f.2 ≠ x))
  nodes : g'.nodes = g.nodes.filter fun y => decide (y ≠ x)
  flows : g'.flows = (g.flows.filter fun f => decide (f.1 ≠ x ∧ f.2 ≠ x)) ++ [(p, q)]

theorem source_ne (hr : Rooted xor g) {x p : Nat} (hx : x ∈ g.nodes) (hxor : xor x = true)
    (hin : g.flows.filter (fun f => decide (f.2 = x)) = [(p, x)]) : p ≠ x := by
  rintro rfl
  obtain ⟨r, _, hrx, hpath⟩ := hr p hx
  have : p ≠ p := by
    have : ∀ z, Relation.ReflTransGen (fun a b => (a, b) ∈ g.flows) r z → z ≠ p := by
      intro z hz
      induction hz with
      | refl => rintro rfl; rw [hrx] at hxor; cases hxor
      | tail _ h ih =>
        rename_i b c _
        intro hc
        rw [hc] at h
        have : (b, p) ∈ g.flows.filter (fun f => decide (f.2 = p)) := List.mem_filter.2 ⟨h, by simp⟩
        rw [hin] at this
        simp only [List.mem_singleton, Prod.mk.injEq, and_true] at this
        exact ih this
    exact this p hpath
  exact this rfl

theorem reduces (hw : WF g) (hr : Rooted xor g) {x : Nat} (h : reducible xor g x = true) : ∃ p q, Reduces g x p q (reduceAt g x) := by
  obtain ⟨hx, hxor, ⟨q, hout⟩, p, hin⟩ := (useless_iff x).1 h
  have hpx := source_ne hr hx hxor hin
  have hpm : (p, x) ∈ g.flows := (List.mem_filter.1 (by rw [hin]; simp : (p, x) ∈ g.flows.filter (fun f => decide (f.2 = x)))).1
  have hqm : (x, q) ∈ g.flows := (List.mem_filter.1 (by rw [hout]; simp : (x, q) ∈ g.flows.filter (fun f => decide (f.1 = x)))).1
  have hqx : q ≠ x := by
    rintro rfl
    have : (q, q) ∈ g.flows.filter (fun f => decide (f.2 = q)) := List.mem_filter.2 ⟨hqm, by simp⟩
    rw [hin] at this
    simp only [List.mem_singleton, Prod.mk.injEq, and_true] at this
    exact hpx this.symm
  refine ⟨p, q, hpx, hqx, hpm, hqm, ?_, ?_, ?_⟩
  · refine (List.filter_append_perm (fun f => decide (f.2 = x)) g.flows).symm.trans ?_
    rw [hin, List.singleton_append]
    refine List.Perm.cons _ ?_
    refine (List.filter_append_perm (fun f => decide (f.1 = x)) _).symm.trans ?_
    have e1 : (g.flows.filter fun f => !decide (f.2 = x)).filter (fun f => decide (f.1 = x)) = [(x, q)] := by
      rw [List.filter_filter]
      have : (fun f : Nat × Nat => decide (f.1 = x) && !decide (f.2 = x)) = fun f => !decide (f.2 = x) && decide (f.1 = x) := by
        funext f; rw [Bool.and_comm]
      rw [this, ← List.filter_filter, hout]
      simp [hqx]
    rw [e1, List.singleton_append, List.filter_filter]
    refine List.Perm.cons _ (List.Perm.of_eq ?_)
    congr 1; funext f
    by_cases h1 : f.1 = x <;> by_cases h2 : f.2 = x <;> simp [h1, h2]
  · unfold reduceAt ins outs
    simp only [hin, hout, List.headD_cons]
    have hp' : p ∈ g.nodes.filter fun y => decide (y ≠ x) := List.mem_filter.2 ⟨(hw.ends _ hpm).1, by simpa using hpx⟩
    have hq' : q ∈ g.nodes.filter fun y => decide (y ≠ x) := List.mem_filter.2 ⟨(hw.ends _ hqm).2, by simpa using hqx⟩
    rw [addNode, addNode, if_pos hp', if_pos hq']
  · unfold reduceAt ins outs
    simp only [hin, hout, List.headD_cons]

theorem Reduces.wf {x p q : Nat} (h : Reduces g x p q g') (hw : WF g) : WF g' := by
  refine ⟨by rw [h.nodes]; exact hw.nodup.filter _, ?_⟩
  rw [h.flows, h.nodes]
  intro f hf
  rcases List.mem_append.1 hf with hf | hf
  · obtain ⟨h1, h2⟩ := List.mem_filter.1 hf
    have h2 := of_decide_eq_true h2
    exact ⟨List.mem_filter.2 ⟨(hw.ends f h1).1, by simpa using h2.1⟩, List.mem_filter.2 ⟨(hw.ends f h1).2, by simpa using h2.2⟩⟩
  · rw [List.mem_singleton] at hf; subst hf
    exact ⟨List.mem_filter.2 ⟨(hw.ends _ h.hp).1, by simpa using h.px⟩, List.mem_filter.2 ⟨(hw.ends _ h.hq).2, by simpa using h.qx⟩⟩

theorem Reduces.mem {x p q : Nat} (h : Reduces g x p q g') {f : Nat × Nat} (hf : f ∈ g.flows) : f = (p, x) ∨ f = (x, q) ∨ (f ∈ g'.flows ∧ f.1 ≠ x ∧ f.2 ≠ x) := by
  have := h.perm.mem_iff.1 hf
  rcases List.mem_cons.1 this with h1 | h1
  · exact .inl h1
  · rcases List.mem_cons.1 h1 with h1 | h1
    · exact .inr (.inl h1)
    · refine .inr (.inr ⟨by rw [h.flows]; exact List.mem_append_left _ h1, of_decide_eq_true (List.mem_filter.1 h1).2⟩)

theorem Reduces.rooted {x p q : Nat} (h : Reduces g x p q g') (hxor : xor x = true) (hr : Rooted xor g) : Rooted xor g' := by
  intro y hy
  rw [h.nodes] at hy
  obtain ⟨hy, hyx⟩ := List.mem_filter.1 hy
  have hyx : y ≠ x := by simpa using hyx
  obtain ⟨r, hrn, hr0, hpath⟩ := hr y hy
  have hrx : r ≠ x := by rintro rfl; rw [hr0] at hxor; cases hxor
  refine ⟨r, by rw [h.nodes]; exact List.mem_filter.2 ⟨hrn, by simpa using hrx⟩, hr0, ?_⟩
  have hpq : (p, q) ∈ g'.flows := by rw [h.flows]; simp
  have : ∀ z, Relation.ReflTransGen (fun a b => (a, b) ∈ g.flows) r z →
      (z ≠ x → Relation.ReflTransGen (fun a b => (a, b) ∈ g'.flows) r z) ∧ (z = x → Relation.ReflTransGen (fun a b => (a, b) ∈ g'.flows) r p) := by
    intro z hz
    induction hz with
    | refl => exact ⟨fun _ => .refl, fun e => absurd e hrx⟩
    | tail _ hf ih =>
      rename_i b c _
      rcases h.mem hf with e | e | ⟨e, e1, e2⟩
      · rw [Prod.mk.injEq] at e
        obtain ⟨rfl, rfl⟩ := e
        exact ⟨fun e => absurd rfl e, fun _ => ih.1 h.px⟩
      · rw [Prod.mk.injEq] at e
        obtain ⟨rfl, rfl⟩ := e
        exact ⟨fun _ => (ih.2 rfl).tail hpq, fun e => absurd e h.qx⟩
      · exact ⟨fun _ => (ih.1 e1).tail e, fun e => absurd e e2⟩
  exact (this y hpath).1 hyx

theorem Reduces.degrees {x p q : Nat} (h : Reduces g x p q g') (y : Nat) (hy : y ≠ x) :
    (outs g' y).length = (outs g y).length ∧ (ins g' y).length = (ins g y).length := by
  unfold outs ins
  have h1 := (h.perm.filter fun f => decide (f.1 = y)).length_eq
  have h2 := (h.perm.filter fun f => decide (f.2 = y)).length_eq
  have hxy : x ≠ y := fun e => hy e.symm
  rw [h.flows, h1, h2]
  simp only [List.filter_append, List.length_append, List.filter_cons, List.filter_nil, hxy, decide_false]
  by_cases a : p = y <;> by_cases b : q = y <;> simp [a, b] <;> omega

/-- the invariant of the loop -/
structure Inv (xor : Nat → Bool) (g0 g : Graph) : Prop where
  wf : WF g
  rooted : Rooted xor g
  sub : ∀ y ∈ g.nodes, y ∈ g0.nodes
  removed : ∀ y ∈ g0.nodes, y ∉ g.nodes → Useless xor g0 y
  deg : ∀ y ∈ g.nodes, (outs g y).length = (outs g0 y).length ∧ (ins g y).length = (ins g0 y).length
  flows : ∃ ps : List ((Nat × Nat) × (Nat × Nat)), (ps.map Prod.fst).Perm (g0.flows.filter fun f => decide (f.1 ∈ g.nodes)) ∧
    (ps.map Prod.snd).Perm g.flows ∧ ∀ pr ∈ ps, pr.1.1 = pr.2.1 ∧ Leads xor g0 pr.1 pr.2.2

theorem inv_init (hw : WF g) (hr : Rooted xor g) : Inv xor g g := by
  refine ⟨hw, hr, fun _ h => h, fun y h h' => absurd h h', fun _ _ => ⟨rfl, rfl⟩, g.flows.map fun f => (f, f), ?_, ?_, ?_⟩
  · rw [List.map_map]
    have : g.flows.filter (fun f => decide (f.1 ∈ g.nodes)) = g.flows := by
      rw [List.filter_eq_self]; intro f hf; simpa using (hw.ends f hf).1
    rw [this]
    have e : (Prod.fst ∘ fun f : Nat × Nat => (f, f)) = id := rfl
    rw [e, List.map_id]
  · rw [List.map_map]
    have e : (Prod.snd ∘ fun f : Nat × Nat => (f, f)) = id := rfl
    rw [e, List.map_id]
  · intro pr hpr
    obtain ⟨f, _, rfl⟩ := List.mem_map.1 hpr
    exact ⟨rfl, .here f⟩

theorem Leads.trans {f f' : Nat × Nat} {v : Nat} (h : Leads xor g f f'.1) (hu : Useless xor g f'.1) (hf : f' ∈ g.flows) (h' : Leads xor g f' v) :
    Leads xor g f v := by
  generalize hx : f'.1 = x at h
  induction h with
  | here f => exact .through f f' v (hx ▸ hu) hf hx h'
  | through f f'' w hu' hf'' he _ ih => exact .through f f'' v hu' hf'' he (ih hx)

theorem Inv.useless {g0 : Graph} (hi : Inv xor g0 g) {y : Nat} (hy : y ∈ g.nodes) : reducible xor g y = reducible xor g0 y := by
  unfold reducible
  obtain ⟨h1, h2⟩ := hi.deg y hy
  rw [h1, h2]
  simp [hy, hi.sub y hy]

theorem inv_step {g0 : Graph} (hi : Inv xor g0 g) (hs : Step xor g g') : Inv xor g0 g' ∧ g'.nodes.length + 1 = g.nodes.length := by
  obtain ⟨x, hx, rfl⟩ := hs
  obtain ⟨p, q, h⟩ := reduces hi.wf hi.rooted hx
  have hu := (useless_iff x).1 hx
  have hxn : x ∈ g.nodes := hu.1
  have hu0 : Useless xor g0 x := (useless_iff x).1 (by rw [← hi.useless hxn]; exact hx)
  refine ⟨⟨h.wf hi.wf, h.rooted hu.2.1 hi.rooted, ?_, ?_, ?_, ?_⟩, ?_⟩
  · intro y hy
    rw [h.nodes] at hy
    exact hi.sub y (List.mem_filter.1 hy).1
  · intro y hy hny
    by_cases hyg : y ∈ g.nodes
    · have : y = x := by
        by_contra hne
        exact hny (by rw [h.nodes]; exact List.mem_filter.2 ⟨hyg, by simpa using hne⟩)
      rw [this]; exact hu0
    · exact hi.removed y hy hyg
  · intro y hy
    rw [h.nodes] at hy
    obtain ⟨hy, hyx⟩ := List.mem_filter.1 hy
    obtain ⟨h1, h2⟩ := h.degrees y (by simpa using hyx)
    obtain ⟨h3, h4⟩ := hi.deg y hy
    exact ⟨h1.trans h3, h2.trans h4⟩
  · obtain ⟨ps, hp1, hp2, hp3⟩ := hi.flows
    let φ : (Nat × Nat) → (Nat × Nat) := fun f => if f.2 = x then (p, q) else f
    refine ⟨(ps.filter fun pr => decide (pr.2.1 ≠ x)).map fun pr => (pr.1, φ pr.2), ?_, ?_, ?_⟩
    · rw [List.map_map]
      have e1 : ((ps.filter fun pr => decide (pr.2.1 ≠ x)).map (Prod.fst ∘ fun pr => (pr.1, φ pr.2))) =
          (ps.map Prod.fst).filter fun f => decide (f.1 ≠ x) := by
        rw [List.filter_map]
        have : (Prod.fst ∘ fun pr : (Nat × Nat) × (Nat × Nat) => (pr.1, φ pr.2)) = Prod.fst := rfl
        rw [this]
        congr 1
        apply List.filter_congr
        intro pr hpr
        simp only [Function.comp, (hp3 pr hpr).1]
      rw [e1]
      refine (hp1.filter _).trans (List.Perm.of_eq ?_)
      rw [List.filter_filter, h.nodes]
      congr 1; funext f
      rw [← Bool.decide_and]; congr 1; apply propext
      simp only [List.mem_filter, decide_eq_true_eq]
      tauto
    · rw [List.map_map]
      have e1 : ((ps.filter fun pr => decide (pr.2.1 ≠ x)).map (Prod.snd ∘ fun pr => (pr.1, φ pr.2))) =
          ((ps.map Prod.snd).filter fun f => decide (f.1 ≠ x)).map φ := by
        rw [List.filter_map, List.map_map]; rfl
      rw [e1]
      refine ((hp2.filter _).map φ).trans ?_
      refine ((h.perm.filter _).map φ).trans ?_
      have hfx : ((g.flows.filter fun f => decide (f.1 ≠ x ∧ f.2 ≠ x)).filter fun f => decide (f.1 ≠ x)) =
          g.flows.filter fun f => decide (f.1 ≠ x ∧ f.2 ≠ x) := by
        rw [List.filter_eq_self]
        intro f hf
        have := of_decide_eq_true (List.mem_filter.1 hf).2
        simpa using this.1
      have hφ : ((g.flows.filter fun f => decide (f.1 ≠ x ∧ f.2 ≠ x)).map φ) = g.flows.filter fun f => decide (f.1 ≠ x ∧ f.2 ≠ x) := by
        conv_rhs => rw [← List.map_id (g.flows.filter fun f => decide (f.1 ≠ x ∧ f.2 ≠ x))]
        apply List.map_congr_left
        intro f hf
        have := of_decide_eq_true (List.mem_filter.1 hf).2
        simp only [φ, if_neg this.2, id]
      rw [List.filter_cons_of_pos (by simpa using h.px), List.filter_cons_of_neg (by simp), hfx, List.map_cons, hφ, h.flows]
      have : φ (p, x) = (p, q) := by simp [φ]
      rw [this]
      exact (List.perm_append_singleton _ _).symm
    · intro pr hpr
      obtain ⟨pr', hpr', rfl⟩ := List.mem_map.1 hpr
      obtain ⟨hm, hne⟩ := List.mem_filter.1 hpr'
      have hne : pr'.2.1 ≠ x := by simpa using hne
      obtain ⟨h1, h2⟩ := hp3 pr' hm
      by_cases hx2 : pr'.2.2 = x
      · have hmem : pr'.2 ∈ g.flows := hp2.mem_iff.1 (List.mem_map.2 ⟨pr', hm, rfl⟩)
        have hpr2 : pr'.2 = (p, x) := by
          rcases h.mem hmem with e | e | ⟨_, _, e⟩
          · exact e
          · rw [e] at hne; exact absurd rfl hne
          · exact absurd hx2 e
        simp only [φ, if_pos hx2]
        refine ⟨by rw [h1, hpr2], ?_⟩
        -- the flow out of x
        obtain ⟨pr2, hm2, e2⟩ := List.mem_map.1 (hp2.mem_iff.2 h.hq)
        obtain ⟨h3, h4⟩ := hp3 pr2 hm2
        rw [e2] at h3 h4
        have hf0 : pr2.1 ∈ g0.flows := (List.mem_filter.1 (hp1.mem_iff.1 (List.mem_map.2 ⟨pr2, hm2, rfl⟩))).1
        refine Leads.trans (f' := pr2.1) ?_ (by rw [h3]; exact hu0) hf0 h4
        rw [h3]
        rw [hpr2] at h2
        exact h2
      · simp only [φ, if_neg hx2]
        exact ⟨h1, h2⟩
  · rw [h.nodes]
    have := List.length_eq_length_filter_add (l := g.nodes) fun y => decide (y ≠ x)
    have e : (g.nodes.filter fun y => !decide (y ≠ x)) = [x] := by
      have h1 : (g.nodes.filter fun y => !decide (y ≠ x)) = g.nodes.filter (· == x) := by
        apply List.filter_congr; intro y _; by_cases e : y = x <;> simp [e]
      rw [h1, List.filter_beq, List.count_eq_one_of_mem hi.wf.nodup hxn]; rfl
    rw [e] at this
    simp only [List.length_singleton] at this
    omega

theorem inv_run {g0 : Graph} (hw : WF g0) (hr : Rooted xor g0) (h : Relation.ReflTransGen (Step xor) g0 g) : Inv xor g0 g := by
  induction h with
  | refl => exact inv_init hw hr
  | tail _ hs ih => exact (inv_step ih hs).1

theorem leads_unique {f : Nat × Nat} {v w : Nat} (h : Leads xor g f v) (hv : ¬ Useless xor g v) (h' : Leads xor g f w) (hw : ¬ Useless xor g w) : v = w := by
  induction h with
  | here f =>
    cases h' with
    | here => rfl
    | through _ _ _ hu => exact absurd hu hv
  | through f f' v hu hf he _ ih =>
    cases h' with
    | here => exact absurd hu hw
    | through _ f'' _ _ hf'' he'' h'' =>
      obtain ⟨_, _, ⟨q, hq⟩, _⟩ := hu
      have m1 : f' ∈ g.flows.filter (fun z => decide (z.1 = f.2)) := List.mem_filter.2 ⟨hf, by simpa using he⟩
      have m2 : f'' ∈ g.flows.filter (fun z => decide (z.1 = f.2)) := List.mem_filter.2 ⟨hf'', by simpa using he''⟩
      rw [hq, List.mem_singleton] at m1 m2
      rw [m2, ← m1] at h''
      exact ih hv h''

end BpmnReduce

open BpmnReduce

/-- C84: if every node can be reached from a node that is not an exclusive gateway, the reduction ends, for every order of the nodes: every step
removes one node. -/
theorem C84_terminates (xor : Nat → Bool) (g : Graph) (hw : WF g) (hr : Rooted xor g) :
    (∀ g', Relation.ReflTransGen (Step xor) g g' → ∀ g'', Step xor g' g'' → g''.nodes.length + 1 = g'.nodes.length) ∧ ∃ g', Run xor g g' := by
  refine ⟨fun g' h g'' hs => (inv_step (inv_run hw hr h) hs).2, ?_⟩
  have key : ∀ (n : Nat) (g' : Graph), g'.nodes.length = n → Relation.ReflTransGen (Step xor) g g' → ∃ g', Run xor g g' := by
    intro n
    induction n with
    | zero =>
      intro g' hn h
      refine ⟨g', h, fun x => ?_⟩
      have : x ∉ g'.nodes := by rw [List.length_eq_zero_iff.1 hn]; simp
      simp [reducible, this]
    | succ n ih =>
      intro g' hn h
      by_cases hf : ∃ x, reducible xor g' x = true
      · obtain ⟨x, hx⟩ := hf
        have hs : Step xor g' (reduceAt g' x) := ⟨x, hx, rfl⟩
        have := (inv_step (inv_run hw hr h) hs).2
        exact ih _ (by omega) (h.tail hs)
      · exact ⟨g', h, fun x => by
          cases hx : reducible xor g' x with
          | false => rfl
          | true => exact absurd ⟨x, hx⟩ hf⟩
  exact key _ g rfl .refl

/-- C84: the result has exactly the nodes that are not useless gateways, and one flow for every flow that starts in such a node: to the node to which
this flow leads through useless gateways. -/
theorem C84_result (xor : Nat → Bool) (g g' : Graph) (hw : WF g) (hr : Rooted xor g) (h : Run xor g g') :
    g'.nodes.Nodup ∧ (∀ x, x ∈ g'.nodes ↔ x ∈ g.nodes ∧ ¬ Useless xor g x) ∧
    ∃ ps : List ((Nat × Nat) × (Nat × Nat)), (ps.map Prod.fst).Perm (g.flows.filter fun f => decide (f.1 ∈ g'.nodes)) ∧ (ps.map Prod.snd).Perm g'.flows ∧
      ∀ pr ∈ ps, pr.2.1 = pr.1.1 ∧ Leads xor g pr.1 pr.2.2 ∧ ¬ Useless xor g pr.2.2 := by
  have hi := inv_run hw hr h.1
  have hnot : ∀ x ∈ g'.nodes, ¬ Useless xor g x := by
    intro x hx hu
    have := (useless_iff x).2 hu
    rw [← hi.useless hx, h.2 x] at this
    cases this
  refine ⟨hi.wf.nodup, fun x => ⟨fun hx => ⟨hi.sub x hx, hnot x hx⟩, fun ⟨h1, h2⟩ => ?_⟩, ?_⟩
  · by_contra hn
    exact h2 (hi.removed x h1 hn)
  · obtain ⟨ps, h1, h2, h3⟩ := hi.flows
    refine ⟨ps, h1, h2, fun pr hpr => ⟨(h3 pr hpr).1.symm, (h3 pr hpr).2, hnot _ ?_⟩⟩
    exact (hi.wf.ends pr.2 (h2.mem_iff.1 (List.mem_map.2 ⟨pr, hpr, rfl⟩))).2

/-- C84: no useless gateway is left. -/
theorem C84_no_useless (xor : Nat → Bool) (g g' : Graph) (h : Run xor g g') (x : Nat) : ¬ Useless xor g' x := by
  intro hu
  have := (useless_iff x).2 hu
  rw [h.2 x] at this
  cases this

/-- C84: the result does not depend on the order in which the gateways are removed. -/
theorem C84_confluent (xor : Nat → Bool) (g a b : Graph) (hw : WF g) (hr : Rooted xor g) (ha : Run xor g a) (hb : Run xor g b) :
    a.nodes.Perm b.nodes ∧ a.flows.Perm b.flows := by
  obtain ⟨na, ma, pa, a1, a2, a3⟩ := C84_result xor g a hw hr ha
  obtain ⟨nb, mb, pb, b1, b2, b3⟩ := C84_result xor g b hw hr hb
  have hmem : ∀ x, x ∈ a.nodes ↔ x ∈ b.nodes := fun x => by rw [ma, mb]
  refine ⟨(List.perm_ext_iff_of_nodup na nb).2 hmem, ?_⟩
  classical
  let D : Nat × Nat → Nat × Nat := fun f => (f.1, if h : ∃ v, Leads xor g f v ∧ ¬ Useless xor g v then h.choose else 0)
  have hD : ∀ (ps : List ((Nat × Nat) × (Nat × Nat))), (∀ pr ∈ ps, pr.2.1 = pr.1.1 ∧ Leads xor g pr.1 pr.2.2 ∧ ¬ Useless xor g pr.2.2) →
      ps.map Prod.snd = (ps.map Prod.fst).map D := by
    intro ps h
    rw [List.map_map]
    apply List.map_congr_left
    intro pr hpr
    obtain ⟨h1, h2, h3⟩ := h pr hpr
    have hex : ∃ v, Leads xor g pr.1 v ∧ ¬ Useless xor g v := ⟨_, h2, h3⟩
    have := leads_unique h2 h3 hex.choose_spec.1 hex.choose_spec.2
    simp only [Function.comp, D, dif_pos hex]
    rw [← this, ← h1]
  have e : (g.flows.filter fun f => decide (f.1 ∈ a.nodes)) = g.flows.filter fun f => decide (f.1 ∈ b.nodes) := by
    congr 1; funext f; simp [hmem]
  rw [hD pa a3] at a2
  rw [hD pb b3] at b2
  refine a2.symm.trans (((a1.map D).trans ?_).trans b2)
  rw [e]
  exact (b1.map D).symm

/-- C84: the ways between the nodes that are left are the same as before. -/
theorem C84_paths (xor : Nat → Bool) (g g' : Graph) (hw : WF g) (hr : Rooted xor g) (h : Run xor g g') (u v : Nat) (hu : u ∈ g'.nodes) (hv : v ∈ g'.nodes) :
    Relation.ReflTransGen (fun a b => (a, b) ∈ g'.flows) u v ↔ Relation.ReflTransGen (fun a b => (a, b) ∈ g.flows) u v := by
  have key : ∀ a, Relation.ReflTransGen (Step xor) g a → u ∈ a.nodes → v ∈ a.nodes →
      (Relation.ReflTransGen (fun a b => (a, b) ∈ g.flows) u v ↔ Relation.ReflTransGen (fun c d => (c, d) ∈ a.flows) u v) := by
    intro a ha
    induction ha with
    | refl => intro _ _; exact Iff.rfl
    | @tail a b ha hs ih =>
      intro hub hvb
      have hi := inv_run hw hr ha
      obtain ⟨x, hx, rfl⟩ := hs
      obtain ⟨p, q, hred⟩ := reduces hi.wf hi.rooted hx
      rw [hred.nodes] at hub hvb
      obtain ⟨hua, hux⟩ := List.mem_filter.1 hub
      obtain ⟨hva, hvx⟩ := List.mem_filter.1 hvb
      have hux : u ≠ x := by simpa using hux
      have hvx : v ≠ x := by simpa using hvx
      rw [ih hua hva]
      have hpq : (p, q) ∈ (reduceAt a x).flows := by rw [hred.flows]; simp
      constructor
      · intro hpath
        have : ∀ z, Relation.ReflTransGen (fun c d => (c, d) ∈ a.flows) u z →
            (z ≠ x → Relation.ReflTransGen (fun c d => (c, d) ∈ (reduceAt a x).flows) u z) ∧
            (z = x → Relation.ReflTransGen (fun c d => (c, d) ∈ (reduceAt a x).flows) u p) := by
          intro z hz
          induction hz with
          | refl => exact ⟨fun _ => .refl, fun e => absurd e hux⟩
          | tail _ hf ih =>
            rename_i b c _
            rcases hred.mem hf with e | e | ⟨e, e1, e2⟩
            · rw [Prod.mk.injEq] at e
              obtain ⟨rfl, rfl⟩ := e
              exact ⟨fun e => absurd rfl e, fun _ => ih.1 hred.px⟩
            · rw [Prod.mk.injEq] at e
              obtain ⟨rfl, rfl⟩ := e
              exact ⟨fun _ => (ih.2 rfl).tail hpq, fun e => absurd e hred.qx⟩
            · exact ⟨fun _ => (ih.1 e1).tail e, fun e => absurd e e2⟩
        exact (this v hpath).1 hvx
      · intro hpath
        suffices H : ∀ w, Relation.ReflTransGen (fun c d => (c, d) ∈ (reduceAt a x).flows) u w →
            Relation.ReflTransGen (fun c d => (c, d) ∈ a.flows) u w from H v hpath
        clear hpath
        intro w hw'
        clear ih
        induction hw' with
        | refl => exact .refl
        | tail _ hf ih =>
          rw [hred.flows] at hf
          rcases List.mem_append.1 hf with hf | hf
          · exact ih.tail (List.mem_filter.1 hf).1
          · rw [List.mem_singleton, Prod.mk.injEq] at hf
            obtain ⟨rfl, rfl⟩ := hf
            exact (ih.tail hred.hp).tail hred.hq
  exact (key g' h.1 hu hv).symm

/-- C84: two exclusive gateways connected only with each other: the reduction never ends, in whatever order. -/
theorem C84_loop_refuted : ∀ g', Relation.ReflTransGen (Step fun _ => true) ⟨[1, 2], [(1, 2), (2, 1)]⟩ g' → ∃ g'', Step (fun _ => true) g' g'' := by
  have key : ∀ g', Relation.ReflTransGen (Step fun _ => true) ⟨[1, 2], [(1, 2), (2, 1)]⟩ g' →
      g' = ⟨[1, 2], [(1, 2), (2, 1)]⟩ ∨ g' = ⟨[1], [(1, 1)]⟩ ∨ g' = ⟨[2], [(2, 2)]⟩ := by
    intro g' h
    induction h with
    | refl => exact .inl rfl
    | tail _ hs ih =>
      obtain ⟨x, hx, rfl⟩ := hs
      have hxn : x ∈ _ := ((useless_iff x).1 hx).1
      rcases ih with rfl | rfl | rfl
      · simp only [List.mem_cons, List.not_mem_nil, or_false] at hxn
        rcases hxn with rfl | rfl
        · exact .inr (.inr (by decide))
        · exact .inr (.inl (by decide))
      · simp only [List.mem_cons, List.not_mem_nil, or_false] at hxn
        subst hxn
        exact .inr (.inl (by decide))
      · simp only [List.mem_cons, List.not_mem_nil, or_false] at hxn
        subst hxn
        exact .inr (.inr (by decide))
  intro g' h
  rcases key g' h with rfl | rfl | rfl
  · exact ⟨_, 1, by decide, rfl⟩
  · exact ⟨_, 1, by decide, rfl⟩
  · exact ⟨_, 2, by decide, rfl⟩

/-- start event 0, task 3, end event 6; the gateways 1 and 5 are useless, 2 and 4 are the ends of a loop through the useless gateway 7 -/
example : WF ⟨[0, 1, 2, 3, 4, 5, 6, 7], [(0, 1), (1, 2), (2, 3), (3, 4), (4, 5), (5, 6), (4, 7), (7, 2)]⟩ ∧
    Rooted (fun x => decide (x ∈ [1, 2, 4, 5, 7])) ⟨[0, 1, 2, 3, 4, 5, 6, 7], [(0, 1), (1, 2), (2, 3), (3, 4), (4, 5), (5, 6), (4, 7), (7, 2)]⟩ ∧
    reduceAt (reduceAt (reduceAt ⟨[0, 1, 2, 3, 4, 5, 6, 7], [(0, 1), (1, 2), (2, 3), (3, 4), (4, 5), (5, 6), (4, 7), (7, 2)]⟩ 1) 5) 7 =
      ⟨[0, 2, 3, 4, 6], [(2, 3), (3, 4), (0, 2), (4, 6), (4, 2)]⟩ := by
  refine ⟨⟨by decide, by decide⟩, ?_, by decide⟩
  have s0 : Relation.ReflTransGen (fun a b => (a, b) ∈ [(0, 1), (1, 2), (2, 3), (3, 4), (4, 5), (5, 6), (4, 7), (7, 2)]) 0 0 := .refl
  have s1 := s0.tail (show (0, 1) ∈ [(0, 1), (1, 2), (2, 3), (3, 4), (4, 5), (5, 6), (4, 7), (7, 2)] by decide)
  have s2 := s1.tail (show (1, 2) ∈ [(0, 1), (1, 2), (2, 3), (3, 4), (4, 5), (5, 6), (4, 7), (7, 2)] by decide)
  have s3 := s2.tail (show (2, 3) ∈ [(0, 1), (1, 2), (2, 3), (3, 4), (4, 5), (5, 6), (4, 7), (7, 2)] by decide)
  have s4 := s3.tail (show (3, 4) ∈ [(0, 1), (1, 2), (2, 3), (3, 4), (4, 5), (5, 6), (4, 7), (7, 2)] by decide)
  have s5 := s4.tail (show (4, 5) ∈ [(0, 1), (1, 2), (2, 3), (3, 4), (4, 5), (5, 6), (4, 7), (7, 2)] by decide)
  have s6 := s5.tail (show (5, 6) ∈ [(0, 1), (1, 2), (2, 3), (3, 4), (4, 5), (5, 6), (4, 7), (7, 2)] by decide)
  have s7 := s4.tail (show (4, 7) ∈ [(0, 1), (1, 2), (2, 3), (3, 4), (4, 5), (5, 6), (4, 7), (7, 2)] by decide)
  intro y hy
  refine ⟨0, by decide, by decide, ?_⟩
  simp only [List.mem_cons, List.not_mem_nil, or_false] at hy
  rcases hy with rfl | rfl | rfl | rfl | rfl | rfl | rfl | rfl <;> assumption

end Verif
