import Verif.WfTree.Theorems
/-
C53: examples and counterexamples.
-/
namespace Verif.WfTree

/-! ### Tools for concrete nets -/

/-- a strong connectivity test -/
noncomputable def strongC (ns : List Nat) (es : List (Nat × Nat)) : Bool :=
  @decide (∀ a ∈ ns, ∀ b ∈ ns, Path (fun x y => (x, y) ∈ es) a b) (Classical.propDecidable _)

theorem strongC_spec : StrongSpec strongC := fun ns es => by
  unfold strongC
  exact @decide_eq_true_iff _ (Classical.propDecidable _)

/-- all pairs of transitions -/
def ordC {α : Type} (N : WN α) : List (WT α × WT α) := N.trs.flatMap fun t => N.trs.map fun u => (t, u)

def nameC : Node → Nat
  | .sc => 0
  | .pl p => 2 * p + 1
  | .tr t => 2 * t + 2

theorem nameC_distinct (net : Net Nat Nat) : DistinctNames net nameC := by
  intro a b _ _ h
  cases a <;> cases b <;> simp [nameC] at h ⊢ <;> omega

noncomputable def envC : Env Nat := ⟨strongC, nameC, ordC, fun _ => none, true, fun _ => 1, id⟩

theorem envC_ord : envC.OrdOk := by
  intro N x hx
  simp only [envC, ordC, List.mem_flatMap, List.mem_map] at hx
  obtain ⟨t, ht, u, hu, rfl⟩ := hx
  exact ⟨ht, hu⟩

def arcB (net : Net Nat Nat) : Node → Node → Bool
  | .pl p, .tr t => net.transitions.contains t && (net.inArcs t).any fun a => a.1 == p
  | .tr t, .pl p => net.transitions.contains t && (net.outArcs t).any fun a => a.1 == p
  | _, _ => false

theorem arcB_arc {net : Net Nat Nat} {a b : Node} (h : arcB net a b = true) : Arc net a b := by
  cases a <;> cases b <;> simp [arcB] at h
  · obtain ⟨h, x, hx⟩ := h; exact .inp h hx
  · obtain ⟨h, x, hx⟩ := h; exact .out h hx

def chainB (net : Net Nat Nat) : List Node → Bool
  | [] => true
  | [_] => true
  | a :: b :: l => arcB net a b && chainB net (b :: l)

theorem chain_from {net : Net Nat Nat} {l : List Node} : ∀ {a : Node}, chainB net (a :: l) = true → ∀ n ∈ a :: l, Path (Arc net) a n := by
  induction l with
  | nil => intro a _ n hn; simp at hn; subst hn; exact .refl _
  | cons b l ih =>
    intro a h n hn
    simp [chainB] at h
    rcases List.mem_cons.1 hn with rfl | hn
    · exact .refl _
    · exact (Path.one (arcB_arc h.1)).trans (ih h.2 n hn)

theorem chain_to {net : Net Nat Nat} {l : List Node} {z : Node} : ∀ {a : Node}, chainB net (a :: l) = true → (a :: l).getLast? = some z → ∀ n ∈ a :: l, Path (Arc net) n z := by
  induction l with
  | nil => intro a _ hz n hn; simp at hn hz; subst hn; subst hz; exact .refl _
  | cons b l ih =>
    intro a h hz n hn
    simp [chainB] at h
    have hz' : (b :: l).getLast? = some z := by simpa [List.getLast?_cons_cons] using hz
    rcases List.mem_cons.1 hn with rfl | hn
    · exact (Path.one (arcB_arc h.1)).trans (ih h.2 hz' b (by simp))
    · exact ih h.2 hz' n hn

theorem arc_to_iff {net : Net Nat Nat} {p : Nat} : (∀ x, ¬ Arc net x (.pl p)) ↔ ∀ t ∈ net.transitions, ∀ a ∈ net.outArcs t, a.1 ≠ p := by
  constructor
  · intro h t ht a ha e; subst e; exact h _ (.out ht ha)
  · intro h x hx
    generalize hn : Node.pl p = n at hx
    cases hx with
    | inp ht ha => cases hn
    | out ht ha => cases hn; exact h _ ht _ ha rfl

theorem arc_from_iff {net : Net Nat Nat} {p : Nat} : (∀ x, ¬ Arc net (.pl p) x) ↔ ∀ t ∈ net.transitions, ∀ a ∈ net.inArcs t, a.1 ≠ p := by
  constructor
  · intro h t ht a ha e; subst e; exact h _ (.inp ht ha)
  · intro h x hx
    generalize hn : Node.pl p = n at hx
    cases hx with
    | out ht ha => cases hn
    | inp ht ha => cases hn; exact h _ ht _ ha rfl

/-- a net is a workflow net if paths from `i` to `o` cover it -/
theorem wf_of_cover {net : Net Nat Nat} {i o : Nat} (ls : List (List Node))
    (hi : i ∈ net.places ∧ ∀ p ∈ net.places, (∀ t ∈ net.transitions, ∀ a ∈ net.outArcs t, a.1 ≠ p) ↔ p = i)
    (ho : o ∈ net.places ∧ ∀ p ∈ net.places, (∀ t ∈ net.transitions, ∀ a ∈ net.inArcs t, a.1 ≠ p) ↔ p = o)
    (hl : ∀ l ∈ ls, l.head? = some (.pl i) ∧ l.getLast? = some (.pl o) ∧ chainB net l = true)
    (hp : ∀ p ∈ net.places, ∃ l ∈ ls, Node.pl p ∈ l) (ht : ∀ t ∈ net.transitions, ∃ l ∈ ls, Node.tr t ∈ l) : IsWorkflowNet net i o := by
  have key : ∀ l ∈ ls, ∀ n ∈ l, Path (Arc net) (.pl i) n ∧ Path (Arc net) n (.pl o) := by
    intro l hll n hn
    obtain ⟨a, b, c⟩ := hl l hll
    cases l with
    | nil => cases hn
    | cons x l =>
      simp at a; subst a
      exact ⟨chain_from c n hn, chain_to c b n hn⟩
  refine ⟨fun p => ?_, fun p => ?_, fun p hpp => ?_, fun t htt => ?_⟩
  · rw [arc_to_iff]
    exact ⟨fun h => (hi.2 p h.1).1 h.2, fun h => by subst h; exact ⟨hi.1, (hi.2 p hi.1).2 rfl⟩⟩
  · rw [arc_from_iff]
    exact ⟨fun h => (ho.2 p h.1).1 h.2, fun h => by subst h; exact ⟨ho.1, (ho.2 p ho.1).2 rfl⟩⟩
  · obtain ⟨l, h1, h2⟩ := hp p hpp; exact key l h1 _ h2
  · obtain ⟨l, h1, h2⟩ := ht t htt; exact key l h1 _ h2

/-- a net from a table: transition, input places, output places -/
def mkNet (n : Nat) (tab : List (Nat × List (Nat × Int) × List (Nat × Int))) : Net Nat Nat where
  places := List.range n
  transitions := tab.map Prod.fst
  inArcs t := ((tab.find? fun x => x.1 == t).map fun x => x.2.1).getD []
  outArcs t := ((tab.find? fun x => x.1 == t).map fun x => x.2.2).getD []

/-! ### A net with a choice, a loop, concurrency and a silent transition -/

/-- `->( a, *( X( b, c ), d ), +( e, f ), tau )` -/
def exNet : Net Nat Nat := mkNet 9 [(10, [(0, 1)], [(1, 1)]), (11, [(1, 1)], [(2, 1)]), (12, [(1, 1)], [(2, 1)]), (13, [(2, 1)], [(1, 1)]),
  (14, [(2, 1)], [(3, 1), (4, 1)]), (15, [(3, 1)], [(5, 1)]), (16, [(4, 1)], [(6, 1)]), (17, [(5, 1), (6, 1)], [(7, 1)]), (18, [(7, 1)], [(8, 1)])]
/-- transitions 14, 17 are silent -/
def exLab (t : Nat) : Option Nat := if t = 14 ∨ t = 17 then none else some t

theorem exNet_plain : Plain exNet where
  nodupT := by decide
  nodupP := by decide
  inN := by decide
  outN := by decide
  inP := by decide
  outP := by decide

theorem exNet_wf : IsWorkflowNet exNet 0 8 := by
  refine wf_of_cover [[.pl 0, .tr 10, .pl 1, .tr 11, .pl 2, .tr 13, .pl 1, .tr 12, .pl 2, .tr 14, .pl 3, .tr 15, .pl 5, .tr 17, .pl 7, .tr 18, .pl 8],
    [.pl 0, .tr 10, .pl 1, .tr 11, .pl 2, .tr 14, .pl 4, .tr 16, .pl 6, .tr 17, .pl 7, .tr 18, .pl 8]] ?_ ?_ ?_ ?_ ?_ <;> decide

/-- the tree that the loop finds -/
def exTree : PT Nat :=
  .node .seq [.node .seq [.leaf (some 10), .node .loop [.node .xor [.leaf (some 11), .leaf (some 12)], .leaf (some 13)]],
    .node .seq [.node .seq [.leaf none, .node .par [.leaf (some 15), .leaf (some 16)]], .node .seq [.leaf none, .leaf (some 18)]]]

theorem wf_check {net : Net Nat Nat} (W : Plain net) (lab : Nat → Option Nat) {i o : Nat} (h : IsWorkflowNet net i o) :
    isWfNet envC.strong envC.name (ofNet net lab) = true := (C53_check W lab strongC_spec (nameC_distinct net)).2 ⟨i, o, h⟩

theorem wf2 {op : Op} {s t : PT Nat} (hs : PT.WF s) (ht : PT.WF t) : PT.WF (.node op [s, t]) := by
  refine .node _ _ (by simp) fun c hc => ?_
  simp at hc
  rcases hc with rfl | rfl <;> assumption

/-- the hypotheses of `C53_language` and `C53_safe` are satisfied by a net with all operators; the tree is found -/
theorem ex_convert : ∃ T, convert envC exNet exLab = some T ∧ PT.LangEq T exTree := by
  have h : ∃ g, groupNet envC (ofNet exNet exLab) = some g ∧ g.trs = [⟨10, [0], [8], exTree, true⟩] := by
    unfold groupNet
    rw [if_pos (wf_check exNet_plain exLab exNet_wf)]
    exact ⟨_, rfl, rfl⟩
  obtain ⟨g, h1, h2⟩ := h
  exact convert_of h1 h2 rfl (wf2 (wf2 (.leaf _) (wf2 (wf2 (.leaf _) (.leaf _)) (.leaf _))) (wf2 (wf2 (.leaf _) (wf2 (.leaf _) (.leaf _))) (wf2 (.leaf _) (.leaf _))))

example : StrongSpec envC.strong ∧ envC.OrdOk ∧ Plain exNet ∧ DistinctNames exNet envC.name ∧ 2 ≤ exNet.transitions.length ∧
    (∃ T, convert envC exNet exLab = some T) ∧ IsWorkflowNet exNet 0 8 ∧
    exNet.Accepts exLab [(0, 1)] [(8, 1)] [10, 12, 13, 11, 16, 15, 18] := by
  refine ⟨strongC_spec, envC_ord, exNet_plain, nameC_distinct _, by decide, ?_, exNet_wf, [10, 12, 13, 11, 14, 16, 15, 17, 18], [(8, 1)], rfl, rfl, rfl⟩
  obtain ⟨T, h, _⟩ := ex_convert
  exact ⟨T, h⟩

/-! ### Counterexamples -/

/-- C53 is false without the condition that the net has a complete run: `i → a → m → b → o` with a place from `b` to `a`. The net is a
workflow net that accepts nothing, the tree is `->( a, b )` -/
def deadNet : Net Nat Nat := mkNet 4 [(10, [(0, 1), (3, 1)], [(1, 1)]), (11, [(1, 1)], [(2, 1), (3, 1)])]

theorem deadNet_plain : Plain deadNet where
  nodupT := by decide
  nodupP := by decide
  inN := by decide
  outN := by decide
  inP := by decide
  outP := by decide

theorem deadNet_wf : IsWorkflowNet deadNet 0 2 := by
  refine wf_of_cover [[.pl 0, .tr 10, .pl 1, .tr 11, .pl 3, .tr 10, .pl 1, .tr 11, .pl 2]] ?_ ?_ ?_ ?_ ?_ <;> decide

theorem deadNet_dead : ∀ ts m, deadNet.FiringSequence [(0, 1)] ts m → ts = [] := by
  intro ts m h
  cases ts with
  | nil => rfl
  | cons t ts =>
    simp only [Net.FiringSequence, List.foldlM_cons, Option.bind_eq_bind, Option.bind_eq_some_iff] at h
    obtain ⟨m1, h1, _⟩ := h
    rw [Net.execute_some_iff, Net.isEnabled_iff] at h1
    obtain ⟨⟨ht, he⟩, _⟩ := h1
    have : t = 10 ∨ t = 11 := by simpa [deadNet, mkNet] using ht
    rcases this with rfl | rfl
    · exact absurd (he (3, 1) (by decide)) (by decide)
    · exact absurd (he (1, 1) (by decide)) (by decide)

theorem _root_.Verif.C53_dead_refuted : ∃ (e : Env Nat) (net : Net Nat Nat) (T : PT Nat), StrongSpec e.strong ∧ e.OrdOk ∧ Plain net ∧ DistinctNames net e.name ∧
    2 ≤ net.transitions.length ∧ IsWorkflowNet net 0 2 ∧ convert e net some = some T ∧ T.lang [10, 11] ∧ ∀ w, ¬ net.Accepts some [(0, 1)] [(2, 1)] w := by
  have h : ∃ g, groupNet envC (ofNet deadNet some) = some g ∧ g.trs = [⟨10, [0, 3], [2, 3], .node .seq [.leaf (some 10), .leaf (some 11)], true⟩] := by
    unfold groupNet
    rw [if_pos (wf_check deadNet_plain some deadNet_wf)]
    exact ⟨_, rfl, rfl⟩
  obtain ⟨g, h1, h2⟩ := h
  obtain ⟨T, hT, hl⟩ := convert_of h1 h2 rfl (wf2 (.leaf _) (.leaf _))
  refine ⟨envC, deadNet, T, strongC_spec, envC_ord, deadNet_plain, nameC_distinct _, by decide, deadNet_wf, hT, ?_, ?_⟩
  · rw [hl]
    rw [PT.lang_node]
    exact ⟨[10], [11], by simp, ⟨[11], [], by simp, rfl, rfl⟩, rfl⟩
  · rintro w ⟨ts, m, h1, h2, _⟩
    have := deadNet_dead ts m h1
    subst this
    simp only [Net.FiringSequence, List.foldlM_nil, Option.pure_def, Option.some.injEq] at h1
    subst h1
    revert h2; decide

/-- the same net with weights: `a` produces two tokens, `c` consumes two -/
def wNet (k : Int) : Net Nat Nat := mkNet 4 [(10, [(0, 1)], [(1, k)]), (11, [(1, 1)], [(2, 1)]), (12, [(2, k)], [(3, 1)])]

theorem wNet_plain : Plain (wNet 1) where
  nodupT := by decide
  nodupP := by decide
  inN := by decide
  outN := by decide
  inP := by decide
  outP := by decide

theorem wNet_wf : IsWorkflowNet (wNet 1) 0 3 := by
  refine wf_of_cover [[.pl 0, .tr 10, .pl 1, .tr 11, .pl 2, .tr 12, .pl 3]] ?_ ?_ ?_ ?_ ?_ <;> decide

/-- C53 is false for nets with arc weights: they are ignored -/
theorem _root_.Verif.C53_weights_refuted : ∃ (e : Env Nat) (net : Net Nat Nat) (T : PT Nat), StrongSpec e.strong ∧ e.OrdOk ∧ DistinctNames net e.name ∧
    net.Simple ∧ 2 ≤ net.transitions.length ∧ convert e net some = some T ∧ net.Accepts some [(0, 1)] [(3, 1)] [10, 11, 11, 12] ∧
    ¬ T.lang [10, 11, 11, 12] := by
  have h : ∃ g, groupNet envC (ofNet (wNet 2) some) = some g ∧
      g.trs = [⟨10, [0], [3], .node .seq [.node .seq [.leaf (some 10), .leaf (some 11)], .leaf (some 12)], true⟩] := by
    unfold groupNet
    rw [if_pos (show isWfNet envC.strong envC.name (ofNet (wNet 2) some) = true from wf_check wNet_plain some wNet_wf)]
    exact ⟨_, rfl, rfl⟩
  obtain ⟨g, h1, h2⟩ := h
  obtain ⟨T, hT, hl⟩ := convert_of h1 h2 rfl (wf2 (wf2 (.leaf _) (.leaf _)) (.leaf _))
  refine ⟨envC, wNet 2, T, strongC_spec, envC_ord, nameC_distinct _, ⟨by decide, by decide, by decide⟩, by decide, hT, ⟨[10, 11, 11, 12], [(3, 1)], rfl, rfl, rfl⟩, ?_⟩
  rw [hl, PT.lang_node]
  rintro ⟨u, v, hu, ⟨v1, v2, hv1, hv2, e2⟩, e⟩
  rw [PT.lang_node] at hu
  obtain ⟨u1, u2, hu1, ⟨u3, u4, hu3, hu4, e4⟩, e3⟩ := hu
  simp at hu1 hv1 hu3
  have a : u4 = [] := hu4
  have b : v2 = [] := hv2
  subst a b hu1 hv1 hu3
  subst e2 e4 e3
  simp at e

/-- two transitions with the same name -/
def nameDup : Node → Nat
  | .sc => 0
  | .pl p => 2 * p + 1
  | .tr _ => 2

/-- `0 → a → 1`, and `2 → b → 2` apart from it -/
def dupNet : Net Nat Nat := mkNet 3 [(10, [(0, 1)], [(1, 1)]), (11, [(2, 1)], [(2, 1)])]

theorem dupNet_plain : Plain dupNet where
  nodupT := by decide
  nodupP := by decide
  inN := by decide
  outN := by decide
  inP := by decide
  outP := by decide

/-- C53: the check is made on the names: a net that is not connected passes if two transitions have the same name -/
theorem _root_.Verif.C53_check_refuted : ∃ (e : Env Nat) (net : Net Nat Nat), StrongSpec e.strong ∧ Plain net ∧
    isWfNet e.strong e.name (ofNet net (some : Nat → Option Nat)) = true ∧ ¬ ∃ i o, IsWorkflowNet net i o := by
  refine ⟨{ envC with name := nameDup }, dupNet, strongC_spec, dupNet_plain, ?_, ?_⟩
  · show strongC [0, 1, 3, 5, 2, 2] [(3, 0), (0, 1), (1, 2), (2, 3), (5, 2), (2, 5)] = true
    refine (strongC_spec _ _).2 ?_
    have to2 : ∀ a ∈ [0, 1, 3, 5, 2, 2], Path (fun x y => (x, y) ∈ [(3, 0), (0, 1), (1, 2), (2, 3), (5, 2), (2, 5)]) a 2 := by
      intro a ha
      simp at ha
      rcases ha with rfl | rfl | rfl | rfl | rfl
      · exact .snoc (.snoc (.refl _) (by decide : (0, 1) ∈ _)) (by decide)
      · exact .snoc (.refl _) (by decide)
      · exact .snoc (.snoc (.snoc (.refl _) (by decide : (3, 0) ∈ _)) (by decide : (0, 1) ∈ _)) (by decide)
      · exact .snoc (.refl _) (by decide)
      · exact .refl _
    have from2 : ∀ a ∈ [0, 1, 3, 5, 2, 2], Path (fun x y => (x, y) ∈ [(3, 0), (0, 1), (1, 2), (2, 3), (5, 2), (2, 5)]) 2 a := by
      intro a ha
      simp at ha
      rcases ha with rfl | rfl | rfl | rfl | rfl
      · exact .snoc (.snoc (.refl _) (by decide : (2, 3) ∈ _)) (by decide)
      · exact .snoc (.snoc (.snoc (.refl _) (by decide : (2, 3) ∈ _)) (by decide : (3, 0) ∈ _)) (by decide)
      · exact .snoc (.refl _) (by decide)
      · exact .snoc (.refl _) (by decide)
      · exact .refl _
    exact fun a ha b hb => (to2 a ha).trans (from2 b hb)
  · rintro ⟨i, o, h⟩
    -- the place 2 is only reachable from itself
    have hp := (h.place 2 (by decide)).1
    have key : ∀ n, Path (Arc dupNet) (.pl i) n → n = .pl 2 ∨ n = .tr 11 → i = 2 := by
      intro n hn
      induction hn with
      | refl => rintro (h | h) <;> cases h; rfl
      | snoc _ e ih =>
        rintro (rfl | rfl)
        · generalize hx : Node.pl 2 = x at e
          cases e with
          | inp ht ha => cases hx
          | @out t a ht ha =>
            have : t = 10 ∨ t = 11 := by simpa [dupNet, mkNet] using ht
            rcases this with rfl | rfl
            · have : a = (1, 1) := by simpa [dupNet, mkNet] using ha
              subst this
              cases hx
            · exact ih (.inr rfl)
        · cases e with
          | @inp t a ht ha =>
            have : a = (2, 1) := by simpa [dupNet, mkNet] using ha
            subst this
            exact ih (.inl rfl)
    have := key _ hp (.inl rfl)
    subst this
    exact ((h.source 2).2 rfl).2 (.tr 11) (.out (a := (2, 1)) (by decide) (by decide))

end Verif.WfTree
