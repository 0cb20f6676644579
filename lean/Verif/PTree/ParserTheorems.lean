import Verif.PTree.ParserProofs
/-
Property theorems C13: printing and parsing of process trees.
-/
namespace Verif
open PTP

/-- the labels of the tree contain no quote, carriage return or newline, and operators have children -/
theorem goodTree_of {t : PT Str} (hw : PT.WF t) (hl : ∀ l ∈ t.labels, GoodLabel l) : GoodTree t := by
  induction t using PT.induct with
  | leaf l =>
    refine .leaf l fun x hx => ?_
    subst hx; exact hl x (by simp [PT.labels])
  | node op cs ih =>
    cases hw with
    | node _ _ hne hc =>
      refine .node op cs hne fun c hcm => ih c hcm (hc c hcm) fun l hll => hl l ?_
      simp only [PT.labels, PT.labelsL_eq, List.mem_flatMap]
      exact ⟨c, hcm, hll⟩

/-- C13: for every tree that is not a single labelled leaf, whose operators have children and whose labels
contain no quote, carriage return or newline, `parse(str(tree))` succeeds and returns an object that denotes
exactly the tree. -/
theorem C13_roundtrip (t : PT Str) (hw : PT.WF t) (hl : ∀ l ∈ t.labels, GoodLabel l)
    (hroot : ∀ l, t ≠ .leaf (some l)) :
    ∃ root heap, parse (toStr t) = some (root, heap) ∧ Denotes heap root t := by
  have hg := goodTree_of hw hl
  have hs : toStr t = repr t := by
    cases t with
    | leaf l => cases l with
      | none => rfl
      | some l => exact absurd rfl (hroot l)
    | node op cs => rfl
  refine ⟨0, layout 0 t, by rw [hs]; exact parse_repr_top t hg, ?_⟩
  have := denotes_layout t [] []
  simpa using this

/-- The object denotes only one tree, so the parsed tree is *the* tree that was printed. -/
theorem C13_denotes_unique {h : Heap} {i : Nat} {s t : PT Str} (hs : Denotes h i s) (ht : Denotes h i t) : s = t :=
  hs.unique ht

/-- C13: printing is injective on these trees. -/
theorem C13_print_injective (s t : PT Str) (hs : PT.WF s) (ht : PT.WF t) (hls : ∀ l ∈ s.labels, GoodLabel l)
    (hlt : ∀ l ∈ t.labels, GoodLabel l) (h1 : ∀ l, s ≠ .leaf (some l)) (h2 : ∀ l, t ≠ .leaf (some l))
    (h : toStr s = toStr t) : s = t := by
  obtain ⟨r1, p1, e1, d1⟩ := C13_roundtrip s hs hls h1
  obtain ⟨r2, p2, e2, d2⟩ := C13_roundtrip t ht hlt h2
  rw [h, e2] at e1
  simp at e1
  obtain ⟨rfl, rfl⟩ := e1
  exact d1.unique d2

/-- The tree `->( 'a b', +( 'c', tau ), '' )` meets the hypotheses. -/
def exTree : PT Str :=
  .node .seq [.leaf (some ['a', ' ', 'b']), .node .par [.leaf (some ['c']), .leaf none], .leaf (some [])]

example : toStr exTree = "->( 'a b', +( 'c', tau ), '' )".toList := by decide
example : PT.WF exTree :=
  .node _ _ (by simp) fun c hc => by
    simp at hc
    rcases hc with rfl | rfl | rfl
    · exact .leaf _
    · exact .node _ _ (by simp) fun c hc => by simp at hc; rcases hc with rfl | rfl <;> exact .leaf _
    · exact .leaf _
example : ∀ l ∈ exTree.labels, GoodLabel l := by
  intro l hl
  simp [exTree, PT.labels, PT.labelsL] at hl
  rcases hl with rfl | rfl | rfl <;> (intro c hc; revert c; decide)

/-- C13, why labelled root leafs are excluded: `str` of the leaf `a` is not quoted and `parse` fails on it. -/
theorem C13_root_leaf_refuted : ∃ l : Str, GoodLabel l ∧ parse (toStr (.leaf (some l))) = none := by
  refine ⟨['a'], by intro c hc; revert c; decide, ?_⟩
  have h1 : clean ['a'] = ['a'] := by decide
  unfold parse toStr
  simp only
  rw [parseRec_body, h1]
  rfl

/-- C13, why quotes are excluded: a label with a quote changes the tree. -/
theorem C13_quote_refuted :
    ∃ t : PT Str, PT.WF t ∧ (∀ l, t ≠ .leaf (some l)) ∧
      ¬ ∃ root heap, parse (toStr t) = some (root, heap) ∧ Denotes heap root t := by
  refine ⟨.node .seq [.leaf (some ['\''])], .node _ _ (by simp) (fun c hc => by simp at hc; subst hc; exact .leaf _), by simp, ?_⟩
  rintro ⟨root, heap, h1, h2⟩
  have e0 : toStr (.node .seq [.leaf (some ['\''])]) = "->( ''' )".toList := by decide
  have e1 : clean "->( ''' )".toList = "->( ''' )".toList := by decide
  have e2 : clean " ''' )".toList = "''' )".toList := by decide
  have e3 : clean " )".toList = [')'] := by decide
  have e4 : closeParens "' )".toList 1 = ("' )".toList, 1) := by
    rw [closeParens]; split
    · rename_i r hr; revert hr; have : strip "' )".toList = "' )".toList := by decide
      rw [this]; simp
    · rfl
  have e5 : strip "' )".toList = "' )".toList := by decide
  have p3 : ∀ h dc d, parseRec " )".toList h dc d = none := by
    intro h dc d; rw [parseRec_body, e3]; rfl
  have p2 : parseRec " ''' )".toList [⟨some .seq, none, []⟩] (fun k => if k = 0 then some 0 else none) 1 = none := by
    rw [parseRec_body, e2]
    have o : opPrefix "''' )".toList = none := by decide
    have l : leafPrefix "''' )".toList = some (some [], "' )".toList) := by decide
    unfold body cont
    simp only [o, l, e4, e5]
    have := p3
    simp only [String.reduceToList] at this ⊢
    simp [newNode, this]
  unfold parse at h1
  rw [e0, parseRec_body, e1] at h1
  have o : opPrefix "->( ''' )".toList = some (.seq, "( ''' )".toList) := by decide
  have st : strip "( ''' )".toList = "( ''' )".toList := by decide
  unfold body at h1
  simp only [o, st] at h1
  simp only [String.reduceToList] at h1 p2
  simp [newNode] at h1
  obtain ⟨⟨_, h1⟩, _⟩ := h1
  rw [p2] at h1; simp at h1

/-- The lengths that `fold` compares (C10) are the lengths of the printed strings. -/
theorem C13_printed_length (t : PT Str) : (toStr t).length = PT.strLen List.length t := by
  have hrepr : ∀ t : PT Str, (repr t).length = PT.reprLen List.length t := by
    intro t
    induction t using PT.induct with
    | leaf l => cases l with
      | none => simp [PTP.repr, PT.reprLen]
      | some l => simp [PTP.repr, PT.reprLen]
    | node op cs ih =>
      have hL : ∀ ds : List (PT Str), (∀ c ∈ ds, c ∈ cs) →
          (reprL ds).length = (ds.map (PT.reprLen List.length)).sum + 2 * (ds.length - 1) := by
        intro ds
        induction ds with
        | nil => intro _; simp [reprL]
        | cons d ds ih2 =>
          intro hds
          have h1 := ih d (hds d (by simp))
          by_cases he : ds = []
          · subst he; simp [reprL, h1]
          · rw [reprL_cons he]
            have h2 := ih2 fun c hc => hds c (by simp [hc])
            have h3 : 0 < ds.length := List.length_pos_iff.2 he
            simp [h1, h2]; omega
      have hop : (opStr op).length = PT.opLen op := by cases op <;> rfl
      rw [PT.reprLen]
      simp only [PTP.repr, List.length_append, hop, hL cs fun c hc => hc]
      rw [show (cs.attach.map fun c => PT.reprLen List.length c.1) = cs.map (PT.reprLen List.length) from
        List.attach_map_val (f := PT.reprLen List.length)]
      simp
  cases t with
  | leaf l => cases l with
    | none => simp [toStr, PTP.repr, PT.strLen, PT.reprLen]
    | some l => simp [toStr, PT.strLen]
  | node op cs => simpa [toStr, PT.strLen] using hrepr (.node op cs)

end Verif
