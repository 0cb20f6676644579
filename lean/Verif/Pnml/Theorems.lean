import Verif.Pnml.Proofs2
set_option linter.unusedSectionVars false
/-
C59: an accepting Petri net written to PNML and read back.
-/
namespace Verif
open DfgFile Pnml

namespace Pnml

/-- A marking of the net: no place twice, only places of the net, at least one token on each place it names. -/
structure IsMarking (N : NetR) (m : Mk) : Prop where
  nodup : (m.map Prod.fst).Nodup
  range : ∀ e ∈ m, e.1 < N.places.length
  pos : ∀ e ∈ m, 0 < e.2

theorem get_imOf (N : NetR) (im : Mk) (h : IsMarking N im) (i : Nat) : Dict.get? (imOf N im) i = Dict.get? im i := by
  have hk : Dict.keys (imOf N im) = (List.range N.places.length).filter fun i => decide ((Dict.get? im i).getD 0 > 0) := by
    unfold Dict.keys imOf
    rw [List.map_map]
    exact List.map_id _
  have hn : (Dict.keys (imOf N im)).Nodup := by
    rw [hk]; exact List.Sublist.nodup List.filter_sublist List.nodup_range
  cases hg : Dict.get? im i with
  | none =>
    cases hg' : Dict.get? (imOf N im) i with
    | none => rfl
    | some v =>
      have hm : i ∈ Dict.keys (imOf N im) := by rw [Dict.mem_keys_iff, hg']; rfl
      rw [hk, List.mem_filter, hg] at hm
      simp at hm
  | some n =>
    have hmem := Dict.mem_of_get? hg
    apply Dict.get?_of_mem_nodup hn
    unfold imOf
    rw [List.mem_map]
    refine ⟨i, ?_, by rw [hg]; rfl⟩
    rw [List.mem_filter, List.mem_range]
    refine ⟨h.range _ hmem, ?_⟩
    have := h.pos _ hmem
    rw [hg]; simpa using this

theorem fmOf_eq (guess : Bool) (N : NetR) (fm : Mk) (h : IsMarking N fm) (hf : fm ≠ []) : fmOf guess N fm = some fm := by
  unfold fmOf
  rw [if_neg hf, List.filter_eq_self.2, dictOf_nodup h.nodup]
  intro e he
  simpa using h.pos e he

end Pnml

/-- An accepting net whose places have different names, whose transitions have different names and non-empty labels, whose
    arcs have a weight of at least one (reset and inhibitor arcs going from places to transitions), and with a non-empty
    final marking: what is read back has the same places, transitions with the same labels and guards, arcs with the same
    ends, weights and types, and the same initial and final marking; it is an inhibitor (reset) net exactly if it has an
    inhibitor (reset) arc. -/
theorem C59_roundtrip (name : Str) (u h : Nat → Str) (guess : Bool) (N : NetR) (im fm : Mk) (hw : WF N)
    (hl : ∀ t ∈ N.trans, t.label ≠ some []) (ha : ∀ a ∈ N.arcs, 1 ≤ a.weight)
    (him : IsMarking N im) (hfm : IsMarking N fm) (hf : fm ≠ []) :
    ∃ N' im', roundTrip name u h false guess N im fm = some (N', im', some fm) ∧
      N'.places.map (·.name) = N.places.map (·.name) ∧
      N'.trans.map (fun t => (t.name, t.label, t.guard)) = N.trans.map (fun t => (t.name, t.label, t.guard)) ∧
      N'.arcs.map (fun a => (a.toT, a.p, a.t, a.weight, a.kind)) =
        N.arcs.map (fun a => (a.toT, a.p, a.t, a.weight, a.kind)) ∧
      (N'.inh = true ↔ ∃ a ∈ N.arcs, a.kind = .inhibitor) ∧ (N'.res = true ↔ ∃ a ∈ N.arcs, a.kind = .reset) ∧
      (∀ i, Dict.get? im' i = Dict.get? im i) := by
  refine ⟨netOf N, imOf N im, ?_, ?_, ?_, ?_, ?_, ?_, get_imOf N im him⟩
  · rw [roundTrip_general name u h guess N im fm hw hfm.range, fmOf_eq guess N fm hfm hf]
  · simp [netOf]
  · simp only [netOf, List.map_map]
    apply List.map_congr_left
    intro t ht
    have hlab : labelOf t = t.label := by
      unfold labelOf
      cases hlt : t.label with
      | none => rfl
      | some l =>
        cases l with
        | nil => exact absurd hlt (hl t ht)
        | cons c s => rfl
    simp [transOf, hlab]
  · simp only [netOf, List.map_map]
    apply List.map_congr_left
    intro a hm
    have := ha a hm
    simp only [Function.comp_apply, arcOf, Prod.mk.injEq, true_and, and_true]
    split <;> omega
  · simp [netOf]
  · simp [netOf]

/-- Variables read and written by the transitions and the variables of the net are read back, provided no list is empty
    and no name is the empty string. -/
theorem C59_data (name : Str) (u h : Nat → Str) (guess : Bool) (N : NetR) (im fm : Mk) (hw : WF N)
    (hfm : IsMarking N fm)
    (hr : ∀ t ∈ N.trans, t.reads ≠ some [] ∧ t.writes ≠ some [] ∧ some [] ∉ t.reads.getD [] ∧ some [] ∉ t.writes.getD [])
    (hv : ∀ v ∈ N.variables.getD [], v.2 ≠ some []) :
    ∃ N' im' fm', roundTrip name u h false guess N im fm = some (N', im', fm') ∧
      N'.trans.map (fun t => (t.reads, t.writes)) = N.trans.map (fun t => (t.reads, t.writes)) ∧
      N'.variables = N.variables := by
  have hn : ∀ v : Option Str, v ≠ some [] → Xml.normText v = v := by
    intro v hv
    cases v with
    | none => rfl
    | some l => cases l with
      | nil => exact absurd rfl hv
      | cons c s => rfl
  have hvo : ∀ v : Option (List (Option Str)), v ≠ some [] → some [] ∉ v.getD [] → varsOf v = v := by
    intro v h1 h2
    unfold varsOf
    cases v with
    | none => rfl
    | some l =>
      have : l ≠ [] := fun e => h1 (by rw [e])
      simp only [Option.getD_some, if_neg this, Option.some.injEq]
      conv => rhs; rw [← List.map_id l]
      apply List.map_congr_left
      intro x hx
      exact hn x fun e => h2 (by simpa [e] using hx)
  refine ⟨_, _, _, roundTrip_general name u h guess N im fm hw hfm.range, ?_, ?_⟩
  · simp only [netOf, List.map_map]
    apply List.map_congr_left
    intro t ht
    obtain ⟨h1, h2, h3, h4⟩ := hr t ht
    simp [transOf, hvo _ h1 h3, hvo _ h2 h4]
  · simp only [netOf]
    cases hvar : N.variables with
    | none => rfl
    | some vs =>
      simp only [Option.map_some, Option.some.injEq]
      conv => rhs; rw [← List.map_id vs]
      apply List.map_congr_left
      intro v hm
      have := hn v.2 (hv v (by rw [hvar]; exact hm))
      simp [this]

/-- An empty final marking is not written: what is read back is no final marking at all or, if the importer guesses it (the
    default), the marking with a token on each place without outgoing arcs. -/
theorem C59_empty_final (name : Str) (u h : Nat → Str) (N : NetR) (im : Mk) (hw : WF N) :
    (∃ N' im', roundTrip name u h false false N im [] = some (N', im', none)) ∧
    (∃ N' im' fm', roundTrip name u h false true N im [] = some (N', im', some fm') ∧
      ∀ i n, (i, n) ∈ fm' ↔ n = 1 ∧ i < N.places.length ∧ ¬ ∃ a ∈ N.arcs, a.toT = true ∧ a.p = i) := by
  constructor
  · exact ⟨_, _, by rw [roundTrip_general name u h false N im [] hw (by simp)]; rfl⟩
  · refine ⟨_, _, _, by rw [roundTrip_general name u h true N im [] hw (by simp)]; rfl, ?_⟩
    intro i n
    unfold discoverFinal netOf
    simp only [List.length_map, List.mem_map, List.mem_filter, List.mem_range, Prod.mk.injEq, List.any_map]
    constructor
    · rintro ⟨j, ⟨hj, hn⟩, rfl, rfl⟩
      refine ⟨rfl, hj, ?_⟩
      rintro ⟨a, ham, h1, h2⟩
      simp only [Bool.not_eq_true', List.any_eq_false, Function.comp_apply] at hn
      exact hn a ham (by simp [arcOf, h1, h2])
    · rintro ⟨rfl, hi, hn⟩
      refine ⟨i, ⟨hi, ?_⟩, rfl, rfl⟩
      simp only [Bool.not_eq_true', List.any_eq_false, Function.comp_apply]
      intro a ham hb
      simp only [arcOf, Bool.and_eq_true] at hb
      exact hn ⟨a, ham, hb.1, of_decide_eq_true hb.2⟩

/-- A net with a labelled transition that is written with the option for ProM 5 cannot be read back: the importer fails
    (`"invisible" in None`). -/
theorem C59_prom5_refuted (name : Str) (u h : Nat → Str) (guess : Bool) (N : NetR) (im fm : Mk) (hw : WF N)
    (hfm : IsMarking N fm) (t : Trn) (ht : t ∈ N.trans) (l : Str) (hl : t.label = some l) :
    (∃ x, exportTree name u h true N im fm = some x) ∧ roundTrip name u h true guess N im fm = none := by
  obtain ⟨arcs, fin, ha, hfin, he⟩ := exportTree_isSome name u h true N im fm hw hfm.range
  refine ⟨⟨_, he⟩, ?_⟩
  have htn : ∀ v, importTrans ((transXml true v t).norm) = none := by
    intro v
    have hid : (transXml true v t).get "id".toList = some t.name := rfl
    unfold importTrans
    rw [norm_get, hid, norm_kids]
    simp only [Option.bind_eq_bind, Option.bind_some]
    unfold transXml
    simp only [Xml.kids, List.map_append, List.foldlM_append, List.map_cons, List.map_nil, hl]
    have h1 : ∀ s, List.foldlM (transStep t.name) s (List.map Xml.norm (toolXml true v (some l))) = none := fun s => rfl
    simp only [h1, Option.bind_eq_bind]
    cases List.foldlM (transStep t.name) ⟨t.name, true, none, none⟩
      [(wrapText "name".toList (some ((some l).getD t.name))).norm] <;> rfl
  unfold roundTrip
  rw [he, Option.bind_eq_bind, Option.bind_some]
  unfold importTree
  rw [norm_kids, Xml.kids, List.map_cons, List.map_nil, List.getLast?_singleton]
  simp only
  generalize hnet : Xml.norm (Xml.el "net".toList _ _ _) = nett
  have hk : nett.kids = ([wrapText "name".toList (some name)] ++ content u true N im arcs ++ fin ++ varsXml N).map Xml.norm := by
    rw [← hnet, norm_kids]; rfl
  have hpage : (nett.kids.filter fun c => contains c.tag "page".toList) = [] := by
    rw [hk]
    simp only [List.map_append, List.filter_append]
    rw [filter_fin hfin, filter_vars]
    have c1 : contains "finalmarkings".toList "page".toList = false := rfl
    have c2 : contains "variables".toList "page".toList = false := rfl
    rw [c1, c2]
    simp only [Bool.false_eq_true, if_false, List.append_nil, List.append_eq_nil_iff]
    refine ⟨rfl, ?_⟩
    unfold content
    have htag := fold_arcs_tag ha
    simp only [List.map_append, List.filter_append, List.map_map, List.append_eq_nil_iff]
    refine ⟨⟨?_, ?_⟩, ?_⟩
    · apply filter_none
      intro x hx
      rw [List.mem_map] at hx
      obtain ⟨y, hy, rfl⟩ := hx
      simp only [Function.comp_apply, norm_tag]; rfl
    · apply filter_none
      intro x hx
      rw [List.mem_map] at hx
      obtain ⟨y, hy, rfl⟩ := hx
      simp only [Function.comp_apply, norm_tag]; rfl
    · apply filter_none
      intro x hx
      rw [List.mem_map] at hx
      obtain ⟨y, hy, rfl⟩ := hx
      rw [norm_tag, htag y hy]; rfl
  have hT : (nett.kids.filter fun c => endsWith c.tag "transition".toList).mapM importTrans = none := by
    rw [mapM_none_iff]
    obtain ⟨i, hi, hti⟩ := List.mem_iff_getElem.1 ht
    refine ⟨(transXml true (u i) t).norm, ?_, htn _⟩
    rw [List.mem_filter]
    refine ⟨?_, by rw [norm_tag]; rfl⟩
    rw [hk, List.mem_map]
    refine ⟨_, ?_, rfl⟩
    simp only [List.mem_append]
    refine Or.inl (Or.inl (Or.inr ?_))
    unfold content
    simp only [List.mem_append, List.mem_map]
    refine Or.inl (Or.inr ⟨(t, i), ?_, rfl⟩)
    rw [List.mem_zipIdx_iff_getElem?, List.getElem?_eq_getElem hi, hti]
  unfold importNett
  rw [hpage]
  simp only [List.getLast?_nil, Option.getD_none, hT, Option.bind_eq_bind]
  cases List.mapM importPlace (List.filter (fun c => contains c.tag "place".toList) nett.kids) <;> rfl

/-! ### Concrete cases -/

namespace Pnml
def s (x : String) : Str := x.toList
/-- An inhibitor net with two places, a silent and a labelled transition with a guard, an arc of weight 2 with a property
    and an inhibitor arc. -/
def exN : NetR :=
  ⟨[⟨s "p", none⟩, ⟨s "q", some (s "the sink")⟩],
   [⟨s "t", some (s "pay"), some (s "x > 1"), some [some (s "x")], none⟩, ⟨s "tau", none, none, none, none⟩],
   [⟨true, 0, 0, 2, .normal, [(s "color", s "red")]⟩, ⟨false, 1, 0, 1, .normal, []⟩, ⟨true, 1, 1, 1, .inhibitor, []⟩,
    ⟨false, 0, 1, 3, .normal, []⟩], some [(s "int", some (s "x"))], true, false⟩
end Pnml

/-- The hypotheses are met by a net with weights, a guard, variables and an inhibitor arc. -/
example : WF exN ∧ IsMarking exN [(0, 2)] ∧ IsMarking exN [(1, 5)] ∧ (∀ t ∈ exN.trans, t.label ≠ some []) ∧
    (∀ a ∈ exN.arcs, 1 ≤ a.weight) := by
  refine ⟨⟨by decide, by decide, by decide, by decide, ?_, ?_, ?_⟩, ⟨by decide, by decide, by decide⟩,
    ⟨by decide, by decide, by decide⟩, by decide, by decide⟩
  · intro a ha e he
    simp only [exN, List.mem_cons, List.not_mem_nil, or_false] at ha
    rcases ha with rfl | rfl | rfl | rfl
    · simp only [List.mem_cons, List.not_mem_nil, or_false] at he
      subst he; intro _; exact ⟨rfl, rfl⟩
    · simp at he
    · simp at he
    · simp at he
  · intro a ha _ p t hp ht
    simp only [exN, List.mem_cons, List.not_mem_nil, or_false] at ha
    rcases ha with rfl | rfl | rfl | rfl <;>
    · simp only [exN, List.getElem?_cons_zero, List.getElem?_cons_succ, Option.some.injEq] at hp ht
      subst hp; subst ht; decide
  · intro a ha
    simp only [exN, List.mem_cons, List.not_mem_nil, or_false] at ha
    rcases ha with rfl | rfl | rfl | rfl <;> intro h <;> first | rfl | exact absurd rfl h

/-- A place and a transition with the same name: the arc from the transition to the place is read as an arc from the place
    to the transition. -/
theorem C59_clash_refuted (name : Str) (u h : Nat → Str) :
    (roundTrip name u h false true
      ⟨[⟨s "x", none⟩], [⟨s "x", some (s "a"), none, none, none⟩], [⟨false, 0, 0, 1, .normal, []⟩], none, false, false⟩
      [] []).map (fun r => r.1.arcs) = some [⟨true, 0, 0, 1, .normal, []⟩] := rfl

/-- Two places with the same name: both arcs are attached to the second one. -/
theorem C59_duplicate_refuted (name : Str) (u h : Nat → Str) :
    (roundTrip name u h false true
      ⟨[⟨s "p", none⟩, ⟨s "p", none⟩], [⟨s "t", some (s "a"), none, none, none⟩],
        [⟨true, 0, 0, 1, .normal, []⟩, ⟨false, 1, 0, 1, .normal, []⟩], none, false, false⟩
      [] []).map (fun r => r.1.arcs) = some [⟨true, 1, 0, 1, .normal, []⟩, ⟨false, 1, 0, 1, .normal, []⟩] := rfl

/-- A transition with an empty label is read back with its name as label. -/
theorem C59_empty_label_refuted (name : Str) (u h : Nat → Str) :
    (roundTrip name u h false true ⟨[⟨s "p", none⟩], [⟨s "t", some [], none, none, none⟩], [], none, false, false⟩
      [] []).map (fun r => r.1.trans.map (·.label)) = some [some (s "t")] := rfl

end Verif
