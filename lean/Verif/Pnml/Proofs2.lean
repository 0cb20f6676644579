import Verif.Pnml.Proofs
set_option linter.unusedSectionVars false
namespace Verif.Pnml
open Verif Verif.DfgFile Xml

/-- The conditions under which the net is read back as it was written (up to the values of some properties). -/
structure WF (N : NetR) : Prop where
  places : (N.places.map (·.name)).Nodup
  trans : (N.trans.map (·.name)).Nodup
  arcP : ∀ a ∈ N.arcs, a.p < N.places.length
  arcT : ∀ a ∈ N.arcs, a.t < N.trans.length
  props : ∀ a ∈ N.arcs, PropsOk a
  clash : ∀ a ∈ N.arcs, NoClash N a
  kind : ∀ a ∈ N.arcs, KindOk a

/-- The net that is read back. -/
def netOf (N : NetR) : NetR :=
  ⟨N.places.map fun p => ⟨p.name, some (tagOf p)⟩, N.trans.map transOf, N.arcs.map arcOf,
   N.variables.map fun vs => vs.map fun v => (v.1, normText v.2),
   N.arcs.any fun a => decide (a.kind = .inhibitor), N.arcs.any fun a => decide (a.kind = .reset)⟩

/-- The initial marking that is read back. -/
def imOf (N : NetR) (im : Mk) : Mk :=
  ((List.range N.places.length).filter fun i => decide ((Dict.get? im i).getD 0 > 0)).map
    fun i => (i, (Dict.get? im i).getD 0)

/-- The final marking that is read back. -/
def fmOf (guess : Bool) (N : NetR) (fm : Mk) : Option Mk :=
  if fm = [] then if guess then some (discoverFinal (netOf N)) else none
  else some (dictOf (fm.filter fun e => decide (e.2 > 0)))

theorem finalXml_eq (N : NetR) (fm : Mk) : finalXml N fm = if fm.length > 0 then
    (do let ks ← fm.mapM (finXml N)
        pure [el "finalmarkings".toList [] none [el "marking".toList [] none ks]]) else pure [] := rfl

theorem exportTree_isSome (name : Str) (u h : Nat → Str) (prom5 : Bool) (N : NetR) (im fm : Mk) (hw : WF N)
    (hf : ∀ e ∈ fm, e.1 < N.places.length) :
    ∃ arcs fin, N.arcs.zipIdx.mapM (fun x => arcXml N (h x.2) x.1) = some arcs ∧ finalXml N fm = some fin ∧
      exportTree name u h prom5 N im fm = some (el "pnml".toList [] none [el "net".toList
    [("id".toList, name), ("type".toList, "http://www.pnml.org/version-2009/grammar/pnmlcoremodel".toList)] none
    ([wrapText "name".toList (some name)] ++
     (if prom5 then content u prom5 N im arcs else
       [el "page".toList [("id".toList, "n0".toList)] none (content u prom5 N im arcs)]) ++ fin ++ varsXml N)]) := by
  have h1 : N.arcs.zipIdx.mapM (fun x => arcXml N (h x.2) x.1) ≠ none := by
    rw [ne_eq, mapM_none_iff]
    rintro ⟨x, hx, hn⟩
    have hm : x.1 ∈ N.arcs := by
      have := List.mem_zipIdx_iff_getElem?.1 hx
      exact List.mem_of_getElem? this
    obtain ⟨y, hy⟩ := arcXml_isSome N (h x.2) x.1 (hw.arcP _ hm) (hw.arcT _ hm)
    rw [hy] at hn; cases hn
  have h2 : finalXml N fm ≠ none := by
    rw [finalXml_eq]
    split
    · have : fm.mapM (finXml N) ≠ none := by
        rw [ne_eq, mapM_none_iff]
        rintro ⟨x, hx, hn⟩
        unfold finXml at hn
        rw [List.getElem?_eq_getElem (hf x hx)] at hn
        cases hn
      cases hm : fm.mapM (finXml N) with
      | none => exact absurd hm this
      | some ks => simp
    · simp
  obtain ⟨arcs, ha⟩ := Option.ne_none_iff_exists'.1 h1
  obtain ⟨fin, hfin⟩ := Option.ne_none_iff_exists'.1 h2
  refine ⟨arcs, fin, ha, hfin, ?_⟩
  unfold exportTree
  rw [ha, hfin]
  rfl

theorem fin_tag {N : NetR} {fm : Mk} {fin : List Xml} (h : finalXml N fm = some fin) :
    (fm = [] ∧ fin = []) ∨ (fm ≠ [] ∧ ∃ ks, fm.mapM (finXml N) = some ks ∧
      fin = [el "finalmarkings".toList [] none [el "marking".toList [] none ks]]) := by
  rw [finalXml_eq] at h
  split at h
  · rename_i hl
    right
    refine ⟨by rintro rfl; simp at hl, ?_⟩
    simp only [Option.bind_eq_bind, Option.bind_eq_some_iff, pure, Option.some.injEq] at h
    obtain ⟨ks, hk, rfl⟩ := h
    exact ⟨ks, hk, rfl⟩
  · rename_i hl
    left
    refine ⟨by cases fm <;> simp_all, ?_⟩
    simpa using h.symm

theorem imOf_eq (N : NetR) (im : Mk) :
    (((N.places.zipIdx.map fun x : Plc × Nat => (x.1.name, tagOf x.1, (Dict.get? im x.2).getD 0)).zipIdx.filter
      fun x => decide (x.1.2.2 > 0)).map fun x => (x.2, x.1.2.2)) = imOf N im := by
  unfold imOf
  have gen : ∀ (l : List Plc) (k : Nat),
      ((((l.zipIdx k).map fun x : Plc × Nat => (x.1.name, tagOf x.1, (Dict.get? im x.2).getD 0)).zipIdx k).filter
        fun x => decide (x.1.2.2 > 0)).map (fun x => (x.2, x.1.2.2)) =
      ((List.range' k l.length).filter fun i => decide ((Dict.get? im i).getD 0 > 0)).map
        fun i => (i, (Dict.get? im i).getD 0) := by
    intro l
    induction l with
    | nil => intro k; rfl
    | cons p l ih =>
      intro k
      simp only [List.zipIdx_cons, List.map_cons, List.length_cons, List.range'_succ, List.filter_cons]
      have := ih (k + 1)
      split
      · simp only [List.map_cons, this]
      · exact this
  have := gen N.places 0
  rw [List.range_eq_range']
  exact this

theorem vars_tag (N : NetR) : (N.variables = none ∧ varsXml N = []) ∨ (∃ vs, N.variables = some vs ∧
    varsXml N = [el "variables".toList [] none
      (vs.map fun v => el "variable".toList [("type".toList, v.1)] none [el "name".toList [] v.2 []])]) := by
  unfold varsXml
  cases N.variables with
  | none => left; exact ⟨rfl, rfl⟩
  | some vs => right; exact ⟨vs, rfl, rfl⟩

/-- Reading the children of the page. -/
theorem read_page (u h : Nat → Str) (N : NetR) (im : Mk) (hw : WF N) {arcs : List Xml}
    (ha : N.arcs.zipIdx.mapM (fun x => arcXml N (h x.2) x.1) = some arcs) :
    let kids := (content u false N im arcs).map norm
    (kids.filter fun c => contains c.tag "place".toList).mapM importPlace =
      some (N.places.zipIdx.map fun x => (x.1.name, tagOf x.1, (Dict.get? im x.2).getD 0)) ∧
    (kids.filter fun c => endsWith c.tag "transition".toList).mapM importTrans = some (N.trans.map transOf) ∧
    ∀ M : NetR, (kids.filter fun c => endsWith c.tag "arc".toList).foldlM
        (importArc (dictIds (N.places.map (·.name))) (dictIds (N.trans.map (·.name)))) M =
      some { M with inh := M.inh || N.arcs.any (fun a => decide (a.kind = .inhibitor)),
                    res := M.res || N.arcs.any (fun a => decide (a.kind = .reset)),
                    arcs := M.arcs ++ N.arcs.map arcOf } := by
  have htag := fold_arcs_tag ha
  have hmem : ∀ x ∈ N.arcs.zipIdx, x.1 ∈ N.arcs := fun x hx =>
    List.mem_of_getElem? (List.mem_zipIdx_iff_getElem?.1 hx)
  have hany : ∀ f : ArcR → Bool, N.arcs.zipIdx.any (fun a => f a.1) = N.arcs.any f := fun f => by
    have := List.any_map (f := Prod.fst) (p := f) (l := N.arcs.zipIdx)
    rw [List.zipIdx_map_fst] at this
    exact this.symm
  intro kids
  refine ⟨?_, ?_, ?_⟩
  · rw [content_places u false N im htag, List.mapM_map]
    apply mapM_total
    intro x _
    exact importPlace_xml im x.2 x.1
  · rw [content_trans u false N im htag, List.mapM_map]
    rw [mapM_total (g := fun x : Trn × Nat => transOf x.1)]
    · congr 1
      have := List.map_map (g := transOf) (f := Prod.fst) (l := N.trans.zipIdx)
      rw [List.zipIdx_map_fst] at this
      rw [this]; rfl
    · intro x _; exact importTrans_xml (u x.2) x.1
  · intro M
    rw [content_arcs u false N im htag]
    rw [fold_arcs hw.places hw.trans _ ha (fun a h => hw.props _ (hmem a h)) (fun a h => hw.clash _ (hmem a h))
      (fun a h => hw.kind _ (hmem a h))]
    rw [hany fun a => decide (a.kind = .inhibitor), hany fun a => decide (a.kind = .reset)]
    have := List.map_map (g := arcOf) (f := Prod.fst) (l := N.arcs.zipIdx)
    rw [List.zipIdx_map_fst] at this
    rw [this]; rfl

theorem read_vars (N : NetR) : importVars (((varsXml N).map norm).getLast?) =
    some (N.variables.map fun vs => vs.map fun v => (v.1, normText v.2)) := by
  rcases vars_tag N with ⟨e0, e⟩ | ⟨vs, e0, e⟩
  · rw [e, e0]; rfl
  · rw [e, e0, List.map_cons, List.map_nil, List.getLast?_singleton]
    unfold importVars
    simp only [norm_kids]
    rw [Xml.kids, List.map_map, List.mapM_map, mapM_total (g := fun v : Str × Option Str => (v.1, normText v.2))]
    · rfl
    · intro v _; exact importVar_xml v

theorem read_final {N : NetR} (hw : WF N) {fm : Mk} {fin : List Xml} (hfin : finalXml N fm = some fin) :
    importFinal (dictIds (N.places.map (·.name))) ((fin.map norm).getLast?) =
      some (if fm = [] then none else some (dictOf (fm.filter fun e => decide (e.2 > 0)))) := by
  rcases fin_tag hfin with ⟨e, rfl⟩ | ⟨e, ks, hks, rfl⟩
  · rw [if_pos e]; rfl
  · rw [if_neg e, List.map_cons, List.map_nil, List.getLast?_singleton]
    have := fold_final hw.places fm hks []
    have hk1 : (norm (el "finalmarkings".toList [] none [el "marking".toList [] none ks])).kids =
      [norm (el "marking".toList [] none ks)] := by rw [norm_kids]; rfl
    have hk2 : (norm (el "marking".toList [] none ks)).kids = ks.map norm := by rw [norm_kids]; rfl
    unfold importFinal
    simp only [hk1, List.foldlM_cons, hk2, this, List.foldlM_nil]
    rfl

theorem filter_fin {N : NetR} {fm : Mk} {fin : List Xml} (hfin : finalXml N fm = some fin) (t : Str) :
    List.filter (fun c : Xml => contains c.tag t) (fin.map norm) =
      if contains "finalmarkings".toList t = true then fin.map norm else [] := by
  rcases fin_tag hfin with ⟨_, rfl⟩ | ⟨_, ks, _, rfl⟩
  · split <;> rfl
  · rw [List.map_cons, List.map_nil, List.filter_cons, norm_tag]; rfl

theorem filter_vars (N : NetR) (t : Str) :
    List.filter (fun c : Xml => contains c.tag t) ((varsXml N).map norm) =
      if contains "variables".toList t = true then (varsXml N).map norm else [] := by
  rcases vars_tag N with ⟨_, e⟩ | ⟨vs, _, e⟩
  · rw [e]; split <;> rfl
  · rw [e, List.map_cons, List.map_nil, List.filter_cons, norm_tag]; rfl

/-- The children of the net. -/
theorem filter_net (name : Str) {N : NetR} {fm : Mk} {fin : List Xml} (hfin : finalXml N fm = some fin) (page : Xml)
    (hpt : page.tag = "page".toList) :
    let kids := (norm (wrapText "name".toList (some name)) :: norm page :: (fin.map norm ++ (varsXml N).map norm))
    (kids.filter fun c => contains c.tag "page".toList) = [norm page] ∧
    (kids.filter fun c => contains c.tag "finalmarkings".toList) = fin.map norm ∧
    (kids.filter fun c => contains c.tag "variables".toList) = (varsXml N).map norm := by
  intro kids
  have c1 : contains "name".toList "page".toList = false := rfl
  have c2 : contains "page".toList "page".toList = true := rfl
  have c3 : contains "finalmarkings".toList "page".toList = false := rfl
  have c4 : contains "variables".toList "page".toList = false := rfl
  have d1 : contains "name".toList "finalmarkings".toList = false := rfl
  have d2 : contains "page".toList "finalmarkings".toList = false := rfl
  have d3 : contains "finalmarkings".toList "finalmarkings".toList = true := rfl
  have d4 : contains "variables".toList "finalmarkings".toList = false := rfl
  have e1 : contains "name".toList "variables".toList = false := rfl
  have e2 : contains "page".toList "variables".toList = false := rfl
  have e3 : contains "finalmarkings".toList "variables".toList = false := rfl
  have e4 : contains "variables".toList "variables".toList = true := rfl
  have ht : (norm (wrapText "name".toList (some name))).tag = "name".toList := rfl
  have hp : (norm page).tag = "page".toList := by rw [norm_tag, hpt]
  refine ⟨?_, ?_, ?_⟩
  · rw [List.filter_cons, List.filter_cons, List.filter_append, filter_fin hfin, filter_vars, ht, hp, c1, c2, c3, c4]; rfl
  · rw [List.filter_cons, List.filter_cons, List.filter_append, filter_fin hfin, filter_vars, ht, hp, d1, d2, d3, d4]
    simp only [if_true, if_false, List.append_nil, Bool.false_eq_true]
  · rw [List.filter_cons, List.filter_cons, List.filter_append, filter_fin hfin, filter_vars, ht, hp, e1, e2, e3, e4]
    simp only [if_true, if_false, List.nil_append, Bool.false_eq_true]

theorem importNett_net (guess : Bool) (N : NetR) (im fm : Mk) (hw : WF N) (u h : Nat → Str) {arcs fin : List Xml}
    (ha : N.arcs.zipIdx.mapM (fun x => arcXml N (h x.2) x.1) = some arcs) (hfin : finalXml N fm = some fin)
    (nett page : Xml) (hpk : page.kids = (content u false N im arcs).map norm)
    (f1 : (nett.kids.filter fun c => contains c.tag "page".toList) = [page])
    (f2 : (nett.kids.filter fun c => contains c.tag "finalmarkings".toList) = fin.map norm)
    (f3 : (nett.kids.filter fun c => contains c.tag "variables".toList) = (varsXml N).map norm) :
    importNett guess nett = some (netOf N, imOf N im, fmOf guess N fm) := by
  obtain ⟨r1, r2, r3⟩ := read_page u h N im hw ha
  unfold importNett
  rw [f1, f2, f3, List.getLast?_singleton, Option.getD_some]
  simp only [hpk]
  rw [r1, r2]
  simp only [Option.bind_eq_bind, Option.bind_some]
  have hids : ((N.places.zipIdx.map fun x : Plc × Nat => (x.1.name, tagOf x.1, (Dict.get? im x.2).getD 0)).map (·.1)) =
      N.places.map (·.name) := by
    rw [List.map_map]
    have := List.map_map (g := Plc.name) (f := Prod.fst) (l := N.places.zipIdx)
    rw [List.zipIdx_map_fst] at this
    rw [this]; rfl
  have hpls : ((N.places.zipIdx.map fun x : Plc × Nat => (x.1.name, tagOf x.1, (Dict.get? im x.2).getD 0)).map
      fun x => (⟨x.1, some x.2.1⟩ : Plc)) = N.places.map fun p => ⟨p.name, some (tagOf p)⟩ := by
    rw [List.map_map]
    have := List.map_map (g := fun p : Plc => (⟨p.name, some (tagOf p)⟩ : Plc)) (f := Prod.fst) (l := N.places.zipIdx)
    rw [List.zipIdx_map_fst] at this
    rw [this]; rfl
  have htr : (N.trans.map transOf).map (·.name) = N.trans.map (·.name) := by rw [List.map_map]; rfl
  rw [hids, htr, hpls, r3, imOf_eq, read_final hw hfin, read_vars]
  simp only [Option.bind_some, Bool.false_or, List.nil_append, pure]
  unfold fmOf netOf
  by_cases hfe : fm = []
  · simp only [if_pos hfe, Option.isSome_none, Bool.false_eq_true, if_false]
  · simp only [if_neg hfe, Option.isSome_some, if_true]

theorem roundTrip_general (name : Str) (u h : Nat → Str) (guess : Bool) (N : NetR) (im fm : Mk) (hw : WF N)
    (hf : ∀ e ∈ fm, e.1 < N.places.length) :
    roundTrip name u h false guess N im fm = some (netOf N, imOf N im, fmOf guess N fm) := by
  obtain ⟨arcs, fin, ha, hfin, he⟩ := exportTree_isSome name u h false N im fm hw hf
  unfold roundTrip
  rw [he, Option.bind_eq_bind, Option.bind_some]
  obtain ⟨f1, f2, f3⟩ := filter_net name hfin
    (el "page".toList [("id".toList, "n0".toList)] none (content u false N im arcs)) rfl
  unfold importTree
  rw [norm_kids, Xml.kids, List.map_cons, List.map_nil, List.getLast?_singleton]
  simp only
  refine importNett_net guess N im fm hw u h ha hfin _ (norm (el "page".toList [("id".toList, "n0".toList)] none
    (content u false N im arcs))) ?_ ?_ ?_ ?_
  · rw [norm_kids]; rfl
  · rw [norm_kids, Xml.kids, ← f1]
    simp only [Bool.false_eq_true, if_false, List.map_append, List.map_cons, List.map_nil, List.cons_append,
      List.nil_append, List.append_assoc]
  · rw [norm_kids, Xml.kids, ← f2]
    simp only [Bool.false_eq_true, if_false, List.map_append, List.map_cons, List.map_nil, List.cons_append,
      List.nil_append, List.append_assoc]
  · rw [norm_kids, Xml.kids, ← f3]
    simp only [Bool.false_eq_true, if_false, List.map_append, List.map_cons, List.map_nil, List.cons_append,
      List.nil_append, List.append_assoc]

end Verif.Pnml
