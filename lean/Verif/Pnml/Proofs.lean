import Verif.Pnml.Model
set_option linter.unusedSectionVars false
namespace Verif.Pnml
open Verif Verif.DfgFile Xml

theorem normL_eq (l : List Xml) : normL l = l.map norm := by
  induction l with
  | nil => rfl
  | cons x l ih => simp [normL, ih]

theorem norm_tag (x : Xml) : (norm x).tag = x.tag := by cases x; rfl
theorem norm_get (x : Xml) (k : Str) : (norm x).get k = x.get k := by cases x; rfl
theorem norm_kids (x : Xml) : (norm x).kids = x.kids.map norm := by
  cases x; simp [norm, Xml.kids, normL_eq]
theorem norm_text (x : Xml) : (norm x).text = normText x.text := by cases x; rfl

theorem str_ne_nil (n : Int) : str n ≠ [] := by
  unfold str showInt
  split
  · simp
  · exact showNat_ne_nil _

theorem normText_str (n : Int) : normText (some (str n)) = some (str n) := by
  cases h : str n with
  | nil => exact absurd h (str_ne_nil n)
  | cons c s => rfl

theorem norm_wrap (t : Str) (x : Option Str) :
    norm (wrapText t x) = el t [] none [el "text".toList [] (normText x) []] := rfl

/-! ### Places -/

/-- The property PLACE_NAME_TAG after the round trip. -/
def tagOf (p : Plc) : Str := if p.tag.getD p.name = [] then p.name else p.tag.getD p.name

theorem importPlace_xml (im : Mk) (i : Nat) (p : Plc) :
    importPlace (norm (placeXml im i p)) = some (p.name, tagOf p, (Dict.get? im i).getD 0) := by
  have hid : (placeXml im i p).get "id".toList = some p.name := rfl
  unfold importPlace
  rw [norm_get, hid, norm_kids]
  simp only [Option.bind_eq_bind, Option.bind_some]
  have h1 : placeStep (p.name, 0) (norm (wrapText "name".toList (some (p.tag.getD p.name)))) =
      some (tagOf p, 0) := by
    rw [norm_wrap]
    unfold placeStep tagOf
    cases h : p.tag.getD p.name with
    | nil => rfl
    | cons c s => rfl
  unfold placeXml
  cases hg : Dict.get? im i with
  | none =>
    simp only [Xml.kids, List.append_nil, List.map_cons, List.map_nil, List.foldlM_cons, h1, Option.bind_eq_bind,
      Option.bind_some, List.foldlM_nil]
    rfl
  | some n =>
    have h2 : placeStep (tagOf p, 0) (norm (wrapText "initialMarking".toList (some (str n)))) = some (tagOf p, n) := by
      rw [norm_wrap, normText_str]
      show (do
        let n ← ((some (str n)).bind intOf?).bind fun n => some n
        pure (tagOf p, n)) = _
      simp [intOf_showInt]
    simp only [Xml.kids, List.cons_append, List.nil_append, List.map_cons, List.map_nil, List.foldlM_cons, h1,
      Option.bind_eq_bind, Option.bind_some, List.foldlM_nil, h2]
    rfl

/-! ### Transitions -/

/-- The label after the round trip: an empty label is replaced by the name. -/
def labelOf (t : Trn) : Option Str :=
  match t.label with
  | none => none
  | some [] => some t.name
  | some l => some l

/-- The variables after the round trip. -/
def varsOf (v : Option (List (Option Str))) : Option (List (Option Str)) :=
  if v.getD [] = [] then none else some ((v.getD []).map normText)

/-- A transition after the round trip. -/
def transOf (t : Trn) : Trn := ⟨t.name, labelOf t, t.guard, varsOf t.reads, varsOf t.writes⟩

theorem fold_reads (id : Str) (l : List (Option Str)) (s : TState) :
    (l.map fun v => norm (el "readVariable".toList [] v [])).foldlM (transStep id) s =
      some { s with reads := if l = [] then s.reads else some (s.reads.getD [] ++ l.map normText) } := by
  induction l generalizing s with
  | nil => simp
  | cons v l ih =>
    rw [List.map_cons, List.foldlM_cons]
    have : transStep id s (norm (el "readVariable".toList [] v [])) =
      some { s with reads := some (s.reads.getD [] ++ [normText v]) } := rfl
    rw [this]
    simp only [Option.bind_eq_bind, Option.bind_some]
    rw [ih]
    by_cases h : l = []
    · simp [h]
    · simp [h]

theorem fold_writes (id : Str) (l : List (Option Str)) (s : TState) :
    (l.map fun v => norm (el "writeVariable".toList [] v [])).foldlM (transStep id) s =
      some { s with writes := if l = [] then s.writes else some (s.writes.getD [] ++ l.map normText) } := by
  induction l generalizing s with
  | nil => simp
  | cons v l ih =>
    rw [List.map_cons, List.foldlM_cons]
    have : transStep id s (norm (el "writeVariable".toList [] v [])) =
      some { s with writes := some (s.writes.getD [] ++ [normText v]) } := rfl
    rw [this]
    simp only [Option.bind_eq_bind, Option.bind_some]
    rw [ih]
    by_cases h : l = []
    · simp [h]
    · simp [h]

theorem importTrans_xml (u : Str) (t : Trn) : importTrans (norm (transXml false u t)) = some (transOf t) := by
  have hid : (transXml false u t).get "id".toList = some t.name := rfl
  have hg : (transXml false u t).get "guard".toList = t.guard := by
    unfold transXml
    cases t.guard <;> rfl
  unfold importTrans
  rw [norm_get, hid, norm_kids, norm_get, hg]
  simp only [Option.bind_eq_bind, Option.bind_some]
  unfold transXml
  simp only [Xml.kids, List.map_append, List.map_map, List.foldlM_append, List.map_cons, List.map_nil]
  have h1 : ([norm (wrapText "name".toList (some (t.label.getD t.name)))] : List Xml).foldlM (transStep t.name)
      ⟨t.name, true, none, none⟩ = some ⟨((labelOf t).getD t.name), true, none, none⟩ := by
    rw [norm_wrap]
    unfold labelOf
    cases hl : t.label with
    | none =>
      cases hn : t.name with
      | nil => rfl
      | cons c s =>
        simp only [List.foldlM_cons, List.foldlM_nil, Option.getD_none]
        show (some _ : Option TState) = _
        simp [transName, Xml.text, normText, Xml.kids]
    | some l =>
      cases l with
      | nil => rfl
      | cons c s =>
        simp only [List.foldlM_cons, List.foldlM_nil]
        show (some _ : Option TState) = _
        simp [transName, Xml.text, normText, Xml.kids]
  have h2 : ∀ s, (List.map norm (toolXml false u t.label)).foldlM (transStep t.name) s =
      some (if t.label = none then { s with visible := false } else s) := by
    intro s
    cases t.label with
    | none => rfl
    | some l => rfl
  have h3 := fold_reads t.name (t.reads.getD [])
  have h4 := fold_writes t.name (t.writes.getD [])
  have e3 : ((norm ∘ fun v => el "readVariable".toList [] v []) : Option Str → Xml) =
    fun v => norm (el "readVariable".toList [] v []) := rfl
  have e4 : ((norm ∘ fun v => el "writeVariable".toList [] v []) : Option Str → Xml) =
    fun v => norm (el "writeVariable".toList [] v []) := rfl
  simp only [h1, Option.bind_eq_bind, Option.bind_some]
  rw [h2]
  simp only [Option.bind_some]
  rw [e3, e4, h3]
  simp only [Option.bind_some]
  rw [h4]
  simp only [Option.bind_some, pure]
  unfold transOf
  have hv : ∀ v : Option (List (Option Str)), (if v.getD [] = [] then (none : Option (List (Option Str))) else
      some ((none : Option (List (Option Str))).getD [] ++ (v.getD []).map normText)) = varsOf v := fun v => by
    unfold varsOf; simp
  cases hl : t.label with
  | none =>
    have : labelOf t = none := by unfold labelOf; rw [hl]
    simp [this, ← hv]
  | some l =>
    have : ∃ l', labelOf t = some l' := by
      unfold labelOf; rw [hl]; cases l <;> simp
    obtain ⟨l', hl'⟩ := this
    simp [hl', ← hv]

/-! ### Arcs -/

/-- The text of the arc type. -/
def typeOf : ArcKind → Option Str
  | .normal => none
  | .reset => some "reset".toList
  | .inhibitor => some "inhibitor".toList

/-- No property of the arc is written as an element that the importer takes for the weight or the type. -/
def PropsOk (a : ArcR) : Prop :=
  ∀ e ∈ a.props, e.1 ≠ "arctype".toList → endsWith e.1 "inscription".toList = false ∧ endsWith e.1 "arctype".toList = false

theorem fold_props (l : Dict Str Str) (s : Int × Option Str)
    (h : ∀ e ∈ l, endsWith e.1 "inscription".toList = false ∧ endsWith e.1 "arctype".toList = false) :
    (l.map fun e => norm (wrapText e.1 (some e.2))).foldlM arcStep s = some s := by
  induction l generalizing s with
  | nil => rfl
  | cons e l ih =>
    rw [List.map_cons, List.foldlM_cons]
    have : arcStep s (norm (wrapText e.1 (some e.2))) = some s := by
      rw [norm_wrap]
      unfold arcStep
      simp only [Xml.tag, (h e (by simp)).1, (h e (by simp)).2]
      rfl
    rw [this]
    simp only [Option.bind_eq_bind, Option.bind_some]
    exact ih s fun e he => h e (by simp [he])

/-- The children of an arc element. -/
def arcKids (a : ArcR) : List Xml :=
  (if a.weight > 1 then [wrapText "inscription".toList (some (str a.weight))] else []) ++
     (match a.kind with
      | .reset => [wrapText "arctype".toList (some "reset".toList)]
      | .inhibitor => [wrapText "arctype".toList (some "inhibitor".toList)]
      | .normal => []) ++
     ((a.props.filter fun e => !decide (e.1 = "arctype".toList)).map fun e => wrapText e.1 (some e.2))

theorem fold_arc (a : ArcR) (h : PropsOk a) :
    ((arcKids a).map norm).foldlM arcStep (1, none) = some (if a.weight > 1 then a.weight else 1, typeOf a.kind) := by
  unfold arcKids
  simp only [List.map_append, List.foldlM_append, List.map_map]
  have h1 : ((if a.weight > 1 then [wrapText "inscription".toList (some (str a.weight))] else []).map norm).foldlM
      arcStep (1, none) = some (if a.weight > 1 then a.weight else 1, none) := by
    split
    · simp only [List.map_cons, List.map_nil, List.foldlM_cons, List.foldlM_nil]
      rw [norm_wrap, normText_str]
      show ((do
        let n ← ((some (str a.weight)).bind intOf?).bind fun n => some n
        pure (n, none)) >>= fun s => pure s) = _
      simp [intOf_showInt]
    · rfl
  rw [h1]
  simp only [Option.bind_eq_bind, Option.bind_some]
  generalize (if a.weight > 1 then a.weight else 1) = w
  have h2 : (List.map norm (match a.kind with
      | .reset => [wrapText "arctype".toList (some "reset".toList)]
      | .inhibitor => [wrapText "arctype".toList (some "inhibitor".toList)]
      | .normal => [])).foldlM arcStep (w, none) = some (w, typeOf a.kind) := by
    cases a.kind <;> rfl
  rw [h2]
  simp only [Option.bind_some]
  refine fold_props _ _ ?_
  intro e he
  rw [List.mem_filter] at he
  exact h e he.1 (by simpa using he.2)

theorem arcXml_some {N : NetR} {hh : Str} {a : ArcR} {x : Xml} (h : arcXml N hh a = some x) :
    ∃ p t, N.places[a.p]? = some p ∧ N.trans[a.t]? = some t ∧
      x = el "arc".toList [("id".toList, hh), ("source".toList, if a.toT then p.name else t.name),
        ("target".toList, if a.toT then t.name else p.name)] none (arcKids a) := by
  unfold arcXml arcEnds at h
  simp only [Option.bind_eq_bind, Option.bind_eq_some_iff, pure, Option.some.injEq] at h
  obtain ⟨e, ⟨p, hp, t, ht, rfl⟩, rfl⟩ := h
  refine ⟨p, t, hp, ht, ?_⟩
  unfold arcKids
  cases a.toT <;> rfl

theorem arcXml_isSome (N : NetR) (hh : Str) (a : ArcR) (hp : a.p < N.places.length) (ht : a.t < N.trans.length) :
    ∃ x, arcXml N hh a = some x := by
  unfold arcXml arcEnds
  rw [List.getElem?_eq_getElem hp, List.getElem?_eq_getElem ht]
  exact ⟨_, rfl⟩

theorem dictIds_eq {ids : List Str} (h : ids.Nodup) : dictIds ids = ids.zipIdx := by
  unfold dictIds
  apply dictOf_nodup
  unfold Dict.keys
  rw [List.zipIdx_map_fst]
  exact h

theorem dictIds_get {ids : List Str} (h : ids.Nodup) {i : Nat} {a : Str} (ha : ids[i]? = some a) :
    Dict.get? (dictIds ids) a = some i := by
  rw [dictIds_eq h]
  apply Dict.get?_of_mem_nodup
  · unfold Dict.keys; rw [List.zipIdx_map_fst]; exact h
  · rw [List.mem_zipIdx_iff_getElem?]; exact ha

theorem dictIds_none {ids : List Str} (h : ids.Nodup) {a : Str} (ha : a ∉ ids) : Dict.get? (dictIds ids) a = none := by
  rw [dictIds_eq h]
  cases hg : Dict.get? (ids.zipIdx : Dict Str Nat) a with
  | none => rfl
  | some i =>
    have := Dict.mem_of_get? hg
    rw [List.mem_zipIdx_iff_getElem?] at this
    exact absurd (List.mem_of_getElem? this) ha

/-- An arc after the round trip. -/
def arcOf (a : ArcR) : ArcR := { a with weight := if a.weight > 1 then a.weight else 1, props := [] }

/-- No arc from a transition to a place such that the name of the transition is also that of a place and the name of the
    place also that of a transition. -/
def NoClash (N : NetR) (a : ArcR) : Prop :=
  a.toT = false → ∀ p t, N.places[a.p]? = some p → N.trans[a.t]? = some t →
    ¬ (t.name ∈ N.places.map (·.name) ∧ p.name ∈ N.trans.map (·.name))

/-- Reset and inhibitor arcs go from a place to a transition. -/
def KindOk (a : ArcR) : Prop := a.kind ≠ .normal → a.toT = true

theorem importArc_xml {N : NetR} (hP : (N.places.map (·.name)).Nodup) (hT : (N.trans.map (·.name)).Nodup)
    {hh : Str} {a : ArcR} {x : Xml} (h : arcXml N hh a = some x) (hp : PropsOk a) (hc : NoClash N a) (hk : KindOk a)
    (M : NetR) :
    importArc (dictIds (N.places.map (·.name))) (dictIds (N.trans.map (·.name))) M (norm x) =
      some { M with inh := M.inh || decide (a.kind = .inhibitor), res := M.res || decide (a.kind = .reset),
                    arcs := M.arcs ++ [arcOf a] } := by
  obtain ⟨p, t, hgp, hgt, rfl⟩ := arcXml_some h
  have hpd : Dict.get? (dictIds (N.places.map (·.name))) p.name = some a.p := by
    apply dictIds_get hP; rw [List.getElem?_map, hgp]; rfl
  have htd : Dict.get? (dictIds (N.trans.map (·.name))) t.name = some a.t := by
    apply dictIds_get hT; rw [List.getElem?_map, hgt]; rfl
  unfold importArc
  rw [norm_kids, norm_get, norm_get]
  have hs : ∀ s t ks, (el "arc".toList [("id".toList, hh), ("source".toList, s), ("target".toList, t)] none ks).get
    "source".toList = some s := fun s t ks => rfl
  have ht : ∀ s t ks, (el "arc".toList [("id".toList, hh), ("source".toList, s), ("target".toList, t)] none ks).get
    "target".toList = some t := fun s t ks => rfl
  rw [hs, ht]
  simp only [Xml.kids, fold_arc a hp, Option.bind_eq_bind, Option.bind_some]
  cases htoT : a.toT with
  | true =>
    simp only [if_true, hpd, htd]
    unfold arcKind arcOf typeOf
    cases hkd : a.kind <;> simp [htoT] <;> rfl
  | false =>
    have hkn : a.kind = .normal := by
      cases hkd : a.kind with
      | normal => rfl
      | _ => have := hk (by rw [hkd]; simp); rw [htoT] at this; cases this
    have hfst : Dict.get? (dictIds (N.places.map (·.name))) t.name = none ∨
        Dict.get? (dictIds (N.trans.map (·.name))) p.name = none := by
      by_cases h1 : t.name ∈ N.places.map (·.name)
      · right; apply dictIds_none hT; intro h2; exact hc htoT p t hgp hgt ⟨h1, h2⟩
      · left; exact dictIds_none hP h1
    simp only [Bool.false_eq_true, if_false]
    have hk' : arcKind M.inh M.res (typeOf a.kind) = some .normal := by rw [hkn]; rfl
    have ha : arcOf a = ⟨false, a.p, a.t, if a.weight > 1 then a.weight else 1, .normal, []⟩ := by
      unfold arcOf; rw [← htoT, ← hkn]
    split
    · rename_i h1 h2
      rcases hfst with hf | hf
      · rw [hf] at h1; cases h1
      · rw [hf] at h2; cases h2
    · simp only [hpd, htd, hk', Option.bind_some, pure, ha]
      simp [hkn]

theorem fold_arcs {N : NetR} (hP : (N.places.map (·.name)).Nodup) (hT : (N.trans.map (·.name)).Nodup) {hh : Nat → Str}
    (l : List (ArcR × Nat)) {xs : List Xml} (h : l.mapM (fun x => arcXml N (hh x.2) x.1) = some xs)
    (hp : ∀ a ∈ l, PropsOk a.1) (hc : ∀ a ∈ l, NoClash N a.1) (hk : ∀ a ∈ l, KindOk a.1) (M : NetR) :
    (xs.map norm).foldlM (importArc (dictIds (N.places.map (·.name))) (dictIds (N.trans.map (·.name)))) M =
      some { M with inh := M.inh || l.any (fun a => decide (a.1.kind = .inhibitor)),
                    res := M.res || l.any (fun a => decide (a.1.kind = .reset)),
                    arcs := M.arcs ++ l.map (fun a => arcOf a.1) } := by
  induction l generalizing xs M with
  | nil => simp at h; subst h; simp
  | cons a l ih =>
    rw [List.mapM_cons] at h
    simp only [Option.bind_eq_bind, Option.bind_eq_some_iff, pure, Option.some.injEq] at h
    obtain ⟨x, hx, xs', hxs, rfl⟩ := h
    rw [List.map_cons, List.foldlM_cons, importArc_xml hP hT hx (hp a (by simp)) (hc a (by simp)) (hk a (by simp))]
    simp only [Option.bind_eq_bind, Option.bind_some]
    rw [ih hxs (fun a h => hp a (by simp [h])) (fun a h => hc a (by simp [h])) (fun a h => hk a (by simp [h]))]
    simp [Bool.or_assoc]

theorem fold_arcs_tag {N : NetR} {hh : Nat → Str} {l : List (ArcR × Nat)} {xs : List Xml}
    (h : l.mapM (fun x => arcXml N (hh x.2) x.1) = some xs) : ∀ x ∈ xs, x.tag = "arc".toList := by
  induction l generalizing xs with
  | nil => simp at h; subst h; simp
  | cons a l ih =>
    rw [List.mapM_cons] at h
    simp only [Option.bind_eq_bind, Option.bind_eq_some_iff, pure, Option.some.injEq] at h
    obtain ⟨x, hx, xs', hxs, rfl⟩ := h
    intro y hy
    rw [List.mem_cons] at hy
    rcases hy with rfl | hy
    · obtain ⟨p, t, _, _, rfl⟩ := arcXml_some hx; rfl
    · exact ih hxs y hy

/-! ### Final marking and variables -/

theorem mapM_some {α β : Type} (f : α → β) (l : List α) : l.mapM (fun a => some (f a)) = some (l.map f) := by
  induction l with
  | nil => rfl
  | cons a l ih => simp [List.mapM_cons, ih]

theorem mapM_total {α β : Type} {f : α → Option β} {g : α → β} {l : List α} (h : ∀ a ∈ l, f a = some (g a)) :
    l.mapM f = some (l.map g) := by
  induction l with
  | nil => rfl
  | cons a l ih =>
    rw [List.mapM_cons, h a (by simp), ih fun a ha => h a (by simp [ha])]; rfl

/-- The element of one place of the final marking. -/
def finXml (N : NetR) (e : Nat × Int) : Option Xml := do
  let p ← N.places[e.1]?
  pure (el "place".toList [("idref".toList, p.name)] none [el "text".toList [] (some (str e.2)) []])

theorem finalStep_xml {N : NetR} (hP : (N.places.map (·.name)).Nodup) {e : Nat × Int} {x : Xml} (h : finXml N e = some x)
    (m : Mk) : finalStep (dictIds (N.places.map (·.name))) m (norm x) =
      some (if e.2 > 0 then Dict.set m e.1 e.2 else m) := by
  unfold finXml at h
  simp only [Option.bind_eq_bind, Option.bind_eq_some_iff, pure, Option.some.injEq] at h
  obtain ⟨p, hp, rfl⟩ := h
  have hpd : Dict.get? (dictIds (N.places.map (·.name))) p.name = some e.1 := by
    apply dictIds_get hP; rw [List.getElem?_map, hp]; rfl
  unfold finalStep
  rw [norm_kids, norm_get]
  have hi : (el "place".toList [("idref".toList, p.name)] none [el "text".toList [] (some (str e.2)) []]).get
    "idref".toList = some p.name := rfl
  rw [hi]
  simp only [Xml.kids, List.map_cons, List.map_nil, List.foldlM_cons, List.foldlM_nil, norm_tag, norm_text]
  have : endsWith (el "text".toList [] (some (str e.2)) []).tag "text".toList = true := rfl
  rw [if_pos this]
  simp only [Xml.text, normText_str, Option.bind_some, Option.bind_eq_bind, intOf_showInt, hpd]
  split <;> simp

theorem fold_final {N : NetR} (hP : (N.places.map (·.name)).Nodup) (l : Mk) {xs : List Xml}
    (h : l.mapM (finXml N) = some xs) (m : Mk) :
    (xs.map norm).foldlM (finalStep (dictIds (N.places.map (·.name)))) m =
      some ((l.filter fun e => decide (e.2 > 0)).foldl (fun d e => Dict.set d e.1 e.2) m) := by
  induction l generalizing xs m with
  | nil => simp at h; subst h; rfl
  | cons a l ih =>
    rw [List.mapM_cons] at h
    simp only [Option.bind_eq_bind, Option.bind_eq_some_iff, pure, Option.some.injEq] at h
    obtain ⟨x, hx, xs', hxs, rfl⟩ := h
    rw [List.map_cons, List.foldlM_cons, finalStep_xml hP hx]
    simp only [Option.bind_eq_bind, Option.bind_some]
    rw [ih hxs]
    by_cases h0 : a.2 > 0
    · simp [h0]
    · simp [h0]

theorem importVar_xml (v : Str × Option Str) :
    importVar (norm (el "variable".toList [("type".toList, v.1)] none [el "name".toList [] v.2 []])) =
      some (v.1, normText v.2) := rfl

/-! ### The whole document -/

theorem filter_all {α : Type} {p : α → Bool} {l : List α} (h : ∀ a ∈ l, p a = true) : l.filter p = l :=
  List.filter_eq_self.2 h

theorem filter_none {α : Type} {p : α → Bool} {l : List α} (h : ∀ a ∈ l, p a = false) : l.filter p = [] := by
  rw [List.filter_eq_nil_iff]; intro a ha; simp [h a ha]

/-- The children of the page. -/
def content (u : Nat → Str) (prom5 : Bool) (N : NetR) (im : Mk) (arcs : List Xml) : List Xml :=
  (N.places.zipIdx.map fun x => placeXml im x.2 x.1) ++ (N.trans.zipIdx.map fun x => transXml prom5 (u x.2) x.1) ++ arcs

theorem content_places (u : Nat → Str) (prom5 : Bool) (N : NetR) (im : Mk) {arcs : List Xml}
    (h : ∀ x ∈ arcs, x.tag = "arc".toList) :
    (((content u prom5 N im arcs).map norm).filter fun c => contains c.tag "place".toList) =
      N.places.zipIdx.map fun x => norm (placeXml im x.2 x.1) := by
  unfold content
  simp only [List.map_append, List.filter_append, List.map_map]
  rw [filter_all, filter_none, filter_none]
  · simp
  · intro x hx
    rw [List.mem_map] at hx
    obtain ⟨y, hy, rfl⟩ := hx
    rw [norm_tag, h y hy]; rfl
  · intro x hx
    rw [List.mem_map] at hx
    obtain ⟨y, hy, rfl⟩ := hx
    simp only [Function.comp_apply, norm_tag]; rfl
  · intro x hx
    rw [List.mem_map] at hx
    obtain ⟨y, hy, rfl⟩ := hx
    simp only [Function.comp_apply, norm_tag]; rfl

theorem content_trans (u : Nat → Str) (prom5 : Bool) (N : NetR) (im : Mk) {arcs : List Xml}
    (h : ∀ x ∈ arcs, x.tag = "arc".toList) :
    (((content u prom5 N im arcs).map norm).filter fun c => endsWith c.tag "transition".toList) =
      N.trans.zipIdx.map fun x => norm (transXml prom5 (u x.2) x.1) := by
  unfold content
  simp only [List.map_append, List.filter_append, List.map_map]
  rw [filter_none, filter_all, filter_none]
  · simp
  · intro x hx
    rw [List.mem_map] at hx
    obtain ⟨y, hy, rfl⟩ := hx
    rw [norm_tag, h y hy]; rfl
  · intro x hx
    rw [List.mem_map] at hx
    obtain ⟨y, hy, rfl⟩ := hx
    simp only [Function.comp_apply, norm_tag]; rfl
  · intro x hx
    rw [List.mem_map] at hx
    obtain ⟨y, hy, rfl⟩ := hx
    simp only [Function.comp_apply, norm_tag]; rfl

theorem content_arcs (u : Nat → Str) (prom5 : Bool) (N : NetR) (im : Mk) {arcs : List Xml}
    (h : ∀ x ∈ arcs, x.tag = "arc".toList) :
    (((content u prom5 N im arcs).map norm).filter fun c => endsWith c.tag "arc".toList) = arcs.map norm := by
  unfold content
  simp only [List.map_append, List.filter_append, List.map_map]
  rw [filter_none, filter_none, filter_all]
  · simp
  · intro x hx
    rw [List.mem_map] at hx
    obtain ⟨y, hy, rfl⟩ := hx
    rw [norm_tag, h y hy]; rfl
  · intro x hx
    rw [List.mem_map] at hx
    obtain ⟨y, hy, rfl⟩ := hx
    simp only [Function.comp_apply, norm_tag]; rfl
  · intro x hx
    rw [List.mem_map] at hx
    obtain ⟨y, hy, rfl⟩ := hx
    simp only [Function.comp_apply, norm_tag]; rfl

end Verif.Pnml
