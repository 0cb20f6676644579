import Verif.Xes.LinesProofs
import Verif.Xes.Theorems
set_option linter.unusedSectionVars false
/-
C61: exporting a log to XES and reading it with the importer `line_by_line`.
-/
namespace Verif.Xes
open Verif.DfgFile
variable {δ φ : Type} [DecidableEq δ] [DecidableEq φ]

/-- A dictionary with each value replaced by `f` of it. -/
def mapf {β : Type} (f : Val δ φ → β) (d : Dict Str (Val δ φ)) : Dict Str β := d.map fun e => (e.1, f e.2)

theorem mapf_set {β : Type} (f : Val δ φ → β) (d : Dict Str (Val δ φ)) (k : Str) (v : Val δ φ) :
    mapf f (Dict.set d k v) = Dict.set (mapf f d) k (f v) := by
  induction d with
  | nil => rfl
  | cons e d ih =>
    unfold mapf at ih ⊢
    simp only [Dict.set, List.map_cons]
    by_cases h : e.1 = k
    · simp [h]
    · simp [h, ih]

theorem mapf_foldl {β : Type} (f : Val δ φ → β) (l : List (Str × Val δ φ)) (d : Dict Str (Val δ φ)) :
    mapf f (l.foldl (fun d e => Dict.set d e.1 e.2) d) = l.foldl (fun d e => Dict.set d e.1 (f e.2)) (mapf f d) := by
  induction l generalizing d with
  | nil => rfl
  | cons e l ih => simp only [List.foldl_cons]; rw [ih, mapf_set]

section
variable (whole : φ → Option Int) (P : Val δ φ → Prop)

/-- The values met so far are stored under their class and satisfy `P`. -/
def GoodSeen (D : Seen δ φ) : Prop := ∀ k v, Dict.get? D k = some v → canon whole v = k ∧ P v

theorem intern_spec {β : Type} (f : Val δ φ → β) (hf : ∀ v w, P v → P w → canon whole v = canon whole w → f v = f w)
    {D : Seen δ φ} (hD : GoodSeen whole P D) {v : Val δ φ} (hv : P v) :
    GoodSeen whole P (intern whole D v).2 ∧ f (intern whole D v).1 = f v := by
  unfold intern
  cases h : Dict.get? D (canon whole v) with
  | some w => exact ⟨hD, hf _ _ (hD _ _ h).2 hv (hD _ _ h).1⟩
  | none =>
    refine ⟨?_, rfl⟩
    intro k w hk
    simp only [Dict.get?_set] at hk
    by_cases e : canon whole v = k
    · subst e
      rw [if_pos rfl] at hk
      cases hk
      exact ⟨rfl, hv⟩
    · first
        | rw [if_neg e] at hk
        | rw [if_neg (fun hh => e hh.symm)] at hk
      exact hD k w hk

theorem readAll_spec {β : Type} (f : Val δ φ → β) (hf : ∀ v w, P v → P w → canon whole v = canon whole w → f v = f w)
    (hs : ∀ s, P (.str s)) (sel : Option (List Str)) (kvs : List (Str × Val δ φ)) (hk : ∀ e ∈ kvs, P e.2)
    (d : Dict Str (Val δ φ)) {D : Seen δ φ} (hD : GoodSeen whole P D) :
    GoodSeen whole P (readAll whole sel kvs (d, D)).2 ∧
    mapf f (readAll whole sel kvs (d, D)).1 =
      (kvs.filter fun e => sel.all fun l => decide (e.1 ∈ l)).foldl (fun d e => Dict.set d e.1 (f e.2)) (mapf f d) := by
  induction kvs generalizing d D with
  | nil => exact ⟨hD, rfl⟩
  | cons e kvs ih =>
    have hk' := fun x hx => hk x (List.mem_cons_of_mem _ hx)
    by_cases hsel : (sel.all fun l => decide (e.1 ∈ l)) = true
    · have h1 := (intern_spec whole P f hf hD (hs e.1)).1
      have h2 := intern_spec whole P f hf h1 (hk e List.mem_cons_self)
      have := ih hk' (Dict.set d e.1 (intern whole (intern whole D (.str e.1)).2 e.2).1) h2.1
      rw [List.filter_cons_of_pos (a := e) (p := fun e : Str × Val δ φ => sel.all fun l => decide (e.1 ∈ l)) hsel]
      simp only [readAll, List.foldl_cons, if_pos hsel] at this ⊢
      refine ⟨this.1, ?_⟩
      rw [this.2, mapf_set, h2.2]
    · have := ih hk' d hD
      rw [List.filter_cons_of_neg (a := e) (p := fun e : Str × Val δ φ => sel.all fun l => decide (e.1 ∈ l)) hsel]
      simp only [readAll, List.foldl_cons, if_neg hsel] at this ⊢
      exact this

variable (C : Codec δ φ)

theorem readAll_hoisted {β : Type} (f : Val δ φ → β) (hf : ∀ v w, P v → P w → canon whole v = canon whole w → f v = f w)
    (hs : ∀ s, P (.str s)) (sel : Option (List Str)) (d : Attrs δ φ) (hk : ∀ e ∈ hoist C d, P e.2)
    {D : Seen δ φ} (hD : GoodSeen whole P D) :
    GoodSeen whole P (readAll whole sel (hoist C d) ([], D)).2 ∧
    mapf f (readAll whole sel (hoist C d) ([], D)).1 = mapf f (hoisted C sel d) := by
  obtain ⟨h1, h2⟩ := readAll_spec whole P f hf hs sel (hoist C d) hk [] hD
  refine ⟨h1, ?_⟩
  rw [h2]
  unfold hoisted dictOf
  rw [mapf_foldl]

theorem readEvents_hoisted {β : Type} (f : Val δ φ → β) (hf : ∀ v w, P v → P w → canon whole v = canon whole w → f v = f w)
    (hs : ∀ s, P (.str s)) (sel : Option (List Str)) (es : List (Attrs δ φ)) (hk : ∀ d ∈ es, ∀ e ∈ hoist C d, P e.2)
    {D : Seen δ φ} (hD : GoodSeen whole P D) :
    GoodSeen whole P (readEvents C whole sel es D).2 ∧
    (readEvents C whole sel es D).1.map (mapf f) = (es.map (hoisted C sel)).map (mapf f) := by
  induction es generalizing D with
  | nil => exact ⟨hD, rfl⟩
  | cons d es ih =>
    obtain ⟨h1, h2⟩ := readAll_hoisted whole P C f hf hs sel d (hk d List.mem_cons_self) hD
    obtain ⟨h3, h4⟩ := ih (fun x hx => hk x (List.mem_cons_of_mem _ hx)) h1
    exact ⟨h3, by simp only [readEvents, List.map_cons]; rw [h2, h4]⟩

theorem readTraces_hoisted {β : Type} (f : Val δ φ → β) (hf : ∀ v w, P v → P w → canon whole v = canon whole w → f v = f w)
    (hs : ∀ s, P (.str s)) (sel : Option (List Str)) (ts : List (Trace δ φ)) (hk : ∀ t ∈ ts, ∀ v ∈ traceVals C t, P v)
    {D : Seen δ φ} (hD : GoodSeen whole P D) :
    (readTraces C whole sel ts D).map (RTrace.mapVal f) = (ts.map (hoistedTrace C sel)).map (RTrace.mapVal f) := by
  induction ts generalizing D with
  | nil => rfl
  | cons t ts ih =>
    have hv := hk t List.mem_cons_self
    obtain ⟨h1, h2⟩ := readAll_hoisted whole P C f hf hs sel t.attrs (fun e he => hv e.2 (by
      unfold traceVals; exact List.mem_append_left _ (List.mem_map_of_mem he))) hD
    obtain ⟨h3, h4⟩ := readEvents_hoisted whole P C f hf hs sel t.events (fun d hd e he => hv e.2 (by
      unfold traceVals
      exact List.mem_append_right _ (List.mem_flatMap.2 ⟨d, hd, List.mem_map_of_mem he⟩))) h1
    simp only [readTraces, List.map_cons]
    rw [ih (fun x hx => hk x (List.mem_cons_of_mem _ hx)) (D := (readTrace C whole sel t D).2) h3]
    congr 1
    exact Prod.ext h2 h4

end

/-- The names outside of the traces have no line feed. -/
structure NoNewline (L : Log δ φ) (enc : Str) : Prop where
  enc : '\n' ∉ enc
  ext : ∀ e ∈ L.ext, '\n' ∉ e.1 ∧ '\n' ∉ e.2.1 ∧ '\n' ∉ e.2.2
  clas : ∀ e ∈ L.clas, '\n' ∉ e.1 ∧ ∀ k ∈ e.2, '\n' ∉ k
  glob : ∀ e ∈ L.glob, '\n' ∉ e.1

theorem nl_append {a b : Str} (ha : '\n' ∉ a) (hb : '\n' ∉ b) : '\n' ∉ a ++ b :=
  fun h => (List.mem_append.1 h).elim ha hb

theorem nl_safe {s : Str} (h : Safe s) : '\n' ∉ s := fun hc => h _ hc (by simp)

theorem nl_quote {s : Str} (h : Safe s) : '\n' ∉ quoteattr s := by
  rw [quoteattr_safe h]
  exact nl_append (a := ['"']) (by decide) (nl_append (nl_safe h) (by decide))

theorem nl_tag {t : Str} (h : Tag5 t) : '\n' ∉ t := by rcases h with rfl | rfl | rfl | rfl | rfl <;> decide

theorem nl_attr (C : Codec δ φ) {key : Str} {v : Val δ φ} (hk : Safe key) (hv : ValOk C key v) {stop : Str}
    (hs : '\n' ∉ stop) : '\n' ∉ attrBody C key v stop := by
  unfold attrBody
  refine nl_append (nl_append (nl_append (nl_append (nl_append (nl_tag (typeTag_tag5 _ _)) ?_)
    (nl_quote hk)) ?_) (nl_quote (valOk_safe hv))) hs
  · decide
  · decide

mutual
theorem nl_exportAttr (C : Codec δ φ) (n : Nat) (key : Str) :
    ∀ a : Attr δ φ, AttrOk C key a → ∀ l ∈ exportAttr C n key a, '\n' ∉ l.2
  | .none, _, l, hl => by simp [exportAttr] at hl
  | .atom v, h, l, hl => by
    simp only [AttrOk] at h
    simp only [exportAttr, List.mem_singleton] at hl
    rw [hl]
    exact nl_attr C h.1 h.2 (by decide)
  | .nested v cs, h, l, hl => by
    simp only [AttrOk] at h
    simp only [exportAttr, List.mem_cons, List.mem_append, List.mem_singleton, List.not_mem_nil, or_false] at hl
    rcases hl with rfl | hl | rfl
    · exact nl_attr C h.1 h.2.1 (by decide)
    · exact nl_exportAttrs C (n + 1) cs h.2.2 l hl
    · exact nl_append (a := ['/']) (by decide) (nl_tag (typeTag_tag5 key v))
theorem nl_exportAttrs (C : Codec δ φ) (n : Nat) :
    ∀ as : List (Str × Attr δ φ), AttrsOk C as → ∀ l ∈ exportAttrs C n as, '\n' ∉ l.2
  | [], _, l, hl => by simp [exportAttrs] at hl
  | (k, a) :: as, h, l, hl => by
    simp only [AttrsOk] at h
    simp only [exportAttrs, List.mem_append] at hl
    rcases hl with hl | hl
    · exact nl_exportAttr C n k a h.1 l hl
    · exact nl_exportAttrs C n as h.2 l hl
end

theorem nl_trace (C : Codec δ φ) (t : Trace δ φ) (h : DictOk C t.attrs ∧ ∀ e ∈ t.events, DictOk C e) :
    ∀ l ∈ exportTrace C t, '\n' ∉ l.2 := by
  intro l hl
  unfold exportTrace at hl
  simp only [List.mem_append, List.mem_singleton, List.mem_flatMap] at hl
  rcases hl with ((rfl | hl) | ⟨e, he, (rfl | hl) | rfl⟩) | rfl
  · decide
  · exact nl_exportAttrs C 2 _ h.1.2 l hl
  · decide
  · exact nl_exportAttrs C 3 _ (h.2 e he).2 l hl
  · decide
  · decide

/-- The lines before the traces. -/
def headerLines (C : Codec δ φ) (enc : Str) (L : Log δ φ) : List Line :=
  [(0, "?xml version=\"1.0\" encoding=\"".toList ++ enc ++ "\" ?".toList),
   (0, "log xes.version=\"1849-2016\" xes.features=\"nested-attributes\" xmlns=\"http://www.xes-standard.org/\"".toList)] ++
  L.ext.map (fun e => (1, extBody e)) ++ L.clas.map (fun c => (1, clasBody c)) ++ exportAttrs C 1 L.attrs ++
  L.glob.flatMap (fun g => [(1, globBody g.1)] ++ exportAttrs C 2 g.2 ++ [(1, "/global".toList)])

theorem exportLines_eq (C : Codec δ φ) (enc : Str) (L : Log δ φ) :
    exportLines C enc L = headerLines C enc L ++ (L.traces.flatMap (exportTrace C) ++ [(0, "/log".toList)]) := by
  unfold exportLines headerLines
  simp only [List.append_assoc]

/-- A first character other than `t` and `"`. -/
def HeadOk (b : Str) : Prop := ∃ c, b.head? = some c ∧ c ≠ 't' ∧ c ≠ '"'

theorem headOk_append {a : Str} (h : HeadOk a) (b : Str) : HeadOk (a ++ b) := by
  obtain ⟨c, hc, h1, h2⟩ := h
  refine ⟨c, ?_, h1, h2⟩
  cases a with
  | nil => cases hc
  | cons => exact hc

theorem headOk_tag {t : Str} (h : Tag5 t) : HeadOk t := by
  rcases h with rfl | rfl | rfl | rfl | rfl <;> exact ⟨_, rfl, by decide, by decide⟩

theorem headOk_body (C : Codec δ φ) (key : Str) (v : Val δ φ) (stop : Str) : HeadOk (attrBody C key v stop) := by
  unfold attrBody
  exact headOk_append (headOk_append (headOk_append (headOk_append (headOk_append (headOk_tag (typeTag_tag5 _ _)) _) _) _) _) _

mutual
theorem headOk_exportAttr (C : Codec δ φ) (n : Nat) (key : Str) :
    ∀ a : Attr δ φ, ∀ l ∈ exportAttr C n key a, HeadOk l.2
  | .none, l, hl => by simp [exportAttr] at hl
  | .atom v, l, hl => by
    simp only [exportAttr, List.mem_singleton] at hl
    rw [hl]
    exact headOk_body C _ _ _
  | .nested v cs, l, hl => by
    simp only [exportAttr, List.mem_cons, List.mem_append, List.mem_singleton, List.not_mem_nil, or_false] at hl
    rcases hl with rfl | hl | rfl
    · exact headOk_body C _ _ _
    · exact headOk_exportAttrs C (n + 1) cs l hl
    · exact ⟨'/', rfl, by decide, by decide⟩
theorem headOk_exportAttrs (C : Codec δ φ) (n : Nat) :
    ∀ as : List (Str × Attr δ φ), ∀ l ∈ exportAttrs C n as, HeadOk l.2
  | [], l, hl => by simp [exportAttrs] at hl
  | (k, a) :: as, l, hl => by
    simp only [exportAttrs, List.mem_append] at hl
    rcases hl with hl | hl
    · exact headOk_exportAttr C n k a l hl
    · exact headOk_exportAttrs C n as l hl
end

theorem headOk_header (C : Codec δ φ) (enc : Str) (L : Log δ φ) : ∀ l ∈ headerLines C enc L, HeadOk l.2 := by
  intro l hl
  unfold headerLines at hl
  simp only [List.mem_append, List.mem_cons, List.mem_singleton, List.mem_flatMap, List.mem_map, List.not_mem_nil,
    or_false] at hl
  rcases hl with ((((rfl | rfl) | ⟨e, he, rfl⟩) | ⟨e, he, rfl⟩) | hl) | ⟨g, hg, (rfl | hl) | rfl⟩
  · exact headOk_append (headOk_append ⟨_, rfl, by decide, by decide⟩ _) _
  · exact ⟨_, rfl, by decide, by decide⟩
  · rw [extBody_text]; exact headOk_append ⟨_, rfl, by decide, by decide⟩ _
  · rw [clasBody_text]; exact headOk_append ⟨_, rfl, by decide, by decide⟩ _
  · exact headOk_exportAttrs C 1 _ l hl
  · rw [globBody_text]; exact headOk_append ⟨_, rfl, by decide, by decide⟩ _
  · exact headOk_exportAttrs C 2 _ l hl
  · exact ⟨_, rfl, by decide, by decide⟩

theorem nl_lines (C : Codec δ φ) {enc : Str} {L : Log δ φ} (h : LogOk C L) (hn : NoNewline L enc) :
    ∀ l ∈ exportLines C enc L, '\n' ∉ l.2 := by
  intro l hl
  unfold exportLines at hl
  simp only [List.mem_append, List.mem_cons, List.mem_singleton, List.mem_flatMap, List.mem_map, List.not_mem_nil,
    or_false] at hl
  rcases hl with ((((((rfl | rfl) | ⟨e, he, rfl⟩) | ⟨e, he, rfl⟩) | hl) | ⟨g, hg, (rfl | hl) | rfl⟩) | ⟨t, ht, hl⟩) | rfl
  · exact nl_append (nl_append (by decide) hn.enc) (by decide)
  · decide
  · obtain ⟨h1, h2, h3⟩ := hn.ext e he
    unfold extBody
    exact nl_append (nl_append (nl_append (nl_append (nl_append (nl_append (by decide) h1) (by decide)) h2) (by decide)) h3)
      (by decide)
  · obtain ⟨h1, h2⟩ := hn.clas e he
    unfold clasBody
    refine nl_append (nl_append (nl_append (nl_append (by decide) h1) (by decide)) ?_) (by decide)
    intro hm
    rcases mem_joinSp hm with hm | ⟨k, hk', hm⟩
    · exact absurd hm (by decide)
    · exact h2 k hk' hm
  · exact nl_exportAttrs C 1 _ h.attrs.2 l hl
  · unfold globBody
    exact nl_append (nl_append (by decide) (hn.glob g hg)) (by decide)
  · exact nl_exportAttrs C 2 _ (h.glob g hg).2.2 l hl
  · decide
  · exact nl_trace C t (h.traces t ht) l hl
  · decide

theorem importLines_read (C : Codec δ φ) (whole : φ → Option Int) (sel : Option (List Str)) (max : Nat) {enc : Str}
    (henc : NoBr enc) {L : Log δ φ} (h : LogOk C L) (hn : NoNewline L enc) :
    importLines C whole sel max (Xes.exportText C enc L) = some ((readTraces C whole sel L.traces []).take (max + 1)) := by
  unfold importLines Xes.exportText
  rw [readlines_lines (nl_lines C h hn)]
  have hrun : (lrun C whole sel max ⟨[], none, none, [], false⟩ (exportLines C enc L)).map (·.log) =
      some ((readTraces C whole sel L.traces []).take (max + 1)) := by
    rw [exportLines_eq, lrun_append, lrun_header C whole sel max rfl]
    · simp only [Option.bind_some, lrun_append]
      obtain ⟨s, e1, e2, e3⟩ := lrun_traces C whole sel max L.traces
        (fun t ht => ⟨(h.traces t ht).1.2, fun e he => ((h.traces t ht).2 e he).2⟩) [] (Nat.zero_le _) []
      rw [e1]
      simp only [Option.bind_some, List.nil_append, List.length_nil, Nat.sub_zero] at e2 ⊢
      rcases e3 with e3 | ⟨e3, -⟩
      · rw [lrun_stop C whole sel max s e3]; simp [e2]
      · rw [lrun_header C whole sel max e3]
        · simp [e2]
        · intro l hl
          rw [List.mem_singleton] at hl
          subst hl
          exact ⟨_, rfl, by decide, by decide, by decide⟩
    · intro l hl
      obtain ⟨c, h1, h2, h3⟩ := headOk_header C enc L l hl
      refine ⟨c, h1, h2, h3, ?_⟩
      exact (bodyOk_lines C henc h l (by rw [exportLines_eq]; exact List.mem_append_left _ hl)).1.1
  exact hrun

end Verif.Xes

namespace Verif
open Verif.Xes Verif.DfgFile
variable {δ φ : Type} [DecidableEq δ] [DecidableEq φ]

/-- **C61** The importer reads the first `MAX_TRACES + 1` traces of an exported log, with the attributes that were asked for,
    children of nested attributes hoisted to the event or trace, and with every value equal (`==`) to the one written. -/
theorem C61_values (C : Codec δ φ) (whole : φ → Option Int) (sel : Option (List Str)) (max : Nat) (enc : Str)
    (henc : '<' ∉ enc ∧ '>' ∉ enc) (L : Log δ φ) (h : LogOk C L) (hn : NoNewline L enc) :
    ∃ ts, importLines C whole sel max (Xes.exportText C enc L) = some ts ∧
      ts.map (RTrace.mapVal (canon whole)) =
        (((L.traces.take (max + 1)).map (hoistedTrace C sel)).map (RTrace.mapVal (canon whole))) := by
  refine ⟨_, importLines_read C whole sel max henc h hn, ?_⟩
  rw [List.map_take, readTraces_hoisted whole (fun _ => True) C (canon whole) (fun _ _ _ _ e => e) (fun _ => trivial) sel
    L.traces (fun _ _ _ _ => trivial) (fun k v hk => by simp at hk), List.map_take, List.map_take]

/-- **C61** If the log has no two different values that are equal for Python, such as `1` and `True`, the values are exactly
    those written. -/
theorem C61_exact (C : Codec δ φ) (whole : φ → Option Int) (sel : Option (List Str)) (max : Nat) (enc : Str)
    (henc : '<' ∉ enc ∧ '>' ∉ enc) (L : Log δ φ) (h : LogOk C L) (hn : NoNewline L enc)
    (hv : ∀ v w, v ∈ L.traces.flatMap (traceVals C) → w ∈ L.traces.flatMap (traceVals C) →
      canon whole v = canon whole w → v = w) :
    importLines C whole sel max (Xes.exportText C enc L) = some ((L.traces.take (max + 1)).map (hoistedTrace C sel)) := by
  rw [importLines_read C whole sel max henc h hn]
  have hf : ∀ v w : Val δ φ, (v ∈ L.traces.flatMap (traceVals C) ∨ ∃ s, v = .str s) →
      (w ∈ L.traces.flatMap (traceVals C) ∨ ∃ s, w = .str s) → canon whole v = canon whole w → v = w := by
    have hstr : ∀ (s : Str) (w : Val δ φ), canon whole (.str s) = canon whole w → (.str s : Val δ φ) = w := by
      intro s w e
      cases w with
      | str t => simp only [canon, Canon.str.injEq] at e; rw [e]
      | int n => simp [canon] at e
      | bool n => simp [canon] at e
      | date n => simp [canon] at e
      | float f => simp only [canon] at e; split at e <;> cases e
    rintro v w (h1 | ⟨s, rfl⟩) (h2 | ⟨s', rfl⟩) e
    · exact hv v w h1 h2 e
    · exact (hstr s' v e.symm).symm
    · exact hstr s w e
    · exact hstr s _ e
  have := readTraces_hoisted whole (fun v => v ∈ L.traces.flatMap (traceVals C) ∨ ∃ s, v = .str s) C id
    (fun v w a b e => hf v w a b e) (fun s => Or.inr ⟨s, rfl⟩) sel L.traces
    (fun t ht v hv' => Or.inl (List.mem_flatMap.2 ⟨t, ht, hv'⟩)) (D := []) (fun k v hk => by simp at hk)
  have hid : ∀ t : RTrace δ φ, RTrace.mapVal id t = (t.attrs, t.events) := fun t => by
    unfold RTrace.mapVal
    simp
  have hinj : ∀ l l' : List (RTrace δ φ), l.map (RTrace.mapVal id) = l'.map (RTrace.mapVal id) → l = l' := by
    intro l
    induction l with
    | nil =>
      intro l' e
      cases l' with
      | nil => rfl
      | cons => cases e
    | cons a l ih =>
      intro l' e
      cases l' with
      | nil => cases e
      | cons b l' =>
        simp only [List.map_cons, List.cons.injEq, hid, Prod.mk.injEq] at e
        rw [ih l' (by simpa [hid] using e.2)]
        cases a; cases b
        simp only at e
        rw [e.1.1, e.1.2]
  rw [hinj _ _ this, List.map_take]

/-- **C61** For dictionaries without nested attributes and `None`, with strings as `concept:name`, what is read is the
    dictionary itself. -/
theorem C61_flat (C : Codec δ φ) (d : Attrs δ φ) (hd : (Dict.keys d).Nodup) (hf : Xes.Flat d) :
    (hoisted C none d).map (fun e => (e.1, Attr.atom e.2)) = d := by
  have key : ∃ l : List (Str × Val δ φ), hoist C d = l ∧ d = l.map (fun e => (e.1, Attr.atom e.2)) := by
    clear hd
    induction d with
    | nil => exact ⟨[], by simp [hoist], rfl⟩
    | cons e d ih =>
      obtain ⟨l, h1, h2⟩ := ih (fun x hx => hf x (List.mem_cons_of_mem _ hx))
      obtain ⟨v, hv, hs⟩ := hf e List.mem_cons_self
      obtain ⟨k, a⟩ := e
      simp only at hv hs
      subst hv
      have : readBackVal C k v = v := by
        unfold readBackVal
        by_cases hk : k = "concept:name".toList
        · obtain ⟨s, rfl⟩ := hs hk; rw [if_pos hk]; rfl
        · rw [if_neg hk]
      refine ⟨(k, v) :: l, ?_, ?_⟩
      · simp only [hoist, hoistA, this, h1, List.singleton_append]
      · rw [h2]; rfl
  obtain ⟨l, h1, h2⟩ := key
  have hk : Dict.keys d = Dict.keys l := by rw [h2]; simp [Dict.keys]
  unfold hoisted
  rw [h1, List.filter_eq_self.2 (by simp), dictOf_nodup (by rw [← hk]; exact hd)]
  exact h2.symm

/-- **C61, refuted for `MAX_TRACES`**: with a maximum of one trace, two traces are read. -/
theorem C61_max_refuted (C : Codec δ φ) (whole : φ → Option Int) :
    importLines C whole none 1 (Xes.exportText C "utf-8".toList ⟨[], [], [], [], [⟨[], []⟩, ⟨[], [[]]⟩, ⟨[], []⟩]⟩) =
      some [⟨[], []⟩, ⟨[], [[]]⟩] := by
  have h : LogOk C (⟨[], [], [], [], [⟨[], []⟩, ⟨[], [[]]⟩, ⟨[], []⟩]⟩ : Log δ φ) := by
    have hd : DictOk C ([] : Attrs δ φ) := ⟨by simp [Dict.keys], by simp [AttrsOk]⟩
    refine ⟨hd, by simp [Dict.keys], by simp, by simp [Dict.keys], by simp, by simp [Dict.keys], by simp, ?_⟩
    intro t ht
    simp only [List.mem_cons, List.not_mem_nil, or_false] at ht
    rcases ht with rfl | rfl | rfl
    · exact ⟨hd, by simp⟩
    · exact ⟨hd, fun e he => by rw [List.mem_singleton.1 he]; exact hd⟩
    · exact ⟨hd, by simp⟩
  rw [C61_exact C whole none 1 _ (by decide) _ h ⟨by decide, by simp, by simp, by simp⟩ (by
    intro v w hv
    simp [traceVals, hoist] at hv)]
  simp [hoistedTrace, hoisted, hoist, dictOf]

/-- **C61, refuted for the types of values**: a Boolean `True` that is read after an integer `1` becomes an integer. -/
theorem C61_type_refuted :
    importLines noCodec (fun _ => none) none 10 (Xes.exportText noCodec "utf-8".toList
      (oneTrace [] [[("n".toList, .atom (.int 1)), ("b".toList, .atom (.bool true))]])) =
      some [⟨[], [[("n".toList, .int 1), ("b".toList, .int 1)]]⟩] := by
  simp [Xes.exportText, exportLines, oneTrace, exportTrace, exportAttrs, exportAttr, attrBody, typeTag, valueStr, showInt,
    showNat]
  rfl

/-- **C61, refuted for nested attributes**: a child with the name of an attribute of the event replaces it. -/
theorem C61_nested_refuted :
    importLines noCodec (fun _ => none) none 10 (Xes.exportText noCodec "utf-8".toList
      (oneTrace [] [[("concept:name".toList, .atom (.str "a".toList)),
        ("k".toList, .nested (.str "x".toList) [("concept:name".toList, .atom (.str "b".toList))])]])) =
      some [⟨[], [[("concept:name".toList, .str "b".toList), ("k".toList, .str "x".toList)]]⟩] := by
  rfl

/-- The hypotheses of C61 are met. -/
example : NoNewline sampleLog "utf-8".toList := by
  refine ⟨by decide, ?_, ?_, ?_⟩ <;>
  · intro e he
    simp only [sampleLog, List.mem_singleton] at he
    subst he
    decide

end Verif
