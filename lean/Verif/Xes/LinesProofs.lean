import Verif.Xes.LinesModel
import Verif.Xes.Text
set_option linter.unusedSectionVars false
/-
Proofs about the importer `line_by_line`.
-/
namespace Verif.Xes
open Verif Verif.DfgFile
variable {δ φ : Type} [DecidableEq δ] [DecidableEq φ]

/-! ### Lines of the text -/

theorem render_isRow {l : Line} (h : '\n' ∉ l.2) : IsRow (render l) := by
  refine ⟨List.replicate l.1 '\t' ++ '<' :: (l.2 ++ ['>']), ?_, ?_⟩
  · intro hm
    rcases List.mem_append.1 hm with hm | hm
    · exact absurd (List.eq_of_mem_replicate hm) (by decide)
    · rcases List.mem_cons.1 hm with hm | hm
      · exact absurd hm (by decide)
      · rcases List.mem_append.1 hm with hm | hm
        · exact h hm
        · exact absurd hm (by decide)
  · unfold render; simp

theorem readlines_lines {ls : List Line} (h : ∀ l ∈ ls, '\n' ∉ l.2) : readlines (ls.flatMap render) = ls.map render := by
  rw [List.flatMap_def]
  apply readlines_flatten
  intro r hr
  obtain ⟨l, hl, rfl⟩ := List.mem_map.1 hr
  exact render_isRow (h l hl)

theorem tabs_no {n : Nat} {c : Char} (h : c ≠ '\t') : c ∉ List.replicate n '\t' := fun hm => h (List.eq_of_mem_replicate hm)

/-- The last part of a text after `<`. -/
def lastTag (s : Str) : Str := ((split '<' s).getLast?).getD []

theorem lastTag_eq {n : Nat} {b : Str} (h : '<' ∉ b) : lastTag (List.replicate n '\t' ++ '<' :: b) = b := by
  unfold lastTag
  rw [split_cons (tabs_no (by decide)), split_none h]
  rfl

/-- A line whose content has no quotes. -/
theorem plain_content {l : Line} (h : '"' ∉ l.2) : split '"' (render l) = [render l] := by
  apply split_none
  unfold render
  intro hm
  rcases List.mem_append.1 hm with hm | hm
  · exact tabs_no (by decide) hm
  · rcases List.mem_cons.1 hm with hm | hm
    · exact absurd hm (by decide)
    · rcases List.mem_append.1 hm with hm | hm
      · exact h hm
      · exact absurd hm (by decide)

theorem plain_tag {l : Line} (h : '<' ∉ l.2) : lastTag (render l) = l.2 ++ ['>', '\n'] := by
  unfold render
  apply lastTag_eq
  intro hm
  rcases List.mem_append.1 hm with hm | hm
  · exact h hm
  · exact absurd hm (by decide)

theorem attr_content (n : Nat) {tag k x stop : Str} (ht : Tag5 tag) (hk : '"' ∉ k) (hx : '"' ∉ x) (hs : '"' ∉ stop) :
    split '"' (render (n, elText tag k x stop)) =
      [List.replicate n '\t' ++ '<' :: (tag ++ ' ' :: "key=".toList), k, " value=".toList, x, stop ++ ['>', '\n']] := by
  have e : render (n, elText tag k x stop) = (List.replicate n '\t' ++ '<' :: (tag ++ ' ' :: "key=".toList)) ++ '"' ::
      (k ++ '"' :: (" value=".toList ++ '"' :: (x ++ '"' :: (stop ++ ['>', '\n'])))) := by
    unfold render elText
    simp only [List.append_assoc, List.cons_append]
  rw [e]
  apply split5 _ hk (by decide) hx
  · intro hm
    rcases List.mem_append.1 hm with hm | hm
    · exact hs hm
    · exact absurd hm (by decide)
  · intro hm
    rcases List.mem_append.1 hm with hm | hm
    · exact tabs_no (by decide) hm
    · rcases List.mem_cons.1 hm with hm | hm
      · exact absurd hm (by decide)
      · rcases List.mem_append.1 hm with hm | hm
        · exact (tag5_clean ht).2.2.2.1 hm
        · exact absurd hm (by decide)

theorem attr_tag (n : Nat) {tag : Str} (ht : Tag5 tag) :
    lastTag (List.replicate n '\t' ++ '<' :: (tag ++ ' ' :: "key=".toList)) = tag ++ ' ' :: "key=".toList := by
  apply lastTag_eq
  intro hm
  rcases List.mem_append.1 hm with hm | hm
  · exact (tag5_clean ht).2.2.2.2.1.1 hm
  · exact absurd hm (by decide)

theorem lineVal_value {C : Codec δ φ} {key : Str} {v : Val δ φ} (h : ValOk C key v) :
    lineVal C (typeTag key v ++ ' ' :: "key=".toList) (valueStr C v (typeTag key v)) = some (readBackVal C key v) := by
  have hr := readVal_value h
  revert hr
  rcases typeTag_tag5 key v with ht | ht | ht | ht | ht <;> rw [ht] <;> intro hr
  · unfold readVal at hr
    rw [if_pos rfl] at hr
    unfold lineVal
    rw [if_pos (by decide)]
    simpa using hr
  · unfold readVal at hr
    rw [if_neg (by decide), if_pos rfl] at hr
    unfold lineVal
    rw [if_neg (by decide), if_pos (by decide)]
    simpa using hr
  · unfold readVal at hr
    rw [if_neg (by decide), if_neg (by decide), if_pos rfl] at hr
    unfold lineVal
    rw [if_neg (by decide), if_neg (by decide), if_pos (by decide)]
    simpa using hr
  · unfold readVal at hr
    rw [if_neg (by decide), if_neg (by decide), if_neg (by decide), if_pos rfl] at hr
    unfold lineVal
    rw [if_neg (by decide), if_neg (by decide), if_neg (by decide), if_pos (by decide)]
    simpa using hr
  · unfold readVal at hr
    rw [if_neg (by decide), if_neg (by decide), if_neg (by decide), if_neg (by decide), if_pos rfl] at hr
    unfold lineVal
    rw [if_neg (by decide), if_neg (by decide), if_neg (by decide), if_neg (by decide), if_pos (by decide)]
    simpa using hr

/-- Reading several attributes into a dictionary. -/
def readAll (whole : φ → Option Int) (sel : Option (List Str)) (kvs : List (Str × Val δ φ))
    (s : Dict Str (Val δ φ) × Seen δ φ) : Dict Str (Val δ φ) × Seen δ φ :=
  kvs.foldl (fun s e =>
    if sel.all (fun l => decide (e.1 ∈ l)) then
      (Dict.set s.1 e.1 (intern whole (intern whole s.2 (.str e.1)).2 e.2).1,
        (intern whole (intern whole s.2 (.str e.1)).2 e.2).2)
    else s) s

theorem readAll_append (whole : φ → Option Int) (sel : Option (List Str)) (a b : List (Str × Val δ φ))
    (s : Dict Str (Val δ φ) × Seen δ φ) : readAll whole sel (a ++ b) s = readAll whole sel b (readAll whole sel a s) := by
  unfold readAll; rw [List.foldl_append]

variable (C : Codec δ φ) (whole : φ → Option Int) (sel : Option (List Str)) (max : Nat)

theorem readKV_attr (n : Nat) {key : Str} {v : Val δ φ} (hv : ValOk C key v) (stop : Str)
    (D : Seen δ φ) (d : Dict Str (Val δ φ)) :
    ∃ r, readKV C whole sel (typeTag key v ++ ' ' :: "key=".toList)
      [List.replicate n '\t' ++ '<' :: (typeTag key v ++ ' ' :: "key=".toList), key, " value=".toList,
        valueStr C v (typeTag key v), stop] D = some r ∧
      (put d r.1, r.2) = readAll whole sel [(key, readBackVal C key v)] (d, D) := by
  unfold readKV
  simp only [List.getElem?_cons_succ, List.getElem?_cons_zero, Option.bind_eq_bind, Option.bind_some]
  by_cases hs : sel.all (fun l => decide (key ∈ l)) = true
  · rw [if_pos hs, lineVal_value hv]
    simp only [Option.bind_some, pure]
    refine ⟨_, rfl, ?_⟩
    simp only [readAll, List.foldl_cons, List.foldl_nil, if_pos hs, put]
  · rw [if_neg hs]
    refine ⟨_, rfl, ?_⟩
    simp only [readAll, List.foldl_cons, List.foldl_nil, if_neg hs, put]

theorem lineStep_event_attr (s : LSt δ φ) (hst : s.stop = false) (t : RTrace δ φ) (ht : s.trace = some t)
    (e : Dict Str (Val δ φ)) (he : s.event = some e) (n : Nat) {key : Str} {v : Val δ φ} (hk : Safe key)
    (hv : ValOk C key v) {stop : Str} (hs : '"' ∉ stop) :
    lineStep C whole sel max s (render (n, attrBody C key v stop)) =
      some { s with event := some (readAll whole sel [(key, readBackVal C key v)] (e, s.seen)).1,
                    seen := (readAll whole sel [(key, readBackVal C key v)] (e, s.seen)).2 } := by
  rw [attrBody_text C hk (valOk_safe hv)]
  unfold lineStep
  rw [if_neg (by simp [hst])]
  simp only [attr_content n (typeTag_tag5 key v) (safe_no hk).2.2 (safe_no (valOk_safe hv)).2.2 hs, ht, he]
  have htag := attr_tag n (typeTag_tag5 key v)
  unfold lastTag at htag
  rw [if_pos (by simp), List.headD_cons, htag]
  obtain ⟨r, h1, h2⟩ := readKV_attr C whole sel n hv (stop ++ ['>', '\n']) s.seen e
  rw [h1, ← h2]
  rfl

theorem not_event_tag {tag : Str} (ht : Tag5 tag) :
    startsWith (tag ++ ' ' :: "key=".toList) "event".toList = false := by
  rcases ht with rfl | rfl | rfl | rfl | rfl <;> decide

theorem lineStep_trace_attr (s : LSt δ φ) (hst : s.stop = false) (t : RTrace δ φ) (ht : s.trace = some t)
    (he : s.event = none) (n : Nat) {key : Str} {v : Val δ φ} (hk : Safe key)
    (hv : ValOk C key v) {stop : Str} (hs : '"' ∉ stop) :
    lineStep C whole sel max s (render (n, attrBody C key v stop)) =
      some { s with trace := some { t with attrs := (readAll whole sel [(key, readBackVal C key v)] (t.attrs, s.seen)).1 },
                    seen := (readAll whole sel [(key, readBackVal C key v)] (t.attrs, s.seen)).2 } := by
  rw [attrBody_text C hk (valOk_safe hv)]
  unfold lineStep
  rw [if_neg (by simp [hst])]
  simp only [attr_content n (typeTag_tag5 key v) (safe_no hk).2.2 (safe_no (valOk_safe hv)).2.2 hs, ht, he]
  have htag := attr_tag n (typeTag_tag5 key v)
  unfold lastTag at htag
  rw [List.headD_cons, htag, not_event_tag (typeTag_tag5 key v), if_neg (by decide), if_pos (by simp)]
  obtain ⟨r, h1, h2⟩ := readKV_attr C whole sel n hv (stop ++ ['>', '\n']) s.seen t.attrs
  rw [h1, ← h2]
  rfl

/-- A closing tag of a nested attribute. -/
theorem lineStep_close (s : LSt δ φ) (t : RTrace δ φ) (ht : s.trace = some t) {tag : Str} (h5 : Tag5 tag) :
    lineStep C whole sel max s (render (0, '/' :: tag)) = some s := by
  unfold lineStep
  by_cases hst : s.stop = true
  · rw [if_pos hst]
  rw [if_neg hst]
  have hc := plain_content (l := (0, '/' :: tag)) (by
    simp only [List.mem_cons, not_or]; exact ⟨by decide, (tag5_clean h5).2.2.2.1⟩)
  have htag := plain_tag (l := (0, '/' :: tag)) (by
    simp only [List.mem_cons, not_or]; exact ⟨by decide, (tag5_clean h5).2.2.2.2.1.1⟩)
  unfold lastTag at htag
  simp only [hc, ht]
  rw [List.headD_cons, htag]
  cases he : s.event with
  | some e =>
    simp only
    rw [if_neg (by simp), if_neg (by rcases h5 with rfl | rfl | rfl | rfl | rfl <;> decide)]
  | none =>
    simp only
    rw [if_neg (by rcases h5 with rfl | rfl | rfl | rfl | rfl <;> decide), if_neg (by simp),
      if_neg (by rcases h5 with rfl | rfl | rfl | rfl | rfl <;> decide)]

/-- The lines one after the other. -/
def lrun (s : LSt δ φ) (ls : List Line) : Option (LSt δ φ) := (ls.map render).foldlM (lineStep C whole sel max) s

theorem lrun_nil (s : LSt δ φ) : lrun C whole sel max s [] = some s := rfl

theorem lrun_cons (s : LSt δ φ) (l : Line) (ls : List Line) : lrun C whole sel max s (l :: ls) =
    (lineStep C whole sel max s (render l)).bind fun s' => lrun C whole sel max s' ls := rfl

theorem lrun_append (s : LSt δ φ) (a b : List Line) : lrun C whole sel max s (a ++ b) =
    (lrun C whole sel max s a).bind fun s' => lrun C whole sel max s' b := by
  unfold lrun; rw [List.map_append, List.foldlM_append]; rfl

theorem lrun_stop (s : LSt δ φ) (h : s.stop = true) (ls : List Line) : lrun C whole sel max s ls = some s := by
  induction ls with
  | nil => rfl
  | cons l ls ih =>
    rw [lrun_cons]
    have : lineStep C whole sel max s (render l) = some s := by unfold lineStep; rw [if_pos h]
    rw [this]; exact ih

mutual
theorem lrun_event_attr (n : Nat) (key : Str) (log : List (RTrace δ φ)) (t : RTrace δ φ) :
    ∀ (a : Attr δ φ), AttrOk C key a → ∀ (e : Dict Str (Val δ φ)) (D : Seen δ φ),
      lrun C whole sel max ⟨log, some t, some e, D, false⟩ (exportAttr C n key a) =
        some ⟨log, some t, some (readAll whole sel (hoistA C key a) (e, D)).1,
          (readAll whole sel (hoistA C key a) (e, D)).2, false⟩
  | .none, _, e, D => by simp [exportAttr, hoistA, lrun_nil, readAll]
  | .atom v, h, e, D => by
    simp only [AttrOk] at h
    simp only [exportAttr, lrun_cons, lrun_nil, hoistA]
    rw [lineStep_event_attr C whole sel max _ rfl t rfl e rfl n h.1 h.2 (by decide)]
    rfl
  | .nested v cs, h, e, D => by
    simp only [AttrOk] at h
    simp only [exportAttr, lrun_cons, lrun_append, lrun_nil, hoistA]
    rw [lineStep_event_attr C whole sel max _ rfl t rfl e rfl n h.1 h.2.1 (by decide)]
    simp only [Option.bind_some]
    rw [lrun_event_attrs (n + 1) log t cs h.2.2]
    simp only [Option.bind_some]
    rw [lineStep_close C whole sel max _ t rfl (typeTag_tag5 key v)]
    simp only [Option.bind_some, Option.some.injEq, LSt.mk.injEq, true_and, and_true]
    have := readAll_append whole sel [(key, readBackVal C key v)] (hoist C cs) (e, D)
    simp only [List.singleton_append] at this
    rw [this]
    exact ⟨rfl, rfl⟩
theorem lrun_event_attrs (n : Nat) (log : List (RTrace δ φ)) (t : RTrace δ φ) :
    ∀ (as : List (Str × Attr δ φ)), AttrsOk C as → ∀ (e : Dict Str (Val δ φ)) (D : Seen δ φ),
      lrun C whole sel max ⟨log, some t, some e, D, false⟩ (exportAttrs C n as) =
        some ⟨log, some t, some (readAll whole sel (hoist C as) (e, D)).1,
          (readAll whole sel (hoist C as) (e, D)).2, false⟩
  | [], _, e, D => by simp [exportAttrs, hoist, lrun_nil, readAll]
  | (k, a) :: as, h, e, D => by
    simp only [AttrsOk] at h
    simp only [exportAttrs, lrun_append, hoist, readAll_append]
    rw [lrun_event_attr n k log t a h.1]
    simp only [Option.bind_some]
    rw [lrun_event_attrs n log t as h.2]
end

mutual
theorem lrun_trace_attr (n : Nat) (key : Str) (log : List (RTrace δ φ)) (evs : List (Dict Str (Val δ φ))) :
    ∀ (a : Attr δ φ), AttrOk C key a → ∀ (e : Dict Str (Val δ φ)) (D : Seen δ φ),
      lrun C whole sel max ⟨log, some ⟨e, evs⟩, none, D, false⟩ (exportAttr C n key a) =
        some ⟨log, some ⟨(readAll whole sel (hoistA C key a) (e, D)).1, evs⟩, none,
          (readAll whole sel (hoistA C key a) (e, D)).2, false⟩
  | .none, _, e, D => by simp [exportAttr, hoistA, lrun_nil, readAll]
  | .atom v, h, e, D => by
    simp only [AttrOk] at h
    simp only [exportAttr, lrun_cons, lrun_nil, hoistA]
    rw [lineStep_trace_attr C whole sel max _ rfl _ rfl rfl n h.1 h.2 (by decide)]
    rfl
  | .nested v cs, h, e, D => by
    simp only [AttrOk] at h
    simp only [exportAttr, lrun_cons, lrun_append, lrun_nil, hoistA]
    rw [lineStep_trace_attr C whole sel max _ rfl _ rfl rfl n h.1 h.2.1 (by decide)]
    simp only [Option.bind_some]
    rw [lrun_trace_attrs (n + 1) log evs cs h.2.2]
    simp only [Option.bind_some]
    rw [lineStep_close C whole sel max _ _ rfl (typeTag_tag5 key v)]
    simp only [Option.bind_some, Option.some.injEq, LSt.mk.injEq, true_and, and_true]
    have := readAll_append whole sel [(key, readBackVal C key v)] (hoist C cs) (e, D)
    simp only [List.singleton_append] at this
    rw [this]
    exact ⟨rfl, rfl⟩
theorem lrun_trace_attrs (n : Nat) (log : List (RTrace δ φ)) (evs : List (Dict Str (Val δ φ))) :
    ∀ (as : List (Str × Attr δ φ)), AttrsOk C as → ∀ (e : Dict Str (Val δ φ)) (D : Seen δ φ),
      lrun C whole sel max ⟨log, some ⟨e, evs⟩, none, D, false⟩ (exportAttrs C n as) =
        some ⟨log, some ⟨(readAll whole sel (hoist C as) (e, D)).1, evs⟩, none,
          (readAll whole sel (hoist C as) (e, D)).2, false⟩
  | [], _, e, D => by simp [exportAttrs, hoist, lrun_nil, readAll]
  | (k, a) :: as, h, e, D => by
    simp only [AttrsOk] at h
    simp only [exportAttrs, lrun_append, hoist, readAll_append]
    rw [lrun_trace_attr n k log evs a h.1]
    simp only [Option.bind_some]
    rw [lrun_trace_attrs n log evs as h.2]
end

/-! ### Events and traces -/

theorem step_event_open (log : List (RTrace δ φ)) (t : RTrace δ φ) (D : Seen δ φ) :
    lineStep C whole sel max ⟨log, some t, none, D, false⟩ (render (2, "event".toList)) =
      some ⟨log, some t, some [], D, false⟩ := by
  have hc := plain_content (l := (2, "event".toList)) (by decide)
  have htag := plain_tag (l := (2, "event".toList)) (by decide)
  unfold lastTag at htag
  unfold lineStep
  rw [if_neg (by simp)]
  simp only [hc]
  rw [List.headD_cons, htag, if_pos (by decide)]

theorem step_event_close (log : List (RTrace δ φ)) (t : RTrace δ φ) (e : Dict Str (Val δ φ)) (D : Seen δ φ) :
    lineStep C whole sel max ⟨log, some t, some e, D, false⟩ (render (2, "/event".toList)) =
      some ⟨log, some { t with events := t.events ++ [e] }, none, D, false⟩ := by
  have hc := plain_content (l := (2, "/event".toList)) (by decide)
  have htag := plain_tag (l := (2, "/event".toList)) (by decide)
  unfold lastTag at htag
  unfold lineStep
  rw [if_neg (by simp)]
  simp only [hc]
  rw [List.headD_cons, htag, if_neg (by simp), if_pos (by decide)]

theorem step_trace_open (log : List (RTrace δ φ)) (D : Seen δ φ) :
    lineStep C whole sel max ⟨log, none, none, D, false⟩ (render (1, "trace".toList)) =
      some ⟨log, some ⟨[], []⟩, none, D, false⟩ := by
  have hc := plain_content (l := (1, "trace".toList)) (by decide)
  have htag := plain_tag (l := (1, "trace".toList)) (by decide)
  unfold lastTag at htag
  unfold lineStep
  rw [if_neg (by simp)]
  simp only [hc]
  rw [List.headD_cons, htag, if_pos (by decide)]

theorem step_trace_close (log : List (RTrace δ φ)) (t : RTrace δ φ) (D : Seen δ φ) :
    lineStep C whole sel max ⟨log, some t, none, D, false⟩ (render (1, "/trace".toList)) =
      if (log ++ [t]).length > max then some ⟨log ++ [t], some t, none, D, true⟩
      else some ⟨log ++ [t], none, none, D, false⟩ := by
  have hc := plain_content (l := (1, "/trace".toList)) (by decide)
  have htag := plain_tag (l := (1, "/trace".toList)) (by decide)
  unfold lastTag at htag
  unfold lineStep
  rw [if_neg (by simp)]
  simp only [hc]
  rw [List.headD_cons, htag, if_neg (by decide), if_neg (by simp), if_pos (by decide)]

/-- The events of a trace, with the values met so far. -/
def readEvents : List (Attrs δ φ) → Seen δ φ → List (Dict Str (Val δ φ)) × Seen δ φ
  | [], D => ([], D)
  | e :: es, D =>
    ((readAll whole sel (hoist C e) ([], D)).1 :: (readEvents es (readAll whole sel (hoist C e) ([], D)).2).1,
      (readEvents es (readAll whole sel (hoist C e) ([], D)).2).2)

/-- A trace, with the values met so far. -/
def readTrace (t : Trace δ φ) (D : Seen δ φ) : RTrace δ φ × Seen δ φ :=
  (⟨(readAll whole sel (hoist C t.attrs) ([], D)).1,
    (readEvents C whole sel t.events (readAll whole sel (hoist C t.attrs) ([], D)).2).1⟩,
   (readEvents C whole sel t.events (readAll whole sel (hoist C t.attrs) ([], D)).2).2)

/-- Several traces. -/
def readTraces : List (Trace δ φ) → Seen δ φ → List (RTrace δ φ)
  | [], _ => []
  | t :: ts, D => (readTrace C whole sel t D).1 :: readTraces ts (readTrace C whole sel t D).2

theorem lrun_events (log : List (RTrace δ φ)) (A : Dict Str (Val δ φ)) (es : List (Attrs δ φ))
    (he : ∀ e ∈ es, AttrsOk C e) (evs : List (Dict Str (Val δ φ))) (D : Seen δ φ) :
    lrun C whole sel max ⟨log, some ⟨A, evs⟩, none, D, false⟩
      (es.flatMap fun e => [(2, "event".toList)] ++ exportAttrs C 3 e ++ [(2, "/event".toList)]) =
      some ⟨log, some ⟨A, evs ++ (readEvents C whole sel es D).1⟩, none, (readEvents C whole sel es D).2, false⟩ := by
  induction es generalizing evs D with
  | nil => simp [lrun_nil, readEvents]
  | cons e es ih =>
    simp only [List.flatMap_cons, lrun_append, lrun_cons, lrun_nil]
    rw [step_event_open]
    simp only [Option.bind_some]
    rw [lrun_event_attrs C whole sel max 3 log _ e (he e List.mem_cons_self)]
    simp only [Option.bind_some]
    rw [step_event_close]
    simp only [Option.bind_some]
    rw [ih (fun x hx => he x (List.mem_cons_of_mem _ hx))]
    simp [readEvents]

theorem lrun_trace (log : List (RTrace δ φ)) (t : Trace δ φ) (ht : AttrsOk C t.attrs) (he : ∀ e ∈ t.events, AttrsOk C e)
    (D : Seen δ φ) :
    lrun C whole sel max ⟨log, none, none, D, false⟩ (exportTrace C t) =
      if (log ++ [(readTrace C whole sel t D).1]).length > max then
        some ⟨log ++ [(readTrace C whole sel t D).1], some (readTrace C whole sel t D).1, none,
          (readTrace C whole sel t D).2, true⟩
      else some ⟨log ++ [(readTrace C whole sel t D).1], none, none, (readTrace C whole sel t D).2, false⟩ := by
  unfold exportTrace
  rw [lrun_append, lrun_append, lrun_append]
  simp only [lrun_cons, lrun_nil]
  rw [step_trace_open]
  simp only [Option.bind_some]
  rw [lrun_trace_attrs C whole sel max 2 log [] t.attrs ht]
  simp only [Option.bind_some]
  rw [lrun_events C whole sel max log _ t.events he]
  simp only [Option.bind_some]
  rw [step_trace_close]
  have e : ∀ o : Option (LSt δ φ), (o.bind fun s' => some s') = o := fun o => by cases o <;> rfl
  rw [e]
  rfl

theorem lrun_traces (ts : List (Trace δ φ)) (h : ∀ t ∈ ts, AttrsOk C t.attrs ∧ ∀ e ∈ t.events, AttrsOk C e)
    (log : List (RTrace δ φ)) (hl : log.length ≤ max) (D : Seen δ φ) :
    ∃ s, lrun C whole sel max ⟨log, none, none, D, false⟩ (ts.flatMap (exportTrace C)) = some s ∧
      s.log = log ++ (readTraces C whole sel ts D).take (max + 1 - log.length) ∧
      (s.stop = true ∨ (s.trace = none ∧ s.stop = false)) := by
  induction ts generalizing log D with
  | nil => exact ⟨_, rfl, by simp [readTraces], Or.inr ⟨rfl, rfl⟩⟩
  | cons t ts ih =>
    obtain ⟨h1, h2⟩ := h t List.mem_cons_self
    rw [List.flatMap_cons, lrun_append, lrun_trace C whole sel max log t h1 h2]
    by_cases hm : (log ++ [(readTrace C whole sel t D).1]).length > max
    · rw [if_pos hm]
      simp only [Option.bind_some]
      rw [lrun_stop C whole sel max _ rfl]
      refine ⟨_, rfl, ?_, Or.inl rfl⟩
      have : max + 1 - log.length = 1 := by simp at hm; omega
      simp [this, readTraces]
    · rw [if_neg hm]
      simp only [Option.bind_some]
      obtain ⟨s, e1, e2, e3⟩ := ih (fun x hx => h x (List.mem_cons_of_mem _ hx)) (log ++ [(readTrace C whole sel t D).1])
        (by omega) (readTrace C whole sel t D).2
      refine ⟨s, e1, ?_, e3⟩
      rw [e2]
      have : max + 1 - log.length = (max + 1 - (log ++ [(readTrace C whole sel t D).1]).length) + 1 := by
        simp at hm ⊢; omega
      rw [this]
      simp [readTraces]

/-- A line outside of traces that does not start with `t`. -/
theorem step_header {s : LSt δ φ} (h0 : s.trace = none) (n : Nat) {b : Str} {c : Char} (hb : b.head? = some c) (hc : c ≠ 't')
    (hq : c ≠ '"') (hlt : '<' ∉ b) : lineStep C whole sel max s (render (n, b)) = some s := by
  unfold lineStep
  by_cases hst : s.stop = true
  · rw [if_pos hst]
  rw [if_neg hst]
  cases b with
  | nil => cases hb
  | cons x b =>
    simp only [List.head?_cons, Option.some.injEq] at hb
    subst hb
    have key : ∃ r, '<' ∉ r ∧
        (split '"' (render (n, x :: b))).headD [] = List.replicate n '\t' ++ '<' :: (x :: r) := by
      have hsp : ∀ (t : Str), '<' ∉ t → ∃ r, '<' ∉ r ∧ ∀ pre : Str, '"' ∉ pre → (split '"' (pre ++ t)).headD [] = pre ++ r := by
        intro t
        induction t with
        | nil => exact fun _ => ⟨[], by simp, fun pre hp => by rw [List.append_nil, split_none hp]; simp⟩
        | cons y t iht =>
          intro hnt
          by_cases hy : y = '"'
          · subst hy
            exact ⟨[], by simp, fun pre hp => by rw [split_cons hp]; simp⟩
          · obtain ⟨r, hr1, hr2⟩ := iht (fun hh => hnt (List.mem_cons_of_mem _ hh))
            refine ⟨y :: r, ?_, fun pre hp => ?_⟩
            · simp only [List.mem_cons, not_or]
              exact ⟨fun hh => hnt (by rw [hh]; exact List.mem_cons_self), hr1⟩
            · have := hr2 (pre ++ [y]) (by
                simp only [List.mem_append, List.mem_singleton, not_or]; exact ⟨hp, fun hh => hy hh.symm⟩)
              simpa using this
      obtain ⟨r, hr1, hr2⟩ := hsp (b ++ ['>', '\n']) (by
        intro hm
        rcases List.mem_append.1 hm with hm | hm
        · exact hlt (List.mem_cons_of_mem _ hm)
        · exact absurd hm (by decide))
      refine ⟨r, hr1, ?_⟩
      have := hr2 (List.replicate n '\t' ++ ['<', x]) (by
        intro hm
        rcases List.mem_append.1 hm with hm | hm
        · exact tabs_no (by decide) hm
        · simp only [List.mem_cons, List.not_mem_nil, or_false] at hm
          rcases hm with hm | hm
          · exact absurd hm (by decide)
          · exact hq hm.symm)
      have e : render (n, x :: b) = (List.replicate n '\t' ++ ['<', x]) ++ (b ++ ['>', '\n']) := by
        unfold render; simp
      rw [e, this]
      simp
    obtain ⟨r, hr1, hr2⟩ := key
    have htag := lastTag_eq (n := n) (b := x :: r) (by
      simp only [List.mem_cons, not_or]; exact ⟨fun hh => hlt (by rw [hh]; exact List.mem_cons_self), hr1⟩)
    unfold lastTag at htag
    simp only [hr2, htag, h0]
    rw [if_neg]
    intro hh
    unfold startsWith at hh
    have : "trace".toList = 't' :: "race".toList := by decide
    rw [this, List.isPrefixOf, Bool.and_eq_true] at hh
    exact hc (by simpa using (beq_iff_eq.1 hh.1).symm)

theorem lrun_header {s : LSt δ φ} (h0 : s.trace = none) (ls : List Line)
    (h : ∀ l ∈ ls, ∃ c, l.2.head? = some c ∧ c ≠ 't' ∧ c ≠ '"' ∧ '<' ∉ l.2) : lrun C whole sel max s ls = some s := by
  induction ls with
  | nil => rfl
  | cons l ls ih =>
    obtain ⟨c, h1, h2, h3, h4⟩ := h l List.mem_cons_self
    rw [lrun_cons]
    have := step_header C whole sel max h0 l.1 h1 h2 h3 h4
    rw [this]
    exact ih (fun x hx => h x (List.mem_cons_of_mem _ hx))

end Verif.Xes
