import Verif.Xes.Text
import Verif.Xes.Bytes
set_option linter.unusedSectionVars false
/-
C60: exporting a log to XES and reading it with the importer `chunk_regex`.
-/
namespace Verif
open Verif.Xes Verif.DfgFile
variable {δ φ : Type}

/-- **C60** The result of reading a file does not depend on how it is cut into chunks, provided every part of the text
    between two angle brackets is blank or starts with a character that is not white space. -/
theorem C60_chunks (C : Codec δ φ) (chunks : List Str) (hg : ∀ p ∈ rexSplit chunks.flatten, GoodPiece p) :
    importChunks C chunks = importChunks C [chunks.flatten] := by
  have h1 := pieces_text chunks hg
  have h2 := pieces_text [chunks.flatten] (by simpa using hg)
  unfold importChunks
  rw [h1, h2]
  simp

/-- **C60** A log that is exported and then read in any chunks is the same log, except that attributes with value `None`
    are dropped, nested attributes are replaced by their value and the values of `concept:name` are strings. -/
theorem C60_roundtrip (C : Codec δ φ) (enc : Str) (henc : '<' ∉ enc ∧ '>' ∉ enc) (L : Log δ φ) (hL : LogOk C L)
    (chunks : List Str) (h : chunks.flatten = Xes.exportText C enc L) :
    importChunks C chunks = some (readBackLog C L) := by
  obtain ⟨h1, h2⟩ := rexSplit_lines (exportLines C enc L) (bodyOk_lines C henc hL) [] ⟨⟨by simp, by simp⟩, rfl⟩
  have hp := pieces_text chunks (by rw [h]; exact h1)
  unfold importChunks
  rw [hp, h]
  have : (rexSplit (Xes.exportText C enc L)).filter keep = (exportLines C enc L).map (·.2) := h2
  rw [this]
  exact run_lines C enc L hL

/-- Logs without nested attributes and `None`, with strings as `concept:name`. -/
def Xes.Flat (d : Attrs δ φ) : Prop :=
  ∀ e ∈ d, ∃ v, e.2 = .atom v ∧ (e.1 = "concept:name".toList → ∃ s, v = .str s)

theorem Xes.readBack_flat (C : Codec δ φ) (d : Attrs δ φ) (h : Flat d) : readBack C d = d := by
  induction d with
  | nil => rfl
  | cons e d ih =>
    obtain ⟨k, a⟩ := e
    obtain ⟨v, hv, hs⟩ := h _ List.mem_cons_self
    simp only at hv hs
    subst hv
    have : readBackVal C k v = v := by
      unfold readBackVal
      by_cases hk : k = "concept:name".toList
      · obtain ⟨s, rfl⟩ := hs hk; rw [if_pos hk]; rfl
      · rw [if_neg hk]
    simp only [readBack, this]
    rw [ih (fun x hx => h x (List.mem_cons_of_mem _ hx))]

/-- **C60** A log without nested attributes, without `None` and with strings as `concept:name` is read back as it was. -/
theorem C60_roundtrip_flat (C : Codec δ φ) (enc : Str) (henc : '<' ∉ enc ∧ '>' ∉ enc) (L : Log δ φ) (hL : LogOk C L)
    (hf : Xes.Flat L.attrs) (hg : ∀ g ∈ L.glob, Xes.Flat g.2)
    (ht : ∀ t ∈ L.traces, Xes.Flat t.attrs ∧ ∀ e ∈ t.events, Xes.Flat e)
    (chunks : List Str) (h : chunks.flatten = Xes.exportText C enc L) :
    importChunks C chunks = some L := by
  rw [C60_roundtrip C enc henc L hL chunks h]
  have e1 : (L.glob.map fun g => (g.1, readBack C g.2)) = L.glob := by
    conv => rhs; rw [← List.map_id L.glob]
    apply List.map_congr_left
    intro g hg'
    rw [readBack_flat C _ (hg g hg')]; rfl
  have e2 : (L.traces.map fun t => (⟨readBack C t.attrs, t.events.map (readBack C)⟩ : Trace δ φ)) = L.traces := by
    conv => rhs; rw [← List.map_id L.traces]
    apply List.map_congr_left
    intro t ht'
    have : t.events.map (readBack C) = t.events := by
      conv => rhs; rw [← List.map_id t.events]
      apply List.map_congr_left
      intro e he
      rw [readBack_flat C _ ((ht t ht').2 e he)]; rfl
    rw [this, readBack_flat C _ (ht t ht').1]; rfl
  unfold readBackLog
  rw [e1, e2, readBack_flat C _ hf]

/-- **C60** If every character of the file is one byte, the result of reading it in chunks of bytes is that of reading the
    text at once. -/
theorem C60_bytes_ascii (C : Codec δ φ) (text : Str) (ha : ∀ c ∈ text, c.toNat < 128)
    (hg : ∀ p ∈ rexSplit text, GoodPiece p) (bytes : List (List Nat)) (hb : bytes.flatten = encode text) (L : Log δ φ) :
    ReadsBytes C bytes L ↔ importChunks C [text] = some L := by
  have henc : ∀ s : Str, (∀ c ∈ s, c.toNat < 128) → encode s = s.map (·.toNat) := by
    intro s hs
    induction s with
    | nil => rfl
    | cons c s ih =>
      have h1 : utf8 c = [c.toNat] := by unfold utf8; simp [hs c List.mem_cons_self]
      have h2 := ih (fun x hx => hs x (List.mem_cons_of_mem _ hx))
      show utf8 c ++ encode s = _
      rw [h1, h2]; rfl
  have hex : ∃ chunks, Decoded bytes chunks ∧ chunks.flatten = text := by
    clear hg
    induction bytes generalizing text with
    | nil =>
      refine ⟨[], rfl, ?_⟩
      rw [henc text ha] at hb
      simp only [List.flatten_nil] at hb
      cases text with
      | nil => rfl
      | cons => cases hb
    | cons b bytes ih =>
      rw [henc text ha, List.flatten_cons] at hb
      have h1 : b = (text.take b.length).map (·.toNat) := by
        rw [List.map_take, ← hb]; simp
      have h2 : bytes.flatten = (text.drop b.length).map (·.toNat) := by
        rw [List.map_drop, ← hb]; simp
      have ha' : ∀ c ∈ text.drop b.length, c.toNat < 128 := fun c hc => ha c (List.mem_of_mem_drop hc)
      obtain ⟨cs, hd, hf⟩ := ih (text.drop b.length) ha' (by rw [h2, henc _ ha'])
      refine ⟨text.take b.length :: cs, ?_, ?_⟩
      · show b :: bytes = encode (text.take b.length) :: cs.map encode
        rw [henc _ (fun c hc => ha c (List.mem_of_mem_take hc)), ← h1, hd]
      · rw [List.flatten_cons, hf, List.take_append_drop]
  constructor
  · rintro ⟨chunks, hd, hi⟩
    have hfl : encode chunks.flatten = encode text := by rw [encode_flatten, ← hb, hd]
    obtain ⟨t', h1, h2⟩ := encode_prefix text chunks.flatten [] (by simpa using hfl)
    have h3 : t' = [] := by
      cases t' with
      | nil => rfl
      | cons c t' => obtain ⟨b, r, hb', -⟩ := utf8_lead c; simp [encode, hb'] at h2
    have h4 : chunks.flatten = text := by rw [h1, h3, List.append_nil]
    rw [C60_chunks C chunks (by rw [h4]; exact hg), h4] at hi
    exact hi
  · intro hi
    obtain ⟨chunks, hd, hf⟩ := hex
    refine ⟨chunks, hd, ?_⟩
    rw [C60_chunks C chunks (by rw [hf]; exact hg), hf]
    exact hi

/-- **C60, refuted for other characters**: whenever the boundary of the first chunk falls inside the encoding of a
    character, reading the file fails, although the same file is read without error in one chunk. -/
theorem C60_bytes_refuted (C : Codec δ φ) (u v : Str) (c : Char) (a b : List Nat) (ha : a ≠ []) (hb : b ≠ [])
    (hc : utf8 c = a ++ b) (rest : List (List Nat)) (h : (encode u ++ a) ++ rest.flatten = encode (u ++ c :: v)) :
    (¬ ∃ L, ReadsBytes C ((encode u ++ a) :: rest) L) ∧
    ∀ L, importChunks C [u ++ c :: v] = some L → ReadsBytes C [(encode u ++ a) ++ rest.flatten] L := by
  constructor
  · rintro ⟨L, chunks, hd, -⟩
    cases chunks with
    | nil => cases hd
    | cons t ts =>
      have h1 : encode u ++ a = encode t := by
        have := hd; unfold Decoded at this; rw [List.map_cons, List.cons.injEq] at this; exact this.1
      obtain ⟨t', -, h2⟩ := encode_prefix u t a h1.symm
      exact encode_part c t' a b ha hb hc h2
  · intro L hL
    exact ⟨[u ++ c :: v], by rw [h]; rfl, hL⟩

/-- The hypotheses are met: `é` is encoded by two bytes. -/
example : utf8 'é' = [0xC3] ++ [0xA9] := by decide

/-! ### Where the round trip fails -/

/-- A codec for logs without dates and floats. -/
def Xes.noCodec : Codec Empty Empty where
  iso := nofun
  strD := nofun
  parseD := fun _ => none
  strF := nofun
  parseF := fun _ => none

/-- A log with one trace. -/
def Xes.oneTrace (as : Attrs Empty Empty) (es : List (Attrs Empty Empty)) : Log Empty Empty := ⟨[], [], [], [], [⟨as, es⟩]⟩

/-- The text is read in one chunk. -/
theorem Xes.import_one (L : Log Empty Empty) (hg : ∀ l ∈ exportLines noCodec "utf-8".toList L, BodyOk l.2) :
    importChunks noCodec [Xes.exportText noCodec "utf-8".toList L] =
      (((exportLines noCodec "utf-8".toList L).map (·.2)).foldlM (handle noCodec) ⟨⟨[], [], [], [], []⟩, [], false⟩).map
        (·.L) := by
  obtain ⟨h1, h2⟩ := rexSplit_lines _ hg [] ⟨⟨by simp, by simp⟩, rfl⟩
  unfold importChunks
  have e : [Xes.exportText noCodec "utf-8".toList L].flatten = Xes.exportText noCodec "utf-8".toList L := by simp
  rw [pieces_text _ (by rw [e]; exact h1), e]
  have h3 : (rexSplit (Xes.exportText noCodec "utf-8".toList L)).filter keep =
    (exportLines noCodec "utf-8".toList L).map (·.2) := h2
  rw [h3]

/-- The condition on the lines, as a computation. -/
def Xes.bodyOk (b : Str) : Bool := !(b.any fun c => c == '<' || c == '>') && (b.head?.any fun c => !isSpace c)

theorem Xes.bodyOk_sound {b : Str} (h : Xes.bodyOk b = true) : BodyOk b := by
  unfold Xes.bodyOk at h
  simp only [Bool.and_eq_true, Bool.not_eq_true', List.any_eq_false, Option.any_eq_true] at h
  obtain ⟨h1, c, hc, hs⟩ := h
  refine ⟨⟨fun hm => ?_, fun hm => ?_⟩, c, hc, by simpa using hs⟩
  · exact absurd (h1 _ hm) (by simp)
  · exact absurd (h1 _ hm) (by simp)

theorem Xes.lines_sound {ls : List Line} (h : (ls.all fun l => Xes.bodyOk l.2) = true) : ∀ l ∈ ls, BodyOk l.2 :=
  fun l hl => Xes.bodyOk_sound (List.all_eq_true.1 h l hl)

/-- **C60, refuted for `&`**: the entities written by the exporter are not decoded. -/
theorem C60_escape_refuted :
    importChunks noCodec [Xes.exportText noCodec "utf-8".toList (oneTrace [("k".toList, .atom (.str "a&b".toList))] [])] =
      some (oneTrace [("k".toList, .atom (.str "a&amp;b".toList))] []) := by
  rw [import_one _ (lines_sound (by decide))]
  rfl

/-- **C60, refuted for `"`**: the value is cut, and the attributes that follow in the same trace are lost. -/
theorem C60_quote_refuted :
    importChunks noCodec [Xes.exportText noCodec "utf-8".toList
      (oneTrace [("k".toList, .atom (.str "a\"b".toList)), ("l".toList, .atom (.int 1))] [])] =
      some (oneTrace [("k".toList, .atom (.str "b' /".toList))] []) := by
  rw [import_one _ (lines_sound (by
    simp [exportLines, oneTrace, exportTrace, exportAttrs, exportAttr, attrBody, typeTag, valueStr, showInt, showNat]
    decide))]
  simp [exportLines, oneTrace, exportTrace, exportAttrs, exportAttr, attrBody, typeTag, valueStr, showInt, showNat]
  rfl

/-- **C60, refuted for nested attributes**: the children are lost. -/
theorem C60_nested_refuted :
    importChunks noCodec [Xes.exportText noCodec "utf-8".toList
      (oneTrace [("k".toList, .nested (.str "a".toList) [("c".toList, .atom (.str "b".toList))])] [])] =
      some (oneTrace [("k".toList, .atom (.str "a".toList))] []) := by
  rw [import_one _ (lines_sound (by decide))]
  rfl

/-- **C60, refuted for a Boolean `concept:name`**: it becomes a string. -/
theorem C60_name_refuted :
    importChunks noCodec [Xes.exportText noCodec "utf-8".toList
      (oneTrace [("concept:name".toList, .atom (.bool true))] [])] =
      some (oneTrace [("concept:name".toList, .atom (.str "True".toList))] []) := by
  rw [import_one _ (lines_sound (by decide))]
  rfl

/-- **C60, refuted for classifiers**: a classifier over an attribute whose name contains a space is split. -/
theorem C60_classifier_refuted :
    importChunks noCodec [Xes.exportText noCodec "utf-8".toList ⟨[], [], [("C".toList, ["a b".toList])], [], []⟩] =
      some ⟨[], [], [("C".toList, ["a".toList, "b".toList])], [], []⟩ := by
  rw [import_one _ (lines_sound (by decide))]
  rfl

/-- **C60, refuted for elements that start with white space**: whether `< string …>` is read depends on the chunks. -/
theorem C60_whitespace_refuted :
    importChunks noCodec ["<log>< string key=\"k\" value=\"v\"/></log>".toList] = some ⟨[], [], [], [], []⟩ ∧
    importChunks noCodec ["<log>< ".toList, "string key=\"k\" value=\"v\"/></log>".toList] =
      some ⟨[("k".toList, .atom (.str "v".toList))], [], [], [], []⟩ := by
  have step : ∀ (el x : Str) (l : List Str) (cs : List Str), pieces (el :: x :: l) cs =
      if blank el then pieces (x :: l) cs else if el = ['<'] then pieces (x :: l) cs
      else if el = ['>'] then pieces (x :: l) cs else el :: pieces (x :: l) cs := fun el x l cs => by rw [pieces]
  have last : ∀ (el : Str) (cs : List Str), blank el = true → pieces [el] cs = pieces [] cs := fun el cs h => by
    rw [pieces.eq_def]; simp [h]
  have next : ∀ (c : Str) (cs : List Str), pieces [] (c :: cs) = pieces (rexSplit c) cs := fun c cs => by rw [pieces]
  have stop : pieces [] [] = [] := by rw [pieces]
  have p1 : pieces [] ["<log>< string key=\"k\" value=\"v\"/></log>".toList] =
      ["log".toList, " string key=\"k\" value=\"v\"/".toList, "/log".toList] := by
    have hr : rexSplit "<log>< string key=\"k\" value=\"v\"/></log>".toList = [[], ['<'], "log".toList, ['>'], [], ['<'],
      " string key=\"k\" value=\"v\"/".toList, ['>'], [], ['<'], "/log".toList, ['>'], []] := by decide
    rw [next, hr, step, if_pos (by decide), step, if_neg (by decide), if_pos (by decide), step, if_neg (by decide),
      if_neg (by decide), if_neg (by decide), step, if_neg (by decide), if_neg (by decide), if_pos (by decide), step,
      if_pos (by decide), step, if_neg (by decide), if_pos (by decide), step, if_neg (by decide), if_neg (by decide),
      if_neg (by decide), step, if_neg (by decide), if_neg (by decide), if_pos (by decide), step, if_pos (by decide), step,
      if_neg (by decide), if_pos (by decide), step, if_neg (by decide), if_neg (by decide), if_neg (by decide), step,
      if_neg (by decide), if_neg (by decide), if_pos (by decide), last _ _ (by decide), stop]
  have p2 : pieces [] ["<log>< ".toList, "string key=\"k\" value=\"v\"/></log>".toList] =
      ["log".toList, "string key=\"k\" value=\"v\"/".toList, "/log".toList] := by
    have hr : rexSplit "<log>< ".toList = [[], ['<'], "log".toList, ['>'], [], ['<'], " ".toList] := by decide
    have hr' : rexSplit "string key=\"k\" value=\"v\"/></log>".toList =
      ["string key=\"k\" value=\"v\"/".toList, ['>'], [], ['<'], "/log".toList, ['>'], []] := by decide
    rw [next, hr, step, if_pos (by decide), step, if_neg (by decide), if_pos (by decide), step, if_neg (by decide),
      if_neg (by decide), if_neg (by decide), step, if_neg (by decide), if_neg (by decide), if_pos (by decide), step,
      if_pos (by decide), step, if_neg (by decide), if_pos (by decide), last _ _ (by decide), next, hr', step,
      if_neg (by decide), if_neg (by decide),
      if_neg (by decide), step, if_neg (by decide), if_neg (by decide), if_pos (by decide), step, if_pos (by decide), step,
      if_neg (by decide), if_pos (by decide), step, if_neg (by decide), if_neg (by decide), if_neg (by decide), step,
      if_neg (by decide), if_neg (by decide), if_pos (by decide), last _ _ (by decide), stop]
  constructor
  · unfold importChunks
    rw [p1]
    rfl
  · unfold importChunks
    rw [p2]
    rfl

/-- A log for which the round trip is claimed: nested attributes, `None`, extensions, classifiers, globals, two traces. -/
def Xes.sampleLog : Log Empty Empty where
  attrs := [("source".toList, .atom (.str "it's".toList))]
  ext := [("Concept".toList, ("concept".toList, "http://www.xes-standard.org/concept.xesext".toList))]
  clas := [("Activity".toList, ["concept:name".toList, "lifecycle:transition".toList])]
  glob := [("event".toList, [("concept:name".toList, .atom (.str "UNKNOWN".toList))])]
  traces := [⟨[("concept:name".toList, .atom (.str "1".toList)), ("x".toList, .none)],
    [[("concept:name".toList, .atom (.str "a b".toList)), ("n".toList, .atom (.int (-3))),
      ("b".toList, .nested (.bool true) [("c".toList, .atom (.int 1))])], []]⟩, ⟨[], []⟩]

/-- The hypotheses of C60 are met. -/
example : LogOk noCodec sampleLog := by
  refine ⟨⟨by decide, ?_⟩, by decide, ?_, by decide, ?_, by decide, ?_, ?_⟩
  · simp only [sampleLog, AttrsOk, AttrOk, ValOk, and_true]
    exact ⟨by unfold Safe; decide, by rw [if_neg (by decide)]; unfold Safe; decide⟩
  · intro e he
    simp only [sampleLog, List.mem_singleton] at he
    subst he
    unfold NoQuote
    decide
  · intro e he
    simp only [sampleLog, List.mem_singleton] at he
    subst he
    unfold NoQuote
    decide
  · intro e he
    simp only [sampleLog, List.mem_singleton] at he
    subst he
    refine ⟨by unfold NoQuote; decide, by decide, ?_⟩
    simp only [AttrsOk, AttrOk, ValOk, and_true]
    exact ⟨by unfold Safe; decide, by rw [if_pos (by decide)]; unfold Safe pyStr; decide⟩
  · intro t ht
    simp only [sampleLog, List.mem_cons, List.not_mem_nil, or_false] at ht
    rcases ht with rfl | rfl
    · refine ⟨⟨by decide, ?_⟩, ?_⟩
      · simp only [AttrsOk, AttrOk, ValOk, and_true]
        exact ⟨by unfold Safe; decide, by rw [if_pos (by decide)]; unfold Safe pyStr; decide⟩
      · intro e he
        simp only [List.mem_cons, List.not_mem_nil, or_false] at he
        rcases he with rfl | rfl
        · refine ⟨by decide, ?_⟩
          simp only [AttrsOk, AttrOk, ValOk, and_true]
          refine ⟨⟨by unfold Safe; decide, by rw [if_pos (by decide)]; unfold Safe pyStr; decide⟩,
            ⟨by unfold Safe; decide, by rw [if_neg (by decide)]; trivial⟩,
            by unfold Safe; decide, by rw [if_neg (by decide)]; trivial,
            by unfold Safe; decide, by rw [if_neg (by decide)]; trivial⟩
        · exact ⟨by decide, by simp [AttrsOk]⟩
    · exact ⟨⟨by decide, by simp [AttrsOk]⟩, fun e he => by cases he⟩

end Verif
