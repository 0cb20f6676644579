import Verif.Xes.Proofs2
set_option linter.unusedSectionVars false
/-
Proofs: the elements of the text of an exported file are the lines of the exporter.
-/
namespace Verif.Xes
open Verif Verif.DfgFile
variable {δ φ : Type}

/-- The content of a line: no brackets, not starting with white space. -/
def BodyOk (b : Str) : Prop := NoBr b ∧ ∃ c, b.head? = some c ∧ isSpace c = false

theorem bodyOk_nonblank {b : Str} (h : BodyOk b) : blank b = false := by
  obtain ⟨-, c, hc, hs⟩ := h
  cases b with
  | nil => cases hc
  | cons x b =>
    simp only [List.head?_cons, Option.some.injEq] at hc
    subst hc
    simp [blank, hs]

theorem noBr_append {a b : Str} (ha : NoBr a) (hb : NoBr b) : NoBr (a ++ b) :=
  ⟨fun h => (List.mem_append.1 h).elim ha.1 hb.1, fun h => (List.mem_append.1 h).elim ha.2 hb.2⟩

theorem rexSplit_br {a : Str} (h : NoBr a) {c : Char} (hc : c = '<' ∨ c = '>') (t : Str) :
    rexSplit (a ++ c :: t) = a :: [c] :: rexSplit t := by
  rw [rexSplit_append, rexSplit_noBr h]
  simp only [joinL, rexSplit, if_pos hc, glue, List.append_nil]

/-- White space between elements. -/
def Ws (s : Str) : Prop := NoBr s ∧ blank s = true

theorem ws_tabs (n : Nat) : Ws (List.replicate n '\t') := by
  refine ⟨⟨fun h => ?_, fun h => ?_⟩, ?_⟩
  · exact absurd (List.eq_of_mem_replicate h) (by decide)
  · exact absurd (List.eq_of_mem_replicate h) (by decide)
  · simp only [blank, List.all_eq_true]
    intro c hc
    rw [List.eq_of_mem_replicate hc]; decide

theorem ws_append {a b : Str} (ha : Ws a) (hb : Ws b) : Ws (a ++ b) :=
  ⟨noBr_append ha.1 hb.1, by rw [blank_append, ha.2, hb.2]; rfl⟩

theorem rexSplit_lines (lines : List Line) (h : ∀ l ∈ lines, BodyOk l.2) (w : Str) (hw : Ws w) :
    (∀ p ∈ rexSplit (w ++ lines.flatMap render), GoodPiece p) ∧
    (rexSplit (w ++ lines.flatMap render)).filter keep = lines.map (·.2) := by
  induction lines generalizing w with
  | nil =>
    rw [List.flatMap_nil, List.append_nil, rexSplit_noBr hw.1]
    refine ⟨fun p hp => ?_, ?_⟩
    · rw [List.mem_singleton.1 hp]; exact Or.inl hw.2
    · simp [keep, hw.2]
  | cons l ls ih =>
    have hl := h l List.mem_cons_self
    obtain ⟨ih1, ih2⟩ := ih (fun x hx => h x (List.mem_cons_of_mem _ hx)) ['\n'] ⟨⟨by decide, by decide⟩, by decide⟩
    have e : w ++ (l :: ls).flatMap render =
        (w ++ List.replicate l.1 '\t') ++ '<' :: (l.2 ++ '>' :: (['\n'] ++ ls.flatMap render)) := by
      rw [List.flatMap_cons, render]
      simp
    have hws := ws_append hw (ws_tabs l.1)
    rw [e, rexSplit_br hws.1 (Or.inl rfl), rexSplit_br hl.1 (Or.inr rfl)]
    refine ⟨?_, ?_⟩
    · intro p hp
      simp only [List.mem_cons] at hp
      rcases hp with rfl | rfl | rfl | rfl | hp
      · exact Or.inl hws.2
      · exact Or.inr ⟨'<', rfl, by decide⟩
      · exact Or.inr hl.2
      · exact Or.inr ⟨'>', rfl, by decide⟩
      · exact ih1 p hp
    · have hk : keep l.2 = true := by
        unfold keep
        rw [bodyOk_nonblank hl]
        have h1 : l.2 ≠ ['<'] := fun hh => hl.1.1 (by rw [hh]; simp)
        have h2 : l.2 ≠ ['>'] := fun hh => hl.1.2 (by rw [hh]; simp)
        simp [h1, h2]
      rw [List.filter_cons_of_neg (by simp [keep, hws.2]), List.filter_cons_of_neg (by decide),
        List.filter_cons_of_pos hk, List.filter_cons_of_neg (by decide), ih2]
      rfl

theorem bodyOk_append {a b : Str} (ha : BodyOk a) (hb : NoBr b) : BodyOk (a ++ b) := by
  refine ⟨noBr_append ha.1 hb, ?_⟩
  obtain ⟨c, hc, hs⟩ := ha.2
  refine ⟨c, ?_, hs⟩
  cases a with
  | nil => cases hc
  | cons => exact hc

theorem noBr_safe {s : Str} (h : Safe s) : NoBr s := ⟨(safe_no h).1, (safe_no h).2.1⟩

theorem noBr_quote {s : Str} (h : Safe s) : NoBr (quoteattr s) := by
  rw [quoteattr_safe h]
  exact noBr_append (a := ['"']) ⟨by decide, by decide⟩ (noBr_append (noBr_safe h) ⟨by decide, by decide⟩)

theorem bodyOk_tag {t : Str} (h : Tag5 t) : BodyOk t := ⟨(tag5_clean h).2.2.2.2.1, (tag5_clean h).2.2.2.2.2⟩

theorem bodyOk_attr (C : Codec δ φ) {key : Str} {v : Val δ φ} (hk : Safe key) (hv : ValOk C key v) {stop : Str}
    (hs : NoBr stop) : BodyOk (attrBody C key v stop) := by
  unfold attrBody
  refine bodyOk_append (bodyOk_append (bodyOk_append (bodyOk_append (bodyOk_append (bodyOk_tag (typeTag_tag5 _ _)) ?_)
    (noBr_quote hk)) ?_) (noBr_quote (valOk_safe hv))) hs
  · exact ⟨by decide, by decide⟩
  · exact ⟨by decide, by decide⟩

mutual
theorem bodyOk_exportAttr (C : Codec δ φ) (n : Nat) (key : Str) :
    ∀ a : Attr δ φ, AttrOk C key a → ∀ l ∈ exportAttr C n key a, BodyOk l.2
  | .none, _, l, hl => by simp [exportAttr] at hl
  | .atom v, h, l, hl => by
    simp only [AttrOk] at h
    simp only [exportAttr, List.mem_singleton] at hl
    rw [hl]
    exact bodyOk_attr C h.1 h.2 ⟨by decide, by decide⟩
  | .nested v cs, h, l, hl => by
    simp only [AttrOk] at h
    simp only [exportAttr, List.mem_cons, List.mem_append, List.mem_singleton, List.not_mem_nil, or_false] at hl
    rcases hl with rfl | hl | rfl
    · exact bodyOk_attr C h.1 h.2.1 ⟨by decide, by decide⟩
    · exact bodyOk_exportAttrs C (n + 1) cs h.2.2 l hl
    · exact bodyOk_append (a := ['/']) ⟨⟨by decide, by decide⟩, '/', rfl, by decide⟩ (bodyOk_tag (typeTag_tag5 key v)).1
theorem bodyOk_exportAttrs (C : Codec δ φ) (n : Nat) :
    ∀ as : List (Str × Attr δ φ), AttrsOk C as → ∀ l ∈ exportAttrs C n as, BodyOk l.2
  | [], _, l, hl => by simp [exportAttrs] at hl
  | (k, a) :: as, h, l, hl => by
    simp only [AttrsOk] at h
    simp only [exportAttrs, List.mem_append] at hl
    rcases hl with hl | hl
    · exact bodyOk_exportAttr C n k a h.1 l hl
    · exact bodyOk_exportAttrs C n as h.2 l hl
end

theorem noBr_noQuote {s : Str} (h : NoQuote s) : NoBr s := ⟨h.1, h.2.1⟩

theorem bodyOk_ext (e : Str × Str × Str) (h : NoQuote e.1 ∧ NoQuote e.2.1 ∧ NoQuote e.2.2) : BodyOk (extBody e) := by
  unfold extBody
  refine bodyOk_append (bodyOk_append (bodyOk_append (bodyOk_append (bodyOk_append (bodyOk_append ?_ (noBr_noQuote h.1))
    ?_) (noBr_noQuote h.2.1)) ?_) (noBr_noQuote h.2.2)) ?_
  · exact ⟨⟨by decide, by decide⟩, _, rfl, by decide⟩
  · exact ⟨by decide, by decide⟩
  · exact ⟨by decide, by decide⟩
  · exact ⟨by decide, by decide⟩

theorem bodyOk_clas (e : Str × List Str) (h : NoQuote e.1) (hk : ∀ k ∈ e.2, NoQuote k) : BodyOk (clasBody e) := by
  unfold clasBody
  refine bodyOk_append (bodyOk_append (bodyOk_append (bodyOk_append ?_ (noBr_noQuote h)) ?_) ?_) ?_
  · exact ⟨⟨by decide, by decide⟩, _, rfl, by decide⟩
  · exact ⟨by decide, by decide⟩
  · refine ⟨fun hm => ?_, fun hm => ?_⟩
    · rcases mem_joinSp hm with hm | ⟨k, hk', hm⟩
      · exact absurd hm (by decide)
      · exact (hk k hk').1 hm
    · rcases mem_joinSp hm with hm | ⟨k, hk', hm⟩
      · exact absurd hm (by decide)
      · exact (hk k hk').2.1 hm
  · exact ⟨by decide, by decide⟩

theorem bodyOk_glob {s : Str} (h : NoQuote s) : BodyOk (globBody s) := by
  unfold globBody
  refine bodyOk_append (bodyOk_append ?_ (noBr_noQuote h)) ⟨by decide, by decide⟩
  exact ⟨⟨by decide, by decide⟩, _, rfl, by decide⟩

theorem bodyOk_trace (C : Codec δ φ) (t : Trace δ φ) (h : DictOk C t.attrs ∧ ∀ e ∈ t.events, DictOk C e) :
    ∀ l ∈ exportTrace C t, BodyOk l.2 := by
  intro l hl
  unfold exportTrace at hl
  simp only [List.mem_append, List.mem_singleton, List.mem_flatMap] at hl
  rcases hl with ((rfl | hl) | ⟨e, he, (rfl | hl) | rfl⟩) | rfl
  · exact ⟨⟨by decide, by decide⟩, _, rfl, by decide⟩
  · exact bodyOk_exportAttrs C 2 _ h.1.2 l hl
  · exact ⟨⟨by decide, by decide⟩, _, rfl, by decide⟩
  · exact bodyOk_exportAttrs C 3 _ (h.2 e he).2 l hl
  · exact ⟨⟨by decide, by decide⟩, _, rfl, by decide⟩
  · exact ⟨⟨by decide, by decide⟩, _, rfl, by decide⟩

theorem bodyOk_lines (C : Codec δ φ) {enc : Str} (henc : NoBr enc) {L : Log δ φ} (h : LogOk C L) :
    ∀ l ∈ exportLines C enc L, BodyOk l.2 := by
  intro l hl
  unfold exportLines at hl
  simp only [List.mem_append, List.mem_cons, List.mem_singleton, List.mem_flatMap, List.mem_map, List.not_mem_nil,
    or_false] at hl
  rcases hl with ((((((rfl | rfl) | ⟨e, he, rfl⟩) | ⟨e, he, rfl⟩) | hl) | ⟨g, hg, (rfl | hl) | rfl⟩) | ⟨t, ht, hl⟩) | rfl
  · refine bodyOk_append (bodyOk_append ?_ henc) ⟨by decide, by decide⟩
    exact ⟨⟨by decide, by decide⟩, _, rfl, by decide⟩
  · exact ⟨⟨by decide, by decide⟩, _, rfl, by decide⟩
  · exact bodyOk_ext e ⟨(h.ext e he).1, (h.ext e he).2.1, (h.ext e he).2.2.1⟩
  · exact bodyOk_clas e (h.clas e he).1 (fun k hk => ((h.clas e he).2.2 k hk).2.1)
  · exact bodyOk_exportAttrs C 1 _ h.attrs.2 l hl
  · exact bodyOk_glob (h.glob g hg).1
  · exact bodyOk_exportAttrs C 2 _ (h.glob g hg).2.2 l hl
  · exact ⟨⟨by decide, by decide⟩, _, rfl, by decide⟩
  · exact bodyOk_trace C t (h.traces t ht) l hl
  · exact ⟨⟨by decide, by decide⟩, _, rfl, by decide⟩

end Verif.Xes
