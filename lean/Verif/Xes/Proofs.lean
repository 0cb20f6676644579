import Verif.Xes.Spec
import Verif.Xes.Chunks
set_option linter.unusedSectionVars false
/-
Proofs about the elements of an exported file.
-/
namespace Verif.Xes
open Verif Verif.DfgFile
variable {δ φ : Type}

theorem safe_no {s : Str} (h : Safe s) : '<' ∉ s ∧ '>' ∉ s ∧ '"' ∉ s :=
  ⟨fun hc => h _ hc (by simp), fun hc => h _ hc (by simp), fun hc => h _ hc (by simp)⟩

theorem esc_safe {s : Str} (h : Safe s) : s.flatMap escChar = s := by
  induction s with
  | nil => rfl
  | cons c s ih =>
    have hc := h c List.mem_cons_self
    have : escChar c = [c] := by
      unfold escChar
      split <;> simp_all
    rw [List.flatMap_cons, this, ih (fun x hx => h x (List.mem_cons_of_mem _ hx))]
    rfl

theorem quoteattr_safe {s : Str} (h : Safe s) : quoteattr s = '"' :: (s ++ ['"']) := by
  unfold quoteattr
  simp only [esc_safe h]
  rw [if_neg (safe_no h).2.2]

theorem split_cons {c : Char} {s : Str} (h : c ∉ s) (t : Str) : split c (s ++ c :: t) = s :: split c t := by
  induction s with
  | nil => simp [split]
  | cons x s ih =>
    have hx : ¬ x = c := fun e => h (by simp [e])
    simp only [List.cons_append, split, if_neg hx, ih (fun hh => h (List.mem_cons_of_mem _ hh))]

theorem beforeSpace_tag {tag : Str} (h : ' ' ∉ tag) (t : Str) : beforeSpace (tag ++ ' ' :: t) = some tag := by
  unfold beforeSpace
  rw [if_pos (by simp)]
  congr 1
  induction tag with
  | nil => simp
  | cons x tag ih =>
    have hx : ¬ x = ' ' := fun e => h (by simp [e])
    simp [hx, ih (fun hh => h (List.mem_cons_of_mem _ hh))]

theorem split5 {a k b v stop : Str} (ha : '"' ∉ a) (hk : '"' ∉ k) (hb : '"' ∉ b) (hv : '"' ∉ v) (hs : '"' ∉ stop) :
    split '"' (a ++ '"' :: (k ++ '"' :: (b ++ '"' :: (v ++ '"' :: stop)))) = [a, k, b, v, stop] := by
  rw [split_cons ha, split_cons hk, split_cons hb, split_cons hv, split_none hs]

/-- The tags of attribute elements. -/
def Tag5 (t : Str) : Prop :=
  t = "string".toList ∨ t = "date".toList ∨ t = "int".toList ∨ t = "float".toList ∨ t = "boolean".toList

theorem tag5_clean {t : Str} (h : Tag5 t) :
    t.head? ≠ some '/' ∧ t ≠ [] ∧ ' ' ∉ t ∧ '"' ∉ t ∧ NoBr t ∧ ∃ c, t.head? = some c ∧ isSpace c = false := by
  rcases h with rfl | rfl | rfl | rfl | rfl <;>
    exact ⟨by decide, by decide, by decide, by decide, ⟨by decide, by decide⟩, _, rfl, by decide⟩

theorem typeTag_tag5 (key : Str) (v : Val δ φ) : Tag5 (typeTag key v) := by
  unfold typeTag
  split
  · exact Or.inl rfl
  · cases v
    · exact Or.inl rfl
    · exact Or.inr (Or.inr (Or.inl rfl))
    · exact Or.inr (Or.inr (Or.inr (Or.inr rfl)))
    · exact Or.inr (Or.inl rfl)
    · exact Or.inr (Or.inr (Or.inr (Or.inl rfl)))

theorem head_append {t : Str} (h : t ≠ []) (u : Str) : (t ++ u).head? = t.head? := by
  cases t with
  | nil => exact absurd rfl h
  | cons => rfl

/-- The text of an attribute element. -/
def elText (tag k x stop : Str) : Str :=
  tag ++ ' ' :: ("key=".toList ++ '"' :: (k ++ '"' :: (" value=".toList ++ '"' :: (x ++ '"' :: stop))))

theorem elText_split {tag k x stop : Str} (ht : Tag5 tag) (hk : '"' ∉ k) (hx : '"' ∉ x) (hs : '"' ∉ stop) :
    split '"' (elText tag k x stop) = [tag ++ ' ' :: "key=".toList, k, " value=".toList, x, stop] := by
  have : elText tag k x stop =
      (tag ++ ' ' :: "key=".toList) ++ '"' :: (k ++ '"' :: (" value=".toList ++ '"' :: (x ++ '"' :: stop))) := by
    unfold elText; rw [List.append_assoc, List.cons_append]
  rw [this]
  apply split5 _ hk (by decide) hx hs
  intro hm
  rcases List.mem_append.1 hm with hm | hm
  · exact (tag5_clean ht).2.2.2.1 hm
  · exact absurd hm (by decide)

theorem handle_attr (C : Codec δ φ) (L : Log δ φ) (r : Ref) (st : List Ref) {tag k x stop : Str} (ht : Tag5 tag)
    (hk : '"' ∉ k) (hx : '"' ∉ x) (hs : '"' ∉ stop) {v : Val δ φ} (hv : readVal C tag x = some (some v)) :
    handle C ⟨L, r :: st, false⟩ (elText tag k x stop) =
      some ⟨write L r k (.atom v), if strip stop = ['/'] then r :: st else .junk :: r :: st, false⟩ := by
  obtain ⟨h1, h2, h3, h4, -, -⟩ := tag5_clean ht
  have hb : beforeSpace (elText tag k x stop) = some tag := beforeSpace_tag h3 _
  have hh : (elText tag k x stop).head? ≠ some '/' := by unfold elText; rw [head_append h2]; exact h1
  have hsp := elText_split ht hk hx hs
  unfold handle
  rw [if_neg (by simp), if_neg hh, hb]
  simp only [hsp]
  have ht' := ht
  unfold Tag5 at ht'
  rw [if_pos ht']
  have e1 : (stripLast [tag ++ ' ' :: "key=".toList, k, " value=".toList, x, stop]) =
      [tag ++ ' ' :: "key=".toList, k, " value=".toList, x, strip stop] := rfl
  rw [e1]
  simp only [List.head?_cons, List.getElem?_cons_succ, List.getElem?_cons_zero, hv, Option.bind_eq_bind, Option.bind_some,
    id, pure]
  congr 2
  by_cases h0 : strip stop = ['/']
  · rw [if_pos h0, if_neg (by simp [h0])]
  · rw [if_neg h0, if_pos (by simp [h0])]

theorem attrBody_text (C : Codec δ φ) {key : Str} {v : Val δ φ} (hk : Safe key)
    (hv : Safe (valueStr C v (typeTag key v))) (stop : Str) :
    attrBody C key v stop = elText (typeTag key v) key (valueStr C v (typeTag key v)) stop := by
  unfold attrBody elText
  rw [quoteattr_safe hk, quoteattr_safe hv]
  simp only [List.append_assoc, List.cons_append, List.nil_append]
  rfl

theorem safe_of_digits {s : Str} (h : ∀ c ∈ s, (48 ≤ c.toNat ∧ c.toNat ≤ 57) ∨ c = '-') : Safe s := by
  intro c hc hm
  rcases h c hc with h | rfl
  · simp only [List.mem_cons, List.not_mem_nil, or_false] at hm
    rcases hm with rfl | rfl | rfl | rfl | rfl | rfl | rfl <;> revert h <;> decide
  · revert hm; decide

theorem safe_bool (b : Bool) : Safe (lowB b) := by cases b <;> (intro c hc; revert c hc; decide)

theorem valOk_safe {C : Codec δ φ} {key : Str} {v : Val δ φ} (h : ValOk C key v) :
    Safe (valueStr C v (typeTag key v)) := by
  unfold ValOk at h
  by_cases hk : key = "concept:name".toList
  · rw [if_pos hk] at h
    have ht : typeTag key v = "string".toList := by unfold typeTag; rw [if_pos hk]
    rw [ht]
    cases v with
    | str => exact h
    | int => exact h
    | bool => exact h
    | date => exact h
    | float => exact h
  · rw [if_neg hk] at h
    unfold typeTag
    rw [if_neg hk]
    cases v with
    | str => exact h
    | int n => exact safe_of_digits (mem_showInt n)
    | bool b => exact safe_bool b
    | date => exact h.1
    | float => exact h.1

theorem readVal_value {C : Codec δ φ} {key : Str} {v : Val δ φ} (h : ValOk C key v) :
    readVal C (typeTag key v) (valueStr C v (typeTag key v)) = some (some (readBackVal C key v)) := by
  unfold ValOk at h
  by_cases hk : key = "concept:name".toList
  · rw [if_pos hk] at h
    have ht : typeTag key v = "string".toList := by unfold typeTag; rw [if_pos hk]
    rw [ht]
    unfold readVal readBackVal
    rw [if_pos rfl, if_pos hk]
    cases v <;> rfl
  · rw [if_neg hk] at h
    unfold typeTag readBackVal
    rw [if_neg hk, if_neg hk]
    cases v with
    | str s => rfl
    | int n =>
      show some ((intOf? (showInt n)).map Val.int) = _
      rw [intOf_showInt]; rfl
    | bool b => cases b <;> rfl
    | date d =>
      show some ((C.parseD (C.iso d)).map Val.date) = _
      rw [h.2]; rfl
    | float f =>
      show some ((C.parseF (C.strF f)).map Val.float) = _
      rw [h.2]; rfl

/-- The elements one after the other. -/
def run (C : Codec δ φ) (s : St δ φ) (els : List Str) : Option (St δ φ) := els.foldlM (handle C) s

theorem run_nil (C : Codec δ φ) (s : St δ φ) : run C s [] = some s := rfl

theorem run_cons (C : Codec δ φ) (s : St δ φ) (e : Str) (l : List Str) :
    run C s (e :: l) = (handle C s e).bind fun s' => run C s' l := rfl

theorem run_append (C : Codec δ φ) (s : St δ φ) (l l' : List Str) :
    run C s (l ++ l') = (run C s l).bind fun s' => run C s' l' := by
  unfold run; rw [List.foldlM_append]; rfl

theorem handle_close (C : Codec δ φ) (L : Log δ φ) (a b : Ref) (st : List Ref) (t : Str) :
    handle C ⟨L, a :: b :: st, false⟩ ('/' :: t) = some ⟨L, b :: st, false⟩ := by
  unfold handle; simp

/-- Writing several attributes. -/
def writes (L : Log δ φ) (r : Ref) (es : Attrs δ φ) : Log δ φ := es.foldl (fun L e => write L r e.1 e.2) L

theorem writes_junk (L : Log δ φ) (es : Attrs δ φ) : writes L .junk es = L := by
  induction es with
  | nil => rfl
  | cons e es ih => exact ih

theorem handle_body (C : Codec δ φ) (L : Log δ φ) (r : Ref) (st : List Ref) {key : Str} {v : Val δ φ} (hk : Safe key)
    (hv : ValOk C key v) {stop : Str} (hs : '"' ∉ stop) :
    handle C ⟨L, r :: st, false⟩ (attrBody C key v stop) = some ⟨write L r key (.atom (readBackVal C key v)),
      if strip stop = ['/'] then r :: st else .junk :: r :: st, false⟩ := by
  rw [attrBody_text C hk (valOk_safe hv)]
  exact handle_attr C L r st (typeTag_tag5 _ _) (safe_no hk).2.2 (safe_no (valOk_safe hv)).2.2 hs (readVal_value hv)

mutual
theorem run_attr (C : Codec δ φ) (n : Nat) (L : Log δ φ) (r : Ref) (st : List Ref) (key : Str) :
    ∀ a : Attr δ φ, AttrOk C key a → run C ⟨L, r :: st, false⟩ ((exportAttr C n key a).map (·.2)) =
      some ⟨writes L r (readBack C [(key, a)]), r :: st, false⟩
  | .none, _ => by simp [exportAttr, readBack, run_nil, writes]
  | .atom v, h => by
    simp only [AttrOk] at h
    simp only [exportAttr, List.map_cons, List.map_nil, run_cons, handle_body C L r st h.1 h.2 (by decide : '"' ∉ " /".toList),
      Option.bind_some, run_nil, readBack]
    rw [if_pos (by decide)]
    rfl
  | .nested v cs, h => by
    simp only [AttrOk] at h
    simp only [exportAttr, List.map_cons, List.map_append, List.map_nil, run_cons, run_append,
      handle_body C L r st h.1 h.2.1 (by decide : '"' ∉ ([] : Str)), Option.bind_some, readBack]
    rw [if_neg (by decide), run_attrs C (n + 1) _ .junk (r :: st) cs h.2.2, writes_junk, Option.bind_some, handle_close]
    rfl
theorem run_attrs (C : Codec δ φ) (n : Nat) (L : Log δ φ) (r : Ref) (st : List Ref) :
    ∀ as : List (Str × Attr δ φ), AttrsOk C as → run C ⟨L, r :: st, false⟩ ((exportAttrs C n as).map (·.2)) =
      some ⟨writes L r (readBack C as), r :: st, false⟩
  | [], _ => by simp [exportAttrs, readBack, run_nil, writes]
  | (k, a) :: as, h => by
    simp only [AttrsOk] at h
    simp only [exportAttrs, List.map_append, run_append]
    rw [run_attr C n L r st k a h.1, Option.bind_some, run_attrs C n _ r st as h.2]
    congr 2
    cases a <;> rfl
end

theorem writes_log (L : Log δ φ) (es : Attrs δ φ) :
    writes L .log es = { L with attrs := es.foldl (fun d e => Dict.set d e.1 e.2) L.attrs } := by
  induction es generalizing L with
  | nil => rfl
  | cons e es ih => exact ih (write L .log e.1 e.2)

theorem modify_last {α : Type} (ts : List α) (t : α) (f : α → α) :
    (ts ++ [t]).modify ts.length f = ts ++ [f t] := by
  induction ts with
  | nil => rfl
  | cons x ts ih => simp [ih]

theorem writes_trace (L : Log δ φ) (es : Attrs δ φ) (ts : List (Trace δ φ)) (t : Trace δ φ) (h : L.traces = ts ++ [t]) :
    writes L (.trace ts.length) es =
      { L with traces := ts ++ [{ t with attrs := es.foldl (fun d e => Dict.set d e.1 e.2) t.attrs }] } := by
  induction es generalizing L t with
  | nil => show L = _; simp only [List.foldl_nil]; rw [← h]
  | cons e es ih =>
    have := ih (write L (.trace ts.length) e.1 e.2) { t with attrs := Dict.set t.attrs e.1 e.2 } (by
      simp only [write]; rw [h, modify_last])
    exact this.trans (by simp [write])

theorem writes_event (L : Log δ φ) (es : Attrs δ φ) (ts : List (Trace δ φ)) (A : Attrs δ φ) (evs : List (Attrs δ φ))
    (d : Attrs δ φ) (h : L.traces = ts ++ [⟨A, evs ++ [d]⟩]) :
    writes L (.event ts.length evs.length) es =
      { L with traces := ts ++ [⟨A, evs ++ [es.foldl (fun d e => Dict.set d e.1 e.2) d]⟩] } := by
  induction es generalizing L d with
  | nil => show L = _; simp only [List.foldl_nil]; rw [← h]
  | cons e es ih =>
    have := ih (write L (.event ts.length evs.length) e.1 e.2) (Dict.set d e.1 e.2) (by
      simp only [write]; rw [h, modify_last]; simp only [modify_last])
    exact this.trans (by simp [write])

theorem map_glob_last (gs : Dict Str (Attrs δ φ)) (s : Str) (d : Attrs δ φ) (hs : s ∉ Dict.keys gs) (k : Str) (v : Attr δ φ) :
    ((gs ++ [(s, d)]).map fun g => if g.1 = s then (g.1, Dict.set g.2 k v) else g) = gs ++ [(s, Dict.set d k v)] := by
  rw [List.map_append]
  congr 1
  · conv => rhs; rw [← List.map_id gs]
    apply List.map_congr_left
    intro g hg
    rw [if_neg, id]
    intro e
    exact hs (by rw [← e]; exact List.mem_map.2 ⟨g, hg, rfl⟩)
  · simp

theorem writes_glob (L : Log δ φ) (es : Attrs δ φ) (gs : Dict Str (Attrs δ φ)) (s : Str) (d : Attrs δ φ)
    (hs : s ∉ Dict.keys gs) (h : L.glob = gs ++ [(s, d)]) :
    writes L (.glob s) es = { L with glob := gs ++ [(s, es.foldl (fun d e => Dict.set d e.1 e.2) d)] } := by
  induction es generalizing L d with
  | nil => show L = _; simp only [List.foldl_nil]; rw [← h]
  | cons e es ih =>
    have := ih (write L (.glob s) e.1 e.2) (Dict.set d e.1 e.2) (by
      simp only [write]; rw [h, map_glob_last gs s d hs])
    exact this.trans (by simp [write])

theorem readBack_keys (C : Codec δ φ) (as : List (Str × Attr δ φ)) : (Dict.keys (readBack C as)).Sublist (Dict.keys as) := by
  induction as with
  | nil => exact List.Sublist.refl _
  | cons e as ih =>
    obtain ⟨k, a⟩ := e
    cases a with
    | none => exact List.Sublist.cons _ ih
    | atom v => exact List.Sublist.cons_cons _ ih
    | nested v cs => exact List.Sublist.cons_cons _ ih

theorem foldl_readBack {C : Codec δ φ} {as : Attrs δ φ} (h : (Dict.keys as).Nodup) :
    (readBack C as).foldl (fun d e => Dict.set d e.1 e.2) [] = readBack C as := by
  have := dictOf_nodup (l := readBack C as) (h.sublist (readBack_keys C as))
  exact this

end Verif.Xes
