import Verif.Xes.Proofs
set_option linter.unusedSectionVars false
/-
Proofs: the header elements, the traces and the whole file.
-/
namespace Verif.Xes
open Verif Verif.DfgFile
variable {δ φ : Type}

theorem extBody_text (e : Str × Str × Str) : extBody e = "extension".toList ++ ' ' :: ("name=".toList ++ '"' :: (e.1 ++ '"' ::
    (" prefix=".toList ++ '"' :: (e.2.1 ++ '"' :: (" uri=".toList ++ '"' :: (e.2.2 ++ '"' :: " /".toList)))))) := by
  unfold extBody
  simp only [List.append_assoc]
  rfl

theorem findIdx_cons_false {p : Str → Bool} {x : Str} {l : List Str} (h : p x = false) :
    (x :: l).findIdx? p = (l.findIdx? p).map (· + 1) := by rw [List.findIdx?_cons, h]; rfl

theorem after_cons_false {w x : Str} {l : List Str} (h : Pnml.contains x w = false) : after w (x :: l) = after w l := by
  unfold after
  rw [findIdx_cons_false (p := fun y => Pnml.contains y w) h]
  cases l.findIdx? _ <;> rfl

theorem after_cons_true {w x : Str} {l : List Str} (h : Pnml.contains x w = true) : after w (x :: l) = l[0]? := by
  unfold after
  rw [List.findIdx?_cons, if_pos h]
  rfl

theorem handle_ext (C : Codec δ φ) (L : Log δ φ) (st : List Ref) (e : Str × Str × Str)
    (h : NoQuote e.1 ∧ NoQuote e.2.1 ∧ NoQuote e.2.2 ∧
      Pnml.contains e.1 "prefix=".toList = false ∧ Pnml.contains e.1 "uri=".toList = false ∧
      Pnml.contains e.2.1 "uri=".toList = false) :
    handle C ⟨L, st, false⟩ (extBody e) = some ⟨{ L with ext := Dict.set L.ext e.1 e.2 }, st, false⟩ := by
  obtain ⟨⟨-, -, q1⟩, ⟨-, -, q2⟩, ⟨-, -, q3⟩, c1, c2, c3⟩ := h
  rw [extBody_text]
  generalize hel : "extension".toList ++ ' ' :: ("name=".toList ++ '"' :: (e.1 ++ '"' ::
    (" prefix=".toList ++ '"' :: (e.2.1 ++ '"' :: (" uri=".toList ++ '"' :: (e.2.2 ++ '"' :: " /".toList)))))) = el
  have hb : beforeSpace el = some "extension".toList := by rw [← hel]; exact beforeSpace_tag (by decide) _
  have hh : el.head? ≠ some '/' := by rw [← hel, head_append (by decide)]; decide
  have hsp : split '"' el = ["extension name=".toList, e.1, " prefix=".toList, e.2.1, " uri=".toList, e.2.2, " /".toList] := by
    have : el = "extension name=".toList ++ '"' :: (e.1 ++ '"' ::
      (" prefix=".toList ++ '"' :: (e.2.1 ++ '"' :: (" uri=".toList ++ '"' :: (e.2.2 ++ '"' :: " /".toList))))) := by
      rw [← hel]; rfl
    rw [this, split_cons (by decide), split_cons q1, split_cons (by decide), split_cons q2, split_cons (by decide),
      split_cons q3, split_none (by decide)]
  unfold handle
  rw [if_neg (by simp), if_neg hh, hb]
  simp only [hsp]
  have e1 : stripLast ["extension name=".toList, e.1, " prefix=".toList, e.2.1, " uri=".toList, e.2.2, " /".toList] =
      ["extension name=".toList, e.1, " prefix=".toList, e.2.1, " uri=".toList, e.2.2, "/".toList] := rfl
  rw [if_neg (by decide), if_pos trivial, e1]
  rw [after_cons_true (by decide), after_cons_false (by decide), after_cons_false c1, after_cons_true (by decide),
    after_cons_false (by decide), after_cons_false c2, after_cons_false (by decide), after_cons_false c3,
    after_cons_true (by decide)]
  simp only [List.getElem?_cons_zero, Option.bind_eq_bind, Option.bind_some, pure]
  rw [if_neg]
  intro hc
  exact hc rfl

theorem run_ext (C : Codec δ φ) (L : Log δ φ) (st : List Ref) (l : Dict Str (Str × Str))
    (hl : ∀ e ∈ l, NoQuote e.1 ∧ NoQuote e.2.1 ∧ NoQuote e.2.2 ∧
      Pnml.contains e.1 "prefix=".toList = false ∧ Pnml.contains e.1 "uri=".toList = false ∧
      Pnml.contains e.2.1 "uri=".toList = false) :
    run C ⟨L, st, false⟩ (l.map extBody) =
      some ⟨{ L with ext := l.foldl (fun d e => Dict.set d e.1 e.2) L.ext }, st, false⟩ := by
  induction l generalizing L with
  | nil => rfl
  | cons e l ih =>
    rw [List.map_cons, run_cons, handle_ext C L st e (hl e List.mem_cons_self), Option.bind_some,
      ih _ (fun x hx => hl x (List.mem_cons_of_mem _ hx))]
    rfl

theorem clasBody_text (c : Str × List Str) : clasBody c = "classifier".toList ++ ' ' :: ("name=".toList ++ '"' :: (c.1 ++ '"' ::
    (" keys=".toList ++ '"' :: (joinSp c.2 ++ '"' :: " /".toList)))) := by
  unfold clasBody
  simp only [List.append_assoc]
  rfl

theorem mem_joinSp {l : List Str} {x : Char} (h : x ∈ joinSp l) : x = ' ' ∨ ∃ k ∈ l, x ∈ k := by
  fun_induction joinSp l with
  | case1 => cases h
  | case2 k => exact Or.inr ⟨k, List.mem_cons_self, h⟩
  | case3 k k' l ih =>
    rcases List.mem_append.1 h with h | h
    · exact Or.inr ⟨k, List.mem_cons_self, h⟩
    · rcases List.mem_cons.1 h with rfl | h
      · exact Or.inl rfl
      · rcases ih h with h | ⟨y, hy, hx⟩
        · exact Or.inl h
        · exact Or.inr ⟨y, List.mem_cons_of_mem _ hy, hx⟩

theorem space_map {s : Str} (h : ∀ c ∈ s, isSpace c = true → c = ' ') :
    (s.map fun c => if isSpace c then ' ' else c) = s := by
  conv => rhs; rw [← List.map_id s]
  apply List.map_congr_left
  intro c hc
  by_cases hs : isSpace c = true
  · rw [if_pos hs, h c hc hs]; rfl
  · rw [if_neg hs]; rfl

theorem split_joinSp {l : List Str} (hl : l ≠ []) (h : ∀ k ∈ l, ' ' ∉ k) : split ' ' (joinSp l) = l := by
  fun_induction joinSp l with
  | case1 => exact absurd rfl hl
  | case2 k => exact split_none (h k List.mem_cons_self)
  | case3 k k' l ih =>
    rw [split_cons (h k List.mem_cons_self), ih (by simp) (fun x hx => h x (List.mem_cons_of_mem _ hx))]

theorem splitWs_joinSp {l : List Str} (h : ∀ k ∈ l, k ≠ [] ∧ ∀ c ∈ k, isSpace c = false) : splitWs (joinSp l) = l := by
  unfold splitWs
  rw [space_map]
  · cases l with
    | nil => rfl
    | cons k l =>
      rw [split_joinSp (by simp)]
      · apply List.filter_eq_self.2
        intro x hx
        cases x with
        | nil => exact absurd rfl (h _ hx).1
        | cons => rfl
      · intro x hx hc
        exact absurd ((h x hx).2 _ hc) (by decide)
  · intro c hc hs
    rcases mem_joinSp hc with rfl | ⟨k, hk, hx⟩
    · rfl
    · rw [(h k hk).2 c hx] at hs; cases hs

theorem handle_clas (C : Codec δ φ) (L : Log δ φ) (st : List Ref) (e : Str × List Str)
    (h : NoQuote e.1 ∧ Pnml.contains e.1 "keys=".toList = false ∧
      ∀ k ∈ e.2, k ≠ [] ∧ NoQuote k ∧ '\'' ∉ k ∧ ∀ c ∈ k, isSpace c = false) :
    handle C ⟨L, st, false⟩ (clasBody e) = some ⟨{ L with clas := Dict.set L.clas e.1 e.2 }, st, false⟩ := by
  obtain ⟨⟨-, -, q1⟩, c1, hk⟩ := h
  have q2 : '"' ∉ joinSp e.2 := by
    intro hm
    rcases mem_joinSp hm with hm | ⟨k, hk', hm⟩
    · exact absurd hm (by decide)
    · exact (hk k hk').2.1.2.2 hm
  have q3 : '\'' ∉ joinSp e.2 := by
    intro hm
    rcases mem_joinSp hm with hm | ⟨k, hk', hm⟩
    · exact absurd hm (by decide)
    · exact (hk k hk').2.2.1 hm
  rw [clasBody_text]
  generalize hel : "classifier".toList ++ ' ' :: ("name=".toList ++ '"' :: (e.1 ++ '"' ::
    (" keys=".toList ++ '"' :: (joinSp e.2 ++ '"' :: " /".toList)))) = el
  have hb : beforeSpace el = some "classifier".toList := by rw [← hel]; exact beforeSpace_tag (by decide) _
  have hh : el.head? ≠ some '/' := by rw [← hel, head_append (by decide)]; decide
  have hsp : split '"' el = ["classifier name=".toList, e.1, " keys=".toList, joinSp e.2, " /".toList] := by
    have : el = "classifier name=".toList ++ '"' :: (e.1 ++ '"' ::
      (" keys=".toList ++ '"' :: (joinSp e.2 ++ '"' :: " /".toList))) := by
      rw [← hel]; rfl
    rw [this, split_cons (by decide), split_cons q1, split_cons (by decide), split_cons q2, split_none (by decide)]
  unfold handle
  rw [if_neg (by simp), if_neg hh, hb]
  simp only [hsp]
  have e1 : stripLast ["classifier name=".toList, e.1, " keys=".toList, joinSp e.2, " /".toList] =
      ["classifier name=".toList, e.1, " keys=".toList, joinSp e.2, "/".toList] := rfl
  rw [if_neg (by decide), if_neg (by decide), if_pos trivial, e1]
  rw [after_cons_true (by decide), after_cons_false (by decide), after_cons_false c1, after_cons_true (by decide)]
  simp only [List.getElem?_cons_zero, Option.bind_eq_bind, Option.bind_some, pure]
  rw [if_neg q3, splitWs_joinSp (fun k hk' => ⟨(hk k hk').1, (hk k hk').2.2.2⟩), if_neg]
  intro hc
  exact hc rfl

theorem run_clas (C : Codec δ φ) (L : Log δ φ) (st : List Ref) (l : Dict Str (List Str))
    (hl : ∀ e ∈ l, NoQuote e.1 ∧ Pnml.contains e.1 "keys=".toList = false ∧
      ∀ k ∈ e.2, k ≠ [] ∧ NoQuote k ∧ '\'' ∉ k ∧ ∀ c ∈ k, isSpace c = false) :
    run C ⟨L, st, false⟩ (l.map clasBody) =
      some ⟨{ L with clas := l.foldl (fun d e => Dict.set d e.1 e.2) L.clas }, st, false⟩ := by
  induction l generalizing L with
  | nil => rfl
  | cons e l ih =>
    rw [List.map_cons, run_cons, handle_clas C L st e (hl e List.mem_cons_self), Option.bind_some,
      ih _ (fun x hx => hl x (List.mem_cons_of_mem _ hx))]
    rfl

theorem globBody_text (s : Str) : globBody s = "global".toList ++ ' ' :: ("scope=".toList ++ '"' :: (s ++ ['"'])) := by
  unfold globBody
  simp only [List.append_assoc]
  rfl

theorem handle_glob (C : Codec δ φ) (L : Log δ φ) (st : List Ref) (s : Str) (h : NoQuote s) :
    handle C ⟨L, st, false⟩ (globBody s) = some ⟨{ L with glob := Dict.set L.glob s [] }, .glob s :: st, false⟩ := by
  obtain ⟨-, -, q1⟩ := h
  rw [globBody_text]
  generalize hel : "global".toList ++ ' ' :: ("scope=".toList ++ '"' :: (s ++ ['"'])) = el
  have hb : beforeSpace el = some "global".toList := by rw [← hel]; exact beforeSpace_tag (by decide) _
  have hh : el.head? ≠ some '/' := by rw [← hel, head_append (by decide)]; decide
  have hsp : split '"' el = ["global scope=".toList, s, []] := by
    have : el = "global scope=".toList ++ '"' :: (s ++ '"' :: []) := by rw [← hel]; rfl
    rw [this, split_cons (by decide), split_cons q1, split_none (by decide)]
  unfold handle
  rw [if_neg (by simp), if_neg hh, hb]
  simp only [hsp]
  have e1 : stripLast ["global scope=".toList, s, []] = ["global scope=".toList, s, []] := rfl
  rw [if_neg (by decide), if_neg (by decide), if_neg (by decide), if_pos trivial, e1]
  simp only [List.getElem?_cons_succ, List.getElem?_cons_zero, Option.bind_eq_bind, Option.bind_some, pure]
  rw [if_pos]
  intro hc
  simp at hc

theorem run_glob (C : Codec δ φ) (L : Log δ φ) (a : Ref) (st : List Ref) (gs : Dict Str (Attrs δ φ))
    (h : ∀ g ∈ gs, NoQuote g.1 ∧ DictOk C g.2) (hn : (Dict.keys L.glob ++ Dict.keys gs).Nodup) :
    run C ⟨L, a :: st, false⟩ ((gs.flatMap fun g => [(1, globBody g.1)] ++ exportAttrs C 2 g.2 ++
      [(1, "/global".toList)]).map (·.2)) =
      some ⟨{ L with glob := L.glob ++ gs.map fun g => (g.1, readBack C g.2) }, a :: st, false⟩ := by
  induction gs generalizing L with
  | nil => simp [run_nil]
  | cons g gs ih =>
    have hg := h g List.mem_cons_self
    have hnew : g.1 ∉ Dict.keys L.glob := fun hm => by
      have := (List.nodup_append.1 hn).2.2 _ hm g.1 (by simp [Dict.keys])
      exact this rfl
    simp only [List.flatMap_cons, List.map_append, List.map_cons, List.map_nil, run_append, run_cons, run_nil]
    rw [handle_glob C L _ g.1 hg.1]
    simp only [Option.bind_some]
    rw [run_attrs C 2 _ _ _ _ hg.2.2, Option.bind_some]
    have hcl : ∀ L', handle C ⟨L', Ref.glob g.1 :: a :: st, false⟩ "/global".toList = some ⟨L', a :: st, false⟩ :=
      fun L' => handle_close C L' _ a st _
    rw [hcl]
    simp only [Option.bind_some]
    have hw := writes_glob { L with glob := Dict.set L.glob g.1 [] } (readBack C g.2) L.glob g.1 []
      hnew (by simp only; rw [set_new hnew])
    rw [hw, ih]
    · simp [foldl_readBack hg.2.1]
    · exact fun x hx => h x (List.mem_cons_of_mem _ hx)
    · rw [foldl_readBack hg.2.1]
      simpa [Dict.keys] using hn

theorem handle_trace (C : Codec δ φ) (L : Log δ φ) (st : List Ref) :
    handle C ⟨L, st, false⟩ "trace".toList =
      some ⟨{ L with traces := L.traces ++ [⟨[], []⟩] }, .trace L.traces.length :: st, false⟩ := by
  have hb : beforeSpace "trace".toList = none := by decide
  unfold handle
  rw [if_neg (by simp), if_neg (by decide), hb]
  simp only
  rw [if_neg (by decide), if_pos trivial]

theorem handle_event (C : Codec δ φ) (L : Log δ φ) (st : List Ref) (ts : List (Trace δ φ)) (t : Trace δ φ)
    (h : L.traces = ts ++ [t]) :
    handle C ⟨L, st, false⟩ "event".toList =
      some ⟨{ L with traces := ts ++ [{ t with events := t.events ++ [[]] }] }, .event ts.length t.events.length :: st,
        false⟩ := by
  have hb : beforeSpace "event".toList = none := by decide
  unfold handle
  rw [if_neg (by simp), if_neg (by decide), hb]
  simp only
  rw [if_pos trivial]
  have hl : L.traces.getLast? = some t := by rw [h]; simp
  rw [hl]
  simp only [newEvent]
  have hlen : L.traces.length - 1 = ts.length := by rw [h]; simp
  rw [hlen, h, modify_last]

theorem run_events (C : Codec δ φ) (L : Log δ φ) (a : Ref) (st : List Ref) (ts : List (Trace δ φ)) (A : Attrs δ φ)
    (evs es : List (Attrs δ φ)) (h : L.traces = ts ++ [⟨A, evs⟩]) (he : ∀ e ∈ es, DictOk C e) :
    run C ⟨L, a :: st, false⟩ ((es.flatMap fun e => [(2, "event".toList)] ++ exportAttrs C 3 e ++
      [(2, "/event".toList)]).map (·.2)) =
      some ⟨{ L with traces := ts ++ [⟨A, evs ++ es.map (readBack C)⟩] }, a :: st, false⟩ := by
  induction es generalizing L evs with
  | nil => simp only [List.flatMap_nil, List.map_nil, run_nil, List.append_nil]; rw [← h]
  | cons e es ih =>
    have hg := he e List.mem_cons_self
    simp only [List.flatMap_cons, List.map_append, List.map_cons, List.map_nil, run_append, run_cons, run_nil]
    rw [handle_event C L _ ts _ h]
    simp only [Option.bind_some]
    rw [run_attrs C 3 _ _ _ _ hg.2, Option.bind_some]
    have hcl : ∀ L' r, handle C ⟨L', r :: a :: st, false⟩ "/event".toList = some ⟨L', a :: st, false⟩ :=
      fun L' r => handle_close C L' _ a st _
    rw [hcl]
    simp only [Option.bind_some]
    rw [writes_event _ (readBack C e) ts A evs [] rfl, foldl_readBack hg.1]
    have := ih { L with traces := ts ++ [⟨A, evs ++ [readBack C e]⟩] } (evs ++ [readBack C e]) rfl
      (fun x hx => he x (List.mem_cons_of_mem _ hx))
    simp only [List.map_append, List.map_cons, List.map_nil] at this
    rw [this]
    simp

theorem run_trace (C : Codec δ φ) (L : Log δ φ) (a : Ref) (st : List Ref) (t : Trace δ φ)
    (h : DictOk C t.attrs ∧ ∀ e ∈ t.events, DictOk C e) :
    run C ⟨L, a :: st, false⟩ ((exportTrace C t).map (·.2)) =
      some ⟨{ L with traces := L.traces ++ [⟨readBack C t.attrs, t.events.map (readBack C)⟩] }, a :: st, false⟩ := by
  unfold exportTrace
  rw [List.map_append, List.map_append, List.map_append, run_append, run_append, run_append]
  simp only [List.map_cons, List.map_nil, run_cons, run_nil]
  rw [handle_trace]
  simp only [Option.bind_some]
  rw [run_attrs C 2 _ _ _ _ h.1.2, Option.bind_some, writes_trace _ _ L.traces ⟨[], []⟩ rfl, foldl_readBack h.1.1]
  have := run_events C { L with traces := L.traces ++ [⟨readBack C t.attrs, []⟩] } (.trace L.traces.length) (a :: st)
    L.traces (readBack C t.attrs) [] t.events rfl h.2
  simp only at this
  rw [this, Option.bind_some]
  have hcl : ∀ L' r, handle C ⟨L', r :: a :: st, false⟩ "/trace".toList = some ⟨L', a :: st, false⟩ :=
    fun L' r => handle_close C L' _ a st _
  rw [hcl]
  simp

theorem run_traces (C : Codec δ φ) (L : Log δ φ) (a : Ref) (st : List Ref) (ts : List (Trace δ φ))
    (h : ∀ t ∈ ts, DictOk C t.attrs ∧ ∀ e ∈ t.events, DictOk C e) :
    run C ⟨L, a :: st, false⟩ ((ts.flatMap (exportTrace C)).map (·.2)) =
      some ⟨{ L with traces := L.traces ++ ts.map fun t => ⟨readBack C t.attrs, t.events.map (readBack C)⟩ },
        a :: st, false⟩ := by
  induction ts generalizing L with
  | nil => simp [run_nil]
  | cons t ts ih =>
    rw [List.flatMap_cons, List.map_append, run_append, run_trace C L a st t (h t List.mem_cons_self), Option.bind_some,
      ih _ (fun x hx => h x (List.mem_cons_of_mem _ hx))]
    simp

theorem run_lines (C : Codec δ φ) (enc : Str) (L : Log δ φ) (h : LogOk C L) :
    (run C ⟨⟨[], [], [], [], []⟩, [], false⟩ ((exportLines C enc L).map (·.2))).map (·.L) = some (readBackLog C L) := by
  unfold exportLines
  simp only [List.map_append, run_append]
  have h0 : ∀ L' : Log δ φ, run C ⟨L', [], false⟩ (([(0, "?xml version=\"1.0\" encoding=\"".toList ++ enc ++ "\" ?".toList),
   (0, "log xes.version=\"1849-2016\" xes.features=\"nested-attributes\" xmlns=\"http://www.xes-standard.org/\"".toList)] :
     List Line).map (·.2)) = some ⟨L', [.log], false⟩ := by
    intro L'
    simp only [List.map_cons, List.map_nil, run_cons, run_nil]
    have e1 : handle C ⟨L', [], false⟩ ("?xml version=\"1.0\" encoding=\"".toList ++ enc ++ "\" ?".toList) =
        some ⟨L', [], false⟩ := by
      have hb : beforeSpace ("?xml version=\"1.0\" encoding=\"".toList ++ enc ++ "\" ?".toList) = some "?xml".toList := by
        rw [List.append_assoc]
        exact beforeSpace_tag (tag := "?xml".toList) (by decide) ("version=\"1.0\" encoding=\"".toList ++ (enc ++ "\" ?".toList))
      unfold handle
      rw [if_neg (by simp), if_neg (by rw [List.append_assoc, head_append (by decide)]; decide), hb]
      simp only
      rw [if_neg (by decide), if_neg (by decide), if_neg (by decide), if_neg (by decide), if_neg (by decide)]
    have e2 : handle C ⟨L', [], false⟩ "log xes.version=\"1849-2016\" xes.features=\"nested-attributes\" xmlns=\"http://www.xes-standard.org/\"".toList =
        some ⟨L', [.log], false⟩ := by
      have hb : beforeSpace "log xes.version=\"1849-2016\" xes.features=\"nested-attributes\" xmlns=\"http://www.xes-standard.org/\"".toList = some "log".toList := by
        exact beforeSpace_tag (tag := "log".toList) (by decide) "xes.version=\"1849-2016\" xes.features=\"nested-attributes\" xmlns=\"http://www.xes-standard.org/\"".toList
      unfold handle
      rw [if_neg (by simp), if_neg (by decide), hb]
      simp only
      rw [if_neg (by decide), if_neg (by decide), if_neg (by decide), if_neg (by decide), if_pos trivial]
    rw [e1]
    simp only [Option.bind_some]
    rw [e2]
    rfl
  rw [h0]
  simp only [Option.bind_some]
  have m1 : (L.ext.map fun e => ((1, extBody e) : Line)).map (·.2) = L.ext.map extBody := by
    rw [List.map_map]; rfl
  have m2 : (L.clas.map fun e => ((1, clasBody e) : Line)).map (·.2) = L.clas.map clasBody := by
    rw [List.map_map]; rfl
  rw [m1, run_ext C _ _ _ h.ext]
  simp only [Option.bind_some]
  rw [m2, run_clas C _ _ _ h.clas]
  simp only [Option.bind_some]
  rw [run_attrs C 1 _ _ _ _ h.attrs.2]
  simp only [Option.bind_some]
  rw [writes_log]
  have hg := run_glob C ⟨(readBack C L.attrs).foldl (fun d e => Dict.set d e.1 e.2) [],
    L.ext.foldl (fun d e => Dict.set d e.1 e.2) [], L.clas.foldl (fun d e => Dict.set d e.1 e.2) [], [], []⟩ .log [] L.glob h.glob (by simpa [Dict.keys] using h.glob_keys)
  simp only [List.map_append] at hg
  rw [hg]
  simp only [Option.bind_some]
  rw [run_traces C _ _ _ _ h.traces]
  simp only [Option.bind_some]
  have hend : ∀ L' : Log δ φ, run C ⟨L', [Ref.log], false⟩ (([(0, "/log".toList)] : List Line).map (·.2)) =
      some ⟨L', [.log], true⟩ := by
    intro L'
    simp only [List.map_cons, List.map_nil, run_cons, run_nil]
    have : handle C ⟨L', [Ref.log], false⟩ "/log".toList = some ⟨L', [.log], true⟩ := by
      unfold handle
      rw [if_neg (by simp), if_pos (by decide), if_neg (by simp)]
    rw [this]; rfl
  rw [hend]
  have d1 : L.ext.foldl (fun d e => Dict.set d e.1 e.2) [] = L.ext := dictOf_nodup h.ext_keys
  have d2 : L.clas.foldl (fun d e => Dict.set d e.1 e.2) [] = L.clas := dictOf_nodup h.clas_keys
  rw [foldl_readBack h.attrs.1, d1, d2]
  simp [readBackLog]

end Verif.Xes
