import Verif.Xes.IterProofs
import Verif.Xes.Theorems
set_option linter.unusedSectionVars false
/-
C62: exporting a log to XES and reading it with the importer `iterparse`.
-/
namespace Verif.Xes
open Verif.DfgFile
variable {δ φ : Type}

theorem ctx_event (L : Option (Log δ φ)) (t : Option (Trace δ φ)) (st : List (Option (Base × List Str))) :
    Ctx (fun d => (⟨L, t, some d, some (.event, []) :: st, false⟩ : ISt δ φ)) .event [] st :=
  ⟨fun _ => rfl, fun _ => rfl, fun _ _ _ _ => rfl⟩

theorem ctx_trace (L : Option (Log δ φ)) (evs : List (Attrs δ φ)) (e : Option (Attrs δ φ)) (st : List (Option (Base × List Str))) :
    Ctx (fun d => (⟨L, some ⟨d, evs⟩, e, some (.trace, []) :: st, false⟩ : ISt δ φ)) .trace [] st :=
  ⟨fun _ => rfl, fun _ => rfl, fun _ _ _ _ => rfl⟩

theorem ctx_log (L : Log δ φ) (t : Option (Trace δ φ)) (e : Option (Attrs δ φ)) (st : List (Option (Base × List Str))) :
    Ctx (fun d => (⟨some { L with attrs := d }, t, e, some (.log, []) :: st, false⟩ : ISt δ φ)) .log [] st :=
  ⟨fun _ => rfl, fun _ => rfl, fun _ _ _ _ => rfl⟩

theorem ctx_glob (L : Log δ φ) (gs : Dict Str (Attrs δ φ)) (sc : Str) (hs : sc ∉ Dict.keys gs) (t : Option (Trace δ φ))
    (e : Option (Attrs δ φ)) (st : List (Option (Base × List Str))) :
    Ctx (fun d => (⟨some { L with glob := gs ++ [(sc, d)] }, t, e, some (.glob sc, []) :: st, false⟩ : ISt δ φ))
      (.glob sc) [] st := by
  refine ⟨fun _ => rfl, fun _ => rfl, ?_⟩
  intro d qs k a
  simp only [storeAt, Option.map_some, List.nil_append]
  have : ((gs ++ [(sc, d)]).map fun g => if g.1 = sc then (g.1, setAt qs k a g.2) else g) = gs ++ [(sc, setAt qs k a d)] := by
    rw [List.map_append]
    congr 1
    · conv => rhs; rw [← List.map_id gs]
      apply List.map_congr_left
      intro g hg
      rw [if_neg, id]
      intro e
      exact hs (by rw [← e]; exact List.mem_map.2 ⟨g, hg, rfl⟩)
    · simp
  rw [this]

variable (C : Codec δ φ) (max : Nat) (vis : List Nat → Bool)

theorem irun_events (L : Option (Log δ φ)) (A : Attrs δ φ) (pos : List Nat) (st : List (Option (Base × List Str)))
    (es : List (Attrs δ φ)) (h : ∀ e ∈ es, (Dict.keys e).Nodup ∧ AttrsWf C e) (i : Nat) (evs : List (Attrs δ φ)) :
    irun C max ⟨L, some ⟨A, evs⟩, none, st, false⟩ (eventsEvs C vis pos i es) =
      some ⟨L, some ⟨A, evs ++ (es.zipIdx i).map fun q => seenAttrs C vis (q.2 :: 1 :: pos) 0 q.1⟩, none, st, false⟩ := by
  induction es generalizing i evs with
  | nil => simp [eventsEvs, irun_nil]
  | cons e es ih =>
    obtain ⟨h1, h2⟩ := h e List.mem_cons_self
    simp only [eventsEvs, irun_append, irun_cons, irun_nil]
    have e0 : iterStep C max ⟨L, some ⟨A, evs⟩, none, st, false⟩ .event =
        some ⟨L, some ⟨A, evs⟩, some [], some (.event, []) :: st, false⟩ := by unfold iterStep; simp
    rw [e0]
    simp only [Option.bind_some]
    have e1 := irun_attrs C max vis (i :: 1 :: pos) 0 e h2 h1 (ctx_event L (some ⟨A, evs⟩) st) [] (by simp [Dict.keys])
    simp only [List.nil_append] at e1
    rw [e1]
    simp only [Option.bind_some]
    have e2 : ∀ d : Attrs δ φ, iterStep C max ⟨L, some ⟨A, evs⟩, some d, some (.event, []) :: st, false⟩ .endEvent =
        some ⟨L, some ⟨A, evs ++ [d]⟩, none, st, false⟩ := by intro d; unfold iterStep; simp
    rw [e2]
    simp only [Option.bind_some]
    rw [ih (fun x hx => h x (List.mem_cons_of_mem _ hx))]
    simp [List.zipIdx_cons]

/-- What is read of a trace. -/
def seenTrace (i : Nat) (t : Trace δ φ) : Trace δ φ :=
  ⟨seenAttrs C vis [0, i, 2] 0 t.attrs, t.events.zipIdx.map fun q => seenAttrs C vis [q.2, 1, i, 2] 0 q.1⟩

theorem irun_trace (L : Log δ φ) (hL : L.traces.length < max) (st : List (Option (Base × List Str))) (t : Trace δ φ)
    (h : ((Dict.keys t.attrs).Nodup ∧ AttrsWf C t.attrs) ∧ ∀ e ∈ t.events, (Dict.keys e).Nodup ∧ AttrsWf C e) (i : Nat) :
    irun C max ⟨some L, none, none, st, false⟩
      (.trace :: (attrsEvs C vis [0, i, 2] 0 t.attrs ++ eventsEvs C vis [i, 2] 0 t.events ++ [.endTrace])) =
      some ⟨some { L with traces := L.traces ++ [seenTrace C vis i t] }, none, none, st, false⟩ := by
  rw [irun_cons]
  have e0 : iterStep C max ⟨some L, none, none, st, false⟩ .trace =
      some ⟨some L, some ⟨[], []⟩, none, some (.trace, []) :: st, false⟩ := by
    unfold iterStep
    simp [Nat.not_le.2 hL]
  rw [e0]
  simp only [Option.bind_some, irun_append, irun_cons, irun_nil]
  have e1 := irun_attrs C max vis [0, i, 2] 0 t.attrs h.1.2 h.1.1 (ctx_trace (some L) [] none st) [] (by simp [Dict.keys])
  simp only [List.nil_append] at e1
  rw [e1]
  simp only [Option.bind_some]
  rw [irun_events C max vis (some L) _ [i, 2] (some (.trace, []) :: st) t.events h.2 0 []]
  simp only [Option.bind_some, List.nil_append]
  unfold iterStep
  simp [seenTrace]

/-- The log with the next traces appended, as long as the limit allows. -/
def withTraces (i : Nat) (ts : List (Trace δ φ)) (L : Log δ φ) : Log δ φ :=
  { L with traces := L.traces ++ ((ts.zipIdx i).map (fun p => seenTrace C vis p.2 p.1)).take (max - L.traces.length) }

theorem irun_traces (st : List (Option (Base × List Str))) (ts : List (Trace δ φ))
    (h : ∀ t ∈ ts, ((Dict.keys t.attrs).Nodup ∧ AttrsWf C t.attrs) ∧ ∀ e ∈ t.events, (Dict.keys e).Nodup ∧ AttrsWf C e)
    (i : Nat) (L : Log δ φ) (hL : L.traces.length ≤ max) :
    ∃ s, irun C max ⟨some L, none, none, st, false⟩ (tracesEvs C vis i ts) = some s ∧
      s.log = some (withTraces C max vis i ts L) := by
  induction ts generalizing i L with
  | nil => exact ⟨_, rfl, by simp [withTraces]⟩
  | cons t ts ih =>
    simp only [tracesEvs, irun_append]
    by_cases hm : L.traces.length < max
    · rw [irun_trace C max vis L hm st t (h t List.mem_cons_self) i]
      simp only [Option.bind_some]
      obtain ⟨s, e1, e2⟩ := ih (fun x hx => h x (List.mem_cons_of_mem _ hx)) (i + 1)
        { L with traces := L.traces ++ [seenTrace C vis i t] } (by simp; omega)
      refine ⟨s, e1, ?_⟩
      rw [e2]
      have : max - L.traces.length = (max - (L.traces ++ [seenTrace C vis i t]).length) + 1 := by simp; omega
      simp only [withTraces]
      rw [this]
      simp [List.zipIdx_cons]
    · have hm' : max - L.traces.length = 0 := by omega
      have e0 : iterStep C max ⟨some L, none, none, st, false⟩ .trace = some ⟨some L, none, none, st, true⟩ := by
        unfold iterStep
        simp [Nat.le_of_not_lt hm]
      simp only [irun_cons]
      rw [e0]
      simp only [Option.bind_some]
      rw [irun_stop C max _ rfl]
      simp only [Option.bind_some]
      rw [irun_stop C max _ rfl]
      exact ⟨_, rfl, by simp [withTraces, hm']⟩

theorem irun_globs (t : Option (Trace δ φ)) (e : Option (Attrs δ φ)) (st : List (Option (Base × List Str)))
    (gs : Dict Str (Attrs δ φ)) (h : ∀ g ∈ gs, (Dict.keys g.2).Nodup ∧ AttrsWf C g.2) (i : Nat) (L : Log δ φ)
    (hn : (Dict.keys L.glob ++ Dict.keys gs).Nodup) :
    irun C max ⟨some L, t, e, st, false⟩ (globsEvs C vis i gs) =
      some ⟨some { L with glob := L.glob ++ (gs.zipIdx i).map fun p => (p.1.1, seenAttrs C vis [p.2, 1] 0 p.1.2) },
        t, e, st, false⟩ := by
  induction gs generalizing i L with
  | nil => simp [globsEvs, irun_nil]
  | cons g gs ih =>
    obtain ⟨h1, h2⟩ := h g List.mem_cons_self
    have hnew : g.1 ∉ Dict.keys L.glob := fun hm => by
      have := (List.nodup_append.1 hn).2.2 _ hm g.1 (by simp [Dict.keys])
      exact this rfl
    simp only [globsEvs, irun_append, irun_cons, irun_nil]
    have e0 : iterStep C max ⟨some L, t, e, st, false⟩ (.glob g.1) =
        some ⟨some { L with glob := L.glob ++ [(g.1, [])] }, t, e, some (.glob g.1, []) :: st, false⟩ := by
      unfold iterStep
      simp [addGlob, set_new hnew]
    rw [e0]
    simp only [Option.bind_some]
    have e1 := irun_attrs C max vis [i, 1] 0 g.2 h2 h1 (ctx_glob L L.glob g.1 hnew t e st) [] (by simp [Dict.keys])
    simp only [List.nil_append] at e1
    rw [e1]
    simp only [Option.bind_some]
    rw [step_end C max _ rfl]
    simp only [Option.bind_some, List.tail_cons]
    rw [ih (fun x hx => h x (List.mem_cons_of_mem _ hx))]
    · simp [List.zipIdx_cons]
    · simpa [Dict.keys] using hn

theorem irun_ext (t : Option (Trace δ φ)) (e : Option (Attrs δ φ)) (st : List (Option (Base × List Str)))
    (l : Dict Str (Str × Str)) (L : Log δ φ) :
    irun C max ⟨some L, t, e, st, false⟩ (l.flatMap fun e => [.ext e.1 e.2.1 e.2.2, .endOther]) =
      some ⟨some { L with ext := l.foldl (fun d e => Dict.set d e.1 e.2) L.ext }, t, e, st, false⟩ := by
  induction l generalizing L with
  | nil => rfl
  | cons x l ih =>
    simp only [List.flatMap_cons, irun_append, irun_cons, irun_nil]
    have e0 : iterStep C max ⟨some L, t, e, st, false⟩ (.ext x.1 x.2.1 x.2.2) =
        some ⟨some (addExt L x.1 x.2.1 x.2.2), t, e, none :: st, false⟩ := by unfold iterStep; simp
    rw [e0]
    simp only [Option.bind_some]
    rw [step_end C max _ rfl]
    simp only [Option.bind_some, List.tail_cons]
    rw [ih]
    rfl

theorem irun_clas (t : Option (Trace δ φ)) (e : Option (Attrs δ φ)) (st : List (Option (Base × List Str)))
    (l : Dict Str (List Str)) (hl : ∀ e ∈ l, ∀ k ∈ e.2, k ≠ [] ∧ '\'' ∉ k ∧ ∀ c ∈ k, isSpace c = false) (L : Log δ φ) :
    irun C max ⟨some L, t, e, st, false⟩ (l.flatMap fun c => [.clas c.1 (joinSp c.2), .endOther]) =
      some ⟨some { L with clas := l.foldl (fun d e => Dict.set d e.1 e.2) L.clas }, t, e, st, false⟩ := by
  induction l generalizing L with
  | nil => rfl
  | cons x l ih =>
    have hx := hl x List.mem_cons_self
    simp only [List.flatMap_cons, irun_append, irun_cons, irun_nil]
    have hk : clasKeys (joinSp x.2) = x.2 := by
      unfold clasKeys
      rw [if_neg, splitWs_joinSp (fun k hk' => ⟨(hx k hk').1, (hx k hk').2.2⟩)]
      intro hm
      rcases mem_joinSp hm with hm | ⟨k, hk', hm⟩
      · exact absurd hm (by decide)
      · exact (hx k hk').2.1 hm
    have e0 : iterStep C max ⟨some L, t, e, st, false⟩ (.clas x.1 (joinSp x.2)) =
        some ⟨some { L with clas := Dict.set L.clas x.1 x.2 }, t, e, none :: st, false⟩ := by
      unfold iterStep; simp [addClas, hk]
    rw [e0]
    simp only [Option.bind_some]
    rw [step_end C max _ rfl]
    simp only [Option.bind_some, List.tail_cons]
    rw [ih (fun y hy => hl y (List.mem_cons_of_mem _ hy))]
    rfl

end Verif.Xes

namespace Verif
open Verif.Xes Verif.DfgFile
variable {δ φ : Type}

/-- **C62** Reading an exported log, whatever children are visible at start events: at most `MAX_TRACES` traces are read; an
    attribute with value `None` is dropped; a nested attribute keeps its children if and only if they were visible; all
    else is as written. -/
theorem C62_import (C : Codec δ φ) (vis : List Nat → Bool) (max : Nat) (L : Log δ φ) (h : LogWf C L) :
    importIter C max (logEvs C vis L) = some (seenLog C vis max L) := by
  have hrun : ∃ s, irun C max ⟨none, none, none, [], false⟩ (logEvs C vis L) = some s ∧
      s.log = some (seenLog C vis max L) := by
    unfold logEvs
    rw [irun_cons]
    have e0 : iterStep C max (⟨none, none, none, [], false⟩ : ISt δ φ) .log =
        some ⟨some ⟨[], [], [], [], []⟩, none, none, [some (.log, [])], false⟩ := by unfold iterStep; simp
    rw [e0]
    simp only [Option.bind_some, irun_append]
    rw [irun_ext]
    simp only [Option.bind_some]
    rw [irun_clas C max _ _ _ _ h.clas]
    simp only [Option.bind_some]
    have d1 : L.ext.foldl (fun d e => Dict.set d e.1 e.2) [] = L.ext := dictOf_nodup h.ext_keys
    have d2 : L.clas.foldl (fun d e => Dict.set d e.1 e.2) [] = L.clas := dictOf_nodup h.clas_keys
    rw [d1, d2]
    have e1 := irun_attrs C max vis [0] 0 L.attrs h.attrs.2 h.attrs.1
      (ctx_log (⟨[], L.ext, L.clas, [], []⟩ : Log δ φ) none none []) [] (by simp [Dict.keys])
    simp only [List.nil_append] at e1
    rw [e1]
    simp only [Option.bind_some]
    rw [irun_globs C max vis _ _ _ L.glob h.glob 0 _ (by simpa [Dict.keys] using h.glob_keys)]
    simp only [Option.bind_some, List.nil_append]
    obtain ⟨s, e2, e3⟩ := irun_traces C max vis [some (.log, [])] L.traces h.traces 0
      ⟨seenAttrs C vis [0] 0 L.attrs, L.ext, L.clas, L.glob.zipIdx.map fun p => (p.1.1, seenAttrs C vis [p.2, 1] 0 p.1.2), []⟩
      (Nat.zero_le _)
    rw [e2]
    simp only [Option.bind_some, irun_cons, irun_nil]
    have e4 : ∃ s', iterStep C max s .endOther = some s' ∧ s'.log = s.log := by
      unfold iterStep
      by_cases hs : s.stop = true
      · simp [hs]
      · simp [hs]
    obtain ⟨s', e5, e6⟩ := e4
    refine ⟨s', by rw [e5]; rfl, ?_⟩
    rw [e6, e3]
    simp [seenLog, seenTraces, seenTrace, withTraces]
  obtain ⟨s, h1, h2⟩ := hrun
  have h3 : (logEvs C vis L).foldlM (iterStep C max) ⟨none, none, none, [], false⟩ = some s := h1
  unfold importIter
  rw [h3]
  exact h2

theorem Xes.seenAttrs_flat (C : Codec δ φ) (vis : List Nat → Bool) (pos : List Nat) (i : Nat) (d : Attrs δ φ) (h : Flat d) :
    seenAttrs C vis pos i d = d := by
  induction d generalizing i with
  | nil => simp [seenAttrs]
  | cons e d ih =>
    obtain ⟨k, a⟩ := e
    obtain ⟨v, hv, hs⟩ := h _ List.mem_cons_self
    simp only at hv hs
    subst hv
    have : readBackVal C k v = v := by
      unfold readBackVal
      by_cases hk : k = "concept:name".toList
      · obtain ⟨s, rfl⟩ := hs hk; rw [if_pos hk]; rfl
      · rw [if_neg hk]
    simp [seenAttrs, seenAttr, this, ih (i + 1) (fun x hx => h x (List.mem_cons_of_mem _ hx))]

theorem Xes.map_zipIdx_self {α : Type} (l : List α) (f : α × Nat → α) (i : Nat) (h : ∀ a ∈ l, ∀ j, f (a, j) = a) :
    (l.zipIdx i).map f = l := by
  induction l generalizing i with
  | nil => rfl
  | cons a l ih =>
    simp only [List.zipIdx_cons, List.map_cons]
    rw [h a List.mem_cons_self, ih _ (fun x hx => h x (List.mem_cons_of_mem _ hx))]

/-- **C62** A log without nested attributes, without `None` and with strings as `concept:name` is read back as it was, whatever
    children are visible; with `MAX_TRACES`, exactly that many traces are read. -/
theorem C62_flat (C : Codec δ φ) (vis : List Nat → Bool) (max : Nat) (L : Log δ φ) (h : LogWf C L)
    (hf : Xes.Flat L.attrs) (hg : ∀ g ∈ L.glob, Xes.Flat g.2)
    (ht : ∀ t ∈ L.traces, Xes.Flat t.attrs ∧ ∀ e ∈ t.events, Xes.Flat e) :
    importIter C max (logEvs C vis L) = some { L with traces := L.traces.take max } := by
  rw [C62_import C vis max L h]
  unfold seenLog seenTraces
  rw [seenAttrs_flat C vis _ _ _ hf, map_zipIdx_self L.glob _ 0 (fun g hg' j => by
    simp only; rw [seenAttrs_flat C vis _ _ _ (hg g hg')]),
    map_zipIdx_self L.traces _ 0 (fun t ht' j => by
      simp only
      rw [seenAttrs_flat C vis _ _ _ (ht t ht').1, map_zipIdx_self t.events _ 0 (fun e he k => by
        simp only; rw [seenAttrs_flat C vis _ _ _ ((ht t ht').2 e he)])])]

mutual
/-- No `None`, no nested attribute without children, strings as `concept:name`. -/
def Xes.FullA (key : Str) : Attr δ φ → Prop
  | .none => False
  | .atom v => key = "concept:name".toList → ∃ s, v = .str s
  | .nested v cs => (key = "concept:name".toList → ∃ s, v = .str s) ∧ cs ≠ [] ∧ Xes.FullL cs
/-- All attributes of a dictionary. -/
def Xes.FullL : List (Str × Attr δ φ) → Prop
  | [] => True
  | (k, a) :: as => Xes.FullA k a ∧ Xes.FullL as
end

theorem Xes.readBackVal_full (C : Codec δ φ) {k : Str} {v : Val δ φ} (h : k = "concept:name".toList → ∃ s, v = .str s) :
    readBackVal C k v = v := by
  unfold readBackVal
  by_cases hk : k = "concept:name".toList
  · obtain ⟨s, rfl⟩ := h hk; rw [if_pos hk]; rfl
  · rw [if_neg hk]

mutual
theorem Xes.seenAttr_full (C : Codec δ φ) (pos : List Nat) (key : Str) :
    ∀ a : Attr δ φ, Xes.FullA key a → seenAttr C (fun _ => true) pos key a = some a
  | .none, h => by simp [Xes.FullA] at h
  | .atom v, h => by
    simp only [Xes.FullA] at h
    simp [seenAttr, readBackVal_full C h]
  | .nested v cs, h => by
    simp only [Xes.FullA] at h
    have := Xes.seenAttrs_full C pos 0 cs h.2.2
    simp [seenAttr, readBackVal_full C h.1, this, h.2.1]
theorem Xes.seenAttrs_full (C : Codec δ φ) (pos : List Nat) (i : Nat) :
    ∀ as : List (Str × Attr δ φ), Xes.FullL as → seenAttrs C (fun _ => true) pos i as = as
  | [], _ => by simp [seenAttrs]
  | (k, a) :: as, h => by
    simp only [Xes.FullL] at h
    simp [seenAttrs, Xes.seenAttr_full C (i :: pos) k a h.1, Xes.seenAttrs_full C pos (i + 1) as h.2]
end

/-- **C62** If all children are visible at the start events (as when the file is read in one block), nested attributes are
    read back as they were. -/
theorem C62_nested (C : Codec δ φ) (L : Log δ φ) (h : LogWf C L) (hf : Xes.FullL L.attrs) (hg : ∀ g ∈ L.glob, Xes.FullL g.2)
    (ht : ∀ t ∈ L.traces, Xes.FullL t.attrs ∧ ∀ e ∈ t.events, Xes.FullL e) :
    importIter C L.traces.length (logEvs C (fun _ => true) L) = some L := by
  rw [C62_import C _ _ L h]
  unfold seenLog seenTraces
  rw [seenAttrs_full C _ _ _ hf, map_zipIdx_self L.glob _ 0 (fun g hg' j => by
    simp only; rw [seenAttrs_full C _ _ _ (hg g hg')]),
    map_zipIdx_self L.traces _ 0 (fun t ht' j => by
      simp only
      rw [seenAttrs_full C _ _ _ (ht t ht').1, map_zipIdx_self t.events _ 0 (fun e he k => by
        simp only; rw [seenAttrs_full C _ _ _ ((ht t ht').2 e he)])]), List.take_length]

/-- **C62, refuted for nested attributes**: the result depends on what lxml has already read; the same file gives two
    different logs. -/
theorem C62_nested_refuted :
    importIter noCodec 1 (logEvs noCodec (fun _ => true)
      (oneTrace [("k".toList, .nested (.str "a".toList) [("c".toList, .atom (.str "b".toList))])] [])) =
      some (oneTrace [("k".toList, .nested (.str "a".toList) [("c".toList, .atom (.str "b".toList))])] []) ∧
    importIter noCodec 1 (logEvs noCodec (fun _ => false)
      (oneTrace [("k".toList, .nested (.str "a".toList) [("c".toList, .atom (.str "b".toList))])] [])) =
      some (oneTrace [("k".toList, .atom (.str "a".toList))] []) := ⟨rfl, rfl⟩

/-- The hypotheses of C62 are met. -/
example : LogWf noCodec sampleLog := by
  refine ⟨⟨by decide, ?_⟩, by decide, by decide, ?_, by decide, ?_, ?_⟩
  · simp [sampleLog, AttrsWf, AttrWf, ValRead]
  · intro e he
    simp only [sampleLog, List.mem_singleton] at he
    subst he
    decide
  · intro g hg
    simp only [sampleLog, List.mem_singleton] at hg
    subst hg
    exact ⟨by decide, by simp [AttrsWf, AttrWf, ValRead]⟩
  · intro t ht
    simp only [sampleLog, List.mem_cons, List.not_mem_nil, or_false] at ht
    rcases ht with rfl | rfl
    · refine ⟨⟨by decide, by simp [AttrsWf, AttrWf, ValRead]⟩, ?_⟩
      intro e he
      simp only [List.mem_cons, List.not_mem_nil, or_false] at he
      rcases he with rfl | rfl
      · exact ⟨by decide, by simp [AttrsWf, AttrWf, ValRead, Dict.keys]⟩
      · exact ⟨by decide, by simp [AttrsWf]⟩
    · exact ⟨⟨by decide, by simp [AttrsWf]⟩, fun e he => by cases he⟩

end Verif
