import Verif.DfgNet.Spec
import Verif.Log.Dfg
import Verif.Dfg.Graph
set_option linter.unusedSectionVars false
/-
C44: runs of state-machine nets, and the languages of the two conversions.
-/
namespace Verif.DfgNet
variable {α π : Type} [DecidableEq α] [DecidableEq π]

theorem execute_machine (pl : List π) (T : List (Tr π α)) (t : Tr π α) (p : π) :
    (machine pl T).execute t [(p, 1)] = if t ∈ T ∧ t.src = p then some [(t.dst, 1)] else none := by
  unfold Net.execute Net.isEnabled machine
  simp only
  by_cases hT : t ∈ T
  · by_cases hp : t.src = p
    · subst hp
      simp [hT, Dict.count, Dict.get?, Net.consume, Net.produce, Dict.set, Dict.del]
    · have hp' : ¬ p = t.src := fun h => hp h.symm
      simp [hT, hp, hp', Dict.count, Dict.get?]
  · simp [hT]

/-- A walk through the net. -/
inductive Walk (T : List (Tr π α)) : π → List (Tr π α) → π → Prop
  | nil (p) : Walk T p [] p
  | cons {t ts q} : t ∈ T → Walk T t.dst ts q → Walk T t.src (t :: ts) q

theorem firing_machine (pl : List π) (T : List (Tr π α)) (p : π) (ts : List (Tr π α)) (m : Marking π) :
    (machine pl T).FiringSequence [(p, 1)] ts m ↔ ∃ q, m = [(q, 1)] ∧ Walk T p ts q := by
  unfold Net.FiringSequence
  induction ts generalizing p with
  | nil =>
    simp only [List.foldlM_nil, Option.pure_def, Option.some.injEq]
    constructor
    · rintro rfl; exact ⟨p, rfl, .nil p⟩
    · rintro ⟨q, rfl, h⟩; cases h; rfl
  | cons t ts ih =>
    rw [List.foldlM_cons, execute_machine]
    by_cases h : t ∈ T ∧ t.src = p
    · rw [if_pos h]
      show List.foldlM _ [(t.dst, 1)] ts = some m ↔ _
      rw [ih]
      constructor
      · rintro ⟨q, rfl, hw⟩
        exact ⟨q, rfl, h.2 ▸ .cons h.1 hw⟩
      · rintro ⟨q, rfl, hw⟩
        cases hw with
        | cons _ hw => exact ⟨q, rfl, hw⟩
    · rw [if_neg h]
      constructor
      · intro h'; cases h'
      · rintro ⟨q, rfl, hw⟩
        cases hw with
        | cons ht _ => exact absurd ⟨ht, rfl⟩ h

theorem eq_single (q r : π) : Marking.eq [(q, 1)] [(r, 1)] = true ↔ q = r := by
  unfold Marking.eq
  by_cases h : q = r
  · subst h; simp [Dict.has, Dict.get?]
  · have h' : ¬ r = q := fun h' => h h'.symm
    simp [Dict.has, Dict.get?, h, h']

/-- What a transition does: label, input place, output place. -/
def kind (t : Tr π α) : Option α × π × π := (t.label, t.src, t.dst)

/-- A word read on the way from one place to another. -/
inductive Word (K : List (Option α × π × π)) : π → List α → π → Prop
  | nil (p) : Word K p [] p
  | cons {l p q w r} : (l, p, q) ∈ K → Word K q w r → Word K p (l.toList ++ w) r

theorem word_iff (T : List (Tr π α)) (p q : π) (w : List α) :
    Word (T.map kind) p w q ↔ ∃ ts, Walk T p ts q ∧ ts.filterMap (·.label) = w := by
  constructor
  · intro h
    induction h with
    | nil p => exact ⟨[], .nil p, rfl⟩
    | @cons l p q w r hk _ ih =>
      obtain ⟨ts, h1, h2⟩ := ih
      obtain ⟨t, ht, hk⟩ := List.mem_map.1 hk
      unfold kind at hk
      simp only [Prod.mk.injEq] at hk
      obtain ⟨rfl, rfl, rfl⟩ := hk
      refine ⟨t :: ts, .cons ht h1, ?_⟩
      rw [List.filterMap_cons, h2]
      cases t.label <;> rfl
  · rintro ⟨ts, h, rfl⟩
    induction h with
    | nil p => exact .nil p
    | @cons t ts q ht _ ih =>
      have : (t :: ts).filterMap (·.label) = t.label.toList ++ ts.filterMap (·.label) := by
        rw [List.filterMap_cons]; cases t.label <;> rfl
      rw [this]
      exact .cons (List.mem_map.2 ⟨t, ht, rfl⟩) ih

theorem accepts_machine (pl : List π) (T : List (Tr π α)) (p q : π) (w : List α) :
    (machine pl T).Accepts (·.label) [(p, 1)] [(q, 1)] w ↔ Word (T.map kind) p w q := by
  unfold Net.Accepts
  rw [word_iff]
  constructor
  · rintro ⟨ts, m, h1, h2, h3⟩
    obtain ⟨r, rfl, hw⟩ := (firing_machine pl T p ts m).1 h1
    rw [eq_single] at h2
    subst h2
    exact ⟨ts, hw, h3⟩
  · rintro ⟨ts, hw, h3⟩
    exact ⟨ts, _, (firing_machine pl T p ts _).2 ⟨q, rfl, hw⟩, (eq_single q q).2 rfl, h3⟩

/-- From an activity along the arcs to an end activity. -/
def Tail (dfg : List (α × α)) (ends : List α) : α → List α → Prop
  | a, [] => a ∈ ends
  | a, b :: w => (a, b) ∈ dfg ∧ Tail dfg ends b w

theorem tail_iff (dfg : List (α × α)) (ends : List α) (a : α) (w : List α) :
    Tail dfg ends a w ↔ (∃ b ∈ ends, (a :: w).getLast? = some b) ∧
      ∀ i x y, (a :: w)[i]? = some x → (a :: w)[i + 1]? = some y → (x, y) ∈ dfg := by
  induction w generalizing a with
  | nil => simp [Tail]
  | cons b w ih =>
    show (a, b) ∈ dfg ∧ Tail dfg ends b w ↔ _
    rw [ih b, List.getLast?_cons_cons]
    constructor
    · rintro ⟨h1, h2, h3⟩
      refine ⟨h2, ?_⟩
      intro i x y hx hy
      cases i with
      | zero => simp at hx hy; subst hx; subst hy; exact h1
      | succ i => exact h3 i x y (by simpa using hx) (by simpa using hy)
    · rintro ⟨h2, h3⟩
      refine ⟨h3 0 a b (by simp) (by simp), h2, ?_⟩
      intro i x y hx hy
      exact h3 (i + 1) x y (by simpa using hx) (by simpa using hy)

theorem dfgTrace_iff (dfg : List (α × α)) (starts ends : List α) (w : List α) :
    DfgTrace dfg starts ends w ↔ ∃ a ∈ starts, ∃ v, w = a :: v ∧ Tail dfg ends a v := by
  unfold DfgTrace
  constructor
  · rintro ⟨⟨a, ha, h1⟩, h2, h3⟩
    cases w with
    | nil => simp at h1
    | cons b v =>
      simp at h1; subst h1
      exact ⟨b, ha, v, rfl, (tail_iff _ _ _ _).2 ⟨h2, h3⟩⟩
  · rintro ⟨a, ha, v, rfl, ht⟩
    obtain ⟨h2, h3⟩ := (tail_iff _ _ _ _).1 ht
    exact ⟨⟨a, ha, rfl⟩, h2, h3⟩

theorem mem_activitiesOf (dfg : List (α × α)) (a : α) : a ∈ activitiesOf dfg ↔ InArc dfg a := by
  unfold activitiesOf InArc
  have key : ∀ (l : List (α × α)) (s : List α),
      a ∈ l.foldl (fun s e =>
        let s := if e.1 ∈ s then s else s ++ [e.1]
        if e.2 ∈ s then s else s ++ [e.2]) s ↔ a ∈ s ∨ ∃ e ∈ l, e.1 = a ∨ e.2 = a := by
    intro l
    induction l with
    | nil => simp
    | cons e l ih =>
      intro s
      rw [List.foldl_cons, ih]
      have : a ∈ (let s := if e.1 ∈ s then s else s ++ [e.1]
        if e.2 ∈ s then s else s ++ [e.2]) ↔ a ∈ s ∨ e.1 = a ∨ e.2 = a := by
        simp only
        grind
      rw [this]
      simp only [List.mem_cons, exists_eq_or_imp]
      grind
  simpa using key dfg []

/-! ### the default conversion -/

theorem kinds_starts (acts : List α) (starts : List α) (st : Nat × List (Tr (Pl α) α)) :
    (addStarts acts st starts).2.map kind = st.2.map kind ++
      (starts.filter fun a => decide (a ∈ acts)).map fun a => (some a, .source, .act a) := by
  unfold addStarts
  induction starts generalizing st with
  | nil => simp
  | cons a l ih =>
    rw [List.foldl_cons, ih, List.filter_cons]
    by_cases h : a ∈ acts
    · simp [h, kind]
    · simp [h]

theorem kinds_ends (acts : List α) (ends : List α) (st : Nat × List (Tr (Pl α) α)) :
    (addEnds acts st ends).2.map kind = st.2.map kind ++
      (ends.filter fun a => decide (a ∈ acts)).map fun a => (none, .act a, .sink) := by
  unfold addEnds
  induction ends generalizing st with
  | nil => simp
  | cons a l ih =>
    rw [List.foldl_cons, ih, List.filter_cons]
    by_cases h : a ∈ acts
    · simp [h, kind]
    · simp [h]

theorem kinds_arcs (dfg : List (α × α)) (st : Nat × List (Tr (Pl α) α)) :
    (addArcs st dfg).2.map kind = st.2.map kind ++ dfg.map fun e => (some e.2, .act e.1, .act e.2) := by
  unfold addArcs
  induction dfg generalizing st with
  | nil => simp
  | cons a l ih => rw [List.foldl_cons, ih]; simp [kind]

theorem kinds (dfg : List (α × α)) (starts ends : List α) (l : Option α) (p q : Pl α) :
    (l, p, q) ∈ (toNet dfg starts ends).transitions.map kind ↔
      (∃ a ∈ starts, InArc dfg a ∧ l = some a ∧ p = .source ∧ q = .act a) ∨
      (∃ a ∈ ends, InArc dfg a ∧ l = none ∧ p = .act a ∧ q = .sink) ∨
      ∃ e ∈ dfg, l = some e.2 ∧ p = .act e.1 ∧ q = .act e.2 := by
  unfold toNet machine
  simp only [kinds_arcs, kinds_ends, kinds_starts, List.map_nil, List.nil_append, List.mem_append, List.mem_map,
    List.mem_filter, decide_eq_true_eq, mem_activitiesOf, Prod.mk.injEq]
  constructor
  · rintro ((⟨a, ⟨h1, h2⟩, rfl, rfl, rfl⟩ | ⟨a, ⟨h1, h2⟩, rfl, rfl, rfl⟩) | ⟨e, h, rfl, rfl, rfl⟩)
    · exact .inl ⟨a, h1, h2, rfl, rfl, rfl⟩
    · exact .inr (.inl ⟨a, h1, h2, rfl, rfl, rfl⟩)
    · exact .inr (.inr ⟨e, h, rfl, rfl, rfl⟩)
  · rintro (⟨a, h1, h2, rfl, rfl, rfl⟩ | ⟨a, h1, h2, rfl, rfl, rfl⟩ | ⟨e, h, rfl, rfl, rfl⟩)
    · exact .inl (.inl ⟨a, ⟨h1, h2⟩, rfl, rfl, rfl⟩)
    · exact .inl (.inr ⟨a, ⟨h1, h2⟩, rfl, rfl, rfl⟩)
    · exact .inr ⟨e, h, rfl, rfl, rfl⟩

/-- What can be read from a place on the way to the sink. -/
def Goal (dfg : List (α × α)) (starts ends : List α) : Pl α → List α → Prop
  | .source, w => ∃ a ∈ starts, InArc dfg a ∧ ∃ v, w = a :: v ∧ Tail dfg (ends.filter fun b => decide (b ∈ activitiesOf dfg)) a v
  | .act a, w => Tail dfg (ends.filter fun b => decide (b ∈ activitiesOf dfg)) a w
  | .sink, w => w = []

theorem word_goal (dfg : List (α × α)) (starts ends : List α) (p q : Pl α) (w : List α)
    (h : Word ((toNet dfg starts ends).transitions.map kind) p w q) (hq : q = .sink) : Goal dfg starts ends p w := by
  induction h with
  | nil p => subst hq; rfl
  | @cons l p r w q hk _ ih =>
    have ih := ih hq
    rcases (kinds dfg starts ends l p r).1 hk with ⟨a, h1, h2, rfl, rfl, rfl⟩ | ⟨a, h1, h2, rfl, rfl, rfl⟩ | ⟨e, h1, rfl, rfl, rfl⟩
    · exact ⟨a, h1, h2, w, rfl, ih⟩
    · have : w = [] := ih
      subst this
      show a ∈ ends.filter _
      rw [List.mem_filter, decide_eq_true_eq, mem_activitiesOf]
      exact ⟨h1, h2⟩
    · exact ⟨h1, ih⟩

theorem tail_word (dfg : List (α × α)) (starts ends : List α) (a : α) (w : List α)
    (h : Tail dfg (ends.filter fun b => decide (b ∈ activitiesOf dfg)) a w) :
    Word ((toNet dfg starts ends).transitions.map kind) (.act a) w .sink := by
  induction w generalizing a with
  | nil =>
    have h : a ∈ ends.filter _ := h
    rw [List.mem_filter, decide_eq_true_eq, mem_activitiesOf] at h
    have := Word.cons (w := []) ((kinds dfg starts ends none (.act a) .sink).2 (.inr (.inl ⟨a, h.1, h.2, rfl, rfl, rfl⟩)))
      (Word.nil Pl.sink)
    exact this
  | cons b w ih =>
    have h : (a, b) ∈ dfg ∧ _ := h
    exact Word.cons (l := some b) ((kinds dfg starts ends (some b) (.act a) (.act b)).2 (.inr (.inr ⟨(a, b), h.1, rfl, rfl, rfl⟩)))
      (ih b h.2)

theorem tail_mono (dfg : List (α × α)) (ends ends' : List α) (a : α) (w : List α)
    (h : Tail dfg ends a w) (he : ∀ b ∈ a :: w, b ∈ ends → b ∈ ends') : Tail dfg ends' a w := by
  induction w generalizing a with
  | nil => exact he a (by simp) h
  | cons b w ih => exact ⟨h.1, ih b h.2 fun x hx => he x (by simp [List.mem_cons.1 hx])⟩

theorem tail_inArc (dfg : List (α × α)) (ends : List α) (a : α) (w : List α) (h : Tail dfg ends a w) (ha : InArc dfg a) :
    ∀ b ∈ a :: w, InArc dfg b := by
  induction w generalizing a with
  | nil => simpa using ha
  | cons b w ih =>
    intro x hx
    rcases List.mem_cons.1 hx with rfl | hx
    · exact ha
    · exact ih b h.2 ⟨(a, b), h.1, .inr rfl⟩ x hx

theorem language (dfg : List (α × α)) (starts ends : List α) (w : List α) :
    (toNet dfg starts ends).Accepts (·.label) im fm w ↔
      DfgTrace dfg starts ends w ∧ ∀ a ∈ w, InArc dfg a := by
  have h0 : (toNet dfg starts ends).Accepts (·.label) im fm w ↔
      Word ((toNet dfg starts ends).transitions.map kind) .source w .sink := accepts_machine _ _ _ _ _
  rw [h0, dfgTrace_iff]
  constructor
  · intro h
    obtain ⟨a, h1, h2, v, rfl, h3⟩ := word_goal dfg starts ends _ _ w h rfl
    exact ⟨⟨a, h1, v, rfl, tail_mono _ _ _ _ _ h3 fun b _ hb => (List.mem_filter.1 hb).1⟩, tail_inArc _ _ _ _ h3 h2⟩
  · rintro ⟨⟨a, h1, v, rfl, h3⟩, h4⟩
    refine Word.cons (l := some a) ((kinds dfg starts ends _ _ _).2 (.inl ⟨a, h1, h4 a (by simp), rfl, rfl, rfl⟩)) ?_
    apply tail_word
    exact tail_mono _ _ _ _ _ h3 fun b hb he => List.mem_filter.2 ⟨he, by simpa using (mem_activitiesOf dfg b).2 (h4 b hb)⟩

/-! ### the conversion with invisible transitions -/

theorem mem_enrich (sa ea : α) (dfg : List (α × α)) (starts ends : List α) (e : α × α) :
    e ∈ enrich sa ea dfg starts ends ↔ e ∈ dfg ∨ (e.1 = sa ∧ e.2 ∈ starts) ∨ (e.1 ∈ ends ∧ e.2 = ea) := by
  unfold enrich
  have k1 : ∀ (l : List α) (d : List (α × α)), e ∈ l.foldl (fun d a => if (sa, a) ∈ d then d else d ++ [(sa, a)]) d ↔
      e ∈ d ∨ (e.1 = sa ∧ e.2 ∈ l) := by
    intro l
    induction l with
    | nil => simp
    | cons a l ih =>
      intro d
      rw [List.foldl_cons, ih]
      have : e ∈ (if (sa, a) ∈ d then d else d ++ [(sa, a)]) ↔ e ∈ d ∨ e = (sa, a) := by grind
      rw [this, Prod.ext_iff]
      simp only [List.mem_cons]
      grind
  have k2 : ∀ (l : List α) (d : List (α × α)), e ∈ l.foldl (fun d a => if (a, ea) ∈ d then d else d ++ [(a, ea)]) d ↔
      e ∈ d ∨ (e.1 ∈ l ∧ e.2 = ea) := by
    intro l
    induction l with
    | nil => simp
    | cons a l ih =>
      intro d
      rw [List.foldl_cons, ih]
      have : e ∈ (if (a, ea) ∈ d then d else d ++ [(a, ea)]) ↔ e ∈ d ∨ e = (a, ea) := by grind
      rw [this, Prod.ext_iff]
      simp only [List.mem_cons]
      grind
  rw [k2, k1, or_assoc]

theorem kinds2 (sa ea : α) (E : List (α × α)) (l : Option α) (p q : Pl2 α) :
    (l, p, q) ∈ (trans2 sa ea E).map kind ↔
      (∃ a, InArc E a ∧ (l = if a ∈ [sa, ea] then none else some a) ∧ p = .left a ∧ q = .right a) ∨
      ∃ e ∈ E, l = none ∧ p = .right e.1 ∧ q = .left e.2 := by
  unfold trans2
  simp only [List.map_append, List.map_map, List.mem_append, List.mem_map, Function.comp, kind, Prod.mk.injEq]
  have z : ∀ {β : Type} (L : List β) (x : β), (∃ i, (x, i) ∈ L.zipIdx) ↔ x ∈ L := by
    intro β L x
    constructor
    · rintro ⟨i, hi⟩; exact (List.mem_zipIdx' hi).2 ▸ List.getElem_mem _
    · intro h
      obtain ⟨i, hi, rfl⟩ := List.mem_iff_getElem.1 h
      exact ⟨i, List.mk_mem_zipIdx_iff_getElem?.2 (by simp [hi])⟩
  constructor
  · rintro (⟨⟨a, i⟩, h, rfl, rfl, rfl⟩ | ⟨⟨e, i⟩, h, rfl, rfl, rfl⟩)
    · exact .inl ⟨a, (mem_activitiesOf E a).1 ((z _ _).1 ⟨i, h⟩), rfl, rfl, rfl⟩
    · exact .inr ⟨e, (z _ _).1 ⟨i, h⟩, rfl, rfl, rfl⟩
  · rintro (⟨a, h, rfl, rfl, rfl⟩ | ⟨e, h, rfl, rfl, rfl⟩)
    · obtain ⟨i, hi⟩ := (z _ _).2 ((mem_activitiesOf E a).2 h)
      exact .inl ⟨(a, i), hi, rfl, rfl, rfl⟩
    · obtain ⟨i, hi⟩ := (z _ _).2 h
      exact .inr ⟨(e, i), hi, rfl, rfl, rfl⟩

/-- The artificial names are new and different. -/
structure Fresh (sa ea : α) (dfg : List (α × α)) (starts ends : List α) : Prop where
  ne : sa ≠ ea
  dfg : ¬ InArc dfg sa ∧ ¬ InArc dfg ea
  starts : sa ∉ starts ∧ ea ∉ starts
  ends : sa ∉ ends ∧ ea ∉ ends

/-- What can be read from a place on the way to the end. -/
def Goal2 (sa ea : α) (dfg : List (α × α)) (starts ends : List α) : Pl2 α → List α → Prop
  | .left a, w =>
    if a = sa then ∃ b ∈ starts, ∃ v, w = b :: v ∧ Tail dfg ends b v
    else if a = ea then w = [] else ∃ v, w = a :: v ∧ Tail dfg ends a v
  | .right a, w =>
    if a = sa then ∃ b ∈ starts, ∃ v, w = b :: v ∧ Tail dfg ends b v
    else if a = ea then w = [] else Tail dfg ends a w

theorem word_goal2 {sa ea : α} {dfg : List (α × α)} {starts ends : List α} (hf : Fresh sa ea dfg starts ends) (p q : Pl2 α) (w : List α)
    (h : Word ((trans2 sa ea (enrich sa ea dfg starts ends)).map kind) p w q) (hq : q = .right ea) :
    Goal2 sa ea dfg starts ends p w := by
  induction h with
  | nil p =>
    subst hq
    simp [Goal2, hf.ne.symm]
  | @cons l p r w q hk _ ih =>
    have ih := ih hq
    rcases (kinds2 sa ea _ l p r).1 hk with ⟨a, h1, rfl, rfl, rfl⟩ | ⟨e, h1, rfl, rfl, rfl⟩
    · unfold Goal2 at ih ⊢
      by_cases hs : a = sa
      · simp [hs] at ih ⊢; exact ih
      · by_cases he : a = ea
        · simp [he, hf.ne.symm] at ih ⊢; exact ih
        · simp [hs, he] at ih ⊢; exact ih
    · unfold Goal2 at ih ⊢
      rcases (mem_enrich sa ea dfg starts ends e).1 h1 with h | ⟨h2, h3⟩ | ⟨h2, h3⟩
      · have a1 : e.1 ≠ sa := fun h' => hf.dfg.1 ⟨e, h, .inl h'⟩
        have a2 : e.1 ≠ ea := fun h' => hf.dfg.2 ⟨e, h, .inl h'⟩
        have a3 : e.2 ≠ sa := fun h' => hf.dfg.1 ⟨e, h, .inr h'⟩
        have a4 : e.2 ≠ ea := fun h' => hf.dfg.2 ⟨e, h, .inr h'⟩
        simp only [a1, a2, a3, a4, if_false] at ih ⊢
        obtain ⟨v, rfl, hv⟩ := ih
        exact ⟨h, hv⟩
      · have a3 : e.2 ≠ sa := fun h' => hf.starts.1 (h' ▸ h3)
        have a4 : e.2 ≠ ea := fun h' => hf.starts.2 (h' ▸ h3)
        simp only [h2, a3, a4, if_false, if_true] at ih ⊢
        exact ⟨e.2, h3, by simpa using ih⟩
      · have a1 : e.1 ≠ sa := fun h' => hf.ends.1 (h' ▸ h2)
        have a2 : e.1 ≠ ea := fun h' => hf.ends.2 (h' ▸ h2)
        simp only [h3, hf.ne.symm, a1, a2, if_false, if_true] at ih ⊢
        subst ih
        exact h2

theorem tail_word2 {sa ea : α} {dfg : List (α × α)} {starts ends : List α} (hf : Fresh sa ea dfg starts ends) (a : α) (w : List α)
    (ha : a ≠ sa ∧ a ≠ ea) (h : Tail dfg ends a w) :
    Word ((trans2 sa ea (enrich sa ea dfg starts ends)).map kind) (.right a) w (.right ea) := by
  induction w generalizing a with
  | nil =>
    have h : a ∈ ends := h
    have hin : (a, ea) ∈ enrich sa ea dfg starts ends := (mem_enrich _ _ _ _ _ _).2 (.inr (.inr ⟨h, rfl⟩))
    have s1 := (kinds2 sa ea (enrich sa ea dfg starts ends) none (.right a) (.left ea)).2 (.inr ⟨(a, ea), hin, rfl, rfl, rfl⟩)
    have s2 := (kinds2 sa ea (enrich sa ea dfg starts ends) none (.left ea) (.right ea)).2
      (.inl ⟨ea, ⟨(a, ea), hin, .inr rfl⟩, by simp, rfl, rfl⟩)
    exact Word.cons s1 (Word.cons s2 (Word.nil _))
  | cons b w ih =>
    have h : (a, b) ∈ dfg ∧ Tail dfg ends b w := h
    have hb : b ≠ sa ∧ b ≠ ea := ⟨fun h' => hf.dfg.1 ⟨_, h.1, .inr h'⟩, fun h' => hf.dfg.2 ⟨_, h.1, .inr h'⟩⟩
    have hin : (a, b) ∈ enrich sa ea dfg starts ends := (mem_enrich _ _ _ _ _ _).2 (.inl h.1)
    have s1 := (kinds2 sa ea (enrich sa ea dfg starts ends) none (.right a) (.left b)).2 (.inr ⟨(a, b), hin, rfl, rfl, rfl⟩)
    have s2 := (kinds2 sa ea (enrich sa ea dfg starts ends) (some b) (.left b) (.right b)).2
      (.inl ⟨b, ⟨(a, b), hin, .inr rfl⟩, by simp [hb.1, hb.2], rfl, rfl⟩)
    exact Word.cons s1 (Word.cons s2 (ih b hb h.2))

theorem language2 {sa ea : α} {dfg : List (α × α)} {starts ends : List α} (hf : Fresh sa ea dfg starts ends)
    {net : Net (Pl2 α) (Tr (Pl2 α) α)} {im fm : Marking (Pl2 α)} (h : toNet2 sa ea dfg starts ends = some (net, im, fm)) (w : List α) :
    net.Accepts (·.label) im fm w ↔ DfgTrace dfg starts ends w := by
  unfold toNet2 at h
  simp only at h
  split at h
  · simp only [Option.some.injEq, Prod.mk.injEq] at h
    obtain ⟨rfl, rfl, rfl⟩ := h
    rw [accepts_machine, dfgTrace_iff]
    constructor
    · intro h
      have := word_goal2 hf _ _ w h rfl
      simpa [Goal2] using this
    · rintro ⟨a, ha, v, rfl, hv⟩
      have hin : (sa, a) ∈ enrich sa ea dfg starts ends := (mem_enrich _ _ _ _ _ _).2 (.inr (.inl ⟨rfl, ha⟩))
      have haa : a ≠ sa ∧ a ≠ ea := ⟨fun h' => hf.starts.1 (h' ▸ ha), fun h' => hf.starts.2 (h' ▸ ha)⟩
      have s0 := (kinds2 sa ea (enrich sa ea dfg starts ends) none (.left sa) (.right sa)).2
        (.inl ⟨sa, ⟨(sa, a), hin, .inl rfl⟩, by simp, rfl, rfl⟩)
      have s1 := (kinds2 sa ea (enrich sa ea dfg starts ends) none (.right sa) (.left a)).2 (.inr ⟨(sa, a), hin, rfl, rfl, rfl⟩)
      have s2 := (kinds2 sa ea (enrich sa ea dfg starts ends) (some a) (.left a) (.right a)).2
        (.inl ⟨a, ⟨(sa, a), hin, .inr rfl⟩, by simp [haa.1, haa.2], rfl, rfl⟩)
      exact Word.cons s0 (Word.cons s1 (Word.cons s2 (tail_word2 hf a v haa hv)))
  · cases h

end Verif.DfgNet
