import Verif.MoveAttrs.Model
import Mathlib.Data.List.Forall2
set_option linter.unusedSectionVars false
/-
C93: moving attributes to the trace level keeps all values.
-/
namespace Verif
namespace MoveAttrs

/-- the value of a name for an event: of the event, or else of its trace -/
def effective (attrs e : Dict) (n : String) : Option String := (e.lookup n).or (attrs.lookup n)

/-- the name has one value in all events of the trace, is not of a standard extension and is no attribute of the trace -/
def Constant (main : String → Bool) (t : Trace) (n : String) : Prop :=
  main n = false ∧ t.attrs.lookup n = none ∧ t.events ≠ [] ∧ ∃ v, ∀ e ∈ t.events, e.lookup n = some v

theorem lookup_filter (l : Dict) (n m : String) : (l.filter fun p => decide (p.1 ≠ n)).lookup m = if m = n then none else l.lookup m := by
  induction l with
  | nil => simp
  | cons p l ih =>
    obtain ⟨x, y⟩ := p
    rw [List.filter_cons]
    by_cases hx : x = n
    · subst hx
      rw [if_neg (by simp), ih]
      by_cases hm : m = x
      · rw [if_pos hm, if_pos hm]
      · have : (m == x) = false := by simpa using hm
        rw [if_neg hm, if_neg hm, List.lookup_cons, this]
    · rw [if_pos (by simpa using hx), List.lookup_cons, List.lookup_cons, ih]
      by_cases hm : m = x
      · have : m ≠ n := fun e => hx (hm.symm.trans e)
        subst hm
        rw [if_neg this, beq_self_eq_true, if_neg this]
      · have : (m == x) = false := by simpa using hm
        rw [this]

theorem mem_keys {l : Dict} {n v : String} (h : l.lookup n = some v) : n ∈ l.map Prod.fst := by
  induction l with
  | nil => cases h
  | cons p l ih =>
    obtain ⟨x, y⟩ := p
    rw [List.lookup_cons] at h
    by_cases hx : n = x
    · simp [hx]
    · have : (n == x) = false := by simpa using hx
      rw [this] at h
      exact List.mem_cons_of_mem _ (ih h)

theorem filterMap_length_eq {α β : Type} (f : α → Option β) (l : List α) (h : (l.filterMap f).length = l.length) : ∀ x ∈ l, (f x).isSome := by
  induction l with
  | nil => intro x h; cases h
  | cons a l ih =>
    have hle := List.length_filterMap_le f l
    intro x hx
    cases ha : f a with
    | none =>
      rw [List.filterMap_cons_none ha, List.length_cons] at h
      omega
    | some b =>
      rw [List.filterMap_cons_some ha, List.length_cons, List.length_cons] at h
      rcases List.mem_cons.1 hx with rfl | hx
      · rw [ha]; rfl
      · exact ih (by omega) x hx

theorem mem_traceCands (main : String → Bool) (t : Trace) (n : String) : n ∈ traceCands main t ↔ Constant main t n := by
  unfold traceCands
  rw [List.mem_filter, Bool.and_eq_true, decide_eq_true_eq, decide_eq_true_eq]
  constructor
  · rintro ⟨h1, h2, h3⟩
    rw [names, List.mem_dedup, List.mem_filter, Bool.and_eq_true, Bool.not_eq_true', Bool.not_eq_true'] at h1
    obtain ⟨-, h4, h5⟩ := h1
    have h5' : t.attrs.lookup n = none := by simpa using h5
    have hv : values main t n = t.events.filterMap fun e => e.lookup n := by
      unfold values
      rw [if_neg (by rw [h4, h5]; simp)]
    rw [hv] at h2 h3
    have hall := filterMap_length_eq _ _ h2
    obtain ⟨v, hv1⟩ := List.length_eq_one_iff.1 h3
    refine ⟨h4, h5', fun he => by rw [he] at h3; simp at h3, v, fun e he => ?_⟩
    obtain ⟨w, hw⟩ := Option.isSome_iff_exists.1 (hall e he)
    have : w ∈ (t.events.filterMap fun e => e.lookup n).dedup := List.mem_dedup.2 (List.mem_filterMap.2 ⟨e, he, hw⟩)
    rw [hv1, List.mem_singleton] at this
    rw [hw, this]
  · rintro ⟨h1, h2, h3, v, h4⟩
    have hv : values main t n = List.replicate t.events.length v := by
      unfold values
      rw [if_neg (by rw [h1, h2]; simp)]
      have : ∀ l : List Dict, (∀ e ∈ l, e.lookup n = some v) → (l.filterMap fun e => e.lookup n) = List.replicate l.length v := by
        intro l hl
        induction l with
        | nil => rfl
        | cons e l ih =>
          rw [List.filterMap_cons_some (hl e (by simp)), List.length_cons, List.replicate_succ, ih fun e he => hl e (List.mem_cons_of_mem _ he)]
      exact this _ h4
    refine ⟨?_, by rw [hv, List.length_replicate], ?_⟩
    · rw [names, List.mem_dedup, List.mem_filter, Bool.and_eq_true, Bool.not_eq_true', Bool.not_eq_true']
      obtain ⟨e, he⟩ := List.exists_mem_of_ne_nil _ h3
      exact ⟨List.mem_flatMap.2 ⟨e, he, mem_keys (h4 e he)⟩, h1, by rw [h2]; rfl⟩
    · rw [hv, List.replicate_dedup (by simpa using h3)]; rfl

theorem nodup_traceCands (main : String → Bool) (t : Trace) : (traceCands main t).Nodup := (List.nodup_dedup _).filter _

theorem mem_candidates (main : String → Bool) (t : Trace) (log : List Trace) : ∃ cs, candidates main (t :: log) = some cs ∧ cs.Nodup ∧
    ∀ n, n ∈ cs ↔ ∀ t' ∈ t :: log, Constant main t' n := by
  refine ⟨_, rfl, ?_⟩
  have key : ∀ (log : List Trace) (c : List String), c.Nodup → (log.foldl (fun c t => (traceCands main t).filter fun n => decide (n ∈ c)) c).Nodup ∧
      ∀ n, n ∈ log.foldl (fun c t => (traceCands main t).filter fun n => decide (n ∈ c)) c ↔ n ∈ c ∧ ∀ t' ∈ log, Constant main t' n := by
    intro log
    induction log with
    | nil => intro c hc; exact ⟨hc, fun n => by simp⟩
    | cons s log ih =>
      intro c hc
      obtain ⟨h1, h2⟩ := ih ((traceCands main s).filter fun n => decide (n ∈ c)) ((nodup_traceCands main s).filter _)
      refine ⟨h1, fun n => ?_⟩
      rw [List.foldl_cons, h2, List.mem_filter, decide_eq_true_eq, mem_traceCands, List.forall_mem_cons]
      tauto
  obtain ⟨h1, h2⟩ := key log _ (nodup_traceCands main t)
  refine ⟨h1, fun n => ?_⟩
  rw [h2, mem_traceCands, List.forall_mem_cons]

/-- moving one name -/
theorem moveOne_spec {main : String → Bool} {t : Trace} {n : String} (h : Constant main t n) : ∃ v, (∀ e ∈ t.events, e.lookup n = some v) ∧
    moveOne n t = some ⟨(n, v) :: t.attrs.filter (fun p => decide (p.1 ≠ n)), t.events.map fun e => e.filter fun p => decide (p.1 ≠ n)⟩ := by
  obtain ⟨-, -, h3, v, h4⟩ := h
  refine ⟨v, h4, ?_⟩
  unfold moveOne
  have hall : t.events.all (fun e => (e.lookup n).isSome) = true := List.all_eq_true.2 fun e he => by rw [h4 e he]; rfl
  split
  · rename_i h; exact absurd h h3
  · rename_i e l he
    have : e.lookup n = some v := h4 e (by rw [he]; simp)
    rw [this]
    simp only
    rw [if_pos hall]

/-- what has become of a trace and its events -/
structure Moved (cs : List String) (t t' : Trace) : Prop where
  events : List.Forall₂ (fun e e' => (∀ n ∈ cs, e'.lookup n = none) ∧ (∀ n, n ∉ cs → e'.lookup n = e.lookup n) ∧ ∀ n, effective t'.attrs e' n = effective t.attrs e n) t.events t'.events
  attrs : ∀ n, n ∉ cs → t'.attrs.lookup n = t.attrs.lookup n

theorem forall₂_map_self {α β : Type} {P : α → β → Prop} {f : α → β} (l : List α) (h : ∀ x ∈ l, P x (f x)) : List.Forall₂ P l (l.map f) := by
  induction l with
  | nil => exact .nil
  | cons a l ih => exact .cons (h a (by simp)) (ih fun x hx => h x (List.mem_cons_of_mem _ hx))

theorem moveOne_moved {main : String → Bool} {t : Trace} {n : String} (h : Constant main t n) : ∃ t', moveOne n t = some t' ∧ Moved [n] t t' := by
  obtain ⟨v, h4, e⟩ := moveOne_spec h
  refine ⟨_, e, ⟨forall₂_map_self _ fun ev he => ⟨?_, ?_, ?_⟩, ?_⟩⟩
  · intro m hm
    rw [List.mem_singleton] at hm
    rw [lookup_filter, if_pos hm]
  · intro m hm
    rw [List.mem_singleton] at hm
    rw [lookup_filter, if_neg hm]
  · intro m
    unfold effective
    rw [lookup_filter]
    by_cases hm : m = n
    · subst hm
      rw [if_pos rfl, h4 ev he, List.lookup_cons, beq_self_eq_true]
      rfl
    · have : (m == n) = false := by simpa using hm
      rw [if_neg hm, List.lookup_cons, this, lookup_filter, if_neg hm]
  · intro m hm
    rw [List.mem_singleton] at hm
    have : (m == n) = false := by simpa using hm
    rw [List.lookup_cons, this, lookup_filter, if_neg hm]

theorem constant_moved {main : String → Bool} {cs : List String} {t t' : Trace} (h : Moved cs t t') {n : String} (hn : n ∉ cs) (hc : Constant main t n) : Constant main t' n := by
  obtain ⟨h1, h2, h3, v, h4⟩ := hc
  have hl := h.events.length_eq
  refine ⟨h1, by rw [h.attrs n hn, h2], fun he => h3 (List.eq_nil_of_length_eq_zero (by rw [hl, he]; rfl)), v, fun e' he' => ?_⟩
  obtain ⟨i, hi, rfl⟩ := List.getElem_of_mem he'
  have := (List.forall₂_iff_get.1 h.events).2 i (by omega) hi
  rw [List.get_eq_getElem, List.get_eq_getElem] at this
  rw [this.2.1 n hn]
  exact h4 _ (List.getElem_mem _)

theorem moved_trans {cs ds : List String} {t t' t'' : Trace} (h : Moved cs t t') (h' : Moved ds t' t'') : Moved (cs ++ ds) t t'' := by
  refine ⟨?_, fun n hn => ?_⟩
  · have hl := h.events.length_eq
    have hl' := h'.events.length_eq
    refine List.forall₂_iff_get.2 ⟨by omega, fun i h1 h2 => ?_⟩
    have a := (List.forall₂_iff_get.1 h.events).2 i h1 (by omega)
    have b := (List.forall₂_iff_get.1 h'.events).2 i (by omega) h2
    refine ⟨fun n hn => ?_, fun n hn => ?_, fun n => (b.2.2 n).trans (a.2.2 n)⟩
    · by_cases hd : n ∈ ds
      · exact b.1 n hd
      · rw [b.2.1 n hd]
        exact a.1 n ((List.mem_append.1 hn).resolve_right hd)
    · rw [List.mem_append, not_or] at hn
      rw [b.2.1 n hn.2, a.2.1 n hn.1]
  · rw [List.mem_append, not_or] at hn
    rw [h'.attrs n hn.2, h.attrs n hn.1]

theorem moveAll_moved {main : String → Bool} (cs : List String) (hn : cs.Nodup) : ∀ (t : Trace), (∀ n ∈ cs, Constant main t n) →
    ∃ t', moveAll cs t = some t' ∧ Moved cs t t' := by
  induction cs with
  | nil =>
    intro t _
    refine ⟨t, rfl, ⟨List.forall₂_same.2 fun e _ => ⟨fun n h => absurd h (by simp), fun _ _ => rfl, fun _ => rfl⟩, fun _ _ => rfl⟩⟩
  | cons n cs ih =>
    intro t h
    rw [List.nodup_cons] at hn
    obtain ⟨t1, e1, m1⟩ := moveOne_moved (h n (by simp))
    obtain ⟨t2, e2, m2⟩ := ih hn.2 t1 fun m hm => constant_moved m1 (by
      rw [List.mem_singleton]; rintro rfl; exact hn.1 hm) (h m (List.mem_cons_of_mem _ hm))
    refine ⟨t2, ?_, moved_trans m1 m2⟩
    unfold moveAll at e2 ⊢
    rw [List.foldlM_cons, e1]
    exact e2

theorem mapM_forall₂ {α β : Type} {P : α → β → Prop} (f : α → Option β) (l : List α) (h : ∀ x ∈ l, ∃ y, f x = some y ∧ P x y) : ∃ l', l.mapM f = some l' ∧ List.Forall₂ P l l' := by
  induction l with
  | nil => exact ⟨[], rfl, .nil⟩
  | cons a l ih =>
    obtain ⟨y, hy, py⟩ := h a (by simp)
    obtain ⟨l', hl, pl⟩ := ih fun x hx => h x (List.mem_cons_of_mem _ hx)
    exact ⟨y :: l', by rw [List.mapM_cons, hy, hl]; rfl, .cons py pl⟩

end MoveAttrs

open MoveAttrs

/-- C93: for a log with at least one trace there is no error; the moved names are exactly those that are constant in every trace; every event keeps its
other values and loses the moved ones; and the value of every name, of the event or else of the trace, is the same as before. -/
theorem C93_move (main : String → Bool) (log : List Trace) (h0 : log ≠ []) : ∃ (cs : List String) (log' : List Trace), move main log = some log' ∧
    (∀ n, n ∈ cs ↔ ∀ t ∈ log, Constant main t n) ∧
    List.Forall₂ (fun t t' =>
      List.Forall₂ (fun e e' => (∀ n ∈ cs, e'.lookup n = none) ∧ (∀ n, n ∉ cs → e'.lookup n = e.lookup n) ∧
        ∀ n, effective t'.attrs e' n = effective t.attrs e n) t.events t'.events ∧
      ∀ n, n ∉ cs → t'.attrs.lookup n = t.attrs.lookup n) log log' := by
  cases log with
  | nil => exact absurd rfl h0
  | cons t log =>
    obtain ⟨cs, e, hn, hc⟩ := mem_candidates main t log
    obtain ⟨log', e', hp⟩ := mapM_forall₂ (P := Moved cs) (moveAll cs) (t :: log) fun t' ht' => moveAll_moved cs hn t' fun n h => (hc n).1 h t' ht'
    refine ⟨cs, log', ?_, hc, ?_⟩
    · unfold move
      rw [e]
      exact e'
    · exact hp.imp fun _ _ m => ⟨m.events, m.attrs⟩

/-- C93, refuted: the empty log is an error. -/
theorem C93_empty_refuted (main : String → Bool) : move main [] = none := rfl

/-- a constant attribute is moved -/
example : (move (fun n => n == "concept:name") [⟨[], [[("concept:name", "a"), ("k", "1")], [("concept:name", "b"), ("k", "1")]]⟩]).map (fun l => l.map fun t => (t.attrs, t.events)) =
    some [([("k", "1")], [[("concept:name", "a")], [("concept:name", "b")]])] := by decide

end Verif
