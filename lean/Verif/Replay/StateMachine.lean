import Verif.Replay.Theorems
import Mathlib.Data.List.Perm.Subperm
set_option linter.unusedSectionVars false
/-
C26: for state machines with hidden transitions the replay decides membership in the language.
-/
namespace Verif
open Dict Replay
variable {P T A : Type} [DecidableEq P] [DecidableEq T] [DecidableEq A]
namespace Replay

/-- Every transition moves one token from its input place `i t` to its output place `o t`. -/
def StateMachine (net : Net P T) (i o : T → P) : Prop :=
  ∀ t ∈ net.transitions, net.inArcs t = [(i t, 1)] ∧ net.outArcs t = [(o t, 1)] ∧ i t ∈ net.places ∧ o t ∈ net.places

/-! ### Hidden paths -/

theorem hp_inv {net : Net P T} {lab : T → Option A} {p q : P} {l : List T} {t : T} (h : HiddenPath net lab p (l ++ [t]) q) :
    t ∈ net.transitions ∧ lab t = none ∧ q ∈ (net.outArcs t).map Prod.fst ∧
      ((l = [] ∧ p ∈ (net.inArcs t).map Prod.fst) ∨ ∃ r, HiddenPath net lab p l r ∧ r ∈ (net.inArcs t).map Prod.fst) := by
  generalize hk : l ++ [t] = k at h
  cases h with
  | @single _ t' h1 h2 h3 h4 =>
    have := List.append_inj' (t₁ := [t]) (s₂ := []) (t₂ := [t']) (by simpa using hk) rfl
    simp only [List.cons.injEq, and_true] at this
    obtain ⟨rfl, rfl⟩ := this
    exact ⟨h1, h2, h4, .inl ⟨rfl, h3⟩⟩
  | @snoc r _ l' t' hp h1 h2 h3 h4 =>
    have := List.append_inj' hk rfl
    simp only [List.cons.injEq, and_true] at this
    obtain ⟨rfl, rfl⟩ := this
    exact ⟨h1, h2, h4, .inr ⟨r, hp, h3⟩⟩

theorem hp_ne {net : Net P T} {lab : T → Option A} {p q : P} {l : List T} (h : HiddenPath net lab p l q) : l ≠ [] := by
  cases h <;> simp

theorem hp_end {net : Net P T} {lab : T → Option A} {p q q' : P} {l : List T} {t : T} (h : HiddenPath net lab p (l ++ [t]) q)
    (hq : q' ∈ (net.outArcs t).map Prod.fst) : HiddenPath net lab p (l ++ [t]) q' := by
  obtain ⟨h1, h2, _, h4⟩ := hp_inv h
  rcases h4 with ⟨rfl, h4⟩ | ⟨r, h4, h5⟩
  · exact .single h1 h2 h4 hq
  · exact .snoc h4 h1 h2 h5 hq

theorem hp_prefix {net : Net P T} {lab : T → Option A} {p : P} {l : List T} (v : List T) : ∀ q, HiddenPath net lab p (l ++ v) q → l ≠ [] →
    ∃ r, HiddenPath net lab p l r := by
  induction v using snocInduct with
  | nil => intro q h _; exact ⟨q, by simpa using h⟩
  | snoc v x ih =>
    intro q h hl
    rw [← List.append_assoc] at h
    rcases (hp_inv h).2.2.2 with ⟨h1, _⟩ | ⟨r, h1, _⟩
    · exact absurd (List.append_eq_nil_iff.1 h1).1 hl
    · exact ih r h1 hl

theorem hp_cut {net : Net P T} {lab : T → Option A} {p : P} {u v : List T} {t : T} (w : List T) :
    ∀ q, HiddenPath net lab p (u ++ t :: v ++ t :: w) q → HiddenPath net lab p (u ++ t :: w) q := by
  induction w using snocInduct with
  | nil =>
    intro q h
    obtain ⟨h1, h2, h3, h4⟩ := hp_inv h
    rcases h4 with ⟨h4, _⟩ | ⟨r, h4, _⟩
    · simp at h4
    · have h4' : HiddenPath net lab p ((u ++ [t]) ++ v) r := by simpa using h4
      obtain ⟨r', h5⟩ := hp_prefix v r h4' (by simp)
      exact hp_end h5 h3
  | snoc w x ih =>
    intro q h
    have h' : HiddenPath net lab p ((u ++ t :: v ++ t :: w) ++ [x]) q := by simpa using h
    obtain ⟨h1, h2, h3, h4⟩ := hp_inv h'
    rcases h4 with ⟨h4, _⟩ | ⟨r, h4, h5⟩
    · simp at h4
    · have := HiddenPath.snoc (ih r h4) h1 h2 h5 h3
      simpa using this

theorem hp_trans {net : Net P T} {lab : T → Option A} {p r : P} {l : List T} (h : HiddenPath net lab p l r) (v : List T) :
    ∀ q, HiddenPath net lab r v q → HiddenPath net lab p (l ++ v) q := by
  induction v using snocInduct with
  | nil => intro q h'; exact absurd rfl (hp_ne h')
  | snoc v x ih =>
    intro q h'
    obtain ⟨h1, h2, h3, h4⟩ := hp_inv h'
    rw [← List.append_assoc]
    rcases h4 with ⟨rfl, h4⟩ | ⟨s, h4, h5⟩
    · simpa using HiddenPath.snoc h h1 h2 h4 h3
    · exact .snoc (ih s h4) h1 h2 h5 h3

theorem hp_mem {net : Net P T} {lab : T → Option A} {p q : P} {l : List T} (h : HiddenPath net lab p l q) :
    ∀ t ∈ l, t ∈ net.transitions ∧ lab t = none := by
  induction h with
  | single h1 h2 _ _ => simpa using ⟨h1, h2⟩
  | snoc _ h1 h2 _ _ ih =>
    intro t ht
    rcases List.mem_append.1 ht with h | h
    · exact ih t h
    · simp at h; subst h; exact ⟨h1, h2⟩

theorem dup_split {l : List T} (h : ¬ l.Nodup) : ∃ u t v w, l = u ++ t :: v ++ t :: w := by
  induction l with
  | nil => simp at h
  | cons x l ih =>
    by_cases hx : x ∈ l
    · obtain ⟨v, w, rfl⟩ := List.append_of_mem hx
      exact ⟨[], x, v, w, by simp⟩
    · have : ¬ l.Nodup := fun h' => h (List.nodup_cons.2 ⟨hx, h'⟩)
      obtain ⟨u, t, v, w, rfl⟩ := ih this
      exact ⟨x :: u, t, v, w, by simp⟩

/-- a shortest hidden path uses no transition twice -/
theorem hp_shortest_nodup {net : Net P T} {lab : T → Option A} {p q : P} {l : List T} (h : HiddenPath net lab p l q)
    (hmin : ∀ l', HiddenPath net lab p l' q → l.length ≤ l'.length) : l.Nodup := by
  apply Classical.byContradiction
  intro hn
  obtain ⟨u, t, v, w, rfl⟩ := dup_split hn
  have := hmin _ (hp_cut w q h)
  simp at this
  omega

/-- every hidden path can be replaced by one without repetitions -/
theorem hp_nodup {net : Net P T} {lab : T → Option A} {p q : P} (n : Nat) : ∀ l, l.length = n → HiddenPath net lab p l q →
    ∃ l', HiddenPath net lab p l' q ∧ l'.Nodup := by
  induction n using Nat.strongRecOn with
  | _ n ih =>
    intro l hl h
    by_cases hn : l.Nodup
    · exact ⟨l, h, hn⟩
    · obtain ⟨u, t, v, w, rfl⟩ := dup_split hn
      exact ih (u ++ t :: w).length (by rw [← hl]; simp; omega) _ rfl (hp_cut w q h)

/-- the table has an entry for every pair of connected places, if there are at most 51 hidden transitions -/
theorem table_entry {net : Net P T} {lab : T → Option A} (hb : (net.transitions.filter fun t => (lab t).isNone).length ≤ 51) {p q : P}
    (hp : p ∈ net.places) {l : List T} (h : HiddenPath net lab p l q) :
    ∃ l', hiddenPaths net lab p q = some l' ∧ HiddenPath net lab p l' q ∧ l'.Nodup := by
  obtain ⟨l1, h1, hn⟩ := hp_nodup l.length l rfl h
  have hlen : l1.length ≤ 51 := by
    have hsub : l1.Subperm (net.transitions.filter fun t => (lab t).isNone) := by
      apply List.subperm_of_subset hn
      intro t ht
      have := hp_mem h1 t ht
      exact List.mem_filter.2 ⟨this.1, by simp [this.2]⟩
    exact hsub.length_le.trans hb
  obtain ⟨l2, h2, _⟩ := (C26_hidden_paths net lab p q).2 hp l1 h1 hlen
  have h3 := (C26_hidden_paths net lab p q).1 l2 h2
  exact ⟨l2, h2, h3.1, hp_shortest_nodup h3.1 h3.2⟩

/-! ### Firing in a state machine -/

theorem sm_execute {net : Net P T} {i o : T → P} (hsm : StateMachine net i o) {t : T} {x : P} {m : Marking P} :
    net.execute t [(x, 1)] = some m ↔ t ∈ net.transitions ∧ x = i t ∧ m = [(o t, 1)] := by
  by_cases ht : t ∈ net.transitions
  · obtain ⟨h1, h2, _⟩ := hsm t ht
    by_cases hx : x = i t
    · subst hx
      have he : net.isEnabled t [(i t, 1)] = true := by simp [Net.isEnabled, ht, h1, count, get?]
      unfold Net.execute
      rw [if_pos he, h1, h2]
      simp only [ht, true_and, Option.some.injEq]
      simp [Net.consume, Net.produce, Dict.set, Dict.del, count, get?, eq_comm]
    · have he : net.isEnabled t [(x, 1)] = false := by simp [Net.isEnabled, ht, h1, count, get?, hx]
      unfold Net.execute
      simp [he, hx]
  · have he : net.isEnabled t [(x, 1)] = false := by simp [Net.isEnabled, ht]
    unfold Net.execute
    simp [he, ht]

theorem sm_enabled {net : Net P T} {i o : T → P} (hsm : StateMachine net i o) {t : T} {x : P} :
    net.isEnabled t [(x, 1)] = true ↔ t ∈ net.transitions ∧ x = i t := by
  by_cases ht : t ∈ net.transitions
  · obtain ⟨h1, h2, _⟩ := hsm t ht
    by_cases hx : x = i t
    · subst hx; simp [Net.isEnabled, ht, h1, count, get?]
    · simp [Net.isEnabled, ht, h1, count, get?, hx]
  · simp [Net.isEnabled, ht]

theorem sm_fseq {net : Net P T} {i o : T → P} (hsm : StateMachine net i o) {ts : List T} : ∀ {x : P} {m : Marking P},
    net.FiringSequence [(x, 1)] ts m → ∃ y, m = [(y, 1)] := by
  induction ts with
  | nil => intro x m h; simp [Net.FiringSequence] at h; exact ⟨x, h.symm⟩
  | cons t ts ih =>
    intro x m h
    obtain ⟨m1, h1, h2⟩ := fseq_cons h
    obtain ⟨_, _, rfl⟩ := (sm_execute hsm).1 h1
    exact ih h2

/-- hidden firing sequences are hidden paths -/
theorem sm_hidden_ne {net : Net P T} {i o : T → P} (hsm : StateMachine net i o) (lab : T → Option A) (vs : List T) : ∀ (a b : P),
    net.FiringSequence [(a, 1)] vs [(b, 1)] → (∀ t ∈ vs, lab t = none) → vs ≠ [] → HiddenPath net lab a vs b := by
  induction vs using snocInduct with
  | nil => intro a b _ _ h; exact absurd rfl h
  | snoc vs v ihv =>
    intro a b hf hl _
    obtain ⟨n1, f1, f2⟩ := fseq_snoc hf
    obtain ⟨z, rfl⟩ := sm_fseq hsm f1
    obtain ⟨hv, rfl, hb⟩ := (sm_execute hsm).1 f2
    simp only [List.cons.injEq, Prod.mk.injEq, and_true] at hb
    subst hb
    obtain ⟨e3, e4, _⟩ := hsm v hv
    by_cases hvs : vs = []
    · subst hvs
      simp [Net.FiringSequence] at f1
      subst f1
      exact .single hv (hl v (by simp)) (by simp [e3]) (by simp [e4])
    · exact .snoc (ihv a (i v) f1 (fun t ht => hl t (by simp [ht])) hvs) hv (hl v (by simp)) (by simp [e3]) (by simp [e4])

theorem sm_hidden {net : Net P T} {i o : T → P} (hsm : StateMachine net i o) (lab : T → Option A) (ts : List T) (x y : P)
    (h : net.FiringSequence [(x, 1)] ts [(y, 1)]) (hh : ∀ t ∈ ts, lab t = none) : x = y ∨ HiddenPath net lab x ts y := by
  by_cases hts : ts = []
  · subst hts; simp [Net.FiringSequence] at h; exact .inl h
  · exact .inr (sm_hidden_ne hsm lab ts x y h hh hts)

/-- hidden paths are firing sequences -/
theorem sm_path_fseq {net : Net P T} {i o : T → P} (hsm : StateMachine net i o) {lab : T → Option A} {p q : P} {l : List T}
    (h : HiddenPath net lab p l q) : net.FiringSequence [(p, 1)] l [(q, 1)] := by
  have one : ∀ {t : T} {a b : P}, t ∈ net.transitions → a ∈ (net.inArcs t).map Prod.fst → b ∈ (net.outArcs t).map Prod.fst →
      net.FiringSequence [(a, 1)] [t] [(b, 1)] := by
    intro t a b ht ha hb
    obtain ⟨e1, e2, _⟩ := hsm t ht
    simp [e1] at ha; simp [e2] at hb
    exact fseq_single ((sm_execute hsm).2 ⟨ht, ha, by rw [hb]⟩)
  induction h with
  | single h1 _ h3 h4 => exact one h1 h3 h4
  | snoc _ h1 _ h3 h4 ih => exact fseq_append ih (one h1 h3 h4)

/-! ### The walk in a state machine -/

theorem runGroup_sm {net : Net P T} {i o : T → P} (hsm : StateMachine net i o) {t : T} (ht : t ∈ net.transitions) (l : List T) :
    ∀ (s : HState P T) (x : P) (ch : Bool) (n : Nat), s.marking = [(x, 1)] → net.FiringSequence [(x, 1)] l [(i t, 1)] → l ≠ [] → l.Nodup →
      (∀ u ∈ l, u ∉ s.visited ∧ u ≠ t) → (runGroup net t l s ch n).1.marking = [(i t, 1)] := by
  induction l with
  | nil => intro s x ch n _ _ h; exact absurd rfl h
  | cons u l ih =>
    intro s x ch n hm hf _ hn hv
    obtain ⟨m1, h1, h2⟩ := fseq_cons hf
    obtain ⟨hu, hx, rfl⟩ := (sm_execute hsm).1 h1
    have hfires : (decide (u ≠ t) && net.isEnabled u s.marking && decide (u ∉ s.visited)) = true := by
      rw [hm]
      have h3 := (sm_enabled hsm).2 ⟨hu, hx⟩
      obtain ⟨h4, h5⟩ := hv u (by simp)
      simp [h3, h4, h5]
    unfold runGroup
    simp only [hfires, if_true]
    have hm' : (s.fire net u).marking = [(o u, 1)] := by
      simp only [HState.fire, hm, h1, Option.getD_some]
    rw [hm']
    split
    · next he =>
      have := ((sm_enabled hsm).1 he).2
      simp only [hm', this]
    · next he =>
      have hl : l ≠ [] := by
        rintro rfl
        simp [Net.FiringSequence] at h2
        exact he ((sm_enabled hsm).2 ⟨ht, h2⟩)
      apply ih _ (o u) _ _ hm' h2 hl (List.nodup_cons.1 hn).2
      intro w hw
      have := hv w (by simp [hw])
      refine ⟨?_, this.2⟩
      simp only [HState.fire, List.mem_cons, not_or]
      exact ⟨fun h => (List.nodup_cons.1 hn).1 (h ▸ hw), this.1⟩

theorem hiddenGroups_single (e : Env P T A) (p q : P) (l : List T) (h : e.paths p q = some l) :
    hiddenGroups e [(p, 1)] [q] = [l] := by
  simp [hiddenGroups, sortBy, sortBy.ins, keys, h]

theorem walk_sm {e : Env P T A} {i o : T → P} (hsm : StateMachine e.net i o) {t : T} (ht : t ∈ e.net.transitions) (hl : e.lab t ≠ none)
    (hw : e.walkHidden = true) (s : RState P T A) (p : P) (hm : s.marking = [(p, 1)]) (hne : p ≠ i t) (l : List T)
    (htab : e.paths p (i t) = some l) (hp : HiddenPath e.net e.lab p l (i t)) (hn : l.Nodup) :
    (walk e t s).marking = [(i t, 1)] := by
  have hen : e.net.isEnabled t [(p, 1)] = false := by
    rw [Bool.eq_false_iff]; intro h; exact hne ((sm_enabled hsm).1 h).2
  unfold walk
  rw [hm, hw, hen]
  simp only [Bool.true_and, Bool.not_false, if_true]
  unfold applyHidden
  have hmiss : placesWithMissing e.net t [(p, 1)] = [i t] := by
    simp [placesWithMissing, (hsm t ht).1, count, get?, hne, List.eraseDups_cons]
  simp only [List.not_mem_nil, if_false, hmiss, hiddenGroups_single e p (i t) l htab]
  simp only [List.isEmpty_cons, Bool.false_eq_true, if_false]
  have hrun := runGroup_sm hsm ht l { marking := [(p, 1)], act := s.act, visited := [t] } p false 0 rfl (sm_path_fseq hsm hp) (hp_ne hp) hn (by
    intro u hu
    have hut : u ≠ t := by rintro rfl; exact hl (hp_mem hp u hu).2
    exact ⟨by simpa using hut, hut⟩)
  have hen2 : e.net.isEnabled t [(i t, 1)] = true := (sm_enabled hsm).2 ⟨ht, rfl⟩
  have heh : (enableHidden e.net t [l] 10000000 0 ([l].map fun _ => 0) { marking := [(p, 1)], act := s.act, visited := [t] }).marking = [(i t, 1)] := by
    show (enableHidden e.net t [l] (9999999 + 1) 0 ([l].map fun _ => 0) { marking := [(p, 1)], act := s.act, visited := [t] }).marking = _
    unfold enableHidden
    simp only [List.length_singleton, Nat.zero_mod, List.getD_cons_zero, List.map_cons, List.map_nil, List.drop_zero, hrun, hen2, if_true]
  rw [heh, hen2]
  simp only [if_true, heh, hen2]

theorem fireGroup_sm {e : Env P T A} (l : List T) : ∀ (s : RState P T A) (m : Marking P), e.net.FiringSequence s.marking l m →
    (fireGroup e s l).marking = m := by
  unfold fireGroup
  induction l with
  | nil => intro s m h; simp [Net.FiringSequence] at h; exact h
  | cons t l ih =>
    intro s m h
    obtain ⟨m1, h1, h2⟩ := fseq_cons h
    have hen := ((Net.execute_some_iff _ _ _ _).1 h1).1
    simp only [List.foldl_cons, hen, if_true]
    apply ih
    simp only [RState.fire, h1, Option.getD_some]
    exact h2

end Replay

/-- For a state machine (every transition moves one token) with unique visible labels and at most 51 hidden transitions,
replayed with the default settings, nothing is missing and nothing remains exactly if the part of the trace in the model is
a trace of the net: hidden transitions are found whenever they are needed, also to reach the final marking. -/
theorem C26_state_machine (e : Env P T A) (he : Proper e) (hu : UniqueLabels e.net e.lab) (i o : T → P) (hsm : StateMachine e.net i o)
    (source sink : P) (him : e.im = [(source, 1)]) (hfm : e.fm = [(sink, 1)]) (hsrc : source ∈ e.net.places)
    (hpaths : e.paths = hiddenPaths e.net e.lab) (hw : e.walkHidden = true) (htf : e.tryFinal = true)
    (hb : (e.net.transitions.filter fun t => (e.lab t).isNone).length ≤ 51) (ne w : List A) :
    ((applyTrace e ne w).1.missing = 0 ∧ (applyTrace e ne w).1.remaining = 0) ↔
      InLanguage e.net e.lab e.im e.fm (modelPart e.net e.lab w) := by
  constructor
  · rintro ⟨h1, h2⟩
    exact (C26_sound e he ne w h1 h2).2
  · rintro ⟨ts, m, hf, hm, hl⟩
    rw [him] at hf
    have key : ∀ w ts x, e.net.FiringSequence [(source, 1)] ts [(x, 1)] → ts.filterMap e.lab = modelPart e.net e.lab w →
        ∃ y ∈ e.net.places, (w.foldl (event e) (initState e ne)).marking = [(y, 1)] ∧ (w.foldl (event e) (initState e ne)).missing = 0 ∧
          (w.foldl (event e) (initState e ne)).stopped = false ∧ (y = x ∨ ∃ l, HiddenPath e.net e.lab y l x) := by
      intro w
      induction w using snocInduct with
      | nil =>
        intro ts x hf hl
        have hh : ∀ t ∈ ts, e.lab t = none := by
          have : ts.filterMap e.lab = [] := hl
          rwa [List.filterMap_eq_nil_iff] at this
        refine ⟨source, hsrc, by simp [initState, him], rfl, rfl, ?_⟩
        rcases sm_hidden hsm e.lab ts source x hf hh with h | h
        · exact .inl h
        · exact .inr ⟨ts, h⟩
      | snoc w a ih =>
        intro ts x hf hl
        rw [modelPart_snoc] at hl
        rw [List.foldl_append]
        simp only [List.foldl_cons, List.foldl_nil]
        cases hmap : transMap e a with
        | none =>
          rw [if_neg (transMap_none.1 hmap), List.append_nil] at hl
          obtain ⟨y, h0, h1, h2, h3, h4⟩ := ih ts x hf hl
          refine ⟨y, h0, ?_⟩
          simp only [event, h3, hmap, Bool.false_eq_true, if_false]
          exact ⟨h1, h2, trivial, h4⟩
        | some d =>
          have hd := transMap_some hmap
          rw [if_pos ⟨d, hd⟩] at hl
          obtain ⟨ts1, ts2, rfl, hl1, hl2⟩ := List.filterMap_eq_append_iff.1 hl
          obtain ⟨l1, t, l2, rfl, hh1, hlt, hh2⟩ := List.filterMap_eq_cons_iff.1 hl2
          rw [List.filterMap_eq_nil_iff] at hh2
          have hf' : e.net.FiringSequence [(source, 1)] ((ts1 ++ l1) ++ (t :: l2)) [(x, 1)] := by simpa using hf
          unfold Net.FiringSequence at hf'
          rw [List.foldlM_append] at hf'
          simp only [Option.bind_eq_bind, Option.bind_eq_some_iff] at hf'
          obtain ⟨m1, f1, f2⟩ := hf'
          obtain ⟨z, rfl⟩ := sm_fseq hsm f1
          obtain ⟨m2, f3, f4⟩ := fseq_cons f2
          obtain ⟨ht, rfl, rfl⟩ := (sm_execute hsm).1 f3
          obtain ⟨y, h0, h1, h2, h3, h4⟩ := ih (ts1 ++ l1) (i t) f1 (by
            rw [List.filterMap_append, hl1, List.filterMap_eq_nil_iff.2 hh1, List.append_nil])
          have hc := choose_spec (m := [(y, 1)]) hmap
          have heq : choose e [(y, 1)] a d = t := hu _ hc.1 _ ht (by rw [hc.2.1, hlt]) (by rw [hc.2.1]; simp)
          have hvis : e.lab t ≠ none := by rw [hlt]; simp
          have hwalk : (walk e t (w.foldl (event e) (initState e ne))).marking = [(i t, 1)] := by
            by_cases hyi : y = i t
            · subst hyi
              unfold walk
              rw [h1, (sm_enabled hsm).2 ⟨ht, rfl⟩]
              simpa using h1
            · rcases h4 with h4 | ⟨l, h4⟩
              · exact absurd h4 hyi
              · obtain ⟨l', k1, k2, k3⟩ := table_entry hb h0 h4
                exact walk_sm hsm ht hvis hw _ y h1 hyi l' (by rw [hpaths]; exact k1) k2 k3
          obtain ⟨_, _, _, _, _, _, hmw, _, _, hsw⟩ := walk_ext e t (w.foldl (event e) (initState e ne))
          refine ⟨o t, (hsm t ht).2.2.2, ?_⟩
          simp only [event, h3, hmap, Bool.false_eq_true, if_false, h1, heq]
          unfold fireEvent
          rw [hwalk, (sm_enabled hsm).2 ⟨ht, rfl⟩]
          simp only [if_true, RState.fire, hwalk, f3, Option.getD_some, hmw, h2, hsw, h3, true_and]
          rcases sm_hidden hsm e.lab l2 (o t) x f4 hh2 with h | h
          · exact .inl h
          · exact .inr ⟨l2, h⟩
    obtain ⟨x, rfl⟩ := sm_fseq hsm hf
    have hxs : x = sink := by
      have := hm x
      rw [hfm] at this
      by_cases h : sink = x
      · exact h.symm
      · simp [count, get?, h] at this
    subst hxs
    obtain ⟨y, h0, h1, h2, h3, h4⟩ := key w ts x hf hl
    have hfin : (replayed e ne w).marking = [(x, 1)] := by
      unfold replayed
      simp only [htf, if_true]
      have hbx : breakCond [(x, (1 : Int))] e.fm = true := by simp [breakCond, hfm, has, get?]
      have hf1 : (final1 e 5 (w.foldl (event e) (initState e ne))).marking = [(x, 1)] := by
        unfold final1
        rw [h1]
        by_cases hyx : y = x
        · subst hyx; rw [if_pos hbx, h1]
        · have hby : breakCond [(y, (1 : Int))] e.fm = false := by simp [breakCond, hfm, has, get?, hyx]
          rw [hby]
          simp only [Bool.false_eq_true, if_false]
          rcases h4 with h4 | ⟨l, h4⟩
          · exact absurd h4 hyx
          · obtain ⟨l', k1, k2, k3⟩ := table_entry hb h0 h4
            have hk : keys e.fm = [x] := by simp [hfm, keys]
            rw [hk, hiddenGroups_single e y x l' (by rw [hpaths]; exact k1)]
            have hfg := fireGroup_sm (e := e) l' (w.foldl (event e) (initState e ne)) [(x, 1)] (by rw [h1]; exact sm_path_fseq hsm k2)
            simp only [final1Groups, hfg, hbx, if_true]
            unfold final1
            rw [hfg, if_pos hbx, hfg]
      unfold final2
      rw [hf1, if_pos hbx, hf1]
    have hmis : (replayed e ne w).missing = 0 := by
      obtain ⟨_, _, _, _, _, _, hh, _⟩ := final_ext e (w.foldl (event e) (initState e ne))
      rw [h2] at hh
      exact hh
    constructor
    · show (replayed e ne w).missing + finalDeficit e.fm (replayed e ne w).marking = 0
      rw [hmis, hfin, hfm]; simp [finalDeficit, count, get?]
    · show remaining e.fm (replayed e ne w).marking = 0
      rw [hfin, hfm]; simp [remaining, count, get?, has]

end Verif
