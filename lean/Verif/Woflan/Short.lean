import Verif.Woflan.Cover2
import Mathlib.Order.WellFoundedSet
import Mathlib.Data.Set.Finite.List
set_option linter.unusedSectionVars false
/-
C63: the short-circuited net and soundness.
-/
namespace Verif.Woflan
variable {P T : Type}

theorem pre_some (N : WNet P T) (i o : P) (t : T) : pre (shortCircuit N i o) (some t) = pre N t := rfl
theorem post_some (N : WNet P T) (i o : P) (t : T) : post (shortCircuit N i o) (some t) = post N t := rfl

theorem pre_none (N : WNet P T) (i o p : P) : pre (shortCircuit N i o) none p = single o p := by
  unfold pre single
  simp only [shortCircuit]
  by_cases h : p = o
  · subst h; simp
  · simp [h, Ne.symm h]

theorem post_none (N : WNet P T) (i o p : P) : post (shortCircuit N i o) none p = single i p := by
  unfold post single
  simp only [shortCircuit]
  by_cases h : p = i
  · subst h; simp
  · simp [h, Ne.symm h]

theorem fires_some {N : WNet P T} {i o : P} {m m' : Mk P} {t : T} : Fires (shortCircuit N i o) m (some t) m' ↔ Fires N m t m' :=
  Iff.rfl

theorem enabled_none {N : WNet P T} {i o : P} {m : Mk P} : Enabled (shortCircuit N i o) m none ↔ 0 < m o := by
  unfold Enabled
  constructor
  · intro h
    have := h o
    rw [pre_none] at this
    simp only [single, if_true] at this
    omega
  · intro h p
    rw [pre_none]
    unfold single
    split
    · rename_i e; subst e; omega
    · omega

theorem fires_none {N : WNet P T} {i o : P} {m m' : Mk P} :
    Fires (shortCircuit N i o) m none m' ↔ 0 < m o ∧ ∀ p, m' p = m p - single o p + single i p := by
  unfold Fires
  rw [enabled_none]
  refine and_congr Iff.rfl (forall_congr' fun p => ?_)
  rw [pre_none, post_none]

theorem reaches_short {N : WNet P T} (i o : P) {m m' : Mk P} (h : Reaches N m m') : Reaches (shortCircuit N i o) m m' := by
  induction h with
  | refl => exact .refl
  | tail _ e ih =>
    obtain ⟨t, ht⟩ := e
    exact .tail ih ⟨some t, fires_some.2 ht⟩

/-- What makes the test of WOFLAN succeed. -/
structure Good (N : WNet P T) (m0 : Mk P) : Prop where
  bounded : Bounded N m0
  connected : ∀ m m', Reaches N m0 m → Reaches N m0 m' → Reaches N m m'
  tasks : ∀ t, N.label t ≠ none → ∃ m, Reaches N m0 m ∧ Enabled N m t

theorem Good.start {N : WNet P T} {m0 m1 : Mk P} (h : Good N m0) (h1 : Reaches N m0 m1) : Good N m1 := by
  have hback := h.connected m1 m0 h1 .refl
  refine ⟨?_, fun m m' hm hm' => h.connected m m' (h1.trans hm) (h1.trans hm'), fun t ht => ?_⟩
  · obtain ⟨l, hl⟩ := h.bounded
    exact ⟨l, fun m hm => hl m (h1.trans hm)⟩
  · obtain ⟨m, hm, he⟩ := h.tasks t ht
    exact ⟨m, hback.trans hm, he⟩

theorem Good.incomparable {N : WNet P T} {m0 : Mk P} (h : Good N m0) : Incomparable N m0 := by
  intro m m' hm hm' hle
  exact bounded_eq h.bounded hm (h.connected m m' hm hm') hle

/-- A path in the short-circuited net is a path in the net or leads to a marking with a token on the sink. -/
theorem first_short {N : WNet P T} {i o : P} {m m' : Mk P} (h : Reaches (shortCircuit N i o) m m') :
    Reaches N m m' ∨ ∃ m2, Reaches N m m2 ∧ 0 < m2 o := by
  induction h with
  | refl => exact .inl .refl
  | tail _ e ih =>
    rcases ih with ih | ih
    · obtain ⟨t, ht⟩ := e
      cases t with
      | none => exact .inr ⟨_, ih, (fires_none.1 ht).1⟩
      | some t => exact .inl (.tail ih ⟨t, ht⟩)
    · exact .inr ih

theorem good_proper {N : WNet P T} {i o : P} (h : Good (shortCircuit N i o) (single i)) {m : Mk P}
    (hm : Reaches (shortCircuit N i o) (single i) m) (ho : 0 < m o) : m = single o := by
  have hf : Fires (shortCircuit N i o) m none (fun p => m p - single o p + single i p) := fires_none.2 ⟨ho, fun _ => rfl⟩
  have hr : Reaches (shortCircuit N i o) (single i) (fun p => m p - single o p + single i p) := .tail hm ⟨none, hf⟩
  have := bounded_eq h.bounded .refl hr (fun p => Nat.le_add_left _ _)
  funext p
  have hp := congrFun this p
  by_cases e : p = o
  · subst e
    unfold single at hp ⊢
    simp only [if_true] at hp ⊢
    omega
  · unfold single at hp ⊢
    simp only [e, if_false] at hp ⊢
    omega

/-- A good short-circuited net comes from a sound net. -/
theorem good_sound {N : WNet P T} {i o : P} (h : Good (shortCircuit N i o) (single i)) : Sound N i o := by
  have hp : ∀ m, Reaches N (single i) m → 0 < m o → m = single o :=
    fun m hm ho => good_proper h (reaches_short i o hm) ho
  obtain ⟨m1, hm1, he1⟩ := h.tasks none (by simp [shortCircuit])
  refine ⟨?_, hp, ?_⟩
  · intro m hm
    have h1 := h.connected m m1 (reaches_short i o hm) hm1
    rcases first_short h1 with h2 | ⟨m2, h2, ho⟩
    · have := hp m1 (Reaches.trans hm h2) (enabled_none.1 he1)
      exact this ▸ h2
    · exact hp m2 (Reaches.trans hm h2) ho ▸ h2
  · intro t ht
    obtain ⟨m, hm, he⟩ := h.tasks (some t) ht
    -- the reachable markings of the two nets are the same
    have back : ∀ m, Reaches (shortCircuit N i o) (single i) m → Reaches N (single i) m := by
      intro m hm
      induction hm with
      | refl => exact .refl
      | @tail b c hb e ih =>
        obtain ⟨t, ht⟩ := e
        cases t with
        | some t => exact .tail ih ⟨t, ht⟩
        | none =>
          have e1 := hp _ ih (fires_none.1 ht).1
          have : c = single i := by
            funext p
            rw [(fires_none.1 ht).2 p, e1]
            omega
          rw [this]; exact .refl
    exact ⟨m, back m hm, he⟩

theorem sound_back {N : WNet P T} {i o : P} (h : Sound N i o) {m : Mk P} (hm : Reaches (shortCircuit N i o) (single i) m) :
    Reaches N (single i) m := by
  induction hm with
  | refl => exact .refl
  | @tail b c hb e ih =>
    obtain ⟨t, ht⟩ := e
    cases t with
    | some t => exact .tail ih ⟨t, ht⟩
    | none =>
      have e1 := h.proper _ ih (fires_none.1 ht).1
      have : c = single i := by
        funext p
        rw [(fires_none.1 ht).2 p, e1]
        omega
      rw [this]; exact .refl

theorem sound_incomparable {N : WNet P T} {i o : P} (h : Sound N i o) : Incomparable N (single i) := by
  intro m m' hm hm' hle
  have e : m' = m + fun p => m' p - m p := by
    funext p
    have : m p ≤ m' p := hle p
    simp only [Pi.add_apply]; omega
  have h1 := reaches_mono (fun p => m' p - m p) (h.option m hm)
  rw [← e] at h1
  have h2 := h.proper _ (Reaches.trans hm' h1) (by
    simp only [Pi.add_apply]
    have : single o o = 1 := by simp [single]
    omega)
  funext p
  have := congrFun h2 p
  simp only [Pi.add_apply] at this
  have hp : m p ≤ m' p := hle p
  omega

theorem sound_good {N : WNet P T} (hN : Listed N) {i o : P} (h : Sound N i o) : Good (shortCircuit N i o) (single i) := by
  refine ⟨?_, ?_, ?_⟩
  · have : Finite P := Finite.of_surjective (fun k : Fin N.places.length => N.places[k]) (by
      intro p
      obtain ⟨k, hk, e⟩ := List.getElem_of_mem (hN.places p)
      exact ⟨⟨k, hk⟩, e⟩)
    have hI := sound_incomparable h
    have hfin : ({m | Reaches N (single i) m} : Set (Mk P)).Finite := by
      refine IsAntichain.finite_of_partiallyWellOrderedOn (r := (· ≤ ·)) ?_ (Set.isPWO_of_wellQuasiOrderedLE _)
      intro a ha b hb hne hle
      exact hne (hI a b ha hb hle)
    refine ⟨hfin.toFinset.toList, fun m hm => ?_⟩
    simp only [Finset.mem_toList, Set.Finite.mem_toFinset, Set.mem_ofPred_eq]
    exact sound_back h hm
  · intro m m' hm hm'
    have h1 := reaches_short i o (h.option m (sound_back h hm))
    have h2 : Fires (shortCircuit N i o) (single o) none (single i) := by
      refine fires_none.2 ⟨by simp [single], fun p => by omega⟩
    exact (Relation.ReflTransGen.tail h1 ⟨none, h2⟩ : Reaches _ _ _).trans hm'
  · intro t ht
    cases t with
    | some t =>
      obtain ⟨m, hm, he⟩ := h.tasks t ht
      exact ⟨m, reaches_short i o hm, he⟩
    | none => exact ⟨single o, reaches_short i o (h.option _ .refl), enabled_none.2 (by simp [single])⟩

theorem listed_short {N : WNet P T} (hN : Listed N) (i o : P) : Listed (shortCircuit N i o) := by
  refine ⟨hN.places, hN.nodup, fun t => ?_⟩
  cases t with
  | none => simp [shortCircuit]
  | some t => simp [shortCircuit, hN.trans t]

/-! ### Steps 10 and 11 -/

theorem step10_true {N : WNet P T} (hN : Listed N) (h1000 : N.places.length ≤ 1000) {m0 : Mk P} {s : Mct P T}
    (hs : MctEnds N (vec m0) s) (h : Step10 N (vec m0) true s true) : Good N m0 := by
  unfold Step10 at h
  split at h
  · rename_i hd
    simp only [if_true] at h
    obtain ⟨g, hg, hr⟩ := h
    have hb := rg_bounded hN h1000 hg
    exact ⟨hb, (rg_connected hN h1000 hg).1 (hr.1 rfl), fun t ht => tasks_fire hN hb hs hd t ht⟩
  · simp at h

theorem step10_good {N : WNet P T} (hN : Listed N) (h1000 : N.places.length ≤ 1000) {m0 : Mk P} (h : Good N m0) {s : Mct P T}
    (hs : MctEnds N (vec m0) s) (r : Bool) : Step10 N (vec m0) true s r ↔ r = true := by
  have hd := mct_dead hN h.incomparable h.bounded h1000 hs h.tasks
  unfold Step10
  rw [if_pos hd.1]
  simp only [if_true]
  constructor
  · rintro ⟨g, hg, hr⟩
    exact hr.2 ((rg_connected hN h1000 hg).2 h.connected)
  · rintro rfl
    obtain ⟨g, hg⟩ := rg_ends hN h1000 h.bounded
    exact ⟨g, hg, fun _ => (rg_connected hN h1000 hg).2 h.connected, fun _ => rfl⟩

/-- A net that passes the test up to the invariants. -/
theorem step3_good {N : WNet P T} (hN : Listed N) (h1000 : N.places.length ≤ 1000) {m0 : Mk P} (h : Good N m0) (asap : Bool)
    (O : Oracle P) (hO : uncovered N O.supports = [] ∨ (asap = false ∧ O.notWellHandled = true)) (r : Bool) :
    Step3 asap O N (vec m0) r ↔ r = true := by
  obtain ⟨s0, hs0⟩ := mct_ends hN h.incomparable h.bounded
  unfold Step3
  split
  · constructor
    · rintro ⟨s, hs, h10⟩
      exact (step10_good hN h1000 h hs r).1 h10
    · exact fun hr => ⟨s0, hs0, (step10_good hN h1000 h hs0 r).2 hr⟩
  · rename_i hu
    obtain ⟨rfl, hl⟩ := hO.resolve_left hu
    simp only [Bool.false_eq_true, if_false]
    unfold Step5
    rw [hl]
    split
    · constructor
      · rintro ⟨s, hs, h10⟩
        exact (step10_good hN h1000 h hs r).1 h10
      · exact fun hr => ⟨s0, hs0, (step10_good hN h1000 h hs0 r).2 hr⟩
    · constructor
      · rintro ⟨s, hs, h10⟩
        rw [if_neg (mct_dead hN h.incomparable h.bounded h1000 hs h.tasks).2] at h10
        exact (step10_good hN h1000 h hs r).1 h10
      · intro hr
        refine ⟨s0, hs0, ?_⟩
        rw [if_neg (mct_dead hN h.incomparable h.bounded h1000 hs0 h.tasks).2]
        exact (step10_good hN h1000 h hs0 r).2 hr

theorem step3_true {N : WNet P T} (hN : Listed N) (h1000 : N.places.length ≤ 1000) {m0 : Mk P} (asap : Bool)
    (O : Oracle P) (h : Step3 asap O N (vec m0) true) : Good N m0 := by
  have h10 : ∀ l s, MctEnds N (vec m0) s → Step10 N (vec m0) l s true → Good N m0 := by
    intro l s hs h
    cases l with
    | true => exact step10_true hN h1000 hs h
    | false =>
      unfold Step10 at h
      split at h <;> simp at h
  unfold Step3 at h
  split at h
  · obtain ⟨s, hs, h⟩ := h
    exact h10 _ s hs h
  · split at h
    · simp at h
    · unfold Step5 at h
      split at h
      · obtain ⟨s, hs, h⟩ := h
        exact h10 _ s hs h
      · obtain ⟨s, hs, h⟩ := h
        split at h
        · simp at h
        · exact h10 _ s hs h

end Verif.Woflan
