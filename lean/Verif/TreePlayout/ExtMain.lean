import Verif.TreePlayout.ExtTheorems
set_option linter.unusedSectionVars false
/-
C47: main theorems on the extensive playout.
-/
namespace Verif.TreePlayout
open Lang
variable {α : Type}

theorem bloop_mono {D D' R R' : Lang α} {n : Nat} {w : List α} (h : BLoop D R n w) (hD : ∀ v, v.length ≤ w.length → D v → D' v)
    (hR : ∀ v, v.length ≤ w.length → R v → R' v) : BLoop D' R' n w := by
  induction h with
  | exit hd => exact .exit (hD _ (Nat.le_refl _) hd)
  | again hd hr _ ih =>
    refine .again (hD _ (by simp) hd) (hR _ (by simp; omega) hr) (ih ?_ ?_)
    · intro v hv; exact hD v (by simp; omega)
    · intro v hv; exact hR v (by simp; omega)

theorem bloop_loopL {D R : Lang α} {n : Nat} {w : List α} (h : BLoop D R n w) : loopL D [R] w := by
  induction h with
  | exit hd => exact .exit hd
  | again hd hr _ ih => exact .again R hd (by simp) hr ih

/-- The traces with bounded loops are traces of the tree. -/
theorem blang_lang (K : Nat) {t : PT α} (ht : Supported t) : ∀ w, blang K t w → t.lang w := by
  have f2 : ∀ (cs : List (PT α)) (ws : List (List α)), (∀ c ∈ cs, ∀ w, blang K c w → c.lang w) →
      List.Forall₂ (fun u c => blang K c u) ws cs → List.Forall₂ (fun u c => PT.lang c u) ws cs := by
    intro cs ws h hw
    induction hw with
    | nil => exact .nil
    | cons h1 _ ih => exact .cons (h _ (by simp) _ h1) (ih fun c hc => h c (by simp [hc]))
  induction ht with
  | leaf l => intro w hw; exact hw
  | xor _ _ ih =>
    intro w hw
    rw [blang, blangs_eq] at hw
    rw [PT.lang_node]
    obtain ⟨L, hL, hw⟩ := hw
    obtain ⟨c, hc, rfl⟩ := List.mem_map.1 hL
    exact ⟨c.lang, List.mem_map.2 ⟨c, hc, rfl⟩, ih c hc w hw⟩
  | seq _ _ ih =>
    intro w hw
    rw [blang, blangs_eq] at hw
    rw [PT.lang_node]
    obtain ⟨ws, h, rfl⟩ := (seqL_iff _ _ _).1 hw
    exact (seqL_iff _ _ _).2 ⟨ws, f2 _ _ ih h, rfl⟩
  | par _ _ ih =>
    intro w hw
    rw [blang, blangs_eq] at hw
    rw [PT.lang_node]
    obtain ⟨ws, h, hs⟩ := (parL_iff _ _ _).1 hw
    exact (parL_iff _ _ _).2 ⟨ws, f2 _ _ ih h, hs⟩
  | loop _ _ ihd ihr =>
    intro w hw
    rw [blang, blangs_eq] at hw
    rw [PT.lang_node]
    exact bloop_loopL (bloop_mono (show BLoop _ _ K w from hw) (fun v _ => ihd v) (fun v _ => ihr v))

/-- Iterations that add nothing can be left out. -/
theorem loopL_bloop {D R : Lang α} {w : List α} (h : loopL D [R] w) : BLoop D R w.length w := by
  suffices ∃ n, BLoop D R n w ∧ n ≤ w.length by
    obtain ⟨n, hn, hl⟩ := this
    have gen : ∀ (n m : Nat) (w : List α), BLoop D R n w → n ≤ m → BLoop D R m w := by
      intro n m w h hm
      induction h generalizing m with
      | exit hd => exact .exit hd
      | again hd hr _ ih =>
        obtain ⟨m, rfl⟩ := Nat.exists_eq_succ_of_ne_zero (n := m) (by omega)
        exact .again hd hr (ih m (by omega))
    exact gen _ _ _ hn hl
  induction h with
  | exit hd => exact ⟨0, .exit hd, by omega⟩
  | @again d r w R' hd hR hr _ ih =>
    simp only [List.mem_singleton] at hR
    subst hR
    obtain ⟨n, hn, hl⟩ := ih
    by_cases h0 : d.length + r.length = 0
    · have hd0 : d = [] := List.length_eq_zero_iff.1 (by omega)
      have hr0 : r = [] := List.length_eq_zero_iff.1 (by omega)
      subst hd0; subst hr0
      exact ⟨n, by simpa using hn, by simpa using hl⟩
    · exact ⟨n + 1, .again hd hr hn, by simp; omega⟩

/-- A trace of the tree needs no more loop iterations than it has events. -/
theorem lang_blang (K : Nat) {t : PT α} (ht : Supported t) : ∀ w, w.length ≤ K → t.lang w → blang K t w := by
  have f2 : ∀ (cs : List (PT α)) (ws : List (List α)), (∀ c ∈ cs, ∀ w, w.length ≤ K → c.lang w → blang K c w) → tot ws ≤ K →
      List.Forall₂ (fun u c => PT.lang c u) ws cs → List.Forall₂ (fun u c => blang K c u) ws cs := by
    intro cs ws h hl hw
    induction hw with
    | nil => exact .nil
    | cons h1 _ ih =>
      simp only [tot, List.map_cons, List.sum_cons] at hl ih
      exact .cons (h _ (by simp) _ (by omega) h1) (ih (fun c hc => h c (by simp [hc])) (by omega))
  induction ht with
  | leaf l => intro w _ hw; exact hw
  | xor _ _ ih =>
    intro w hl hw
    rw [PT.lang_node] at hw
    rw [blang, blangs_eq]
    obtain ⟨L, hL, hw⟩ := hw
    obtain ⟨c, hc, rfl⟩ := List.mem_map.1 hL
    exact ⟨blang K c, List.mem_map.2 ⟨c, hc, rfl⟩, ih c hc w hl hw⟩
  | seq _ _ ih =>
    intro w hl hw
    rw [PT.lang_node] at hw
    rw [blang, blangs_eq]
    obtain ⟨ws, h, rfl⟩ := (seqL_iff _ _ _).1 hw
    rw [tot_flatten] at hl
    exact (seqL_iff _ _ _).2 ⟨ws, f2 _ _ ih hl h, rfl⟩
  | par _ _ ih =>
    intro w hl hw
    rw [PT.lang_node] at hw
    rw [blang, blangs_eq]
    obtain ⟨ws, h, hs⟩ := (parL_iff _ _ _).1 hw
    rw [sh_length hs] at hl
    exact (parL_iff _ _ _).2 ⟨ws, f2 _ _ ih hl h, hs⟩
  | @loop d r _ _ ihd ihr =>
    intro w hl hw
    rw [PT.lang_node] at hw
    rw [blang, blangs_eq]
    have h1 : BLoop d.lang r.lang w.length w := loopL_bloop hw
    have h2 : BLoop (blang K d) (blang K r) w.length w :=
      bloop_mono h1 (fun v hv => ihd v (by omega)) (fun v hv => ihr v (by omega))
    exact bloop_iff_mono h2 hl
where
  bloop_iff_mono {D R : Lang α} {n m : Nat} {w : List α} (h : BLoop D R n w) (hm : n ≤ m) : BLoop D R m w := by
    induction h generalizing m with
    | exit hd => exact .exit hd
    | again hd hr _ ih =>
      obtain ⟨m, rfl⟩ := Nat.exists_eq_succ_of_ne_zero (n := m) (by omega)
      exact .again hd hr (ih (by omega))

/-- Trees in which the loops cannot be passed without an event: do and redo parts are never empty. -/
inductive NoSkipLoop : PT α → Prop
  | leaf (l) : NoSkipLoop (.leaf l)
  | node {op cs} : (∀ c ∈ cs, NoSkipLoop c) → (op = .loop → ∀ c ∈ cs, ¬ c.lang []) → NoSkipLoop (.node op cs)

theorem loopL_bloop_half {D R : Lang α} (hD : ¬ D []) (hR : ¬ R []) {w : List α} (h : loopL D [R] w) : BLoop D R (w.length / 2) w := by
  suffices ∃ n, BLoop D R n w ∧ 2 * n + 1 ≤ w.length by
    obtain ⟨n, hn, hl⟩ := this
    exact lang_blang.bloop_iff_mono hn (by omega)
  have pos : ∀ {L : Lang α} {v : List α}, ¬ L [] → L v → 1 ≤ v.length := by
    intro L v h hv
    cases v with
    | nil => exact absurd hv h
    | cons a v => simp
  induction h with
  | exit hd => exact ⟨0, .exit hd, by have := pos hD hd; omega⟩
  | @again d r w R' hd hR' hr _ ih =>
    simp only [List.mem_singleton] at hR'
    subst hR'
    obtain ⟨n, hn, hl⟩ := ih
    have := pos hD hd
    have := pos hR hr
    exact ⟨n + 1, .again hd hr hn, by simp; omega⟩

theorem lang_blang_half (K : Nat) {t : PT α} (ht : Supported t) : NoSkipLoop t → ∀ w, w.length / 2 ≤ K → t.lang w → blang K t w := by
  have f2 : ∀ (cs : List (PT α)) (ws : List (List α)), (∀ c ∈ cs, ∀ w, w.length / 2 ≤ K → c.lang w → blang K c w) → tot ws / 2 ≤ K →
      List.Forall₂ (fun u c => PT.lang c u) ws cs → List.Forall₂ (fun u c => blang K c u) ws cs := by
    intro cs ws h hl hw
    induction hw with
    | nil => exact .nil
    | cons h1 _ ih =>
      simp only [tot, List.map_cons, List.sum_cons] at hl ih
      exact .cons (h _ (by simp) _ (by omega) h1) (ih (fun c hc => h c (by simp [hc])) (by omega))
  induction ht with
  | leaf l => intro _ w _ hw; exact hw
  | xor _ _ ih =>
    intro hn w hl hw
    cases hn with
    | node hn _ =>
    rw [PT.lang_node] at hw
    rw [blang, blangs_eq]
    obtain ⟨L, hL, hw⟩ := hw
    obtain ⟨c, hc, rfl⟩ := List.mem_map.1 hL
    exact ⟨blang K c, List.mem_map.2 ⟨c, hc, rfl⟩, ih c hc (hn c hc) w hl hw⟩
  | seq _ _ ih =>
    intro hn w hl hw
    cases hn with
    | node hn _ =>
    rw [PT.lang_node] at hw
    rw [blang, blangs_eq]
    obtain ⟨ws, h, rfl⟩ := (seqL_iff _ _ _).1 hw
    rw [tot_flatten] at hl
    exact (seqL_iff _ _ _).2 ⟨ws, f2 _ _ (fun c hc => ih c hc (hn c hc)) hl h, rfl⟩
  | par _ _ ih =>
    intro hn w hl hw
    cases hn with
    | node hn _ =>
    rw [PT.lang_node] at hw
    rw [blang, blangs_eq]
    obtain ⟨ws, h, hs⟩ := (parL_iff _ _ _).1 hw
    rw [sh_length hs] at hl
    exact (parL_iff _ _ _).2 ⟨ws, f2 _ _ (fun c hc => ih c hc (hn c hc)) hl h, hs⟩
  | @loop d r _ _ ihd ihr =>
    intro hn w hl hw
    cases hn with
    | node hn hne =>
    have h1 : BLoop d.lang r.lang (w.length / 2) w := by
      rw [PT.lang_node] at hw
      exact loopL_bloop_half (hne rfl d (by simp)) (hne rfl r (by simp)) hw
    rw [blang, blangs_eq]
    have h2 : BLoop (blang K d) (blang K r) (w.length / 2) w :=
      bloop_mono h1 (fun v hv => ihd (hn d (by simp)) v (by omega)) (fun v hv => ihr (hn r (by simp)) v (by omega))
    exact lang_blang.bloop_iff_mono h2 hl

variable [DecidableEq α]

/-- **C47, soundness.** Whatever the limits are, every trace of the extensive playout is a trace of the tree in which every
loop is repeated at most `max_loop_occ` times; unless the root is a choice or silent, its length is within the bounds. -/
theorem _root_.Verif.C47_sound (c : Cfg α) (ho : ∀ l, (c.ord l).Perm l) (fuel : Nat) (big : Int) (t : PT α) (ht : Supported t)
    (L : List (List α)) (h : extensive c fuel big t = some L) :
    ∀ w ∈ L, t.lang w ∧ blang c.loops t w ∧ (NotChoice t → c.lo ≤ w.length ∧ (w.length : Int) ≤ c.hi) := by
  intro w hw
  obtain ⟨h1, h2⟩ := playout_sound ho fuel big _ _ ht L h
  refine ⟨blang_lang _ ht w (h1 w hw), h1 w hw, fun hn => ?_⟩
  have := h2 hn w hw
  omega

/-- **C47, termination.** The extensive playout of a supported tree always ends (with every limit). -/
theorem _root_.Verif.C47_terminates (c : Cfg α) (big : Int) (t : PT α) (ht : Supported t) :
    ∃ F L, ∀ fuel, F ≤ fuel → extensive c fuel big t = some L := playout_term c big _ _ ht

/-- **C47, exactness.** If the limit on the number of traces is high enough (and the maximum length below the internal bound
`2 ** (48 - ...)`), the playout contains every trace of allowed length with at most `max_loop_occ` repetitions per loop. -/
theorem _root_.Verif.C47_exact (c : Cfg α) (ho : ∀ l, (c.ord l).Perm l) (big : Int) (t : PT α) (ht : Supported t)
    (hb : 0 ≤ big) (hhi : c.hi ≤ big) :
    ∃ N L, (∀ limit fuel, N ≤ limit → N ≤ fuel → extensive { c with limit := limit } fuel big t = some L) ∧
      ∀ w : List α, c.lo ≤ w.length → (w.length : Int) ≤ c.hi → (w ∈ L ↔ blang c.loops t w) := by
  obtain ⟨N, L, h1, h2⟩ := playout_complete c ho (mn := minLen t) (mx := maxLen big t) hb ht
  refine ⟨N, L, h1, fun w hlo hhi' => ⟨h2.sound w, fun hw => h2.complete w hw (by omega) (by omega) (by omega)⟩⟩

/-- **C47, exhaustive.** With `max_loop_occ` at least the maximum trace length, the playout has all traces of the tree within
the length bounds, and (unless the root is a choice or silent) nothing else. -/
theorem _root_.Verif.C47_exhaustive (c : Cfg α) (ho : ∀ l, (c.ord l).Perm l) (big : Int) (t : PT α) (ht : Supported t)
    (hb : 0 ≤ big) (hhi : c.hi ≤ big) (hk : c.hi ≤ c.loops) :
    ∃ N L, (∀ limit fuel, N ≤ limit → N ≤ fuel → extensive { c with limit := limit } fuel big t = some L) ∧
      (∀ w : List α, c.lo ≤ w.length → (w.length : Int) ≤ c.hi → (w ∈ L ↔ t.lang w)) ∧
      (NotChoice t → ∀ w, w ∈ L ↔ t.lang w ∧ c.lo ≤ w.length ∧ (w.length : Int) ≤ c.hi) := by
  obtain ⟨N, L, h1, h2⟩ := C47_exact c ho big t ht hb hhi
  have key : ∀ w : List α, c.lo ≤ w.length → (w.length : Int) ≤ c.hi → (w ∈ L ↔ t.lang w) := by
    intro w hlo hw
    rw [h2 w hlo hw]
    exact ⟨blang_lang _ ht w, lang_blang _ ht w (by omega)⟩
  refine ⟨N, L, h1, key, fun hn w => ⟨fun hw => ?_, fun ⟨h3, h4, h5⟩ => (key w h4 h5).2 h3⟩⟩
  obtain ⟨h3, _, h4⟩ := C47_sound { c with limit := N } ho N big t ht L (h1 N N (Nat.le_refl _) (Nat.le_refl _)) w hw
  exact ⟨h3, h4 hn⟩

/-- **C47, default loop bound.** The default `max_loop_occ = int(max_trace_length / 2)` is enough if no loop has a part that can
be passed without an event. -/
theorem _root_.Verif.C47_default_loops (c : Cfg α) (ho : ∀ l, (c.ord l).Perm l) (big : Int) (t : PT α) (ht : Supported t)
    (hn : NoSkipLoop t) (hb : 0 ≤ big) (hhi : c.hi ≤ big) (hk : c.loops = c.hi.toNat / 2) :
    ∃ N L, (∀ limit fuel, N ≤ limit → N ≤ fuel → extensive { c with limit := limit } fuel big t = some L) ∧
      ∀ w : List α, c.lo ≤ w.length → (w.length : Int) ≤ c.hi → (w ∈ L ↔ t.lang w) := by
  obtain ⟨N, L, h1, h2⟩ := C47_exact c ho big t ht hb hhi
  refine ⟨N, L, h1, fun w hlo hw => ?_⟩
  rw [h2 w hlo hw]
  refine ⟨blang_lang _ ht w, lang_blang_half _ ht hn w ?_⟩
  omega

end Verif.TreePlayout
