import Verif.Convert.ReduceSteps
import Verif.Petri.Theorems
/-
The converted net as a whole, and the semantics of the code (`execute`) on it (C14, C15, C31).
-/
namespace Verif
namespace Conv
open Sys Lang Dict
variable {α : Type}

/-! ### the net before the reduction -/

theorem mem_trs {g : Gr α} {e : Tr α} : e ∈ g.trs ↔ ∃ a ∈ g.trans, e = ⟨g.pre a.1, g.post a.1, a.2⟩ := by
  simp [Gr.trs, eq_comm]

theorem tau_good (i o np nt : Nat) (pl : List Nat) (hpl : pl = [np]) :
    Good (⟨pl, [(nt, none)], [(i, nt)], [(nt, o)]⟩ : Gr α) ⟨np, nt⟩ ⟨np + 1, nt + 1⟩ [] := by
  subst hpl
  refine ⟨by simp, by simp, ?_, by simp, by simp, by simp, ?_⟩
  · intro t; simp only [List.map_cons, List.map_nil, List.mem_singleton]; omega
  · intro p; simp only [List.mem_singleton, Inner]; omega

theorem tau_trs (i o nt : Nat) (pl : List Nat) :
    (⟨pl, [(nt, none)], [(i, nt)], [(nt, o)]⟩ : Gr α).trs = [⟨[i], [o], none⟩] := by
  simp [Gr.trs, Gr.pre, Gr.post]

theorem build_block {t : PT α} (h : WellFormed t) :
    ∃ g N nt, build t = { places := [0, 1] } ++ g ∧ Good g ⟨2, 0⟩ ⟨N, nt⟩ [] ∧ Block g.trs 0 1 2 N t.lang := by
  have hs := spec_all h
  unfold build
  simp only [sub_pp]
  by_cases h1 : tauInitial t = true <;> by_cases h2 : tauFinal t = true
  · simp only [h1, h2, if_true]
    obtain ⟨gb, bb⟩ := hs 2 3 ⟨4, 2⟩ (by omega) (by simp) (by simp)
    have gf := tau_good (α := α) 3 1 3 1 [3] rfl
    have gi := tau_good (α := α) 0 2 2 0 [2] rfl
    have g1 := gi.append (gf.append gb)
    refine ⟨_, _, _, rfl, g1, ?_⟩
    rw [gi.trs_append (gf.append gb) (by simp), gf.trs_append gb (by simp), tau_trs, tau_trs]
    have b1 := block_seq bb (block_leaf (α := α) none 3 1 _ (by have := gb.np; simp only at this; omega) (by have := gb.np; simp only at this; omega) (by omega))
      (by omega) (by omega) (by omega) rfl rfl
    have b2 := block_seq (block_leaf (α := α) none 0 2 3 (by omega) (by omega) (by omega)) b1 (by omega) (by omega) (by omega) rfl rfl
    refine (b2.congr (L2 := t.lang) fun w => ?_).mono fun e => ?_
    · simp [cat]
    · simp only [List.mem_append, List.mem_singleton]; grind
  · simp only [h1, h2, if_true, Bool.false_eq_true, if_false, Gr.nil_append]
    obtain ⟨gb, bb⟩ := hs 2 1 ⟨3, 1⟩ (by omega) (by simp) (by simp)
    have gi := tau_good (α := α) 0 2 2 0 [2] rfl
    refine ⟨_, _, _, rfl, gi.append gb, ?_⟩
    rw [gi.trs_append gb (by simp), tau_trs]
    have b2 := block_seq (block_leaf (α := α) none 0 2 3 (by omega) (by omega) (by omega)) bb (by omega) (by omega) (by omega) rfl rfl
    refine (b2.congr (L2 := t.lang) fun w => ?_)
    simp [cat]
  · simp only [h1, h2, if_true, Bool.false_eq_true, if_false, Gr.nil_append]
    obtain ⟨gb, bb⟩ := hs 0 2 ⟨3, 1⟩ (by omega) (by simp) (by simp)
    have gi := tau_good (α := α) 2 1 2 0 [2] rfl
    refine ⟨_, _, _, rfl, gi.append gb, ?_⟩
    rw [gi.trs_append gb (by simp), tau_trs]
    have b1 := block_seq bb (block_leaf (α := α) none 2 1 _ (by have := gb.np; simp only at this; omega) (by have := gb.np; simp only at this; omega) (by omega))
      (by omega) (by omega) (by omega) rfl rfl
    refine (b1.congr (L2 := t.lang) fun w => ?_).mono fun e => ?_
    · simp [cat]
    · simp only [List.mem_append, List.mem_singleton]; grind
  · simp only [h1, h2, Bool.false_eq_true, if_false, Gr.nil_append]
    obtain ⟨gb, bb⟩ := hs 0 1 ⟨2, 0⟩ (by omega) (by simp) (by simp)
    exact ⟨_, _, _, rfl, gb, bb⟩

/-- what is needed of the net before the reduction -/
structure Ready (g : Gr α) (L : Lang α) : Prop where
  inv : g.Inv
  sound : Sound g.trs 0 1
  lang : ∀ w, L w ↔ Run g.trs (toks [0]) w (toks [1])
  source : g.ppre 0 = []
  sink : g.ppost 1 = []
  arcs : ∀ x ∈ g.places, (x ≠ 0 → g.ppre x ≠ []) ∧ (x ≠ 1 → g.ppost x ≠ [])
  ends : 0 ∈ g.places ∧ 1 ∈ g.places
  tids : (∀ a ∈ g.pt, a.2 ∈ g.trans.map Prod.fst) ∧ ∀ a ∈ g.tp, a.1 ∈ g.trans.map Prod.fst

theorem ready_of_block {g : Gr α} {N nt : Nat} {L : Lang α} (hg : Good g ⟨2, 0⟩ ⟨N, nt⟩ []) (hb : Block g.trs 0 1 2 N L) :
    Ready (({ places := [0, 1] } : Gr α) ++ g) L := by
  have hle := hb.le
  have et : (({ places := [0, 1] } : Gr α) ++ g).trs = g.trs := Gr.trs_places _ _
  have epre : ∀ x, (({ places := [0, 1] } : Gr α) ++ g).pre x = g.pre x := fun x => by simp
  have epost : ∀ x, (({ places := [0, 1] } : Gr α) ++ g).post x = g.post x := fun x => by simp
  have eppre : ∀ x, (({ places := [0, 1] } : Gr α) ++ g).ppre x = g.ppre x := fun x => by simp [Gr.ppre]
  have eppost : ∀ x, (({ places := [0, 1] } : Gr α) ++ g).ppost x = g.ppost x := fun x => by simp [Gr.ppost]
  have epl : ∀ x, x ∈ (({ places := [0, 1] } : Gr α) ++ g).places ↔ x < N := by
    intro x
    rw [Gr.append_places, List.mem_append, hg.places]
    simp only [Inner, List.mem_cons, List.not_mem_nil, or_false]; omega
  have etr : (({ places := [0, 1] } : Gr α) ++ g).trans = g.trans := by simp
  have hmem : ∀ t ∈ g.trans.map Prod.fst, ∃ e ∈ g.trs, e.pre = g.pre t ∧ e.post = g.post t := by
    intro t ht
    obtain ⟨a, ha, rfl⟩ := List.mem_map.1 ht
    exact ⟨_, mem_trs.2 ⟨a, ha, rfl⟩, rfl, rfl⟩
  have htp : ∀ a ∈ g.tp, a.1 ∈ g.trans.map Prod.fst := by
    intro a ha
    rcases hg.tp a ha with h | h
    · exact (hg.trans a.1).2 h
    · simp at h
  have hpt : ∀ a ∈ g.pt, a.2 ∈ g.trans.map Prod.fst := by
    intro a ha
    rcases hg.pt a ha with h | h
    · exact (hg.trans a.2).2 h
    · simp at h
  refine ⟨⟨?_, ?_, ?_⟩, ?_, ?_, ?_, ?_, ?_, ?_, ?_⟩
  · rw [etr]; exact hg.nodup
  · rw [etr]
    intro t ht p hp
    rw [epre] at hp
    obtain ⟨e, he, h1, _⟩ := hmem t ht
    rw [epl]
    rcases (hb.pre e he).2 p (h1 ▸ hp) with rfl | h
    · omega
    · exact h.2
  · rw [etr]
    intro t ht p hp
    rw [epost] at hp
    obtain ⟨e, he, _, h1⟩ := hmem t ht
    rw [epl]
    rcases hb.post e he p (h1 ▸ hp) with rfl | h
    · omega
    · exact h.2
  · rw [et]; exact ⟨hb.proper, hb.safe, hb.complete, hb.live⟩
  · rw [et]; exact hb.lang
  · rw [eppre, List.eq_nil_iff_forall_not_mem]
    intro t ht
    rw [Gr.mem_ppre] at ht
    obtain ⟨e, he, _, h1⟩ := hmem t (htp _ ht)
    rcases hb.post e he 0 (h1 ▸ Gr.mem_post.2 ht) with h | h
    · omega
    · unfold Inner at h; omega
  · rw [eppost, List.eq_nil_iff_forall_not_mem]
    intro t ht
    rw [Gr.mem_ppost] at ht
    obtain ⟨e, he, h1, _⟩ := hmem t (hpt _ ht)
    rcases (hb.pre e he).2 1 (h1 ▸ Gr.mem_pre.2 ht) with h | h
    · omega
    · unfold Inner at h; omega
  · intro x hx
    rw [epl] at hx
    rw [eppre, eppost]
    have hpre : ∀ x, (∃ e ∈ g.trs, x ∈ e.pre) → g.ppost x ≠ [] := by
      rintro x ⟨e, he, hx⟩ h0
      obtain ⟨a, ha, rfl⟩ := mem_trs.1 he
      have : a.1 ∈ g.ppost x := Gr.mem_ppost.2 (Gr.mem_pre.1 hx)
      rw [h0] at this; cases this
    have hpost : ∀ x, (∃ e ∈ g.trs, x ∈ e.post) → g.ppre x ≠ [] := by
      rintro x ⟨e, he, hx⟩ h0
      obtain ⟨a, ha, rfl⟩ := mem_trs.1 he
      have : a.1 ∈ g.ppre x := Gr.mem_ppre.2 (Gr.mem_post.1 hx)
      rw [h0] at this; cases this
    constructor
    · intro h0
      by_cases h1 : x = 1
      · subst h1; exact hpost 1 hb.uses_o
      · exact hpost x (hb.used x ⟨by omega, hx⟩).2
    · intro h1
      by_cases h0 : x = 0
      · subst h0; exact hpre 0 hb.uses_i
      · exact hpre x (hb.used x ⟨by omega, hx⟩).1
  · rw [epl, epl]; omega
  · rw [etr]
    exact ⟨by simpa using hpt, by simpa using htp⟩

theorem build_ready {t : PT α} (h : WellFormed t) : Ready (build t) t.lang := by
  obtain ⟨g, N, nt, e, hg, hb⟩ := build_block h
  rw [e]
  exact ready_of_block hg hb

theorem Reds.ready {g g' : Gr α} {L : Lang α} (hr : Reds g g') (h : Ready g L) : g'.Inv ∧ Sound g'.trs 0 1 ∧
    (∀ w, L w ↔ Run g'.trs (toks [0]) w (toks [1])) ∧ g'.ppre 0 = [] ∧ g'.ppost 1 = [] ∧
    (∀ x ∈ g'.places, (x ≠ 0 → g'.ppre x ≠ []) ∧ (x ≠ 1 → g'.ppost x ≠ [])) := by
  have f : ∀ i, i = 0 ∨ i = 1 → Reds.Free g (toks [i]) := by
    intro i hi x h1 h2
    rw [toks_single]
    split
    · rename_i e
      rcases hi with hi | hi
      · rw [e, hi, h.source] at h1; cases h1
      · rw [e, hi, h.sink] at h2; cases h2
    · rfl
  have d0 := hr.deg.2 0 (by simp [h.source])
  have d1 := hr.deg.2 1 (by simp [h.sink])
  refine ⟨hr.inv, hr.sound h.sound h.source h.sink, fun w => ?_, ?_, ?_, ?_⟩
  · rw [h.lang, hr.lang (f 0 (.inl rfl)) (f 1 (.inr rfl))]
  · exact List.eq_nil_of_length_eq_zero (by rw [d0.1, h.source]; rfl)
  · exact List.eq_nil_of_length_eq_zero (by rw [d1.2, h.sink]; rfl)
  · intro x hx
    have d := hr.deg.1 x hx
    have a := h.arcs x (hr.sub.2.1 x hx)
    refine ⟨fun hn e => a.1 hn (List.eq_nil_of_length_eq_zero (by rw [← d.1, e]; rfl)),
      fun hn e => a.2 hn (List.eq_nil_of_length_eq_zero (by rw [← d.2, e]; rfl))⟩

/-- the clean-up at the end of `apply` finds nothing to remove -/
theorem clean_id {g : Gr α} (h : ∀ x ∈ g.places, (x ≠ 0 → g.ppre x ≠ []) ∧ (x ≠ 1 → g.ppost x ≠ [])) (l : List Nat) :
    l.foldl Gr.cleanStep g = g := by
  induction l with
  | nil => rfl
  | cons p l ih =>
    rw [List.foldl_cons]
    have : g.cleanStep p = g := by
      unfold Gr.cleanStep
      by_cases hp : p ∈ g.places
      · have e1 : ((g.ppost p).length == 0 && !(p == 1)) = false := by
          by_cases h1 : p = 1
          · simp [h1]
          · have := (h p hp).2 h1
            simp [this]
        have e2 : ((g.ppre p).length == 0 && !(p == 0)) = false := by
          by_cases h1 : p = 0
          · simp [h1]
          · have := (h p hp).1 h1
            simp [this]
        simp only [e1, Bool.false_eq_true, if_false, e2]
      · have : g.removePlace p = g := by
          unfold Gr.removePlace
          rw [if_neg (by simpa using hp)]
        simp only [this]
        split <;> split <;> first | rfl | exact this
    rw [this]; exact ih

theorem finish_reds {ord : Gr α → List (Nat × Option α)} (hord : ∀ g, ∀ e ∈ ord g, e ∈ g.trans) (ordP : List Nat → List Nat)
    {g : Gr α} {L : Lang α} (h : Ready g L) : Reds g ((ordP (g.simpleReduction ord).places).foldl Gr.cleanStep (g.simpleReduction ord)) := by
  have hr := simpleReduction_reds hord h.inv
  rw [clean_id (hr.ready h).2.2.2.2.2]
  exact hr

theorem apply_reds {ord : Gr α → List (Nat × Option α)} (hord : ∀ g, ∀ e ∈ ord g, e ∈ g.trans) (ordP : List Nat → List Nat)
    {t : PT α} (h : WellFormed t) : Reds (build t) (apply ord ordP t) :=
  finish_reds hord ordP (build_ready h)

/-! ### `execute` on such a net -/

/-- tokens of a marking, as numbers -/
def cnt (m : Marking Nat) : Mk := fun p => (count m p).toNat

theorem arcWeight_ones (l : List Nat) (p : Nat) : arcWeight (l.map fun q => (q, (1 : Int))) p = l.count p := by
  induction l with
  | nil => rfl
  | cons a l ih =>
    rw [List.map_cons, arcWeight_cons, ih, List.count_cons]
    by_cases h : a = p
    · simp [h]; omega
    · simp [h]

theorem simple_of {g : Gr α} (h : ∀ t ∈ g.trans.map Prod.fst, (g.pre t).Nodup) : g.toNet.Simple := by
  refine ⟨fun t ht => ?_, fun t _ a ha => ?_, fun t _ a ha => ?_⟩
  · simpa [Gr.toNet, Function.comp_def] using h t ht
  · simp only [Gr.toNet, List.mem_map] at ha
    obtain ⟨_, _, rfl⟩ := ha; simp
  · simp only [Gr.toNet, List.mem_map] at ha
    obtain ⟨_, _, rfl⟩ := ha; simp

theorem Sound.nodup {g : Gr α} {i o : Nat} (h : Sound g.trs i o) : ∀ t ∈ g.trans.map Prod.fst, (g.pre t).Nodup := by
  intro t ht
  obtain ⟨a, ha, rfl⟩ := List.mem_map.1 ht
  obtain ⟨w, M, M', hr, hf⟩ := h.live _ (mem_trs.2 ⟨a, ha, rfl⟩)
  rw [List.nodup_iff_count]
  intro p
  exact Nat.le_trans (hf.1 p) (h.safe w M hr p)

/-- `ts` is a firing sequence (with `execute`) from `m` to `m'` -/
def Exec (g : Gr α) (m : Marking Nat) (ts : List Nat) (m' : Marking Nat) : Prop :=
  ts.foldlM (fun m t => g.toNet.execute t m) m = some m'

variable {g : Gr α}

theorem label_of (hi : g.Inv) {a : Nat × Option α} (ha : a ∈ g.trans) : g.label a.1 = a.2 := by
  unfold Gr.label
  cases hf : g.trans.find? (fun e => e.1 == a.1) with
  | none => exact absurd (List.find?_eq_none.1 hf a ha) (by simp)
  | some b =>
    have h1 := List.mem_of_find?_eq_some hf
    have h2 := List.find?_some hf
    have : b = a := Gr.EntryStep.mem_s.eq_of_nodup_map hi.nodup h1 ha (by simpa using h2)
    simp [this]

theorem execute_fires (hs : g.toNet.Simple) {t : Nat} {m m' : Marking Nat} (hm : Pos m) (h : g.toNet.execute t m = some m') (l : Option α) :
    t ∈ g.trans.map Prod.fst ∧ (⟨g.pre t, g.post t, l⟩ : Tr α).fires (cnt m) (cnt m') := by
  have hen : g.toNet.isEnabled t m = true := ((Net.execute_some_iff _ _ _ _).1 h).1
  have henb := (Net.isEnabled_iff_enabled _ hs t m hm).1 hen
  have hfi := Net.execute_fires h
  have hm' := Net.execute_pos hs hm h
  have e1 : ∀ p, arcWeight (g.toNet.inArcs t) p = (g.pre t).count p := fun p => arcWeight_ones _ p
  have e2 : ∀ p, arcWeight (g.toNet.outArcs t) p = (g.post t).count p := fun p => arcWeight_ones _ p
  refine ⟨henb.1, fun p => ?_, fun p => ?_⟩
  · have := henb.2 p
    rw [e1] at this
    show (g.pre t).count p ≤ (count m p).toNat
    omega
  · have h1 := hfi p
    have h2 := henb.2 p
    rw [e1, e2] at h1
    rw [e1] at h2
    have := hm'.count_nonneg p
    show (count m' p).toNat + (g.pre t).count p = (count m p).toNat + (g.post t).count p
    omega

theorem fires_execute (hs : g.toNet.Simple) {t : Nat} (ht : t ∈ g.trans.map Prod.fst) {m : Marking Nat} (hm : Pos m) {l : Option α} {M : Mk}
    (h : (⟨g.pre t, g.post t, l⟩ : Tr α).fires (cnt m) M) : ∃ m', g.toNet.execute t m = some m' ∧ cnt m' = M := by
  have e1 : ∀ p, arcWeight (g.toNet.inArcs t) p = (g.pre t).count p := fun p => arcWeight_ones _ p
  have henb : g.toNet.Enabled t m := by
    refine ⟨ht, fun p => ?_⟩
    have h1 : (g.pre t).count p ≤ (count m p).toNat := h.1 p
    have := hm.count_nonneg p
    rw [e1]; omega
  have hen := (Net.isEnabled_iff_enabled _ hs t m hm).2 henb
  cases hx : g.toNet.execute t m with
  | none => simp [Net.execute, hen] at hx
  | some m' => exact ⟨m', rfl, ((execute_fires hs hm hx l).2).det h⟩

theorem Exec.run (hs : g.toNet.Simple) (hi : g.Inv) {ts : List Nat} : ∀ {m m' : Marking Nat}, Pos m → Exec g m ts m' →
    Run g.trs (cnt m) (ts.filterMap g.label) (cnt m') ∧ Pos m' := by
  induction ts with
  | nil =>
    intro m m' hm h
    simp only [Exec, List.foldlM_nil] at h
    cases h
    exact ⟨.nil, hm⟩
  | cons t ts ih =>
    intro m m' hm h
    simp only [Exec, List.foldlM_cons, Option.bind_eq_bind, Option.bind_eq_some_iff] at h
    obtain ⟨m1, h1, h2⟩ := h
    obtain ⟨r, hp⟩ := ih (Net.execute_pos hs hm h1) h2
    have ⟨ht, hf⟩ := execute_fires hs hm h1 (g.label t)
    obtain ⟨a, ha, e⟩ := List.mem_map.1 ht
    have hl : (⟨g.pre t, g.post t, g.label t⟩ : Tr α) ∈ g.trs := by
      rw [← e, label_of hi ha]
      exact mem_trs.2 ⟨a, ha, rfl⟩
    refine ⟨((Run.step hl hf).trans r).cast ?_, hp⟩
    cases hh : g.label t <;> simp [hh]

theorem run_exec (hs : g.toNet.Simple) (hi : g.Inv) {M M' : Mk} {w : List α} (h : Run g.trs M w M') {m : Marking Nat} (hm : Pos m)
    (e : cnt m = M) : ∃ ts m', Exec g m ts m' ∧ cnt m' = M' ∧ Pos m' ∧ ts.filterMap g.label = w := by
  induction h with
  | nil => exact ⟨[], m, rfl, e, hm, rfl⟩
  | @snoc w M1 M2 t hr ht hf ih =>
    obtain ⟨ts, m1, h1, h2, h3, h4⟩ := ih
    obtain ⟨a, ha, rfl⟩ := mem_trs.1 ht
    subst h2
    obtain ⟨m', h5, h6⟩ := fires_execute hs (List.mem_map.2 ⟨a, ha, rfl⟩) h3 hf
    refine ⟨ts ++ [a.1], m', ?_, h6, Net.execute_pos hs h3 h5, ?_⟩
    · simp only [Exec] at h1
      simp only [Exec, List.foldlM_append, h1]
      simpa using h5
    · rw [List.filterMap_append, h4]
      congr 1
      have := label_of hi ha
      cases hh : a.2 <;> simp [this, hh]

theorem cnt_pos_eq {m n : Marking Nat} (hm : Pos m) (hn : Pos n) : cnt m = cnt n ↔ Marking.eq m n = true := by
  rw [C02_eq m n hm hn]
  constructor
  · intro h p
    have := congrFun h p
    have := hm.count_nonneg p; have := hn.count_nonneg p
    unfold cnt at *; omega
  · intro h
    funext p
    have := h p
    unfold cnt; omega

theorem pos_single (p : Nat) : Pos ([(p, 1)] : Marking Nat) := by
  intro k v h
  simp only [Dict.get?] at h
  split at h <;> simp_all
  omega

theorem cnt_single (p : Nat) : cnt ([(p, 1)] : Marking Nat) = toks [p] := by
  funext x
  rw [toks_single]
  unfold cnt Dict.count Dict.get?
  by_cases h : x = p
  · simp [h]
  · simp [h, Ne.symm h]

end Conv
end Verif
