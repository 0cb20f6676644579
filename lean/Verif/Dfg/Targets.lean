/-
Model of `filter_dfg_to_activity`, `filter_dfg_from_activity`, `filter_dfg_contain_activity` and
`clean_dfg_based_on_noise_thresh` (pm4py/algo/filtering/dfg/dfg_filtering.py:362-613).
-/
import Verif.Dfg.FilteringTheorems
import Verif.Dfg.Closure
set_option linter.unusedSectionVars false
namespace Verif
namespace Dfg

variable {A : Type} [DecidableEq A]

/-- comparison of two Python sets -/
def sameSet (l m : List A) : Bool := l.all (fun a => decide (a ∈ m)) && m.all (fun a => decide (a ∈ l))

/-- the loop of `filter_dfg_to_activity` (dfg_filtering.py:404-420) with at most `n` iterations.
Simplification: a start activity that is no key of the activities' dictionary (a `KeyError` in the code) is excluded by
the hypotheses of the theorems. -/
def toLoop (t : A) : Nat → Dict (A × A) Int × Dict A Int × Dict A Int → Option (Dict (A × A) Int × Dict A Int × Dict A Int)
  | 0, _ => none
  | n + 1, (dfg, sa, cnt) => do
    let P ← getPredecessors dfg.keys cnt.keys (cnt.keys.length * cnt.keys.length + 1)
    let S ← getSuccessors dfg.keys cnt.keys (cnt.keys.length * cnt.keys.length + 1)
    let fromSa := sa.keys.flatMap fun a => a :: S a
    let R := t :: fromSa.filter fun x => decide (x ∈ P t)
    if sameSet R cnt.keys then some (dfg, sa, cnt)
    else toLoop t n (dfg.filter fun e => decide (e.1.1 ∈ R) && decide (e.1.2 ∈ R), sa.filter fun e => decide (e.1 ∈ R),
      cnt.filter fun e => decide (e.1 ∈ R))

/-- `filter_dfg_to_activity` (dfg_filtering.py:362-422); `none` if the target is no activity (`KeyError`) or the loop
does not end within `n` iterations -/
def filterTo (n : Nat) (d : D A) (t : A) : Option (D A) := do
  let c ← d.cnt.get? t
  let r ← toLoop t n (d.dfg.filter fun e => decide (e.1.1 ≠ t), d.sa, d.cnt)
  some { dfg := r.1, sa := r.2.1, ea := [(t, c)], cnt := r.2.2 }

/-- the loop of `filter_dfg_from_activity` (dfg_filtering.py:467-483) with at most `n` iterations -/
def fromLoop (t : A) : Nat → Dict (A × A) Int × Dict A Int × Dict A Int → Option (Dict (A × A) Int × Dict A Int × Dict A Int)
  | 0, _ => none
  | n + 1, (dfg, ea, cnt) => do
    let P ← getPredecessors dfg.keys cnt.keys (cnt.keys.length * cnt.keys.length + 1)
    let S ← getSuccessors dfg.keys cnt.keys (cnt.keys.length * cnt.keys.length + 1)
    let toEa := ea.keys.flatMap fun a => a :: P a
    let R := t :: toEa.filter fun x => decide (x ∈ S t)
    if sameSet R cnt.keys then some (dfg, ea, cnt)
    else fromLoop t n (dfg.filter fun e => decide (e.1.1 ∈ R) && decide (e.1.2 ∈ R), ea.filter fun e => decide (e.1 ∈ R),
      cnt.filter fun e => decide (e.1 ∈ R))

/-- `filter_dfg_from_activity` (dfg_filtering.py:425-485) -/
def filterFrom (n : Nat) (d : D A) (t : A) : Option (D A) := do
  let c ← d.cnt.get? t
  let r ← fromLoop t n (d.dfg.filter fun e => decide (e.1.2 ≠ t), d.ea, d.cnt)
  some { dfg := r.1, sa := [(t, c)], ea := r.2.1, cnt := r.2.2 }

/-- `filter_dfg_contain_activity` (dfg_filtering.py:488-551): the loop with at most `n` iterations. Two dictionaries
one of which is a filtered copy of the other are equal iff they have the same number of entries. -/
def filterContain (t : A) : Nat → D A → Option (D A)
  | 0, _ => none
  | n + 1, d => do
    let P ← getPredecessors d.dfg.keys d.cnt.keys (d.cnt.keys.length * d.cnt.keys.length + 1)
    let S ← getSuccessors d.dfg.keys d.cnt.keys (d.cnt.keys.length * d.cnt.keys.length + 1)
    let Pt := union (P t) [t]
    let St := union (S t) [t]
    let sa1 := d.sa.filter fun e => decide (e.1 ∈ Pt)
    let ea1 := d.ea.filter fun e => decide (e.1 ∈ St)
    let changed := decide (sa1.length ≠ d.sa.length) || decide (ea1.length ≠ d.ea.length)
    let R := union Pt St
    let same := sameSet R d.cnt.keys
    let d1 : D A := if same then { d with sa := sa1, ea := ea1 } else
      { dfg := d.dfg.filter fun e => decide (e.1.1 ∈ R) && decide (e.1.2 ∈ R), sa := sa1, ea := ea1,
        cnt := d.cnt.filter fun e => decide (e.1 ∈ R) }
    if changed || !same then filterContain t n d1 else some d1

/-- `get_max_activity_count` (dfg_utils.py:238-265): the maximum count of an edge at the activity, at least -1 -/
def maxActivityCount (dfg : Dict (A × A) Int) (a : A) : Int :=
  let m := (dfg.filter fun e => decide (e.1.2 = a)).foldl (fun m e => if e.2 > m then e.2 else m) (-1)
  (dfg.filter fun e => decide (e.1.1 = a)).foldl (fun m e => if e.2 > m then e.2 else m) m

/-- `clean_dfg_based_on_noise_thresh` (dfg_filtering.py:554-613) for a DFG given as a dictionary whose activities are all
in the list of activities; exact rationals instead of floating point; `common` is the parameter
`most_common_paths`. -/
def cleanNoise (dfg : Dict (A × A) Int) (t : Rat) (common : List (A × A)) : Dict (A × A) Int :=
  dfg.filter fun e => !(!decide (e.1 ∈ common) &&
    decide ((e.2 : Rat) < min ((maxActivityCount dfg e.1.1 : Rat) * t) ((maxActivityCount dfg e.1.2 : Rat) * t)))

/-! ### lemmas -/

theorem sameSet_iff (l m : List A) : sameSet l m = true ↔ ∀ a, a ∈ l ↔ a ∈ m := by
  unfold sameSet
  simp only [Bool.and_eq_true, List.all_eq_true, decide_eq_true_eq]
  constructor
  · rintro ⟨h1, h2⟩ a; exact ⟨h1 a, h2 a⟩
  · intro h; exact ⟨fun a ha => (h a).1 ha, fun a ha => (h a).2 ha⟩

theorem WF.edges {d : D A} (h : WF d) : ∀ e ∈ d.dfg.keys, e.1 ∈ d.cnt.keys ∧ e.2 ∈ d.cnt.keys :=
  fun e he => ⟨h.dfgL e he, h.dfgR e he⟩

/-- a graph with the target as the only end activity and no edge leaving it -/
structure ToState (t : A) (d : D A) : Prop where
  wf : WF d
  ea : d.ea.keys = [t]
  noOut : ∀ e ∈ d.dfg.keys, e.1 ≠ t

/-- the activities kept -/
def keepTo (t : A) (d : D A) (a : A) : Bool := decide (a = t) || onRunB d a

theorem keepTo_iff (t : A) (d : D A) (a : A) : keepTo t d a = true ↔ a = t ∨ OnRun d a := by
  unfold keepTo
  rw [Bool.or_eq_true, decide_eq_true_iff, onRunB_iff]

theorem ToState.step {t : A} {d : D A} (h : ToState t d) (n : Nat) :
    (toLoop t (n + 1) (d.dfg, d.sa, d.cnt) = some (d.dfg, d.sa, d.cnt) ∧ restrict d (keepTo t d) = d) ∨
    ((∃ a ∈ d.cnt.keys, keepTo t d a = false) ∧ toLoop t (n + 1) (d.dfg, d.sa, d.cnt) =
      toLoop t n ((restrict d (keepTo t d)).dfg, (restrict d (keepTo t d)).sa, (restrict d (keepTo t d)).cnt)) := by
  obtain ⟨P, hP, hP'⟩ := Verif.C40_predecessors d.dfg.keys d.cnt.keys h.wf.edges
    (d.cnt.keys.length * d.cnt.keys.length + 1) (by omega)
  obtain ⟨S, hS, hS'⟩ := Verif.C40_successors d.dfg.keys d.cnt.keys h.wf.edges
    (d.cnt.keys.length * d.cnt.keys.length + 1) (by omega)
  have ht : t ∈ d.cnt.keys := h.wf.eaIn t (by rw [h.ea]; simp)
  have hR : ∀ a, a ∈ (t :: (d.sa.keys.flatMap fun a => a :: S a).filter fun x => decide (x ∈ P t)) ↔
      keepTo t d a = true := by
    intro a
    rw [keepTo_iff, List.mem_cons, List.mem_filter, List.mem_flatMap, decide_eq_true_iff, hP' t ht]
    unfold OnRun
    rw [h.ea]
    constructor
    · rintro (h | ⟨⟨s, hs, h1⟩, z, hz, hp⟩)
      · exact .inl h
      · right
        refine ⟨⟨s, hs, ?_⟩, ⟨t, by simp, (hp.step hz)⟩⟩
        rcases List.mem_cons.1 h1 with rfl | h1
        · exact .refl
        · obtain ⟨z, hz, hp⟩ := (hS' s (h.wf.saIn s hs) a).1 h1
          exact (Path.edge hz).trans hp
    · rintro (h' | ⟨⟨s, hs, h1⟩, ⟨e, he, h2⟩⟩)
      · exact .inl h'
      · rw [List.mem_singleton] at he
        subst he
        by_cases hat : a = e
        · exact .inl hat
        · right
          refine ⟨⟨s, hs, ?_⟩, ?_⟩
          · by_cases hsa : s = a
            · simp [hsa]
            · exact List.mem_cons.2 (.inr ((hS' s (h.wf.saIn s hs) a).2 (plus_of_path h1 hsa)))
          · cases h2 with
            | refl => exact absurd rfl hat
            | step h3 h4 => exact ⟨_, h4, h3⟩
  have hRd : ∀ a, decide (a ∈ (t :: (d.sa.keys.flatMap fun a => a :: S a).filter fun x => decide (x ∈ P t))) =
      keepTo t d a := by
    intro a
    rw [Bool.eq_iff_iff, decide_eq_true_iff, hR]
  rw [toLoop]
  simp only [hP, hS, Option.bind_eq_bind, Option.bind_some]
  generalize (t :: (d.sa.keys.flatMap fun a => a :: S a).filter fun x => decide (x ∈ P t)) = R at hR hRd
  by_cases hs : sameSet R d.cnt.keys = true
  · left
    rw [if_pos hs]
    refine ⟨rfl, ?_⟩
    rw [sameSet_iff] at hs
    have : restrict d (keepTo t d) = restrict d fun _ => true := by
      apply restrict_congr h.wf
      intro a ha
      exact (hR a).1 ((hs a).2 ha)
    rw [this]
    have h1 {α : Type} (l : List α) : l.filter (fun _ => true) = l := List.filter_eq_self.2 fun _ _ => rfl
    simp [restrict, h1]
  · right
    rw [if_neg hs]
    refine ⟨?_, ?_⟩
    · rw [sameSet_iff] at hs
      simp only [not_forall] at hs
      obtain ⟨a, ha⟩ := hs
      have hin : a ∈ R → a ∈ d.cnt.keys := by
        rw [hR, keepTo_iff]
        rintro (rfl | ⟨⟨s, hs, h1⟩, _⟩)
        · exact ht
        · cases h1 with
          | refl => exact h.wf.saIn a hs
          | step _ h3 => exact h.wf.dfgR _ h3
      refine ⟨a, ?_, ?_⟩
      · by_cases hc : a ∈ d.cnt.keys
        · exact hc
        · exact absurd ⟨hin, fun h => absurd h hc⟩ ha
      · cases hk : keepTo t d a
        · rfl
        · exact absurd ⟨hin, fun _ => (hR a).2 hk⟩ ha
    · have hRf : (fun e : A × Int => decide (e.1 ∈ R)) = fun e => keepTo t d e.1 := by funext e; exact hRd _
      have hRg : (fun e : (A × A) × Int => decide (e.1.1 ∈ R) && decide (e.1.2 ∈ R)) =
          fun e => keepTo t d e.1.1 && keepTo t d e.1.2 := by funext e; rw [hRd, hRd]
      rw [hRf, hRg]
      rfl

theorem ToState.restrict {t : A} {d : D A} (h : ToState t d) {K : A → Bool} (hK : K t = true) : ToState t (restrict d K) where
  wf := h.wf.restrict K
  ea := by rw [keys_restrict_ea, h.ea]; simp [hK]
  noOut e he := by
    rw [keys_restrict_dfg, List.mem_filter] at he
    exact h.noOut e he.1

/-- after one restriction nothing changes any more -/
theorem ToState.stable {t : A} {d : D A} (h : ToState t d) :
    ∀ a ∈ (Dfg.restrict d (keepTo t d)).cnt.keys, keepTo t (Dfg.restrict d (keepTo t d)) a = true := by
  intro a ha
  rw [keys_restrict_cnt, List.mem_filter, keepTo_iff] at ha
  rw [keepTo_iff]
  rcases ha.2 with h1 | h1
  · exact .inl h1
  · by_cases hat : a = t
    · exact .inl hat
    · right
      refine OnRun.mono ?_ (onRun_restrict h1)
      have : ∀ x, onRunB d x = true → keepTo t d x = true := fun x hx => by simp [keepTo, hx]
      constructor
      · unfold Dfg.restrict
        simp only []
        apply List.monotone_filter_right
        intro x hx
        simp only [Bool.and_eq_true] at hx ⊢
        exact ⟨this _ hx.1, this _ hx.2⟩
      · exact List.monotone_filter_right _ fun x hx => this _ hx
      · exact List.monotone_filter_right _ fun x hx => this _ hx
      · exact List.monotone_filter_right _ fun x hx => this _ hx

theorem ToState.loop {t : A} {d : D A} (h : ToState t d) (n : Nat) (hn : 2 ≤ n) :
    toLoop t n (d.dfg, d.sa, d.cnt) =
      some ((Dfg.restrict d (keepTo t d)).dfg, (Dfg.restrict d (keepTo t d)).sa, (Dfg.restrict d (keepTo t d)).cnt) := by
  obtain ⟨n, rfl⟩ : ∃ m, n = m + 2 := ⟨n - 2, by omega⟩
  have hK : keepTo t d t = true := (keepTo_iff _ _ _).2 (.inl rfl)
  rcases h.step (n + 1) with ⟨h1, h2⟩ | ⟨_, h2⟩
  · rw [h1, h2]
  · rw [h2]
    rcases (h.restrict hK).step n with ⟨h3, _⟩ | ⟨⟨a, ha, h3⟩, _⟩
    · rw [h3]
    · rw [h.stable a ha] at h3; cases h3

/-- the DFG without the edges leaving `t` -/
def cutAfter (d : D A) (t : A) : Dict (A × A) Int := d.dfg.filter fun e => decide (e.1.1 ≠ t)

theorem keys_cutAfter (d : D A) (t : A) : (cutAfter d t).keys = d.dfg.keys.filter fun e => decide (e.1 ≠ t) :=
  keys_filter d.dfg fun e => decide (e.1 ≠ t)

/-- **C40.** `filter_dfg_to_activity` always terminates: the target becomes the only end activity (with its count), no
edge leaves it, and the other activities that remain are exactly those that, without passing through the target, can be
reached from a start activity and can reach the target; the other dictionaries keep exactly their entries over the
remaining activities. For a connected DFG the result is connected. -/
theorem _root_.Verif.C40_to_activity (d : D A) (hw : WF d) (t : A) (c : Int) (ht : d.cnt.get? t = some c) :
    ∃ r, (∀ n, 2 ≤ n → filterTo n d t = some r) ∧ WF r ∧ r.ea = [(t, c)] ∧
      (∀ a, a ∈ r.cnt.keys ↔ a = t ∨
        (∃ s ∈ d.sa.keys, Path (d.dfg.keys.filter fun e => decide (e.1 ≠ t)) s a) ∧
          Path (d.dfg.keys.filter fun e => decide (e.1 ≠ t)) a t) ∧
      r.cnt = (d.cnt.filter fun e => decide (e.1 ∈ r.cnt.keys)) ∧
      r.sa = (d.sa.filter fun e => decide (e.1 ∈ r.cnt.keys)) ∧
      r.dfg = (d.dfg.filter fun e => decide (e.1.1 ≠ t) && decide (e.1.1 ∈ r.cnt.keys) && decide (e.1.2 ∈ r.cnt.keys)) ∧
      (Connected d → Connected r) := by
  have htk : t ∈ d.cnt.keys := (Dict.mem_keys_iff _ _).2 (by rw [ht]; rfl)
  let d0 : D A := { dfg := cutAfter d t, sa := d.sa, ea := [(t, c)], cnt := d.cnt }
  have hst : ToState t d0 := by
    refine ⟨?_, rfl, ?_⟩
    · constructor
      · show (cutAfter d t).keys.Nodup
        rw [keys_cutAfter]; exact hw.dfgNodup.filter _
      · exact hw.saNodup
      · simp [d0, Dict.keys]
      · exact hw.cntNodup
      · intro e he
        change e ∈ (cutAfter d t).keys at he
        rw [keys_cutAfter, List.mem_filter] at he
        exact hw.dfgL e he.1
      · intro e he
        change e ∈ (cutAfter d t).keys at he
        rw [keys_cutAfter, List.mem_filter] at he
        exact hw.dfgR e he.1
      · exact hw.saIn
      · intro a ha
        have : a = t := by simpa [d0, Dict.keys] using ha
        rw [this]; exact htk
    · intro e he
      change e ∈ (cutAfter d t).keys at he
      rw [keys_cutAfter, List.mem_filter] at he
      simpa using he.2
  have hK : keepTo t d0 t = true := (keepTo_iff _ _ _).2 (.inl rfl)
  have hea : (restrict d0 (keepTo t d0)).ea = [(t, c)] := by
    show ([(t, c)].filter fun e => keepTo t d0 e.1) = _
    simp [hK]
  have hself := restrict_self hst.wf (keepTo t d0)
  have hhas : ∀ a, (restrict d0 (keepTo t d0)).cnt.has a = decide (a ∈ (restrict d0 (keepTo t d0)).cnt.keys) := by
    intro a; rw [Bool.eq_iff_iff, Dict.has_iff, decide_eq_true_iff]
  simp only [hhas] at hself
  have hmem : ∀ a, a ∈ (restrict d0 (keepTo t d0)).cnt.keys ↔ a = t ∨ OnRun d0 a := by
    intro a
    rw [keys_restrict_cnt, List.mem_filter, keepTo_iff]
    constructor
    · exact fun h => h.2
    · intro h
      refine ⟨?_, h⟩
      rcases h with rfl | ⟨⟨s, hs, h1⟩, _⟩
      · exact htk
      · cases h1 with
        | refl => exact hst.wf.saIn a hs
        | step _ h3 => exact hst.wf.dfgR _ h3
  have hk0 : d0.dfg.keys = d.dfg.keys.filter fun e => decide (e.1 ≠ t) := keys_cutAfter d t
  refine ⟨restrict d0 (keepTo t d0), ?_, hst.wf.restrict _, hea, ?_, ?_, ?_, ?_, ?_⟩
  · intro n hn
    unfold filterTo
    simp only [ht, Option.bind_eq_bind, Option.bind_some]
    have h1 : toLoop t n (d.dfg.filter fun e => decide (e.1.1 ≠ t), d.sa, d.cnt) = _ := hst.loop n hn
    rw [h1, Option.bind_some]
    simp only [Option.some.injEq]
    conv => rhs; rw [← show ({ restrict d0 (keepTo t d0) with ea := (restrict d0 (keepTo t d0)).ea } : D A) =
      restrict d0 (keepTo t d0) from rfl, hea]
  · intro a
    rw [hmem]
    unfold OnRun
    rw [hk0]
    have : d0.ea.keys = [t] := rfl
    rw [this]
    simp [d0]
  · conv => lhs; rw [hself]
    rfl
  · conv => lhs; rw [hself]
    rfl
  · conv => lhs; rw [hself]
    show ((cutAfter d t).filter fun e => _) = _
    unfold cutAfter
    rw [List.filter_filter]
    apply List.filter_congr
    intro x _
    rw [Bool.eq_iff_iff]
    simp only [Bool.and_eq_true]
    exact ⟨fun h => ⟨⟨h.2, h.1.1⟩, h.1.2⟩, fun h => ⟨⟨h.1.2, h.2⟩, h.1.1⟩⟩
  · intro hc
    -- the target is reached from a start activity by a path whose edges do not leave the target
    obtain ⟨⟨s, hs, hp⟩, _⟩ := hc t htk
    have hfirst : ∀ x, Path d.dfg.keys s x → Path d0.dfg.keys s x ∨ Path d0.dfg.keys s t := by
      intro x hx
      induction hx with
      | refl => exact .inl .refl
      | @step b c' _ h3 ih =>
        rcases ih with ih | ih
        · by_cases hbt : b = t
          · subst hbt; exact .inr ih
          · exact .inl (ih.step (by rw [hk0, List.mem_filter]; exact ⟨h3, by simpa using hbt⟩))
        · exact .inr ih
    have hrt : OnRun d0 t := ⟨⟨s, hs, (hfirst t hp).elim id id⟩, ⟨t, by rw [hst.ea]; simp, .refl⟩⟩
    have heq : restrict d0 (keepTo t d0) = restrict d0 (onRunB d0) := by
      apply restrict_congr hst.wf
      intro a _
      rw [Bool.eq_iff_iff, keepTo_iff, onRunB_iff]
      constructor
      · rintro (rfl | h)
        · exact hrt
        · exact h
      · exact .inr
    rw [heq]
    exact connected_restrict d0

/-! ### from an activity: the mirror image -/

/-- the DFG with all the edges reversed -/
def revDfg (dfg : Dict (A × A) Int) : Dict (A × A) Int := dfg.map fun e => ((e.1.2, e.1.1), e.2)

/-- the mirror image -/
def rev (d : D A) : D A := { dfg := revDfg d.dfg, sa := d.ea, ea := d.sa, cnt := d.cnt }

theorem revDfg_rev (dfg : Dict (A × A) Int) : revDfg (revDfg dfg) = dfg := by
  unfold revDfg; rw [List.map_map]; exact (List.map_congr_left (fun _ _ => rfl)).trans (List.map_id _)

theorem rev_rev (d : D A) : rev (rev d) = d := by unfold rev; simp [revDfg_rev]

theorem keys_revDfg (dfg : Dict (A × A) Int) : (revDfg dfg).keys = dfg.keys.map fun e => (e.2, e.1) := by
  unfold revDfg Dict.keys; simp [Function.comp_def]

theorem revDfg_filter (dfg : Dict (A × A) Int) (p : A → A → Bool) :
    revDfg (dfg.filter fun e => p e.1.1 e.1.2) = (revDfg dfg).filter fun e => p e.1.2 e.1.1 := by
  unfold revDfg; rw [List.filter_map]; rfl

theorem mem_keys_rev (dfg : Dict (A × A) Int) (a b : A) : (a, b) ∈ (revDfg dfg).keys ↔ (b, a) ∈ dfg.keys := by
  rw [keys_revDfg, List.mem_map]
  constructor
  · rintro ⟨e, he, h⟩
    simp only [Prod.mk.injEq] at h
    rw [← h.1, ← h.2]; exact he
  · intro h; exact ⟨_, h, rfl⟩

theorem path_revDfg (dfg : Dict (A × A) Int) (a b : A) : Path (revDfg dfg).keys a b ↔ Path dfg.keys b a := by
  rw [keys_revDfg]; exact Path.swap_iff

theorem WF.rev {d : D A} (h : WF d) : WF (rev d) where
  dfgNodup := by
    show (revDfg d.dfg).keys.Nodup
    rw [keys_revDfg]
    exact h.dfgNodup.map _ (fun a b hab h' => hab (by simp only [Prod.mk.injEq] at h'; exact Prod.ext h'.2 h'.1))
  saNodup := h.eaNodup
  eaNodup := h.saNodup
  cntNodup := h.cntNodup
  dfgL e he := h.dfgR _ ((mem_keys_rev d.dfg e.1 e.2).1 he)
  dfgR e he := h.dfgL _ ((mem_keys_rev d.dfg e.1 e.2).1 he)
  saIn := h.eaIn
  eaIn := h.saIn

theorem onRun_rev (d : D A) (a : A) : OnRun (rev d) a ↔ OnRun d a := by
  unfold OnRun rev
  simp only [path_revDfg]
  exact and_comm

theorem Connected.rev {d : D A} (h : Connected d) : Connected (rev d) := fun a ha => (onRun_rev d a).2 (h a ha)

theorem fromLoop_rev (t : A) (n : Nat) (dfg : Dict (A × A) Int) (ea cnt : Dict A Int) :
    fromLoop t n (dfg, ea, cnt) = (toLoop t n (revDfg dfg, ea, cnt)).map fun r => (revDfg r.1, r.2.1, r.2.2) := by
  induction n generalizing dfg ea cnt with
  | zero => rfl
  | succ n ih =>
    have h1 : getPredecessors dfg.keys cnt.keys (cnt.keys.length * cnt.keys.length + 1) =
        getSuccessors (revDfg dfg).keys cnt.keys (cnt.keys.length * cnt.keys.length + 1) := by
      unfold getPredecessors getSuccessors; rw [keys_revDfg]
    have h2 : getSuccessors dfg.keys cnt.keys (cnt.keys.length * cnt.keys.length + 1) =
        getPredecessors (revDfg dfg).keys cnt.keys (cnt.keys.length * cnt.keys.length + 1) := by
      unfold getPredecessors getSuccessors; rw [← keys_revDfg, revDfg_rev]
    rw [fromLoop, toLoop, h1, h2]
    cases getSuccessors (revDfg dfg).keys cnt.keys (cnt.keys.length * cnt.keys.length + 1) with
    | none => cases getPredecessors (revDfg dfg).keys cnt.keys (cnt.keys.length * cnt.keys.length + 1) <;> rfl
    | some S =>
      cases getPredecessors (revDfg dfg).keys cnt.keys (cnt.keys.length * cnt.keys.length + 1) with
      | none => rfl
      | some P =>
        simp only [Option.bind_eq_bind, Option.bind_some]
        generalize (t :: (ea.keys.flatMap fun a => a :: S a).filter fun x => decide (x ∈ P t)) = R
        by_cases hs : sameSet R cnt.keys = true
        · rw [if_pos hs, if_pos hs]
          simp [revDfg_rev]
        · rw [if_neg hs, if_neg hs, ih, revDfg_filter dfg fun a b => decide (a ∈ R) && decide (b ∈ R)]
          congr 3
          congr 1
          funext x
          exact Bool.and_comm _ _

theorem filterFrom_rev (n : Nat) (d : D A) (t : A) : filterFrom n d t = (filterTo n (rev d) t).map rev := by
  unfold filterFrom filterTo
  have hc : (rev d).cnt = d.cnt := rfl
  rw [hc]
  cases d.cnt.get? t with
  | none => rfl
  | some c =>
    simp only [Option.bind_eq_bind, Option.bind_some]
    rw [fromLoop_rev, revDfg_filter d.dfg fun _ b => decide (b ≠ t)]
    show Option.bind (Option.map _ (toLoop t n ((revDfg d.dfg).filter fun e => decide (e.1.1 ≠ t), d.ea, d.cnt))) _
      = Option.map _ (Option.bind (toLoop t n ((revDfg d.dfg).filter fun e => decide (e.1.1 ≠ t), d.ea, d.cnt)) _)
    cases toLoop t n ((revDfg d.dfg).filter fun e => decide (e.1.1 ≠ t), d.ea, d.cnt) <;> rfl

theorem path_cut_rev (d : D A) (t a b : A) :
    Path ((rev d).dfg.keys.filter fun e => decide (e.1 ≠ t)) a b ↔
      Path (d.dfg.keys.filter fun e => decide (e.2 ≠ t)) b a := by
  have : ((rev d).dfg.keys.filter fun e => decide (e.1 ≠ t)) =
      (d.dfg.keys.filter fun e => decide (e.2 ≠ t)).map fun e => (e.2, e.1) := by
    show ((revDfg d.dfg).keys.filter fun e => decide (e.1 ≠ t)) = _
    rw [keys_revDfg, List.filter_map]
    rfl
  rw [this]
  exact Path.swap_iff

/-- **C40.** `filter_dfg_from_activity` always terminates: the source becomes the only start activity (with its count),
no edge enters it, and the other activities that remain are exactly those that can be reached from the source and can,
without passing through the source, reach an end activity; the other dictionaries keep exactly their entries over the
remaining activities. For a connected DFG the result is connected. -/
theorem _root_.Verif.C40_from_activity (d : D A) (hw : WF d) (t : A) (c : Int) (ht : d.cnt.get? t = some c) :
    ∃ r, (∀ n, 2 ≤ n → filterFrom n d t = some r) ∧ WF r ∧ r.sa = [(t, c)] ∧
      (∀ a, a ∈ r.cnt.keys ↔ a = t ∨
        (∃ e ∈ d.ea.keys, Path (d.dfg.keys.filter fun e => decide (e.2 ≠ t)) a e) ∧
          Path (d.dfg.keys.filter fun e => decide (e.2 ≠ t)) t a) ∧
      r.cnt = (d.cnt.filter fun e => decide (e.1 ∈ r.cnt.keys)) ∧
      r.ea = (d.ea.filter fun e => decide (e.1 ∈ r.cnt.keys)) ∧
      r.dfg = (d.dfg.filter fun e => decide (e.1.2 ≠ t) && decide (e.1.1 ∈ r.cnt.keys) && decide (e.1.2 ∈ r.cnt.keys)) ∧
      (Connected d → Connected r) := by
  obtain ⟨r, h1, h2, h3, h4, h5, h6, h7, h8⟩ := Verif.C40_to_activity (rev d) hw.rev t c ht
  refine ⟨rev r, ?_, h2.rev, h3, ?_, h5, h6, ?_, ?_⟩
  · intro n hn; rw [filterFrom_rev, h1 n hn]; rfl
  · intro a
    have := h4 a
    simp only [path_cut_rev] at this
    exact this
  · show revDfg r.dfg = _
    rw [h7]
    rw [revDfg_filter (rev d).dfg fun a b => decide (a ≠ t) && decide (a ∈ r.cnt.keys) && decide (b ∈ r.cnt.keys)]
    have : revDfg (rev d).dfg = d.dfg := revDfg_rev d.dfg
    rw [this]
    apply List.filter_congr
    intro x _
    rw [Bool.eq_iff_iff]
    simp only [Bool.and_eq_true]
    exact ⟨fun h => ⟨⟨h.1.1, h.2⟩, h.1.2⟩, fun h => ⟨⟨h.1.1, h.2⟩, h.1.2⟩⟩
  · exact fun hc => (h8 hc.rev).rev

/-! ### containing an activity -/

theorem Path.within {N : Type} [DecidableEq N] {E E' : List (N × N)} {x y : N} (h : Path E x y)
    (hE : ∀ u v, (u, v) ∈ E → Path E x u → Path E v y → (u, v) ∈ E') : Path E' x y := by
  have key : ∀ z, Path E x z → Path E z y → Path E' x z := by
    intro z hz
    induction hz with
    | refl => intro _; exact .refl
    | @step b c hb h3 ih =>
      intro hc
      exact (ih ((Path.edge h3).trans hc)).step (hE b c h3 hb hc)
  exact key y h .refl

/-- the activity can reach `t` -/
def reachesB (d : D A) (t x : A) : Bool := decide (x ∈ reach (d.dfg.keys.map fun e => (e.2, e.1)) t)
/-- the activity can be reached from `t` -/
def reachedB (d : D A) (t x : A) : Bool := decide (x ∈ reach d.dfg.keys t)

theorem reachesB_iff (d : D A) (t x : A) : reachesB d t x = true ↔ Path d.dfg.keys x t := by
  unfold reachesB; rw [decide_eq_true_iff, mem_reach, Path.swap_iff]

theorem reachedB_iff (d : D A) (t x : A) : reachedB d t x = true ↔ Path d.dfg.keys t x := by
  unfold reachedB; rw [decide_eq_true_iff, mem_reach]

/-- the part of the DFG kept by the filter -/
def aroundB (d : D A) (t : A) : D A :=
  { dfg := d.dfg.filter fun e => (reachesB d t e.1.1 || reachedB d t e.1.1) && (reachesB d t e.1.2 || reachedB d t e.1.2)
    sa := d.sa.filter fun e => reachesB d t e.1
    ea := d.ea.filter fun e => reachedB d t e.1
    cnt := d.cnt.filter fun e => reachesB d t e.1 || reachedB d t e.1 }

theorem keys_around (d : D A) (t : A) : (aroundB d t).dfg.keys = d.dfg.keys.filter fun e =>
    (reachesB d t e.1 || reachedB d t e.1) && (reachesB d t e.2 || reachedB d t e.2) :=
  keys_filter d.dfg fun e => (reachesB d t e.1 || reachedB d t e.1) && (reachesB d t e.2 || reachedB d t e.2)

theorem around_path (d : D A) (t : A) {x y : A} (h : Path d.dfg.keys x y) (hy : Path d.dfg.keys y t ∨ Path d.dfg.keys t x) :
    Path (aroundB d t).dfg.keys x y := by
  refine h.within ?_
  intro u v huv h1 h2
  rw [keys_around, List.mem_filter, Bool.and_eq_true, Bool.or_eq_true, Bool.or_eq_true, reachesB_iff, reachesB_iff,
    reachedB_iff, reachedB_iff]
  rcases hy with hy | hy
  · exact ⟨huv, .inl ((Path.edge huv).trans (h2.trans hy)), .inl (h2.trans hy)⟩
  · exact ⟨huv, .inr (hy.trans h1), .inr (hy.trans (h1.step huv))⟩

theorem around_sub (d : D A) (t : A) : ∀ e ∈ (aroundB d t).dfg.keys, e ∈ d.dfg.keys := by
  intro e he; rw [keys_around, List.mem_filter] at he; exact he.1

theorem reachesB_around (d : D A) (t : A) : reachesB (aroundB d t) t = reachesB d t := by
  funext x
  rw [Bool.eq_iff_iff, reachesB_iff, reachesB_iff]
  exact ⟨fun h => h.mono (around_sub d t), fun h => around_path d t h (.inl .refl)⟩

theorem reachedB_around (d : D A) (t : A) : reachedB (aroundB d t) t = reachedB d t := by
  funext x
  rw [Bool.eq_iff_iff, reachedB_iff, reachedB_iff]
  exact ⟨fun h => h.mono (around_sub d t), fun h => around_path d t h (.inr .refl)⟩

theorem around_around (d : D A) (t : A) : aroundB (aroundB d t) t = aroundB d t := by
  conv => lhs; rw [aroundB]
  simp only [reachesB_around, reachedB_around]
  unfold aroundB
  simp [List.filter_filter]

theorem WF.around {d : D A} (h : WF d) (t : A) : WF (aroundB d t) where
  dfgNodup := by rw [keys_around]; exact h.dfgNodup.filter _
  saNodup := (List.filter_sublist.map Prod.fst).nodup h.saNodup
  eaNodup := (List.filter_sublist.map Prod.fst).nodup h.eaNodup
  cntNodup := (List.filter_sublist.map Prod.fst).nodup h.cntNodup
  dfgL e he := by
    rw [keys_around, List.mem_filter, Bool.and_eq_true] at he
    have : (aroundB d t).cnt.keys = d.cnt.keys.filter fun x => reachesB d t x || reachedB d t x :=
      keys_filter d.cnt fun x => reachesB d t x || reachedB d t x
    rw [this, List.mem_filter]
    exact ⟨h.dfgL e he.1, he.2.1⟩
  dfgR e he := by
    rw [keys_around, List.mem_filter, Bool.and_eq_true] at he
    have : (aroundB d t).cnt.keys = d.cnt.keys.filter fun x => reachesB d t x || reachedB d t x :=
      keys_filter d.cnt fun x => reachesB d t x || reachedB d t x
    rw [this, List.mem_filter]
    exact ⟨h.dfgR e he.1, he.2.2⟩
  saIn a ha := by
    have h1 : (aroundB d t).sa.keys = d.sa.keys.filter fun x => reachesB d t x := keys_filter d.sa fun x => reachesB d t x
    have h2 : (aroundB d t).cnt.keys = d.cnt.keys.filter fun x => reachesB d t x || reachedB d t x :=
      keys_filter d.cnt fun x => reachesB d t x || reachedB d t x
    rw [h1, List.mem_filter] at ha
    rw [h2, List.mem_filter]
    exact ⟨h.saIn a ha.1, by simp [ha.2]⟩
  eaIn a ha := by
    have h1 : (aroundB d t).ea.keys = d.ea.keys.filter fun x => reachedB d t x := keys_filter d.ea fun x => reachedB d t x
    have h2 : (aroundB d t).cnt.keys = d.cnt.keys.filter fun x => reachesB d t x || reachedB d t x :=
      keys_filter d.cnt fun x => reachesB d t x || reachedB d t x
    rw [h1, List.mem_filter] at ha
    rw [h2, List.mem_filter]
    exact ⟨h.eaIn a ha.1, by simp [ha.2]⟩

/-- one iteration of the loop -/
theorem contain_step {d : D A} (hw : WF d) (t : A) (ht : t ∈ d.cnt.keys) (n : Nat) :
    filterContain t (n + 1) d = some (aroundB d t) ∨
      (filterContain t (n + 1) d = filterContain t n (aroundB d t) ∧ aroundB d t ≠ d) := by
  obtain ⟨P, hP, hP'⟩ := Verif.C40_predecessors d.dfg.keys d.cnt.keys hw.edges
    (d.cnt.keys.length * d.cnt.keys.length + 1) (by omega)
  obtain ⟨S, hS, hS'⟩ := Verif.C40_successors d.dfg.keys d.cnt.keys hw.edges
    (d.cnt.keys.length * d.cnt.keys.length + 1) (by omega)
  have hPt : ∀ x, decide (x ∈ union (P t) [t]) = reachesB d t x := by
    intro x
    rw [Bool.eq_iff_iff, decide_eq_true_iff, reachesB_iff, mem_union, List.mem_singleton, hP' t ht]
    constructor
    · rintro (⟨z, hz, hp⟩ | rfl)
      · exact hp.step hz
      · exact .refl
    · intro h
      cases h with
      | refl => exact .inr rfl
      | step h3 h4 => exact .inl ⟨_, h4, h3⟩
  have hSt : ∀ x, decide (x ∈ union (S t) [t]) = reachedB d t x := by
    intro x
    rw [Bool.eq_iff_iff, decide_eq_true_iff, reachedB_iff, mem_union, List.mem_singleton, hS' t ht]
    constructor
    · rintro (⟨z, hz, hp⟩ | rfl)
      · exact (Path.edge hz).trans hp
      · exact .refl
    · intro h
      by_cases htx : t = x
      · exact .inr htx.symm
      · exact .inl (plus_of_path h htx)
  have hR : ∀ x, decide (x ∈ union (union (P t) [t]) (union (S t) [t])) = (reachesB d t x || reachedB d t x) := by
    intro x
    rw [← hPt, ← hSt, Bool.eq_iff_iff, decide_eq_true_iff, mem_union]
    simp
  rw [filterContain]
  simp only [hP, hS, Option.bind_eq_bind, Option.bind_some]
  generalize union (union (P t) [t]) (union (S t) [t]) = R at hR
  generalize union (P t) [t] = Pt at hPt
  generalize union (S t) [t] = St at hSt
  have hf1 : (fun e : A × Int => decide (e.1 ∈ Pt)) = fun e => reachesB d t e.1 := by funext e; exact hPt _
  have hf2 : (fun e : A × Int => decide (e.1 ∈ St)) = fun e => reachedB d t e.1 := by funext e; exact hSt _
  have hf3 : (fun e : A × Int => decide (e.1 ∈ R)) = fun e => reachesB d t e.1 || reachedB d t e.1 := by
    funext e; exact hR _
  have hf4 : (fun e : (A × A) × Int => decide (e.1.1 ∈ R) && decide (e.1.2 ∈ R)) =
      fun e => (reachesB d t e.1.1 || reachedB d t e.1.1) && (reachesB d t e.1.2 || reachedB d t e.1.2) := by
    funext e; rw [hR, hR]
  rw [hf1, hf2, hf3, hf4]
  have hd1 : (if sameSet R d.cnt.keys = true then
      ({ d with sa := d.sa.filter fun e => reachesB d t e.1, ea := d.ea.filter fun e => reachedB d t e.1 } : D A) else
      { dfg := d.dfg.filter fun e => (reachesB d t e.1.1 || reachedB d t e.1.1) && (reachesB d t e.1.2 || reachedB d t e.1.2)
        sa := d.sa.filter fun e => reachesB d t e.1
        ea := d.ea.filter fun e => reachedB d t e.1
        cnt := d.cnt.filter fun e => reachesB d t e.1 || reachedB d t e.1 }) = aroundB d t := by
    by_cases hs : sameSet R d.cnt.keys = true
    · rw [if_pos hs]
      rw [sameSet_iff] at hs
      have hall : ∀ a ∈ d.cnt.keys, (reachesB d t a || reachedB d t a) = true := fun a ha => by
        rw [← hR, decide_eq_true_iff]; exact (hs a).2 ha
      unfold aroundB
      congr 1
      · symm
        apply List.filter_eq_self.2
        intro e he
        have hk : e.1 ∈ d.dfg.keys := List.mem_map.2 ⟨e, he, rfl⟩
        rw [hall _ (hw.dfgL _ hk), hall _ (hw.dfgR _ hk)]; rfl
      · symm
        apply List.filter_eq_self.2
        intro e he
        exact hall _ (List.mem_map.2 ⟨e, he, rfl⟩)
    · rw [if_neg hs]; rfl
  rw [hd1]
  split
  · rename_i hch
    right
    refine ⟨rfl, ?_⟩
    intro heq
    rw [Bool.or_eq_true, Bool.or_eq_true] at hch
    rcases hch with (h | h) | h
    · rw [decide_eq_true_iff] at h
      apply h
      show (aroundB d t).sa.length = _
      rw [heq]
    · rw [decide_eq_true_iff] at h
      apply h
      show (aroundB d t).ea.length = _
      rw [heq]
    · rw [Bool.not_eq_true'] at h
      rw [← Bool.not_eq_true, sameSet_iff] at h
      apply h
      intro a
      have hk : (aroundB d t).cnt.keys = d.cnt.keys.filter fun x => reachesB d t x || reachedB d t x :=
        keys_filter d.cnt fun x => reachesB d t x || reachedB d t x
      rw [heq] at hk
      constructor
      · intro ha
        have := hR a
        rw [decide_eq_true ha] at this
        have h2 := this.symm
        rw [Bool.or_eq_true, reachesB_iff, reachedB_iff] at h2
        rcases h2 with h2 | h2
        · cases h2' : decide (a = t)
          · obtain ⟨z, hz, _⟩ := plus_of_path h2 (by simpa using h2')
            exact hw.dfgL _ hz
          · rw [decide_eq_true_iff] at h2'; rw [h2']; exact ht
        · cases h2 with
          | refl => exact ht
          | step _ h3 => exact hw.dfgR _ h3
      · intro ha
        rw [hk, List.mem_filter] at ha
        have := hR a
        rw [ha.2, decide_eq_true_iff] at this
        exact this
  · exact .inl rfl

/-- **C40.** `filter_dfg_contain_activity` always terminates; the activities that remain are exactly those that can
reach the activity or be reached from it, the start activities that remain are those that can reach it, the end
activities those that can be reached from it, and the edges are those between remaining activities. For a connected
DFG the result is connected. -/
theorem _root_.Verif.C40_contain_activity (d : D A) (hw : WF d) (t : A) (ht : t ∈ d.cnt.keys) :
    ∃ r, (∀ n, 2 ≤ n → filterContain t n d = some r) ∧ WF r ∧ Sub r d ∧
      (∀ a, a ∈ r.cnt.keys ↔ a ∈ d.cnt.keys ∧ (Path d.dfg.keys a t ∨ Path d.dfg.keys t a)) ∧
      (∀ a, a ∈ r.sa.keys ↔ a ∈ d.sa.keys ∧ Path d.dfg.keys a t) ∧
      (∀ a, a ∈ r.ea.keys ↔ a ∈ d.ea.keys ∧ Path d.dfg.keys t a) ∧
      (∀ e, e ∈ r.dfg.keys ↔ e ∈ d.dfg.keys ∧ e.1 ∈ r.cnt.keys ∧ e.2 ∈ r.cnt.keys) ∧
      (Connected d → Connected r) := by
  have hcnt : ∀ a, a ∈ (aroundB d t).cnt.keys ↔ a ∈ d.cnt.keys ∧ (Path d.dfg.keys a t ∨ Path d.dfg.keys t a) := by
    intro a
    have : (aroundB d t).cnt.keys = d.cnt.keys.filter fun x => reachesB d t x || reachedB d t x :=
      keys_filter d.cnt fun x => reachesB d t x || reachedB d t x
    rw [this, List.mem_filter, Bool.or_eq_true, reachesB_iff, reachedB_iff]
  have hsa : ∀ a, a ∈ (aroundB d t).sa.keys ↔ a ∈ d.sa.keys ∧ Path d.dfg.keys a t := by
    intro a
    have : (aroundB d t).sa.keys = d.sa.keys.filter fun x => reachesB d t x := keys_filter d.sa fun x => reachesB d t x
    rw [this, List.mem_filter, reachesB_iff]
  have hea : ∀ a, a ∈ (aroundB d t).ea.keys ↔ a ∈ d.ea.keys ∧ Path d.dfg.keys t a := by
    intro a
    have : (aroundB d t).ea.keys = d.ea.keys.filter fun x => reachedB d t x := keys_filter d.ea fun x => reachedB d t x
    rw [this, List.mem_filter, reachedB_iff]
  refine ⟨aroundB d t, ?_, hw.around t, ?_, hcnt, hsa, hea, ?_, ?_⟩
  · intro n hn
    obtain ⟨n, rfl⟩ : ∃ m, n = m + 2 := ⟨n - 2, by omega⟩
    rcases contain_step hw t ht (n + 1) with h | ⟨h, _⟩
    · exact h
    · rw [h]
      have ht' : t ∈ (aroundB d t).cnt.keys := (hcnt t).2 ⟨ht, .inl .refl⟩
      rcases contain_step (hw.around t) t ht' n with h | ⟨_, h⟩
      · rw [h, around_around]
      · exact absurd (around_around d t) h
  · exact ⟨List.filter_sublist, List.filter_sublist, List.filter_sublist, List.filter_sublist⟩
  · intro e
    rw [keys_around, List.mem_filter, Bool.and_eq_true, Bool.or_eq_true, Bool.or_eq_true, reachesB_iff, reachesB_iff,
      reachedB_iff, reachedB_iff, hcnt, hcnt]
    constructor
    · rintro ⟨h1, h2, h3⟩; exact ⟨h1, ⟨hw.dfgL e h1, h2⟩, ⟨hw.dfgR e h1, h3⟩⟩
    · rintro ⟨h1, h2, h3⟩; exact ⟨h1, h2.2, h3.2⟩
  · intro hc a ha
    obtain ⟨hac, hat⟩ := (hcnt a).1 ha
    obtain ⟨⟨s, hs, h1⟩, ⟨e, he, h2⟩⟩ := hc a hac
    obtain ⟨⟨s', hs', h1'⟩, ⟨e', he', h2'⟩⟩ := hc t ht
    rcases hat with hat | hat
    · refine ⟨⟨s, (hsa s).2 ⟨hs, h1.trans hat⟩, around_path d t h1 (.inl hat)⟩,
        ⟨e', (hea e').2 ⟨he', h2'⟩, (around_path d t hat (.inl .refl)).trans (around_path d t h2' (.inr .refl))⟩⟩
    · refine ⟨⟨s', (hsa s').2 ⟨hs', h1'⟩, (around_path d t h1' (.inl .refl)).trans (around_path d t hat (.inr .refl))⟩,
        ⟨e, (hea e).2 ⟨he, hat.trans h2⟩, around_path d t h2 (.inr hat)⟩⟩

/-! ### cleaning on a noise threshold -/

theorem foldMax_spec (l : Dict (A × A) Int) (m : Int) :
    m ≤ l.foldl (fun m e => if e.2 > m then e.2 else m) m ∧
    (∀ e ∈ l, e.2 ≤ l.foldl (fun m e => if e.2 > m then e.2 else m) m) ∧
    (l.foldl (fun m e => if e.2 > m then e.2 else m) m = m ∨ ∃ e ∈ l, l.foldl (fun m e => if e.2 > m then e.2 else m) m = e.2) := by
  induction l generalizing m with
  | nil => simp
  | cons x l ih =>
    rw [List.foldl_cons]
    by_cases hx : x.2 > m
    · rw [if_pos hx]
      obtain ⟨h1, h2, h3⟩ := ih x.2
      refine ⟨by omega, ?_, ?_⟩
      · intro e he
        rcases List.mem_cons.1 he with rfl | he
        · exact h1
        · exact h2 e he
      · right
        rcases h3 with h3 | ⟨e, he, h3⟩
        · exact ⟨x, by simp, h3⟩
        · exact ⟨e, by simp [he], h3⟩
    · rw [if_neg hx]
      obtain ⟨h1, h2, h3⟩ := ih m
      refine ⟨h1, ?_, ?_⟩
      · intro e he
        rcases List.mem_cons.1 he with rfl | he
        · omega
        · exact h2 e he
      · rcases h3 with h3 | ⟨e, he, h3⟩
        · exact .inl h3
        · exact .inr ⟨e, by simp [he], h3⟩

theorem maxActivityCount_spec (dfg : Dict (A × A) Int) (a : A) :
    (∀ e ∈ dfg, e.1.1 = a ∨ e.1.2 = a → e.2 ≤ maxActivityCount dfg a) ∧
    (maxActivityCount dfg a = -1 ∨ ∃ e ∈ dfg, (e.1.1 = a ∨ e.1.2 = a) ∧ maxActivityCount dfg a = e.2) := by
  unfold maxActivityCount
  simp only []
  obtain ⟨h1, h2, h3⟩ := foldMax_spec (dfg.filter fun e => decide (e.1.2 = a)) (-1)
  generalize (dfg.filter fun e => decide (e.1.2 = a)).foldl (fun m e => if e.2 > m then e.2 else m) (-1) = m at h1 h2 h3
  obtain ⟨k1, k2, k3⟩ := foldMax_spec (dfg.filter fun e => decide (e.1.1 = a)) m
  refine ⟨?_, ?_⟩
  · rintro e he (h | h)
    · exact k2 e (List.mem_filter.2 ⟨he, by simpa using h⟩)
    · have := h2 e (List.mem_filter.2 ⟨he, by simpa using h⟩); omega
  · rcases k3 with k3 | ⟨e, he, k3⟩
    · rw [k3]
      rcases h3 with h3 | ⟨e, he, h3⟩
      · exact .inl h3
      · rw [List.mem_filter, decide_eq_true_iff] at he
        exact .inr ⟨e, he.1, .inr he.2, h3⟩
    · rw [List.mem_filter, decide_eq_true_iff] at he
      exact .inr ⟨e, he.1, .inl he.2, k3⟩

/-- **C40.** Cleaning a DFG with non-negative counts on a noise threshold: an edge (given with its count) is kept iff it
is one of the most common paths, or its count is at least the threshold times the count of *every* edge at one of its
two activities. -/
theorem _root_.Verif.C40_noise_iff (dfg : Dict (A × A) Int) (hpos : ∀ e ∈ dfg, 0 ≤ e.2) (t : Rat) (ht : 0 ≤ t)
    (common : List (A × A)) (e : (A × A) × Int) (he : e ∈ dfg) :
    e ∈ cleanNoise dfg t common ↔ e.1 ∈ common ∨
      (∀ f ∈ dfg, f.1.1 = e.1.1 ∨ f.1.2 = e.1.1 → (f.2 : Rat) * t ≤ e.2) ∨
      (∀ f ∈ dfg, f.1.1 = e.1.2 ∨ f.1.2 = e.1.2 → (f.2 : Rat) * t ≤ e.2) := by
  have key : ∀ a, (e.1.1 = a ∨ e.1.2 = a) → (((maxActivityCount dfg a : Int) : Rat) * t ≤ (e.2 : Rat) ↔
      ∀ f ∈ dfg, f.1.1 = a ∨ f.1.2 = a → (f.2 : Rat) * t ≤ e.2) := by
    intro a hea
    obtain ⟨h1, h2⟩ := maxActivityCount_spec dfg a
    constructor
    · intro h f hf hfa
      have hle : (f.2 : Rat) ≤ ((maxActivityCount dfg a : Int) : Rat) := by exact_mod_cast h1 f hf hfa
      exact le_trans (mul_le_mul_of_nonneg_right hle ht) h
    · intro h
      rcases h2 with h2 | ⟨f, hf, hfa, h2⟩
      · have := h1 e he hea
        have := hpos e he
        omega
      · rw [h2]; exact h f hf hfa
  unfold cleanNoise
  rw [List.mem_filter]
  simp only [he, true_and, Bool.not_eq_true', Bool.and_eq_false_iff, Bool.not_eq_false', decide_eq_true_iff,
    decide_eq_false_iff_not, lt_min_iff, not_and_or, not_lt]
  rw [key _ (.inl rfl), key _ (.inr rfl)]

/-- **C40.** The strongest edges at an activity always survive the cleaning with a threshold of at most 1; in particular
no activity loses all of its edges. -/
theorem _root_.Verif.C40_noise_strongest (dfg : Dict (A × A) Int) (hpos : ∀ e ∈ dfg, 0 ≤ e.2) (t : Rat) (ht : 0 ≤ t)
    (ht1 : t ≤ 1) (common : List (A × A)) (a : A) (e : (A × A) × Int) (he : e ∈ dfg) (hea : e.1.1 = a ∨ e.1.2 = a)
    (hmax : ∀ f ∈ dfg, f.1.1 = a ∨ f.1.2 = a → f.2 ≤ e.2) : e ∈ cleanNoise dfg t common := by
  rw [Verif.C40_noise_iff dfg hpos t ht common e he]
  have h : ∀ f ∈ dfg, f.1.1 = a ∨ f.1.2 = a → (f.2 : Rat) * t ≤ e.2 := by
    intro f hf hfa
    have h1 : (f.2 : Rat) ≤ (e.2 : Rat) := by exact_mod_cast hmax f hf hfa
    have h2 : (0 : Rat) ≤ (f.2 : Rat) := by exact_mod_cast hpos f hf
    exact le_trans (mul_le_of_le_one_right h2 ht1) h1
  rcases hea with rfl | rfl
  · exact .inr (.inl h)
  · exact .inr (.inr h)

end Dfg
end Verif
