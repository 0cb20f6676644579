import Verif.Powl.MinerRec
/-
C50: `pm4py.discover_powl` terminates; the discovered model is valid, accepts every trace of the log and has the activities of the log as
labels, each once; its net is sound.  It raises exactly if a sublog has a loop cut with three or more groups.
-/
set_option linter.unusedSectionVars false
namespace Verif
open IM Dict Counter Dfg Powl PIM Conv
variable {α : Type} [DecidableEq α]

namespace Powl

theorem mapM_mono {β γ : Type} {f g : β → Option γ} (h : ∀ b c, f b = some c → g b = some c) (l : List β) :
    ∀ r, l.mapM f = some r → l.mapM g = some r := by
  induction l with
  | nil => intro r hr; simpa using hr
  | cons x l ih =>
    intro r hr
    rw [List.mapM_cons] at hr ⊢
    simp only [Option.pure_def, Option.bind_eq_bind, Option.bind_eq_some_iff, Option.some.injEq] at hr ⊢
    obtain ⟨c, h1, cs, h2, h3⟩ := hr
    exact ⟨c, h _ _ h1, cs, ih _ h2, h3⟩

theorem expandXor_mono {f g : Powl α → Option (Powl α)} (h : ∀ b c, f b = some c → g b = some c) (t : Powl α) (r)
    (hr : expandXor f t = some r) : expandXor g t = some r := by
  cases t with
  | xor ds => exact mapM_mono h ds r hr
  | _ => exact hr

/-- a result of `simplify` does not depend on the fuel -/
theorem simplify_mono (n : Nat) : ∀ t s : Powl α, simplify n t = some s → simplify (n + 1) t = some s := by
  induction n with
  | zero => intro t s h; cases h
  | succ n ih =>
    intro t s h
    cases t with
    | leaf l => exact h
    | loop b r =>
      rw [simplify] at h ⊢
      simp only [Option.bind_eq_some_iff, Option.map_eq_some_iff] at h ⊢
      obtain ⟨b', h1, r', h2, h3⟩ := h
      exact ⟨b', ih _ _ h1, r', ih _ _ h2, h3⟩
    | xor cs =>
      rw [simplify] at h ⊢
      cases hm : Powl.mergeLoop cs with
      | some p =>
        rw [hm] at h
        simp only [Option.bind_eq_some_iff, Option.map_eq_some_iff] at h ⊢
        obtain ⟨b', h1, r', h2, h3⟩ := h
        exact ⟨b', ih _ _ h1, r', ih _ _ h2, h3⟩
      | none =>
        rw [hm] at h
        simp only [Option.map_eq_some_iff] at h ⊢
        obtain ⟨css, h1, h2⟩ := h
        refine ⟨css, mapM_mono ?_ cs css h1, h2⟩
        intro c r hr
        simp only [Option.bind_eq_some_iff] at hr ⊢
        obtain ⟨c', h3, h4⟩ := hr
        exact ⟨c', ih _ _ h3, expandXor_mono ih _ _ h4⟩
    | po cs E =>
      rw [simplify] at h ⊢
      simp only [Option.map_eq_some_iff] at h ⊢
      obtain ⟨css, h1, h2⟩ := h
      exact ⟨css, mapM_mono ih cs css h1, h2⟩

theorem simplify_mono_le {n m : Nat} (hnm : n ≤ m) {t s : Powl α} (h : simplify n t = some s) : simplify m t = some s := by
  induction hnm with
  | refl => exact h
  | step _ ih => exact simplify_mono _ _ _ ih

end Powl

namespace PIM

theorem discoverPowl_mono_le (v : Variant) (env : Env α) {n m : Nat} (hnm : n ≤ m) {log : List (List α)} {r}
    (h : discoverPowl v env n log = some r) : discoverPowl v env m log = some r := by
  unfold discoverPowl at h ⊢
  cases hp : pim v env n (ofList log) with
  | none => rw [hp] at h; cases h
  | some o =>
    rw [pim_mono_le v env hnm hp]
    rw [hp] at h
    cases o with
    | none => exact h
    | some t =>
      simp only [Option.map_eq_some_iff] at h ⊢
      obtain ⟨s, h1, h2⟩ := h
      exact ⟨s, simplify_mono_le hnm h1, h2⟩

theorem discoverPowl_spec (v : Variant) {env : Env α} (henv : env.Lawful) (log : List (List α)) (hsz : SmallAlphabet log) :
    ∃ n r, discoverPowl v env n log = some r ∧ (r = none ↔ ∃ l, Visited v env (ofList log) l ∧ LoopCut3 env l) ∧
      ∀ t, r = some t → (∀ w ∈ log, t.lang w) ∧ t.labels.Perm (dedup log.flatten) ∧ t.Valid := by
  have hocc : ∀ a, Occ (ofList log) a ↔ a ∈ log.flatten := by
    intro a
    unfold Occ
    simp [List.mem_flatten]
  have hA : (sizeA (ofList log) : Int) ≤ maxsize := by
    have : sizeA (ofList log) ≤ (dedup log.flatten).length :=
      length_le_of_subset (nodup_alph _) fun a ha => by
        rw [mem_alph, hocc] at ha; simpa using ha
    have h2 := hsz
    unfold SmallAlphabet at h2
    omega
  obtain ⟨n, r, hr, hres⟩ := pim_res (v := v) henv (ofList log) (nodup_ofList log) hA
  cases r with
  | none =>
    refine ⟨n, none, by unfold discoverPowl; rw [hr], hres.err, fun t ht => (by cases ht)⟩
  | some t =>
    have hg := hres.good t rfl
    obtain ⟨s, h1, h2, h3, h4, _⟩ := C49_simplify t hg.valid (max n t.size) (Nat.le_max_right _ _)
    refine ⟨max n t.size, some s, ?_, ?_, ?_⟩
    · unfold discoverPowl
      rw [pim_mono_le v env (Nat.le_max_left _ _) hr]
      simp only []
      rw [h1]; rfl
    · rw [← hres.err]; simp
    · intro t' ht'
      cases ht'
      refine ⟨fun w hw => (h2 w).2 (hg.fit w (by simpa using hw)), h4.trans ?_, h3⟩
      refine (List.perm_ext_iff_of_nodup hg.nodup (nodup_dedup _)).2 fun a => ?_
      rw [hg.labels, hocc]
      simp

end PIM

/-- C50: `discover_powl` terminates on every log, for every order in which sets are iterated: there is a result — a model or an
exception — that is the result for every sufficiently large bound on the recursion depth. -/
theorem C50_terminates (v : Variant) {env : Env α} (henv : env.Lawful) (log : List (List α)) (hsz : SmallAlphabet log) :
    ∃ r N, ∀ n, N ≤ n → discoverPowl v env n log = some r := by
  obtain ⟨n, r, h, _⟩ := discoverPowl_spec v henv log hsz
  exact ⟨r, n, fun m hm => discoverPowl_mono_le v env hm h⟩

theorem C50_deterministic (v : Variant) (env : Env α) (log : List (List α)) (n m : Nat) (r r')
    (h1 : discoverPowl v env n log = some r) (h2 : discoverPowl v env m log = some r') : r = r' := by
  have e1 := discoverPowl_mono_le v env (Nat.le_max_left n m) h1
  have e2 := discoverPowl_mono_le v env (Nat.le_max_right n m) h2
  rw [e1] at e2; exact Option.some.inj e2

/-- C50: it raises if and only if the recursion meets a sublog that is split by a loop cut with three or more groups. -/
theorem C50_raises_iff (v : Variant) {env : Env α} (henv : env.Lawful) (log : List (List α)) (hsz : SmallAlphabet log) :
    (∃ n, discoverPowl v env n log = some none) ↔ ∃ l, Visited v env (ofList log) l ∧ LoopCut3 env l := by
  obtain ⟨n, r, h, h1, _⟩ := discoverPowl_spec v henv log hsz
  rw [← h1]
  constructor
  · rintro ⟨m, hm⟩; exact C50_deterministic v env log n m r none h hm
  · rintro rfl; exact ⟨n, h⟩

/-- C50: the discovered model accepts every trace of the log. -/
theorem C50_fitness (v : Variant) {env : Env α} (henv : env.Lawful) (log : List (List α)) (hsz : SmallAlphabet log)
    (n : Nat) (t : Powl α) (ht : discoverPowl v env n log = some (some t)) : ∀ w ∈ log, t.lang w := by
  obtain ⟨m, r, h1, _, h2⟩ := discoverPowl_spec v henv log hsz
  have := C50_deterministic v env log n m _ _ ht h1
  exact (h2 t this.symm).1

/-- C50: every activity of the log is the label of exactly one transition of the discovered model, and there are no other labels. -/
theorem C50_labels (v : Variant) {env : Env α} (henv : env.Lawful) (log : List (List α)) (hsz : SmallAlphabet log)
    (n : Nat) (t : Powl α) (ht : discoverPowl v env n log = some (some t)) :
    t.labels.Nodup ∧ ∀ a, a ∈ t.labels ↔ ∃ w ∈ log, a ∈ w := by
  obtain ⟨m, r, h1, _, h2⟩ := discoverPowl_spec v henv log hsz
  have := C50_deterministic v env log n m _ _ ht h1
  have h3 := (h2 t this.symm).2.1
  refine ⟨h3.nodup_iff.2 (nodup_dedup _), fun a => ?_⟩
  rw [h3.mem_iff]
  simp [List.mem_flatten]

/-- C50: the partial orders of the discovered model are partial orders, its choices have two children or more. -/
theorem C50_valid (v : Variant) {env : Env α} (henv : env.Lawful) (log : List (List α)) (hsz : SmallAlphabet log)
    (n : Nat) (t : Powl α) (ht : discoverPowl v env n log = some (some t)) : t.Valid := by
  obtain ⟨m, r, h1, _, h2⟩ := discoverPowl_spec v henv log hsz
  have := C50_deterministic v env log n m _ _ ht h1
  exact (h2 t this.symm).2.2

/-- C50: the Petri net of the discovered model replays every trace of the log from its initial to its final marking, and it is sound. -/
theorem C50_net {ord : Gr α → List (Nat × Option α)} (hord : IterOrder ord) (ordP : List Nat → List Nat) (v : Variant) {env : Env α}
    (henv : env.Lawful) (log : List (List α)) (hsz : SmallAlphabet log) (n : Nat) (t : Powl α)
    (ht : discoverPowl v env n log = some (some t)) :
    let g := PowlNet.apply ord ordP t
    (∀ w ∈ log, Accepts g initialMarking finalMarking w) ∧
    (∀ m, CanReach g initialMarking m → ∃ m', CanReach g m m' ∧ Marking.eq m' finalMarking = true) ∧
    (∀ m, CanReach g initialMarking m → 1 ≤ count m 1 → Marking.eq m finalMarking = true) ∧
    (∀ m, CanReach g initialMarking m → ∀ p, 0 ≤ count m p ∧ count m p ≤ 1) ∧
    (∀ tr ∈ g.toNet.transitions, ∃ m, CanReach g initialMarking m ∧ g.toNet.isEnabled tr m = true) := by
  have hv := C50_valid v henv log hsz n t ht
  refine ⟨fun w hw => (C48_language hord ordP t hv w).2 (C50_fitness v henv log hsz n t ht w hw), ?_⟩
  exact C48_sound hord ordP t hv

/-! ### concrete cases -/

/-- the five orders of `{1, 2, 3, 4}` in which 3 is after 1 and 2, and 4 is after 2 -/
def orderLog : List (List Nat) := [[1, 2, 3, 4], [1, 2, 4, 3], [2, 1, 3, 4], [2, 1, 4, 3], [2, 4, 1, 3]]

/-- the partial order cuts apply: four groups, edges 1 → 3, 2 → 3, 2 → 4 -/
example : (holdsMaximal exampleEnv (ofList orderLog)).map (fun r => (r.1, (PowlNet.pairs 4).filter fun p => r.2 p.1 p.2)) =
    some ([[2], [1], [4], [3]], [(0, 2), (0, 3), (1, 3)]) := by decide
example : (holdsBrute exampleEnv (ofList orderLog)).map (fun r => (r.1, (PowlNet.pairs 4).filter fun p => r.2 p.1 p.2)) =
    some ([[2], [1], [4], [3]], [(0, 2), (0, 3), (1, 3)]) := by decide

/-- two of the five orders only: now 2 and 4 are also ordered the same way relative to the others; 1 and 2 form one cluster -/
example : (holdsMaximal exampleEnv (ofList [[1, 2, 3, 4], [2, 1, 4, 3]])).map (fun r => (r.1, (PowlNet.pairs 2).filter fun p => r.2 p.1 p.2)) =
    some ([[2, 1], [4, 3]], [(0, 1)]) := by decide

/-- the body `1` and the redo parts `2` and `3` -/
def loopLog : List (List Nat) := [[1], [1, 2, 1], [1, 3, 1]]

theorem loopLog_small : SmallAlphabet loopLog := by unfold SmallAlphabet; decide

theorem loopLog_cut : LoopCut3 exampleEnv (ofList loopLog) := by
  refine ⟨by decide, by decide, ?_, ?_, [[1], [2], [3]], by decide, by decide⟩
  · have : holdsSeq exampleEnv (discoverUvcl (ofList loopLog)) = none := by
      unfold holdsSeq
      simp only []
      rw [if_neg (by decide)]
      have e : IM.mergeLoop (succ exampleEnv (discoverUvcl (ofList loopLog))) ((verts exampleEnv (discoverUvcl (ofList loopLog))).map fun a => [a]).length
        ((verts exampleEnv (discoverUvcl (ofList loopLog))).map fun a => [a]) = [[2, 3, 1]] := by decide
      rw [e, List.mergeSort_singleton]; rfl
    unfold holdsStrict; rw [this]
  · unfold holdsPar
    simp only []
    rw [if_neg (by decide)]
    have e : concLoop (discoverUvcl (ofList loopLog)) ((exampleEnv.sorted (verts exampleEnv (discoverUvcl (ofList loopLog)))).map fun a => [a]).length
      ((exampleEnv.sorted (verts exampleEnv (discoverUvcl (ofList loopLog)))).map fun a => [a]) = [[2, 3], [1]] := by decide
    rw [e]
    simp [List.mergeSort, List.MergeSort.Internal.splitInTwo, List.merge]
    decide

/-- C50: `discover_powl` fails on ordinary logs, in every variant: on `⟨1⟩, ⟨1,2,1⟩, ⟨1,3,1⟩` the loop cut has one body and two redo
groups, and the constructor of the loop node raises. -/
theorem C50_raises_refuted : ∃ log : List (List Nat), SmallAlphabet log ∧ ∀ v, ∃ N, ∀ n, N ≤ n → discoverPowl v exampleEnv n log = some none := by
  refine ⟨loopLog, loopLog_small, fun v => ?_⟩
  obtain ⟨n, hn⟩ := (C50_raises_iff v exampleEnv_lawful loopLog loopLog_small).2 ⟨_, .refl _, loopLog_cut⟩
  exact ⟨n, fun m hm => discoverPowl_mono_le v _ hm hn⟩

end Verif
