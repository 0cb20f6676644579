import Verif.Inductive.Steps
import Verif.PTree.Theorems
import Verif.PTree.Visible
/-
C07, C08, C09: the inductive miner terminates, the discovered tree accepts every trace of the log, and its labels are
the activities of the log, each exactly once.
-/
namespace Verif
open IM Dict Counter Dfg PT

namespace IM
variable {α : Type} [DecidableEq α]

/-! ### fuel -/

theorem mapAll_mono {β γ : Type} {f f' : β → Option γ} (h : ∀ b c, f b = some c → f' b = some c) (l : List β) :
    ∀ cs, mapAll f l = some cs → mapAll f' l = some cs := by
  induction l with
  | nil => intro cs hc; simpa [mapAll] using hc
  | cons b l ih =>
    intro cs hc
    unfold mapAll at hc ⊢
    split at hc
    · rename_i c cs' h1 h2
      rw [h _ _ h1, ih _ h2]; exact hc
    · cases hc

theorem recurse_mono {f f' : UVCL α → Option (PT α)} (h : ∀ b c, f b = some c → f' b = some c) (st : Step α) (t : PT α)
    (ht : recurse f st = some t) : recurse f' st = some t := by
  cases st with
  | error => cases ht
  | node op logs =>
    unfold recurse at ht ⊢
    rw [Option.map_eq_some_iff] at ht ⊢
    obtain ⟨cs, h1, h2⟩ := ht
    exact ⟨cs, mapAll_mono h _ _ h1, h2⟩

theorem im_mono (env : Env α) (n : Nat) : ∀ L t, im env n L = some t → im env (n + 1) L = some t := by
  induction n with
  | zero => intro L t h; cases h
  | succ n ih =>
    intro L t h
    unfold im at h ⊢
    split
    · rename_i r hr
      rw [hr] at h
      exact recurse_mono ih _ _ h
    · rename_i hr
      rw [hr] at h
      simp only [] at h
      split
      · rename_i t' ht'
        rw [ht'] at h; exact h
      · rename_i hb
        rw [hb] at h
        exact recurse_mono ih _ _ h

theorem im_mono_le (env : Env α) {n m : Nat} (hnm : n ≤ m) {L : UVCL α} {t : PT α} (h : im env n L = some t) :
    im env m L = some t := by
  induction hnm with
  | refl => exact h
  | step _ ih => exact im_mono env _ _ _ ih

/-! ### the recursion -/

/-- what the result of the recursion satisfies -/
structure Good (L : UVCL α) (t : PT α) : Prop where
  fit : ∀ w ∈ keys L, t.lang w
  empty : L = [] → t.lang []
  nodup : t.labels.Nodup
  labels : ∀ a, a ∈ t.labels ↔ Occ L a
  wf : WF t
  vis : Vis t

theorem mapAll_good (env : Env α) (logs : List (UVCL α)) (h : ∀ l ∈ logs, ∃ n t, im env n l = some t ∧ Good l t) :
    ∃ n ts, mapAll (im env n) logs = some ts ∧ ts.length = logs.length ∧
      ∀ (i : Nat) (l : UVCL α) (t : PT α), logs[i]? = some l → ts[i]? = some t → Good l t := by
  induction logs with
  | nil => exact ⟨0, [], rfl, rfl, by simp⟩
  | cons l logs ih =>
    obtain ⟨n1, t, h1, hg⟩ := h l (by simp)
    obtain ⟨n2, ts, h2, hlen, hgs⟩ := ih fun l hl => h l (by simp [hl])
    refine ⟨max n1 n2, t :: ts, ?_, by simp [hlen], ?_⟩
    · unfold mapAll
      rw [im_mono_le env (Nat.le_max_left n1 n2) h1,
        mapAll_mono (fun b c hc => im_mono_le env (Nat.le_max_right n1 n2) hc) _ _ h2]
    · intro i l' t' hl ht
      cases i with
      | zero =>
        rw [List.getElem?_cons_zero] at hl ht
        cases hl; cases ht; exact hg
      | succ i =>
        rw [List.getElem?_cons_succ] at hl ht
        exact hgs i l' t' hl ht

theorem labels_step (logs : List (UVCL α)) : ∀ (ts : List (PT α)), ts.length = logs.length →
    (∀ (i : Nat) (l : UVCL α) (t : PT α), logs[i]? = some l → ts[i]? = some t → Good l t) →
    (logs.Pairwise fun l m => ∀ a, Occ l a → ¬ Occ m a) →
    (labelsL ts).Nodup ∧ ∀ a, a ∈ labelsL ts ↔ ∃ l ∈ logs, Occ l a := by
  induction logs with
  | nil =>
    intro ts h _ _
    rw [List.eq_nil_of_length_eq_zero h]
    simp [labelsL]
  | cons l logs ih =>
    intro ts hlen hg hd
    match ts, hlen, hg with
    | [], hlen, _ => simp at hlen
    | t :: ts, hlen, hg =>
      have hgl : Good l t := hg 0 l t (by simp) (by simp)
      rw [List.pairwise_cons] at hd
      obtain ⟨h1, h2⟩ := ih ts (by simpa using hlen) (fun i l' t' hl ht => hg (i + 1) l' t' (by simpa using hl) (by simpa using ht)) hd.2
      refine ⟨?_, ?_⟩
      · rw [labelsL, List.nodup_append]
        refine ⟨hgl.nodup, h1, ?_⟩
        intro a ha b hb e
        subst e
        obtain ⟨m, hm, hm'⟩ := (h2 a).1 hb
        exact hd.1 m hm a ((hgl.labels a).1 ha) hm'
      · intro a
        rw [labelsL, List.mem_append, hgl.labels, h2]
        simp

theorem recurse_good (env : Env α) {L : UVCL α} {op : Option Op} {logs : List (UVCL α)} (hL : L ≠ []) (hs : StepOK L op logs)
    (hO : op.isSome = true → ∃ a, Occ L a)
    (h : ∀ l ∈ logs, ∃ n t, im env n l = some t ∧ Good l t) :
    ∃ n t, recurse (im env n) (.node op logs) = some t ∧ Good L t := by
  obtain ⟨n, ts, h1, hlen, hg⟩ := mapAll_good env logs h
  refine ⟨n, mkTree op ts, by simp only [recurse, h1, Option.map_some], ?_⟩
  obtain ⟨hnd, hlab⟩ := labels_step logs ts hlen hg hs.disj
  have hfits : Fits logs (ts.map PT.lang) := by
    refine ⟨by simp [hlen], ?_, ?_⟩
    · intro i l M hl hM w hw
      rw [List.getElem?_map, Option.map_eq_some_iff] at hM
      obtain ⟨t, ht, rfl⟩ := hM
      exact (hg i l t hl ht).fit w hw
    · intro i M hl hM
      rw [List.getElem?_map, Option.map_eq_some_iff] at hM
      obtain ⟨t, ht, rfl⟩ := hM
      exact (hg i [] t hl ht).empty rfl
  have hfit := hs.fit _ hfits
  cases op with
  | none =>
    have hl : logs = [] := Classical.byContradiction fun h => by simpa using hs.arity.2 h
    subst hl
    refine ⟨by simpa [mkTree, stepLang] using hfit, fun e => absurd e hL, by simp [mkTree, PT.labels], ?_, .leaf _, .leaf _⟩
    intro a
    rw [hs.cover]
    simp [mkTree, PT.labels]
  | some o =>
    have hl : logs ≠ [] := hs.arity.1 rfl
    refine ⟨?_, fun e => absurd e hL, by simpa [mkTree, PT.labels] using hnd, ?_, ?_, ?_⟩
    · intro w hw
      simpa [mkTree, stepLang, lang_node] using hfit w hw
    · intro a
      rw [hs.cover, ← hlab]
      simp [mkTree, PT.labels]
    · refine .node _ _ ?_ ?_
      · intro e; subst e
        exact hl (List.eq_nil_of_length_eq_zero hlen.symm)
      · intro c hc
        obtain ⟨i, hi⟩ := List.getElem?_of_mem hc
        have : i < logs.length := by rw [← hlen]; exact (List.getElem?_eq_some_iff.1 hi).1
        exact (hg i _ c (List.getElem?_eq_getElem this) hi).wf
    · refine .node _ _ ?_ ?_
      · obtain ⟨a, ha⟩ := hO rfl
        rw [hs.cover, ← hlab] at ha
        intro e
        have : a ∈ (PT.node o ts).labels := by simpa [PT.labels] using ha
        rw [e] at this; cases this
      · intro c hc
        obtain ⟨i, hi⟩ := List.getElem?_of_mem hc
        have : i < logs.length := by rw [← hlen]; exact (List.getElem?_eq_some_iff.1 hi).1
        exact (hg i _ c (List.getElem?_eq_getElem this) hi).vis

theorem baseCase_good {L : UVCL α} {t : PT α} (h : baseCase L = some t) : Good L t := by
  unfold baseCase at h
  split at h
  · rename_i hk
    cases h
    refine ⟨by simp [hk], by simp [Lang.eps], by simp [PT.labels], by simp [PT.labels, Occ, hk], .leaf _, .leaf _⟩
  · rename_i hk
    cases h
    refine ⟨by simp [hk, Lang.eps], by simp [Lang.eps], by simp [PT.labels], by simp [PT.labels, Occ, hk], .leaf _, .leaf _⟩
  · rename_i a hk
    cases h
    refine ⟨by simp [hk], ?_, by simp [PT.labels], by simp [PT.labels, Occ, hk], .leaf _, .leaf _⟩
    intro e; subst e; simp [keys] at hk
  · cases h

theorem im_good {env : Env α} (henv : env.Lawful) (L : UVCL α) :
    (keys L).Nodup → (sizeA L : Int) ≤ maxsize → ∃ n t, im env n L = some t ∧ Good L t := by
  refine smaller_wf.induction (C := fun L => (keys L).Nodup → (sizeA L : Int) ≤ maxsize →
    ∃ n t, im env n L = some t ∧ Good L t) L ?_
  intro L ih hn hsz
  have hrec : ∀ op logs, StepOK L op logs → L ≠ [] → (op.isSome = true → ∃ a, Occ L a) →
      ∃ n t, recurse (im env n) (.node op logs) = some t ∧ Good L t := by
    intro op logs hs hL hO
    refine recurse_good env hL hs hO fun l hl => ih l (hs.dec l hl) (hs.nodup l hl) ?_
    have := (hs.dec l hl).le
    omega
  cases he : emptyTraces L with
  | some r =>
    obtain ⟨op, logs, rfl, hs⟩ := emptyTraces_ok hn he
    have hL : L ≠ [] := by
      intro e; subst e; simp [emptyTraces] at he
    have hO : op.isSome = true → ∃ a, Occ L a := by
      intro ho
      unfold emptyTraces at he
      split at he
      · simp only [] at he
        split at he
        · rename_i hl
          have hk : 0 < (keys (Dict.del L [])).length := by rw [keys_length]; exact hl
          obtain ⟨t, ht⟩ := List.exists_mem_of_length_pos hk
          have := (keys_del _ _ _).1 ht
          cases t with
          | nil => exact absurd rfl this.1
          | cons a t => exact ⟨a, _, this.2, by simp⟩
        · simp only [Option.some.injEq, Step.node.injEq] at he
          rw [← he.1] at ho; cases ho
      · cases he
    obtain ⟨n, t, h1, h2⟩ := hrec op logs hs hL hO
    refine ⟨n + 1, t, ?_, h2⟩
    unfold im; rw [he]; exact h1
  | none =>
    cases hb : baseCase L with
    | some t =>
      refine ⟨1, t, ?_, baseCase_good hb⟩
      unfold im; rw [he]; simp only []; rw [hb]
    | none =>
      obtain ⟨op, logs, hc, hs⟩ := cutOrFall_ok henv hn hsz he hb
      have hL : L ≠ [] := by
        intro e; subst e; simp [baseCase] at hb
      have hO : op.isSome = true → ∃ a, Occ L a := by
        intro _
        cases hk : keys L with
        | nil => unfold baseCase at hb; rw [hk] at hb; cases hb
        | cons w ws =>
          cases w with
          | nil =>
            unfold emptyTraces at he
            rw [hk] at he
            simp at he
            split at he <;> cases he
          | cons a w => exact ⟨a, a :: w, by rw [hk]; exact List.mem_cons_self, List.mem_cons_self⟩
      obtain ⟨n, t, h1, h2⟩ := hrec op logs hs hL hO
      refine ⟨n + 1, t, ?_, h2⟩
      unfold im; rw [he]; simp only []; rw [hb]; simp only []; rw [hc]; exact h1

/-- a result of `fold` does not depend on the fuel -/
theorem fold_mono (sz : α → Nat) (n : Nat) : ∀ t t' : PT α, PT.fold sz n t = some t' → PT.fold sz (n + 1) t = some t' := by
  induction n with
  | zero => intro t t' h; cases h
  | succ n ih =>
    intro t t' h
    unfold PT.fold at h ⊢
    split at h
    · cases h
    · rename_i t1 b h1
      simp only [] at h ⊢
      split at h
      · cases h
      · rename_i t4 h4
        have h4' : (if strLen sz (reduceTau (stripRoot t1)) ≠ strLen sz (stripRoot t1) then
            PT.fold sz (n + 1) (reduceTau (stripRoot t1)) else some (reduceTau (stripRoot t1))) = some t4 := by
          split at h4
          · rename_i hc; rw [if_pos hc]; exact ih _ _ h4
          · rename_i hc; rw [if_neg hc]; exact h4
        rw [h4']
        simp only []
        split at h
        · cases h
        · rename_i t5 same h5
          split at h
          · rename_i hc; rw [if_pos hc]; exact ih _ _ h
          · rename_i hc; rw [if_neg hc]; exact h

theorem fold_mono_le (sz : α → Nat) {n m : Nat} (hnm : n ≤ m) {t t' : PT α} (h : PT.fold sz n t = some t') :
    PT.fold sz m t = some t' := by
  induction hnm with
  | refl => exact h
  | step _ ih => exact fold_mono sz _ _ _ ih

theorem discover_mono_le (env : Env α) (h sz : α → Nat) {n m : Nat} (hnm : n ≤ m) {log : List (List α)} {t : PT α}
    (ht : discover env h sz n log = some t) : discover env h sz m log = some t := by
  unfold discover at ht ⊢
  split at ht
  · cases ht
  · rename_i t0 h0
    rw [im_mono_le env hnm h0]
    simp only []
    rw [Option.map_eq_some_iff] at ht ⊢
    obtain ⟨t1, h1, h2⟩ := ht
    exact ⟨t1, fold_mono_le sz hnm h1, h2⟩

/-- the number of different activities of the log fits into a machine word -/
def SmallAlphabet (log : List (List α)) : Prop := ((dedup log.flatten).length : Int) ≤ maxsize

theorem discover_good {env : Env α} (henv : env.Lawful) (h sz : α → Nat) (log : List (List α)) (hsz : SmallAlphabet log) :
    ∃ n t, discover env h sz n log = some t ∧ (∀ w ∈ log, t.lang w) ∧ t.labels.Perm (dedup log.flatten) := by
  have hocc : ∀ a, Occ (ofList log) a ↔ a ∈ log.flatten := by
    intro a
    unfold Occ
    simp [List.mem_flatten]
  have hA : (sizeA (ofList log) : Int) ≤ maxsize := by
    have : sizeA (ofList log) ≤ (dedup log.flatten).length :=
      length_le_of_subset (nodup_alph _) fun a ha => by
        rw [mem_alph, hocc] at ha; simpa using ha
    have h2 := hsz
    unfold SmallAlphabet at h2
    omega
  obtain ⟨n, t, ht, hg⟩ := im_good henv (ofList log) (nodup_ofList log) hA
  obtain ⟨t', hf, hl, hlab, hwf, _⟩ := C10_fold sz t hg.wf (strLen sz t + 1) (by omega)
  refine ⟨max n (strLen sz t + 1), treeSort h t', ?_, ?_, ?_⟩
  · unfold discover
    rw [im_mono_le env (Nat.le_max_left _ _) ht]
    simp only []
    rw [fold_mono_le sz (Nat.le_max_right _ _) hf]; rfl
  · intro w hw
    exact ((C10_tree_sort h t').1 w).2 ((hl w).2 (hg.fit w (by simpa using hw)))
  · refine (C10_tree_sort h t').2.trans ?_
    rw [hlab]
    refine (List.perm_ext_iff_of_nodup hg.nodup (nodup_dedup _)).2 fun a => ?_
    rw [hg.labels, hocc]
    simp

/-- the discovered tree has children below every operator, and a visible leaf -/
theorem discover_vis {env : Env α} (henv : env.Lawful) (h sz : α → Nat) (log : List (List α)) (hsz : SmallAlphabet log) :
    ∃ n t, discover env h sz n log = some t ∧ WF t ∧ Vis t := by
  have hocc : ∀ a, Occ (ofList log) a ↔ a ∈ log.flatten := by
    intro a
    unfold Occ
    simp [List.mem_flatten]
  have hA : (sizeA (ofList log) : Int) ≤ maxsize := by
    have : sizeA (ofList log) ≤ (dedup log.flatten).length :=
      length_le_of_subset (nodup_alph _) fun a ha => by
        rw [mem_alph, hocc] at ha; simpa using ha
    have h2 := hsz
    unfold SmallAlphabet at h2
    omega
  obtain ⟨n, t, ht, hg⟩ := im_good henv (ofList log) (nodup_ofList log) hA
  obtain ⟨t', hf, hl, hlab, hwf, _⟩ := C10_fold sz t hg.wf (strLen sz t + 1) (by omega)
  refine ⟨max n (strLen sz t + 1), treeSort h t', ?_, treeSort_wf h t' hwf, treeSort_vis h t' (fold_vis sz _ t t' hg.wf hg.vis hf)⟩
  unfold discover
  rw [im_mono_le env (Nat.le_max_left _ _) ht]
  simp only []
  rw [fold_mono_le sz (Nat.le_max_right _ _) hf]; rfl

/-- the discovered tree is a sorted reduced tree -/
theorem discover_reduced {env : Env α} (henv : env.Lawful) (h sz : α → Nat) (log : List (List α)) (hsz : SmallAlphabet log) :
    ∃ n t, discover env h sz n log = some (treeSort h t) ∧ Reduced t := by
  have hocc : ∀ a, Occ (ofList log) a ↔ a ∈ log.flatten := by
    intro a
    unfold Occ
    simp [List.mem_flatten]
  have hA : (sizeA (ofList log) : Int) ≤ maxsize := by
    have : sizeA (ofList log) ≤ (dedup log.flatten).length :=
      length_le_of_subset (nodup_alph _) fun a ha => by
        rw [mem_alph, hocc] at ha; simpa using ha
    have h2 := hsz
    unfold SmallAlphabet at h2
    omega
  obtain ⟨n, t, ht, hg⟩ := im_good henv (ofList log) (nodup_ofList log) hA
  obtain ⟨t', hf, _, _, _, hred⟩ := C10_fold sz t hg.wf (strLen sz t + 1) (by omega)
  refine ⟨max n (strLen sz t + 1), t', ?_, hred⟩
  unfold discover
  rw [im_mono_le env (Nat.le_max_left _ _) ht]
  simp only []
  rw [fold_mono_le sz (Nat.le_max_right _ _) hf]; rfl

end IM

variable {α : Type} [DecidableEq α]

/-- C08: `discover_process_tree_inductive` terminates normally on every log: there is a tree that is the result for
every sufficiently large bound on the recursion depth. -/
theorem C08_terminates {env : Env α} (henv : env.Lawful) (h sz : α → Nat) (log : List (List α)) (hsz : SmallAlphabet log) :
    ∃ t N, ∀ n, N ≤ n → discover env h sz n log = some t := by
  obtain ⟨n, t, ht, _⟩ := discover_good henv h sz log hsz
  exact ⟨t, n, fun m hm => discover_mono_le env h sz hm ht⟩

/-- the result is the same for all recursion bounds for which there is one -/
theorem C08_deterministic (env : Env α) (h sz : α → Nat) (log : List (List α)) (n m : Nat) (t t' : PT α)
    (h1 : discover env h sz n log = some t) (h2 : discover env h sz m log = some t') : t = t' := by
  have e1 := discover_mono_le env h sz (Nat.le_max_left n m) h1
  have e2 := discover_mono_le env h sz (Nat.le_max_right n m) h2
  rw [e1] at e2; exact Option.some.inj e2

/-- C07: the discovered tree accepts every trace of the log. -/
theorem C07_fitness {env : Env α} (henv : env.Lawful) (h sz : α → Nat) (log : List (List α)) (hsz : SmallAlphabet log)
    (n : Nat) (t : PT α) (ht : discover env h sz n log = some t) : ∀ w ∈ log, t.lang w := by
  obtain ⟨m, t', h1, h2, _⟩ := discover_good henv h sz log hsz
  rw [C08_deterministic env h sz log n m t t' ht h1]; exact h2

/-- C09: every activity of the log is the label of exactly one leaf of the discovered tree, and there are no other
labels. -/
theorem C09_labels {env : Env α} (henv : env.Lawful) (h sz : α → Nat) (log : List (List α)) (hsz : SmallAlphabet log)
    (n : Nat) (t : PT α) (ht : discover env h sz n log = some t) :
    t.labels.Nodup ∧ ∀ a, a ∈ t.labels ↔ ∃ w ∈ log, a ∈ w := by
  obtain ⟨m, t', h1, _, h3⟩ := discover_good henv h sz log hsz
  rw [C08_deterministic env h sz log n m t t' ht h1]
  refine ⟨h3.nodup_iff.2 (nodup_dedup _), fun a => ?_⟩
  rw [h3.mem_iff]
  simp [List.mem_flatten]

/-! ### the hypotheses can be met -/

/-- insertion order for sets and for `sorted`, sequential search for a candidate, the default parameters -/
def exampleEnv : Env Nat := ⟨dedup, id, List.head?, true, true⟩

theorem exampleEnv_lawful : exampleEnv.Lawful :=
  ⟨fun l a => by simp [exampleEnv], fun l => nodup_dedup l, fun l => List.Perm.refl _,
    fun l a h => List.mem_of_mem_head? h, fun l h => List.head?_eq_none_iff.1 h⟩

/-- a log with an empty trace, a choice, concurrency and a loop -/
def exampleLog : List (List Nat) := [[], [1, 2, 3, 4], [1, 3, 2, 4], [1, 2, 3, 5, 3, 2, 4], [6], [6]]

example : SmallAlphabet exampleLog := by unfold SmallAlphabet; decide

example (h sz : Nat → Nat) : ∃ t N, (∀ n, N ≤ n → discover exampleEnv h sz n exampleLog = some t) ∧
    t.lang [1, 2, 3, 5, 3, 2, 4] ∧ t.lang [] := by
  have hs : SmallAlphabet exampleLog := by unfold SmallAlphabet; decide
  obtain ⟨t, N, ht⟩ := C08_terminates exampleEnv_lawful h sz exampleLog hs
  have := C07_fitness exampleEnv_lawful h sz exampleLog hs N t (ht N (Nat.le_refl _))
  exact ⟨t, N, ht, this _ (by simp [exampleLog]), this _ (by simp [exampleLog])⟩

end Verif
