import Verif.Replay.Theorems
import Verif.Common.Counter
set_option linter.unusedSectionVars false
/-
C26: token-based replay of a log and the fitness of a log.
-/
namespace Verif
open Dict Replay
variable {P T A : Type} [DecidableEq P] [DecidableEq T] [DecidableEq A]
namespace Replay

/-- the same state with another set of activities not in the model -/
def RState.ne (s : RState P T A) (x : List A) : RState P T A := { s with notExisting := x }

theorem fire_ne (net : Net P T) (s : RState P T A) (x : List A) (t : T) : (s.ne x).fire net t = (s.fire net t).ne x := rfl

theorem walk_ne (e : Env P T A) (t : T) (s : RState P T A) (x : List A) : walk e t (s.ne x) = (walk e t s).ne x := by
  unfold walk RState.ne
  simp only
  split <;> rfl

theorem fireEvent_ne (e : Env P T A) (t : T) (s : RState P T A) (x : List A) : fireEvent e t (s.ne x) = (fireEvent e t s).ne x := by
  unfold fireEvent RState.ne
  simp only
  split
  · rfl
  · split
    · rfl
    · split <;> rfl

theorem event_ne (e : Env P T A) (s : RState P T A) (x : List A) (a : A) : ∃ y, event e (s.ne x) a = (event e s a).ne y := by
  unfold event
  have h : (s.ne x).stopped = s.stopped := rfl
  rw [h]
  split
  · exact ⟨x, rfl⟩
  · cases transMap e a with
    | none => exact ⟨_, rfl⟩
    | some d =>
      have hm : (s.ne x).marking = s.marking := rfl
      simp only [hm]
      exact ⟨x, by rw [walk_ne, fireEvent_ne]⟩

theorem events_ne (e : Env P T A) (w : List A) (s : RState P T A) (x : List A) : ∃ y, w.foldl (event e) (s.ne x) = (w.foldl (event e) s).ne y := by
  induction w generalizing s x with
  | nil => exact ⟨x, rfl⟩
  | cons a w ih =>
    simp only [List.foldl_cons]
    obtain ⟨y, hy⟩ := event_ne e s x a
    rw [hy]
    exact ih _ _

theorem fireGroup_ne (e : Env P T A) (s : RState P T A) (x : List A) (g : List T) : fireGroup e (s.ne x) g = (fireGroup e s g).ne x := by
  unfold fireGroup
  induction g generalizing s with
  | nil => rfl
  | cons t g ih =>
    simp only [List.foldl_cons]
    have hm : (s.ne x).marking = s.marking := rfl
    rw [hm]
    split
    · exact ih (s.fire e.net t)
    · exact ih s

theorem final1Groups_ne (e : Env P T A) (gs : List (List T)) (s : RState P T A) (x : List A) :
    final1Groups e gs (s.ne x) = (final1Groups e gs s).ne x := by
  induction gs generalizing s with
  | nil => rfl
  | cons g gs ih =>
    unfold final1Groups
    simp only
    rw [fireGroup_ne]
    have hm : ((fireGroup e s g).ne x).marking = (fireGroup e s g).marking := rfl
    rw [hm]
    split
    · rfl
    · exact ih _

theorem final1_ne (e : Env P T A) (n : Nat) (s : RState P T A) (x : List A) : final1 e n (s.ne x) = (final1 e n s).ne x := by
  induction n generalizing s with
  | zero => rfl
  | succ n ih =>
    unfold final1
    have hm : (s.ne x).marking = s.marking := rfl
    rw [hm]
    split
    · rfl
    · rw [final1Groups_ne]; exact ih _

theorem firePath_ne (e : Env P T A) (g : List T) (s : RState P T A) (x : List A) : firePath e g (s.ne x) = (firePath e g s).ne x := by
  induction g generalizing s with
  | nil => rfl
  | cons t g ih =>
    unfold firePath
    have hm : (s.ne x).marking = s.marking := rfl
    rw [hm]
    split
    · rw [fire_ne]; exact ih _
    · rfl

theorem foldl_ne {X : Type} (f : RState P T A → X → RState P T A) (hf : ∀ s x y, f (RState.ne s x) y = (f s y).ne x) (l : List X)
    (s : RState P T A) (x : List A) : l.foldl f (s.ne x) = (l.foldl f s).ne x := by
  induction l generalizing s with
  | nil => rfl
  | cons y l ih => simp only [List.foldl_cons, hf]; exact ih _

theorem final2_ne (e : Env P T A) (s : RState P T A) (x : List A) : final2 e (s.ne x) = (final2 e s).ne x := by
  unfold final2
  have hm : (s.ne x).marking = s.marking := rfl
  rw [hm]
  split
  · rfl
  · split
    · simp only
      generalize sortBy _ _ = conns
      exact foldl_ne (fun s (_ : Nat) => conns.foldl (fun s g => firePath e g s) s)
        (fun s x y => foldl_ne (fun s g => firePath e g s) (fun s x g => firePath_ne e g s x) conns s x) _ s x
    · rfl

theorem replayed_ne (e : Env P T A) (ne w : List A) : ∃ y, replayed e ne w = (replayed e [] w).ne y := by
  unfold replayed
  obtain ⟨y, hy⟩ := events_ne e w (initState e []) ne
  have h0 : initState e ne = (initState e []).ne ne := rfl
  simp only
  rw [h0, hy]
  split
  · exact ⟨y, by rw [final1_ne, final2_ne]⟩
  · exact ⟨y, rfl⟩

/-- with activities outside the model ignored, a result does not depend on the traces replayed before -/
theorem applyTrace_ne (e : Env P T A) (hc : e.considerNotInModel = false) (ne w : List A) : (applyTrace e ne w).1 = (applyTrace e [] w).1 := by
  obtain ⟨y, hy⟩ := replayed_ne e ne w
  unfold applyTrace
  simp only
  rw [hy]
  simp only [hc, Bool.false_and, Bool.false_eq_true, if_false]
  rfl

/-! ### Variants -/

theorem variants_aux (l : List (List A × Nat)) (d : Dict (List A) (List Nat)) (w : List A) (i : Nat) :
    (∃ is, get? (l.foldl (fun d x => Dict.set d x.1 ((get? d x.1).getD [] ++ [x.2])) d) w = some is ∧ i ∈ is) ↔
      (∃ is, get? d w = some is ∧ i ∈ is) ∨ (w, i) ∈ l := by
  induction l generalizing d with
  | nil => simp
  | cons x l ih =>
    simp only [List.foldl_cons]
    rw [ih]
    rw [get?_set]
    obtain ⟨v, k⟩ := x
    by_cases hv : v = w
    · subst hv
      simp only [if_true, Option.some.injEq, exists_eq_left', List.mem_append, List.mem_singleton, List.mem_cons, Prod.mk.injEq, true_and]
      cases h : get? d v with
      | none => simp [h]
      | some is => simp [h, or_assoc]
    · simp only [hv, if_false, List.mem_cons, Prod.mk.injEq]
      have : ¬ w = v := fun h => hv h.symm
      simp [this]

theorem variants_nodup_aux (l : List (List A × Nat)) (d : Dict (List A) (List Nat)) (h : (keys d).Nodup) :
    (keys (l.foldl (fun d x => Dict.set d x.1 ((get? d x.1).getD [] ++ [x.2])) d)).Nodup := by
  induction l generalizing d with
  | nil => exact h
  | cons x l ih => exact ih _ (nodup_set h _ _)

theorem mem_variants (log : List (List A)) (w : List A) (is : List Nat) (h : (w, is) ∈ variants log) (i : Nat) :
    i ∈ is ↔ log[i]? = some w := by
  have hn : (keys (variants log)).Nodup := variants_nodup_aux _ _ (by simp)
  have hg := get?_of_mem_nodup hn h
  have := variants_aux log.zipIdx [] w i
  unfold variants at hg
  rw [hg] at this
  simp only [Option.some.injEq, exists_eq_left', get?_nil, reduceCtorEq, false_and, exists_false, false_or] at this
  rw [this, List.mem_zipIdx_iff_getElem?]

theorem exists_variants (log : List (List A)) (w : List A) (i : Nat) (h : log[i]? = some w) :
    ∃ is, (w, is) ∈ variants log ∧ i ∈ is := by
  have := (variants_aux log.zipIdx [] w i).2 (.inr (by rw [List.mem_zipIdx_iff_getElem?]; exact h))
  obtain ⟨is, h1, h2⟩ := this
  exact ⟨is, mem_of_get? h1, h2⟩

theorem set_results (is : List Nat) (r : Result P T) (d : Dict Nat (Result P T)) (i : Nat) :
    get? (is.foldl (fun d i => Dict.set d i r) d) i = if i ∈ is then some r else get? d i := by
  induction is generalizing d with
  | nil => simp
  | cons j is ih =>
    simp only [List.foldl_cons, ih, get?_set, List.mem_cons]
    by_cases h1 : i ∈ is
    · simp [h1]
    · by_cases h2 : j = i
      · simp [h2]
      · have : ¬ i = j := fun h => h2 h.symm
        simp [h1, h2, this]

theorem replayVariant_get (e : Env P T A) (hc : e.considerNotInModel = false) (dv : Bool) (st : Dict Nat (Result P T) × List A)
    (v : List A × List Nat) (i : Nat) :
    get? (replayVariant e dv st v).1 i = if i ∈ v.2 then some (applyTrace e [] v.1).1 else get? st.1 i := by
  unfold replayVariant
  split
  · suffices h : ∀ (is : List Nat) (st : Dict Nat (Result P T) × List A),
        (is.foldl (fun st i => let r := applyTrace e st.2 v.1; (Dict.set st.1 i r.1, r.2)) st).1 =
          is.foldl (fun d i => Dict.set d i (applyTrace e [] v.1).1) st.1 by
      rw [h, set_results]
    intro is
    induction is with
    | nil => intro st; rfl
    | cons j is ih =>
      intro st
      simp only [List.foldl_cons]
      rw [ih]
      simp only [applyTrace_ne e hc st.2 v.1]
  · simp only [set_results, applyTrace_ne e hc st.2 v.1]

open Classical in
theorem replayVariants_get (e : Env P T A) (hc : e.considerNotInModel = false) (dv : Bool) (log : List (List A)) (i : Nat) (w : List A)
    (hw : log[i]? = some w) (vs : List (List A × List Nat)) (hv : ∀ v ∈ vs, v ∈ variants log) (st : Dict Nat (Result P T) × List A) :
    get? (vs.foldl (replayVariant e dv) st).1 i =
      if ∃ is, (w, is) ∈ vs then some (applyTrace e [] w).1 else get? st.1 i := by
  induction vs generalizing st with
  | nil => simp
  | cons v vs ih =>
    simp only [List.foldl_cons]
    rw [ih (fun u hu => hv u (by simp [hu])), replayVariant_get e hc]
    obtain ⟨w', is'⟩ := v
    have hmem := mem_variants log w' is' (hv (w', is') (by simp)) i
    by_cases hex : ∃ is, (w, is) ∈ vs
    · obtain ⟨is, his⟩ := hex
      rw [if_pos ⟨is, his⟩, if_pos ⟨is, by simp [his]⟩]
    · rw [if_neg hex]
      by_cases hww : w' = w
      · subst hww
        rw [if_pos (hmem.2 hw), if_pos ⟨is', by simp⟩]
      · have hni : ¬ i ∈ is' := by
          rw [hmem, hw]; simp; exact fun h => hww h.symm
        rw [if_neg hni, if_neg]
        rintro ⟨is, his⟩
        rcases List.mem_cons.1 his with h | h
        · simp at h; exact hww h.1.symm
        · exact hex ⟨is, h⟩

end Replay

/-- Replaying a log gives, for every trace in the order of the log, the result of replaying that trace alone, whether or
not variants are grouped and however they are sorted. -/
theorem C26_log (e : Env P T A) (hc : e.considerNotInModel = false) (dv : Bool)
    (order : List (List A × List Nat) → List (List A × List Nat)) (ho : ∀ l, (order l).Perm l) (log : List (List A)) :
    applyLog e dv order log = log.map fun w => some (applyTrace e [] w).1 := by
  unfold applyLog
  apply List.ext_getElem?
  intro i
  simp only [List.getElem?_map]
  by_cases hi : i < log.length
  · rw [List.getElem?_range hi]
    have hw : log[i]? = some log[i] := List.getElem?_eq_getElem hi
    rw [hw]
    simp only [Option.map_some]
    rw [replayVariants_get e hc dv log i log[i] hw (order (variants log)) (fun v hv => (ho _).mem_iff.1 hv)]
    obtain ⟨is, h1, _⟩ := exists_variants log _ i hw
    rw [if_pos ⟨is, (ho _).mem_iff.2 h1⟩]
  · rw [List.getElem?_eq_none (by simp; omega), List.getElem?_eq_none (by omega)]; rfl

/-! ### Fitness of a log -/

theorem Replay.sum_bounds {X : Type} (l : List X) (f : X → Rat) (h : ∀ x ∈ l, 0 ≤ f x ∧ f x ≤ 1) :
    0 ≤ (l.map f).sum ∧ (l.map f).sum ≤ l.length := by
  induction l with
  | nil => simp
  | cons x xs ih =>
    have h1 := h x (by simp)
    have h2 := ih fun y hy => h y (by simp [hy])
    simp only [List.map_cons, List.sum_cons, List.length_cons, Nat.cast_add, Nat.cast_one]
    constructor <;> linarith

/-- The three figures of the fitness evaluation: the percentage lies between 0 and 100, average and log fitness between 0
and 1. -/
theorem C26_log_fitness_range (e : Env P T A) (he : Proper e) (hst : e.stopUnfit = false) (log : List (List A)) :
    let v := evaluate (log.map fun w => (applyTrace e [] w).1)
    (0 ≤ v.1 ∧ v.1 ≤ 100) ∧ (0 ≤ v.2.1 ∧ v.2.1 ≤ 1) ∧ (0 ≤ v.2.2 ∧ v.2.2 ≤ 1) := by
  intro v
  have hres : ∀ r ∈ log.map fun w => (applyTrace e [] w).1,
      (0 ≤ r.fitness ∧ r.fitness ≤ 1) ∧ 0 ≤ r.missing ∧ r.missing ≤ r.consumed ∧ 0 ≤ r.remaining ∧ r.remaining ≤ r.produced := by
    intro r hr
    obtain ⟨w, _, rfl⟩ := List.mem_map.1 hr
    obtain ⟨ad, h1, h2, h3, h4, h5, h6, h7⟩ := result_account he [] w
    exact ⟨C26_fitness_range e he hst [] w, h4, by have := (h7 hst).1; omega, h5, h6⟩
  have hv : v = evaluate (log.map fun w => (applyTrace e [] w).1) := rfl
  clear_value v
  subst hv
  generalize (log.map fun w => (applyTrace e [] w).1) = rs at hres
  unfold evaluate
  simp only
  split
  · next hpos =>
    simp only
    have hl : (0 : Rat) < rs.length := by exact_mod_cast hpos.1
    have hc : (0 : Rat) < ((rs.map (·.consumed)).sum : Int) := by exact_mod_cast hpos.2.1
    have hp : (0 : Rat) < ((rs.map (·.produced)).sum : Int) := by exact_mod_cast hpos.2.2
    have m0 : 0 ≤ (rs.map (·.missing)).sum := sum_nonneg' rs _ fun r hr => (hres r hr).2.1
    have m1 : (rs.map (·.missing)).sum ≤ (rs.map (·.consumed)).sum := sum_le' rs _ _ fun r hr => (hres r hr).2.2.1
    have r0 : 0 ≤ (rs.map (·.remaining)).sum := sum_nonneg' rs _ fun r hr => (hres r hr).2.2.2.1
    have r1 : (rs.map (·.remaining)).sum ≤ (rs.map (·.produced)).sum := sum_le' rs _ _ fun r hr => (hres r hr).2.2.2.2
    have hs := sum_bounds rs (·.fitness) fun r hr => (hres r hr).1
    have hfl : ((rs.filter (·.isFit)).length : Rat) ≤ rs.length := by exact_mod_cast List.length_filter_le _ _
    have q0 : (0 : Rat) ≤ ((rs.map (·.missing)).sum : Int) / ((rs.map (·.consumed)).sum : Int) := div_nonneg (by exact_mod_cast m0) hc.le
    have q1 : (((rs.map (·.missing)).sum : Int) : Rat) / ((rs.map (·.consumed)).sum : Int) ≤ 1 := by
      rw [div_le_one hc]; exact_mod_cast m1
    have q2 : (0 : Rat) ≤ ((rs.map (·.remaining)).sum : Int) / ((rs.map (·.produced)).sum : Int) := div_nonneg (by exact_mod_cast r0) hp.le
    have q3 : (((rs.map (·.remaining)).sum : Int) : Rat) / ((rs.map (·.produced)).sum : Int) ≤ 1 := by
      rw [div_le_one hp]; exact_mod_cast r1
    refine ⟨⟨by positivity, ?_⟩, ⟨div_nonneg hs.1 hl.le, ?_⟩, by linarith, by linarith⟩
    · rw [div_le_iff₀ hl]; linarith
    · rw [div_le_one hl]; exact hs.2
  · norm_num

/-- The log fitness is 1 exactly if no trace has missing or remaining tokens (for a log with traces and markings that are
not empty). -/
theorem C26_log_fitness_one (e : Env P T A) (he : Proper e) (hst : e.stopUnfit = false) (him : e.im ≠ []) (hfm : e.fm ≠ [])
    (log : List (List A)) (hlog : log ≠ []) :
    (evaluate (log.map fun w => (applyTrace e [] w).1)).2.2 = 1 ↔
      ∀ w ∈ log, (applyTrace e [] w).1.missing = 0 ∧ (applyTrace e [] w).1.remaining = 0 := by
  have hres : ∀ w, 0 ≤ (applyTrace e [] w).1.missing ∧ 0 ≤ (applyTrace e [] w).1.remaining ∧
      0 < (applyTrace e [] w).1.consumed ∧ 0 < (applyTrace e [] w).1.produced := by
    intro w
    obtain ⟨ad, h1, h2, h3, h4, h5, h6, h7⟩ := result_account he [] w
    obtain ⟨hc, hp⟩ := pos_counts e he hst him hfm [] w
    exact ⟨h4, h5, hc, hp⟩
  have pos_sum : ∀ (l : List (List A)) (f : List A → Int), l ≠ [] → (∀ w, 0 < f w) → 0 < (l.map f).sum := by
    intro l f hl hf
    obtain ⟨x, xs, rfl⟩ := List.exists_cons_of_ne_nil hl
    have := hf x
    have := sum_nonneg' xs f fun w _ => (hf w).le
    simp only [List.map_cons, List.sum_cons]; omega
  have hc := pos_sum log (fun w => (applyTrace e [] w).1.consumed) hlog fun w => (hres w).2.2.1
  have hp := pos_sum log (fun w => (applyTrace e [] w).1.produced) hlog fun w => (hres w).2.2.2
  have m0 := sum_nonneg' log (fun w => (applyTrace e [] w).1.missing) fun w _ => (hres w).1
  have r0 := sum_nonneg' log (fun w => (applyTrace e [] w).1.remaining) fun w _ => (hres w).2.1
  have hl : 0 < log.length := List.length_pos_iff.2 hlog
  unfold evaluate
  simp only [List.map_map, List.length_map]
  change (if 0 < log.length ∧ 0 < (log.map fun w => (applyTrace e [] w).1.consumed).sum ∧
      0 < (log.map fun w => (applyTrace e [] w).1.produced).sum then _ else _ : Rat × Rat × Rat).2.2 = 1 ↔ _
  rw [if_pos ⟨hl, hc, hp⟩]
  change (1/2 : Rat) * (1 - (((log.map fun w => (applyTrace e [] w).1.missing).sum : Int) : Rat) /
      (((log.map fun w => (applyTrace e [] w).1.consumed).sum : Int) : Rat)) +
    (1/2 : Rat) * (1 - (((log.map fun w => (applyTrace e [] w).1.remaining).sum : Int) : Rat) /
      (((log.map fun w => (applyTrace e [] w).1.produced).sum : Int) : Rat)) = 1 ↔ _
  have hcq : (0 : Rat) < (((log.map fun w => (applyTrace e [] w).1.consumed).sum : Int) : Rat) := by exact_mod_cast hc
  have hpq : (0 : Rat) < (((log.map fun w => (applyTrace e [] w).1.produced).sum : Int) : Rat) := by exact_mod_cast hp
  have q0 := div_nonneg (a := (((log.map fun w => (applyTrace e [] w).1.missing).sum : Int) : Rat)) (by exact_mod_cast m0) hcq.le
  have q1 := div_nonneg (a := (((log.map fun w => (applyTrace e [] w).1.remaining).sum : Int) : Rat)) (by exact_mod_cast r0) hpq.le
  constructor
  · intro h
    have hm := (div_eq_zero_iff.1 (by linarith : (((log.map fun w => (applyTrace e [] w).1.missing).sum : Int) : Rat) /
      (((log.map fun w => (applyTrace e [] w).1.consumed).sum : Int) : Rat) = 0)).resolve_right hcq.ne'
    have hr := (div_eq_zero_iff.1 (by linarith : (((log.map fun w => (applyTrace e [] w).1.remaining).sum : Int) : Rat) /
      (((log.map fun w => (applyTrace e [] w).1.produced).sum : Int) : Rat) = 0)).resolve_right hpq.ne'
    intro w hw
    exact ⟨sum_zero' log _ (fun w _ => (hres w).1) (by exact_mod_cast hm) w hw,
      sum_zero' log _ (fun w _ => (hres w).2.1) (by exact_mod_cast hr) w hw⟩
  · intro h
    have hm : (log.map fun w => (applyTrace e [] w).1.missing).sum = 0 := by
      rw [List.map_congr_left (g := fun _ => (0 : Int)) fun w hw => (h w hw).1]; simp
    have hr : (log.map fun w => (applyTrace e [] w).1.remaining).sum = 0 := by
      rw [List.map_congr_left (g := fun _ => (0 : Int)) fun w hw => (h w hw).2]; simp
    rw [hm, hr]; norm_num

end Verif
