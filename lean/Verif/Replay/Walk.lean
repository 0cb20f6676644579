import Verif.Replay.Tokens
import Verif.Petri.PlayoutTheorems
set_option linter.unusedSectionVars false
/-
Walking over hidden transitions only fires enabled transitions that occur in the table of paths.
-/
namespace Verif
open Dict
namespace Replay
variable {P T A : Type} [DecidableEq P] [DecidableEq T] [DecidableEq A]

/-! ### Firing sequences -/

theorem fseq_nil (net : Net P T) (m : Marking P) : net.FiringSequence m [] m := rfl

theorem fseq_append {net : Net P T} {m1 m2 m3 : Marking P} {u v : List T} (h1 : net.FiringSequence m1 u m2)
    (h2 : net.FiringSequence m2 v m3) : net.FiringSequence m1 (u ++ v) m3 := by
  unfold Net.FiringSequence at *
  rw [List.foldlM_append, h1]; exact h2

theorem fseq_single {net : Net P T} {m m' : Marking P} {t : T} (h : net.execute t m = some m') :
    net.FiringSequence m [t] m' := by
  simp [Net.FiringSequence, List.foldlM_cons, h]

theorem fseq_cons {net : Net P T} {m m' : Marking P} {t : T} {ts : List T} (h : net.FiringSequence m (t :: ts) m') :
    ∃ m1, net.execute t m = some m1 ∧ net.FiringSequence m1 ts m' := by
  simp only [Net.FiringSequence, List.foldlM_cons, Option.bind_eq_bind, Option.bind_eq_some_iff] at h
  exact h

theorem execute_of_enabled {net : Net P T} {t : T} {m : Marking P} (h : net.isEnabled t m = true) :
    net.execute t m = some ((net.execute t m).getD m) := by
  unfold Net.execute; simp [h]

theorem fseq_pos {net : Net P T} (hs : net.Simple) {m m' : Marking P} {ts : List T} (h : net.FiringSequence m ts m') (hm : Pos m) :
    Pos m' := by
  induction ts generalizing m with
  | nil => simp [Net.FiringSequence] at h; exact h ▸ hm
  | cons t ts ih =>
    obtain ⟨m1, h1, h2⟩ := fseq_cons h
    exact ih h2 (Net.execute_pos hs hm h1)

theorem fseq_tokens {net : Net P T} {m m' : Marking P} {ts : List T} (h : net.FiringSequence m ts m') (hm : (keys m).Nodup) :
    (keys m').Nodup ∧ tokens m' = tokens m - (ts.map (consumedTokens net)).sum + (ts.map (producedTokens net)).sum := by
  induction ts generalizing m with
  | nil => simp [Net.FiringSequence] at h; exact h ▸ ⟨hm, by simp⟩
  | cons t ts ih =>
    obtain ⟨m1, h1, h2⟩ := fseq_cons h
    obtain ⟨h3, h4⟩ := execute_tokens hm h1
    obtain ⟨h5, h6⟩ := ih h2 h3
    refine ⟨h5, ?_⟩
    simp only [List.map_cons, List.sum_cons]
    omega

theorem fseq_mem {net : Net P T} {m m' : Marking P} {ts : List T} (h : net.FiringSequence m ts m') : ∀ t ∈ ts, t ∈ net.transitions := by
  induction ts generalizing m with
  | nil => simp
  | cons t ts ih =>
    obtain ⟨m1, h1, h2⟩ := fseq_cons h
    intro u hu
    rcases List.mem_cons.1 hu with rfl | hu
    · exact ((Net.isEnabled_iff _ _ _).1 ((Net.execute_some_iff _ _ _ _).1 h1).1).1
    · exact ih h2 u hu

/-! ### Sorting -/

theorem mem_ins {X : Type} (le : X → X → Bool) (x y : X) (l : List X) : y ∈ sortBy.ins le x l ↔ y = x ∨ y ∈ l := by
  induction l with
  | nil => simp [sortBy.ins]
  | cons z zs ih =>
    unfold sortBy.ins
    split
    · simp
    · simp only [List.mem_cons, ih]; grind

theorem mem_sortBy {X : Type} (le : X → X → Bool) (y : X) (l : List X) : y ∈ sortBy le l ↔ y ∈ l := by
  induction l with
  | nil => simp [sortBy]
  | cons z zs ih => simp only [sortBy, mem_ins, ih, List.mem_cons]

/-- a transition of a path in the table -/
def OnPath (e : Env P T A) (t : T) : Prop := ∃ p1 p2 l, e.paths p1 p2 = some l ∧ t ∈ l

theorem hiddenGroups_onPath (e : Env P T A) (m : Marking P) (tg : List P) (g : List T) (hg : g ∈ hiddenGroups e m tg) :
    ∀ t ∈ g, OnPath e t := by
  intro t ht
  unfold hiddenGroups at hg
  rw [mem_sortBy] at hg
  obtain ⟨p1, _, h⟩ := List.mem_flatMap.1 hg
  obtain ⟨p2, _, h⟩ := List.mem_filterMap.1 h
  exact ⟨p1, p2, g, h, ht⟩

/-! ### The walk -/

/-- `s'` is `s` after firing a sequence of transitions of the table -/
def HExt (e : Env P T A) (s s' : HState P T) : Prop :=
  ∃ new, s'.act = s.act ++ new ∧ e.net.FiringSequence s.marking new s'.marking ∧ ∀ t ∈ new, OnPath e t

theorem HExt.refl (e : Env P T A) (s : HState P T) : HExt e s s := ⟨[], by simp, fseq_nil _ _, by simp⟩

theorem HExt.trans {e : Env P T A} {s1 s2 s3 : HState P T} (h1 : HExt e s1 s2) (h2 : HExt e s2 s3) : HExt e s1 s3 := by
  obtain ⟨n1, a1, f1, p1⟩ := h1
  obtain ⟨n2, a2, f2, p2⟩ := h2
  refine ⟨n1 ++ n2, by rw [a2, a1, List.append_assoc], fseq_append f1 f2, ?_⟩
  intro t ht
  rcases List.mem_append.1 ht with h | h
  · exact p1 t h
  · exact p2 t h

theorem HExt.fire {e : Env P T A} (s : HState P T) {t : T} (h : e.net.isEnabled t s.marking = true) (ht : OnPath e t) :
    HExt e s (s.fire e.net t) :=
  ⟨[t], rfl, fseq_single (execute_of_enabled h), by simpa using ht⟩

theorem runGroup_ext (e : Env P T A) (t : T) (g : List T) (hg : ∀ t ∈ g, OnPath e t) (s : HState P T) (ch : Bool) (n : Nat) :
    HExt e s (runGroup e.net t g s ch n).1 := by
  induction g generalizing s ch n with
  | nil => exact HExt.refl e s
  | cons t3 rest ih =>
    unfold runGroup
    simp only
    have hstep : HExt e s (if (decide (t3 ≠ t) && e.net.isEnabled t3 s.marking && decide (t3 ∉ s.visited)) = true
        then s.fire e.net t3 else s) := by
      split
      · next h =>
        simp only [Bool.and_eq_true] at h
        exact HExt.fire s h.1.2 (hg t3 (by simp))
      · exact HExt.refl e s
    generalize (if (decide (t3 ≠ t) && e.net.isEnabled t3 s.marking && decide (t3 ∉ s.visited)) = true
        then s.fire e.net t3 else s) = s' at hstep ⊢
    split
    · exact hstep
    · exact hstep.trans (ih (fun u hu => hg u (by simp [hu])) _ _ _)

theorem enableHidden_ext (e : Env P T A) (t : T) (groups : List (List T)) (hg : ∀ g ∈ groups, ∀ t ∈ g, OnPath e t) (fuel z : Nat)
    (j : List Nat) (s : HState P T) : HExt e s (enableHidden e.net t groups fuel z j s) := by
  induction fuel generalizing z j s with
  | zero => exact HExt.refl e s
  | succ n ih =>
    unfold enableHidden
    simp only
    have hstep := runGroup_ext e t ((groups.getD (z % groups.length) []).drop (j.getD (z % groups.length) 0)) (by
      intro u hu
      have hu := List.mem_of_mem_drop hu
      rw [List.getD_eq_getElem?_getD] at hu
      cases h : groups[z % groups.length]? with
      | none => simp [h] at hu
      | some g =>
        simp only [h, Option.getD_some] at hu
        exact hg g (List.mem_of_getElem? h) u hu) s false 0
    split
    · exact hstep
    · split
      · exact hstep.trans (ih _ _ _)
      · exact hstep

theorem foldl_ext {X : Type} (e : Env P T A) (f : HState P T → X → HState P T) (l : List X)
    (hf : ∀ s, ∀ x ∈ l, HExt e s (f s x)) (s : HState P T) : HExt e s (l.foldl f s) := by
  induction l generalizing s with
  | nil => exact HExt.refl e s
  | cons x xs ih => exact (hf s x (by simp)).trans (ih (fun s y hy => hf s y (by simp [hy])) _)

theorem applyHidden_ext (e : Env P T A) (d : Nat) (t : T) (s : HState P T) : HExt e s (applyHidden e d t s) := by
  induction d generalizing t s with
  | zero => exact HExt.refl e s
  | succ d ih =>
    unfold applyHidden
    simp only
    split
    · exact HExt.refl e s
    · split
      · exact ⟨[], by simp, fseq_nil _ _, by simp⟩
      · have h1 : HExt e s (enableHidden e.net t (hiddenGroups e s.marking (placesWithMissing e.net t s.marking)) 10000000 0
            ((hiddenGroups e s.marking (placesWithMissing e.net t s.marking)).map fun _ => 0)
            { s with visited := t :: s.visited }) :=
          enableHidden_ext e t _ (fun g hg => hiddenGroups_onPath e _ _ g hg) 10000000 0 _ { s with visited := t :: s.visited }
        generalize enableHidden e.net t (hiddenGroups e s.marking (placesWithMissing e.net t s.marking)) 10000000 0
            ((hiddenGroups e s.marking (placesWithMissing e.net t s.marking)).map fun _ => 0)
            { s with visited := t :: s.visited } = s1 at h1 ⊢
        have h2 : HExt e s1 (if e.net.isEnabled t s1.marking = true then s1
          else (hiddenGroups e s1.marking (placesWithMissing e.net t s.marking)).flatten.foldl (enableOne e.net (applyHidden e d) t) s1) := by
          split
          · exact HExt.refl e s1
          · apply foldl_ext
            intro s' t4 ht4
            obtain ⟨g, hg, ht4⟩ := List.mem_flatten.1 ht4
            have hon := hiddenGroups_onPath e _ _ g hg t4 ht4
            unfold enableOne
            split
            · have h3 : HExt e s' (if e.net.isEnabled t4 s'.marking = true then s' else applyHidden e d t4 s') := by
                split
                · exact HExt.refl e s'
                · exact ih t4 s'
              simp only
              generalize (if e.net.isEnabled t4 s'.marking = true then s' else applyHidden e d t4 s') = s3 at h3
              split
              · next h => exact h3.trans (HExt.fire s3 h hon)
              · exact h3
            · exact HExt.refl e s'
        generalize (if e.net.isEnabled t s1.marking = true then s1
          else (hiddenGroups e s1.marking (placesWithMissing e.net t s.marking)).flatten.foldl (enableOne e.net (applyHidden e d) t) s1) = s2 at h2 ⊢
        split
        · exact h1.trans h2
        · split
          · exact h1.trans h2
          · exact (h1.trans h2).trans (ih t s2)

/-! ### Fired hidden transitions in the replay -/

/-- `s'` is `s` after firing a sequence of transitions of the table and counting their tokens -/
def RExt (e : Env P T A) (s s' : RState P T A) : Prop :=
  ∃ new, s'.act = s.act ++ new ∧ e.net.FiringSequence s.marking new s'.marking ∧ (∀ t ∈ new, OnPath e t) ∧
    s'.consumed = s.consumed + (new.map (consumedTokens e.net)).sum ∧ s'.produced = s.produced + (new.map (producedTokens e.net)).sum ∧
    s'.missing = s.missing ∧ s'.problems = s.problems ∧ s'.notExisting = s.notExisting ∧ s'.stopped = s.stopped

theorem RExt.refl (e : Env P T A) (s : RState P T A) : RExt e s s := ⟨[], by simp, fseq_nil _ _, by simp, by simp, by simp, rfl, rfl, rfl, rfl⟩

theorem RExt.trans {e : Env P T A} {s1 s2 s3 : RState P T A} (h1 : RExt e s1 s2) (h2 : RExt e s2 s3) : RExt e s1 s3 := by
  obtain ⟨n1, a1, f1, p1, c1, q1, m1, b1, x1, y1⟩ := h1
  obtain ⟨n2, a2, f2, p2, c2, q2, m2, b2, x2, y2⟩ := h2
  refine ⟨n1 ++ n2, by rw [a2, a1, List.append_assoc], fseq_append f1 f2, ?_, ?_, ?_, by rw [m2, m1], by rw [b2, b1], by rw [x2, x1], by rw [y2, y1]⟩
  · intro t ht
    rcases List.mem_append.1 ht with h | h
    · exact p1 t h
    · exact p2 t h
  · rw [List.map_append, List.sum_append, c2, c1]; omega
  · rw [List.map_append, List.sum_append, q2, q1]; omega

theorem RExt.fire {e : Env P T A} (s : RState P T A) {t : T} (h : e.net.isEnabled t s.marking = true) (ht : OnPath e t) :
    RExt e s (s.fire e.net t) :=
  ⟨[t], rfl, fseq_single (execute_of_enabled h), by simpa using ht, by simp [RState.fire], by simp [RState.fire], rfl, rfl, rfl, rfl⟩

theorem walk_ext (e : Env P T A) (t : T) (s : RState P T A) : RExt e s (walk e t s) := by
  unfold walk
  split
  · obtain ⟨new, ha, hf, hp⟩ := applyHidden_ext e 2 t { marking := s.marking, act := s.act, visited := [] }
    have hd : (applyHidden e 2 t { marking := s.marking, act := s.act, visited := [] }).act.drop s.act.length = new := by
      rw [ha]; simp
    refine ⟨new, ha, hf, hp, ?_, ?_, rfl, rfl, rfl, rfl⟩
    · simp only [hd]; rw [foldl_add_sum]
    · simp only [hd]; rw [foldl_add_sum]
  · exact RExt.refl e s

theorem fireGroup_ext (e : Env P T A) (g : List T) (hg : ∀ t ∈ g, OnPath e t) (s : RState P T A) : RExt e s (fireGroup e s g) := by
  unfold fireGroup
  induction g generalizing s with
  | nil => exact RExt.refl e s
  | cons t ts ih =>
    simp only [List.foldl_cons]
    have hstep : RExt e s (if e.net.isEnabled t s.marking = true then s.fire e.net t else s) := by
      split
      · next h => exact RExt.fire s h (hg t (by simp))
      · exact RExt.refl e s
    exact hstep.trans (ih (fun u hu => hg u (by simp [hu])) _)

theorem final1Groups_ext (e : Env P T A) (gs : List (List T)) (hg : ∀ g ∈ gs, ∀ t ∈ g, OnPath e t) (s : RState P T A) :
    RExt e s (final1Groups e gs s) := by
  induction gs generalizing s with
  | nil => exact RExt.refl e s
  | cons g gs ih =>
    unfold final1Groups
    simp only
    have h := fireGroup_ext e g (hg g (by simp)) s
    split
    · exact h
    · exact h.trans (ih (fun g hg' => hg g (by simp [hg'])) _)

theorem final1_ext (e : Env P T A) (n : Nat) (s : RState P T A) : RExt e s (final1 e n s) := by
  induction n generalizing s with
  | zero => exact RExt.refl e s
  | succ n ih =>
    unfold final1
    split
    · exact RExt.refl e s
    · exact (final1Groups_ext e _ (fun g hg => hiddenGroups_onPath e _ _ g hg) s).trans (ih _)

theorem firePath_ext (e : Env P T A) (g : List T) (hg : ∀ t ∈ g, OnPath e t) (s : RState P T A) : RExt e s (firePath e g s) := by
  induction g generalizing s with
  | nil => exact RExt.refl e s
  | cons t ts ih =>
    unfold firePath
    split
    · next h => exact (RExt.fire s h (hg t (by simp))).trans (ih (fun u hu => hg u (by simp [hu])) _)
    · exact RExt.refl e s

theorem foldl_rext {X : Type} (e : Env P T A) (f : RState P T A → X → RState P T A) (l : List X)
    (hf : ∀ s, ∀ x ∈ l, RExt e s (f s x)) (s : RState P T A) : RExt e s (l.foldl f s) := by
  induction l generalizing s with
  | nil => exact RExt.refl e s
  | cons x xs ih => exact (hf s x (by simp)).trans (ih (fun s y hy => hf s y (by simp [hy])) _)

theorem final2_ext (e : Env P T A) (s : RState P T A) : RExt e s (final2 e s) := by
  unfold final2
  split
  · exact RExt.refl e s
  · split
    · next x _ =>
      apply foldl_rext
      intro s' _ _
      apply foldl_rext
      intro s'' g hg
      rw [mem_sortBy] at hg
      obtain ⟨p, _, hp⟩ := List.mem_filterMap.1 hg
      exact firePath_ext e g (fun t ht => ⟨p, x.1, g, hp, ht⟩) s''
    · exact RExt.refl e s

theorem final_ext (e : Env P T A) (s : RState P T A) : RExt e s (if e.tryFinal = true then final2 e (final1 e 5 s) else s) := by
  split
  · exact (final1_ext e 5 s).trans (final2_ext e _)
  · exact RExt.refl e s

end Replay
end Verif
