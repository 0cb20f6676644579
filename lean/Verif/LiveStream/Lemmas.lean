import Verif.LiveStream.Spec
import Mathlib.Data.List.Perm.Basic
import Mathlib.Tactic.Linarith
set_option linter.unusedSectionVars false
namespace Verif
namespace LiveStream
variable {ω ε : Type} [DecidableEq ω]

theorem recv_append (o : ω) (l l' : List (ω × ε)) : recv o (l ++ l') = recv o l ++ recv o l' := by simp [recv]
theorem recv_nil (o : ω) : recv o ([] : List (ω × ε)) = [] := rfl
theorem recv_cons (o : ω) (t : ω × ε) (l : List (ω × ε)) : recv o (t :: l) = recv o [t] ++ recv o l := by
  rw [← recv_append]; rfl

theorem recv_obs (o : ω) (e : ε) : ∀ obs : List ω, obs.Nodup → recv o (obs.map fun x => (x, e)) = if o ∈ obs then [e] else [] := by
  intro obs
  induction obs with
  | nil => intro _; rfl
  | cons x xs ih =>
    intro h
    rw [List.nodup_cons] at h
    rw [List.map_cons, recv_cons, ih h.2]
    by_cases hx : x = o
    · subst hx; simp [recv, h.1]
    · have : ¬ o = x := fun h => hx h.symm
      simp [recv, hx, this]

theorem recv_eraseIdx (o : ω) (l : List (ω × ε)) (i : Nat) (t : ω × ε) (h : l[i]? = some t) :
    (recv o [t] ++ recv o (l.eraseIdx i)).Perm (recv o l) := by
  rw [← recv_append]
  unfold recv
  refine ((List.Perm.filter _ ?_).map _)
  rw [List.getElem?_eq_some_iff] at h
  obtain ⟨hi, rfl⟩ := h
  exact (List.getElem_cons_eraseIdx_perm hi)

/-! ### `notify` -/

theorem notify_dq (s : State ω ε) : (notify s).dq = s.dq := by unfold notify; split <;> rfl
theorem notify_phase (s : State ω ε) : (notify s).phase = s.phase := by unfold notify; split <;> rfl
theorem notify_queue (s : State ω ε) : (notify s).queue = s.queue := by unfold notify; split <;> rfl
theorem notify_running (s : State ω ε) : (notify s).running = s.running := by unfold notify; split <;> rfl
theorem notify_closed (s : State ω ε) : (notify s).closed = s.closed := by unfold notify; split <;> rfl
theorem notify_received (s : State ω ε) : (notify s).received = s.received := by unfold notify; split <;> rfl
theorem notify_accepted (s : State ω ε) : (notify s).accepted = s.accepted := by unfold notify; split <;> rfl
theorem notify_mail (s : State ω ε) : (notify s).mail = s.mail ∨ (notify s).mail = .ready := by
  unfold notify; split <;> simp
theorem notify_len (s : State ω ε) : (notify s).stops.length = s.stops.length := by unfold notify; split <;> simp
theorem notify_stops (s : State ω ε) (t : Stop) (h : t ∈ (notify s).stops) (ht : t ≠ .ready) : t ∈ s.stops := by
  unfold notify at h
  split at h
  · exact h
  · exact h
  · exact (List.mem_or_eq_of_mem_set h).resolve_right ht

theorem lockFree_iff (s : State ω ε) : lockFree s = true ↔ s.mail ≠ .crashed ∧ Stop.shutting ∉ s.stops := by
  unfold lockFree
  rw [Bool.and_eq_true, List.all_eq_true]
  constructor
  · rintro ⟨h1, h2⟩
    exact ⟨by simpa using h1, fun h => by simpa using h2 _ h⟩
  · rintro ⟨h1, h2⟩
    exact ⟨by simpa using h1, fun t ht => by
      rw [bne_iff_ne]; intro hh; rw [hh] at ht; exact h2 ht⟩

/-! ### bookkeeping -/

structure Inv (obs : List ω) (s : State ω ε) : Prop where
  acc : ∀ o ∈ obs, ∃ lost, (recv o s.received ++ (recv o s.running ++ (recv o s.queue ++ (lost ++ s.dq)))).Perm s.accepted ∧
    (s.mail ≠ .crashed → lost = [])
  mem : ∀ p, p ∈ s.received ∨ p ∈ s.running ∨ p ∈ s.queue → p.1 ∈ obs
  cr : s.mail = .crashed → s.phase ≠ .finished ∧ Stop.shutting ∉ s.stops
  sh : Stop.shutting ∈ s.stops → s.dq = []
  fin : s.phase = .finished → s.dq = [] ∧ s.queue = [] ∧ s.running = []

theorem Inv.init (obs : List ω) : Inv obs (init : State ω ε) where
  acc := by intro o _; exact ⟨[], by simp [LiveStream.init, recv]⟩
  mem := by simp [LiveStream.init]
  cr := by simp [LiveStream.init]
  sh := by simp [LiveStream.init]
  fin := by simp [LiveStream.init]

theorem Inv.step (n : Nat) (obs : List ω) (hobs : obs.Nodup) (s s' : State ω ε) (a : Act ε) (h : Inv obs s) (hs : step n obs s a = some s') :
    Inv obs s' := by
  cases a with
  | append e =>
    simp only [LiveStream.step, append] at hs
    split at hs
    case isFalse => simp at hs
    rename_i hl
    rw [lockFree_iff] at hl
    split at hs
    case isFalse => simp only [Option.some.injEq] at hs; exact hs ▸ h
    rename_i hp
    simp only [Option.some.injEq] at hs
    subst hs
    have hm : ∀ t : State ω ε, t.mail = s.mail → (notify t).mail ≠ .crashed := by
      intro t ht
      rcases notify_mail t with h1 | h1 <;> rw [h1]
      · rw [ht]; exact hl.1
      · simp
    refine ⟨?_, ?_, fun hc => absurd hc (hm _ rfl), fun hc => absurd (notify_stops _ _ hc (by simp)) hl.2, ?_⟩
    · intro o ho
      obtain ⟨lost, h1, h2⟩ := h.acc o ho
      have := h2 hl.1
      subst this
      refine ⟨[], ?_, fun _ => rfl⟩
      simp only [notify_received, notify_running, notify_queue, notify_dq, notify_accepted]
      simpa using h1.append_right [e]
    · intro p hp; simp only [notify_received, notify_running, notify_queue] at hp; exact h.mem p hp
    · rw [notify_phase]; intro hc; exact absurd hc hp
  | start =>
    simp only [LiveStream.step, start] at hs
    split at hs
    case isFalse => simp at hs
    rename_i hl
    rw [Bool.and_eq_true, lockFree_iff] at hl
    simp only [Option.some.injEq] at hs
    subst hs
    refine ⟨fun o ho => ?_, h.mem, by simp, h.sh, by simp⟩
    obtain ⟨lost, h1, h2⟩ := h.acc o ho
    exact ⟨lost, h1, fun _ => h2 hl.1.1⟩
  | deliver =>
    simp only [LiveStream.step, deliver] at hs
    split at hs
    case isFalse => simp at hs
    rename_i hl
    rw [Bool.and_eq_true, lockFree_iff] at hl
    split at hs
    · rename_i hd
      have key : ∀ m w, m ≠ Mail.crashed → Inv obs { (notify s) with mail := m, waiters := w } := by
        intro m w hm
        refine ⟨?_, ?_, fun hc => absurd hc hm, ?_, ?_⟩
        · intro o ho
          obtain ⟨lost, h1, h2⟩ := h.acc o ho
          have := h2 hl.1.1
          subst this
          refine ⟨[], ?_, fun _ => rfl⟩
          simpa only [notify_received, notify_running, notify_queue, notify_dq, notify_accepted] using h1
        · intro p hp; simp only [notify_received, notify_running, notify_queue] at hp; exact h.mem p hp
        · intro hc; simp only [notify_dq]; exact hd
        · simp only [notify_phase, notify_running, notify_queue, notify_dq]; exact h.fin
      split at hs <;> simp only [Option.some.injEq] at hs <;> subst hs <;> exact key _ _ (by simp)
    · rename_i e rest hd
      have hf : s.phase ≠ .finished := fun hc => by have := (h.fin hc).1; rw [hd] at this; simp at this
      split at hs <;> simp only [Option.some.injEq] at hs <;> subst hs
      · refine ⟨fun o ho => ?_, h.mem, fun _ => ⟨hf, hl.1.2⟩, fun hc => absurd hc hl.1.2, fun hc => absurd hc hf⟩
        obtain ⟨lost, h1, h2⟩ := h.acc o ho
        have := h2 hl.1.1
        subst this
        refine ⟨[e], ?_, fun hc => by simp at hc⟩
        rw [hd] at h1
        simpa using h1
      · refine ⟨fun o ho => ?_, ?_, fun hc => absurd hc hl.1.1, fun hc => absurd hc hl.1.2, fun hc => absurd hc hf⟩
        · obtain ⟨lost, h1, h2⟩ := h.acc o ho
          have := h2 hl.1.1
          subst this
          refine ⟨[], ?_, fun _ => rfl⟩
          simp only [recv_append, recv_obs o e obs hobs, if_pos ho]
          rw [hd] at h1
          simpa using h1
        · rintro p (hp | hp | hp)
          · exact h.mem p (.inl hp)
          · exact h.mem p (.inr (.inl hp))
          · rcases List.mem_append.1 hp with hp | hp
            · exact h.mem p (.inr (.inr hp))
            · obtain ⟨o, ho, rfl⟩ := List.mem_map.1 hp; exact ho
  | stopCall =>
    simp only [LiveStream.step, stopCall, Option.some.injEq] at hs
    subst hs
    refine ⟨h.acc, h.mem, fun hc => ⟨(h.cr hc).1, by simpa using (h.cr hc).2⟩, fun hc => h.sh (by simpa using hc), h.fin⟩
  | stopRun i =>
    simp only [LiveStream.step, stopRun] at hs
    split at hs
    case isFalse => simp at hs
    rename_i hl
    rw [Bool.and_eq_true, lockFree_iff] at hl
    split at hs <;> simp only [Option.some.injEq] at hs <;> subst hs
    · refine ⟨h.acc, h.mem, fun hc => absurd hc hl.1.1, fun hc => ?_, h.fin⟩
      exact absurd ((List.mem_or_eq_of_mem_set hc).resolve_right (by simp)) hl.1.2
    · rename_i hd
      refine ⟨h.acc, h.mem, fun hc => absurd hc hl.1.1, fun _ => ?_, h.fin⟩
      exact List.eq_nil_of_length_eq_zero (by simpa using hd)
  | take =>
    simp only [LiveStream.step, take] at hs
    split at hs
    · simp at hs
    rename_i t rest hq
    split at hs
    case isFalse => simp at hs
    simp only [Option.some.injEq] at hs
    subst hs
    refine ⟨fun o ho => ?_, ?_, h.cr, h.sh, fun hc => ?_⟩
    · obtain ⟨lost, h1, h2⟩ := h.acc o ho
      refine ⟨lost, ?_, h2⟩
      rw [hq, recv_cons] at h1
      simpa [recv_append] using h1
    · intro p hp
      apply h.mem p
      rw [hq]
      simp only [List.mem_append, List.mem_cons] at hp ⊢
      simp at hp
      tauto
    · have := (h.fin hc).2.1; rw [hq] at this; simp at this
  | finish i =>
    simp only [LiveStream.step, finish] at hs
    split at hs
    · simp at hs
    rename_i t ht
    simp only [Option.some.injEq] at hs
    subst hs
    refine ⟨fun o ho => ?_, ?_, h.cr, h.sh, fun hc => ?_⟩
    · obtain ⟨lost, h1, h2⟩ := h.acc o ho
      refine ⟨lost, List.Perm.trans ?_ h1, h2⟩
      simp only [recv_append, List.append_assoc]
      refine List.Perm.append_left _ ?_
      rw [← List.append_assoc]
      exact (recv_eraseIdx o s.running i t ht).append_right _
    · intro p hp
      apply h.mem p
      rcases hp with hp | hp | hp
      · rcases List.mem_append.1 hp with hp | hp
        · exact .inl hp
        · rw [List.mem_singleton] at hp; subst hp; exact .inr (.inl (List.mem_of_getElem? ht))
      · exact .inr (.inl (List.mem_of_mem_eraseIdx hp))
      · exact .inr (.inr hp)
    · have := (h.fin hc).2.2; rw [this] at ht; simp at ht
  | stopEnd i =>
    simp only [LiveStream.step, stopEnd] at hs
    split at hs
    case isFalse => simp at hs
    rename_i hl
    simp only [Bool.and_eq_true, beq_iff_eq, List.isEmpty_iff] at hl
    have hsh : Stop.shutting ∈ s.stops := List.mem_of_getElem? hl.1.1
    have hm : s.mail ≠ .crashed := fun hc => (h.cr hc).2 hsh
    have hd := h.sh hsh
    split at hs <;> simp only [Option.some.injEq] at hs <;> subst hs
    · refine ⟨?_, ?_, fun hc => ?_, fun hc => ?_, ?_⟩
      · intro o ho
        obtain ⟨lost, h1, h2⟩ := h.acc o ho
        have := h2 hm
        subst this
        refine ⟨[], ?_, fun _ => rfl⟩
        simpa only [notify_received, notify_running, notify_queue, notify_dq, notify_accepted] using h1
      · intro p hp; simp only [notify_received, notify_running, notify_queue] at hp; exact h.mem p hp
      · exfalso
        rcases notify_mail { s with stops := s.stops.set i .returned, phase := .finished } with h1 | h1 <;> rw [h1] at hc
        · exact hm hc
        · simp at hc
      · simp only [notify_dq]; exact hd
      · simp only [notify_running, notify_queue, notify_dq]; exact fun _ => ⟨hd, hl.1.2, hl.2⟩
    · refine ⟨h.acc, h.mem, fun hc => absurd hc hm, fun _ => hd, h.fin⟩

theorem Inv.exec (n : Nat) (obs : List ω) (hobs : obs.Nodup) (acts : List (Act ε)) : ∀ (s s' : State ω ε), Inv obs s →
    exec n obs s acts = some s' → Inv obs s' := by
  induction acts with
  | nil => intro s s' h hs; simp only [LiveStream.exec, Option.some.injEq] at hs; exact hs ▸ h
  | cons a as ih =>
    intro s s' h hs
    simp only [LiveStream.exec, Option.bind_eq_some_iff] at hs
    obtain ⟨s1, h1, h2⟩ := hs
    exact ih s1 s' (h.step n obs hobs s s1 a h1) h2

end LiveStream
end Verif
