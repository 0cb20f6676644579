import Verif.LiveStream.Lemmas
set_option linter.unusedSectionVars false
namespace Verif
namespace LiveStream
variable {ω ε : Type} [DecidableEq ω]

/-! ### one worker: order -/

structure Ord (obs : List ω) (s : State ω ε) : Prop where
  acc : ∀ o ∈ obs, ∃ lost, recv o s.received ++ (recv o s.running ++ (recv o s.queue ++ (lost ++ s.dq))) = s.accepted ∧
    (s.mail ≠ .crashed → lost = [])
  one : s.running.length ≤ 1

theorem Ord.init (obs : List ω) : Ord obs (init : State ω ε) where
  acc := by intro o _; exact ⟨[], by simp [LiveStream.init, recv]⟩
  one := by simp [LiveStream.init]

theorem Ord.step (obs : List ω) (hobs : obs.Nodup) (s s' : State ω ε) (a : Act ε) (hI : Inv obs s) (h : Ord obs s)
    (hs : step 1 obs s a = some s') : Ord obs s' := by
  have hkeep : ∀ (m : Mail) (st : List Stop) (w : List Who) (ph : Phase) (c : Bool), s.mail ≠ .crashed → 
      Ord obs { s with mail := m, stops := st, waiters := w, phase := ph, closed := c } := by
    intro m st w ph c hm
    refine ⟨fun o ho => ?_, h.one⟩
    obtain ⟨lost, h1, h2⟩ := h.acc o ho
    have := h2 hm; subst this
    exact ⟨[], h1, fun _ => rfl⟩
  cases a with
  | append e =>
    simp only [LiveStream.step, append] at hs
    split at hs
    case isFalse => simp at hs
    rename_i hl
    rw [lockFree_iff] at hl
    split at hs
    case isFalse => simp only [Option.some.injEq] at hs; exact hs ▸ h
    simp only [Option.some.injEq] at hs
    subst hs
    refine ⟨fun o ho => ?_, by rw [notify_running]; exact h.one⟩
    obtain ⟨lost, h1, h2⟩ := h.acc o ho
    have := h2 hl.1
    subst this
    refine ⟨[], ?_, fun _ => rfl⟩
    simp only [notify_received, notify_running, notify_queue, notify_dq, notify_accepted]
    rw [← h1]; simp
  | start =>
    simp only [LiveStream.step, start] at hs
    split at hs
    case isFalse => simp at hs
    rename_i hl
    rw [Bool.and_eq_true, lockFree_iff] at hl
    simp only [Option.some.injEq] at hs
    subst hs
    exact hkeep _ _ _ _ _ hl.1.1
  | deliver =>
    simp only [LiveStream.step, deliver] at hs
    split at hs
    case isFalse => simp at hs
    rename_i hl
    rw [Bool.and_eq_true, lockFree_iff] at hl
    split at hs
    · have key : ∀ m w, Ord obs { (notify s) with mail := m, waiters := w } := by
        intro m w
        refine ⟨fun o ho => ?_, by simp only [notify_running]; exact h.one⟩
        obtain ⟨lost, h1, h2⟩ := h.acc o ho
        have := h2 hl.1.1
        subst this
        refine ⟨[], ?_, fun _ => rfl⟩
        simpa only [notify_received, notify_running, notify_queue, notify_dq, notify_accepted] using h1
      split at hs <;> simp only [Option.some.injEq] at hs <;> subst hs <;> exact key _ _
    · rename_i e rest hd
      split at hs <;> simp only [Option.some.injEq] at hs <;> subst hs
      · refine ⟨fun o ho => ?_, h.one⟩
        obtain ⟨lost, h1, h2⟩ := h.acc o ho
        have := h2 hl.1.1
        subst this
        refine ⟨[e], ?_, fun hc => by simp at hc⟩
        rw [hd] at h1
        simpa using h1
      · refine ⟨fun o ho => ?_, h.one⟩
        obtain ⟨lost, h1, h2⟩ := h.acc o ho
        have := h2 hl.1.1
        subst this
        refine ⟨[], ?_, fun _ => rfl⟩
        simp only [recv_append, recv_obs o e obs hobs, if_pos ho]
        rw [hd] at h1
        simpa using h1
  | stopCall =>
    simp only [LiveStream.step, stopCall, Option.some.injEq] at hs
    subst hs
    exact ⟨h.acc, h.one⟩
  | stopRun i =>
    simp only [LiveStream.step, stopRun] at hs
    split at hs
    case isFalse => simp at hs
    split at hs <;> simp only [Option.some.injEq] at hs <;> subst hs <;> exact ⟨h.acc, h.one⟩
  | take =>
    simp only [LiveStream.step, take] at hs
    split at hs
    · simp at hs
    rename_i t rest hq
    split at hs
    case isFalse => simp at hs
    rename_i hr
    simp only [Option.some.injEq] at hs
    subst hs
    refine ⟨fun o ho => ?_, by simp only [List.length_append, List.length_singleton]; omega⟩
    obtain ⟨lost, h1, h2⟩ := h.acc o ho
    refine ⟨lost, ?_, h2⟩
    rw [hq, recv_cons] at h1
    simpa [recv_append] using h1
  | finish i =>
    simp only [LiveStream.step, finish] at hs
    split at hs
    · simp at hs
    rename_i t ht
    simp only [Option.some.injEq] at hs
    subst hs
    have hrun : s.running = [t] ∧ i = 0 := by
      have h1 := h.one
      rw [List.getElem?_eq_some_iff] at ht
      obtain ⟨hi, ht⟩ := ht
      have : i = 0 := by omega
      subst this
      match hr : s.running, h1, hi with
      | [x], _, _ => simp only [hr] at ht; simp_all
    refine ⟨fun o ho => ?_, by rw [hrun.1, hrun.2]; simp⟩
    obtain ⟨lost, h1, h2⟩ := h.acc o ho
    refine ⟨lost, ?_, h2⟩
    rw [hrun.1] at h1
    simp only [hrun.1, hrun.2, recv_append]
    rw [← h1]
    simp [recv_nil]
  | stopEnd i =>
    simp only [LiveStream.step, stopEnd] at hs
    split at hs
    case isFalse => simp at hs
    rename_i hl
    simp only [Bool.and_eq_true, beq_iff_eq, List.isEmpty_iff] at hl
    have hsh : Stop.shutting ∈ s.stops := List.mem_of_getElem? hl.1.1
    have hm : s.mail ≠ .crashed := fun hc => (hI.cr hc).2 hsh
    split at hs <;> simp only [Option.some.injEq] at hs <;> subst hs
    · refine ⟨fun o ho => ?_, by simp only [notify_running]; exact h.one⟩
      obtain ⟨lost, h1, h2⟩ := h.acc o ho
      have := h2 hm
      subst this
      refine ⟨[], ?_, fun _ => rfl⟩
      simpa only [notify_received, notify_running, notify_queue, notify_dq, notify_accepted] using h1
    · exact ⟨h.acc, h.one⟩

theorem Ord.exec (obs : List ω) (hobs : obs.Nodup) (acts : List (Act ε)) : ∀ (s s' : State ω ε), Inv obs s → Ord obs s →
    exec 1 obs s acts = some s' → Ord obs s' := by
  induction acts with
  | nil => intro s s' _ h hs; simp only [LiveStream.exec, Option.some.injEq] at hs; exact hs ▸ h
  | cons a as ih =>
    intro s s' hI h hs
    simp only [LiveStream.exec, Option.bind_eq_some_iff] at hs
    obtain ⟨s1, h1, h2⟩ := hs
    exact ih s1 s' (hI.step 1 obs hobs s s1 a h1) (h.step obs hobs s s1 a hI h1) h2

/-! ### `start` before `stop` -/

structure Started (s : State ω ε) : Prop where
  act : s.phase ≠ .inactive
  ns : s.mail ≠ .notStarted
  nc : s.mail ≠ .crashed
  ret : Stop.returned ∈ s.stops → s.phase = .finished
  cl : s.closed = true → Stop.shutting ∈ s.stops ∨ s.phase = .finished

theorem Started.step (n : Nat) (obs : List ω) (s s' : State ω ε) (a : Act ε) (hI : Inv obs s) (h : Started s)
    (hs : step n obs s a = some s') : Started s' := by
  have hnm : ∀ t : State ω ε, t.mail = s.mail → (notify t).mail ≠ .notStarted ∧ (notify t).mail ≠ .crashed := by
    intro t ht
    rcases notify_mail t with h1 | h1 <;> rw [h1]
    · rw [ht]; exact ⟨h.ns, h.nc⟩
    · simp
  cases a with
  | append e =>
    simp only [LiveStream.step, append] at hs
    split at hs
    case isFalse => simp at hs
    rename_i hl
    rw [lockFree_iff] at hl
    split at hs
    case isFalse => simp only [Option.some.injEq] at hs; exact hs ▸ h
    simp only [Option.some.injEq] at hs
    subst hs
    refine ⟨by rw [notify_phase]; exact h.act, (hnm _ (by rfl)).1, (hnm _ (by rfl)).2, fun hc => ?_, fun hc => ?_⟩
    · rw [notify_phase]; exact h.ret (by have := notify_stops _ _ hc (by simp); exact this)
    · rw [notify_closed] at hc
      rw [notify_phase]
      exact .inr ((h.cl hc).resolve_left hl.2)
  | start =>
    simp only [LiveStream.step, start] at hs
    split at hs
    case isFalse => simp at hs
    rename_i hl
    rw [Bool.and_eq_true] at hl
    exact absurd (by simpa using hl.2) h.ns
  | deliver =>
    simp only [LiveStream.step, deliver] at hs
    split at hs
    case isFalse => simp at hs
    rename_i hl
    rw [Bool.and_eq_true, lockFree_iff] at hl
    have hcl := fun hc => (h.cl hc).resolve_left hl.1.2
    split at hs
    · have key : ∀ m w, m ≠ Mail.notStarted → m ≠ Mail.crashed → Started { (notify s) with mail := m, waiters := w } := by
        intro m w h1 h2
        refine ⟨by simp only [notify_phase]; exact h.act, h1, h2, fun hc => ?_, fun hc => ?_⟩
        · simp only [notify_phase]; exact h.ret (by have := notify_stops _ _ hc (by simp); exact this)
        · simp only [notify_closed] at hc; simp only [notify_phase]; exact .inr (hcl hc)
      split at hs <;> simp only [Option.some.injEq] at hs <;> subst hs <;> exact key _ _ (by simp) (by simp)
    · rename_i e rest hd
      split at hs
      · rename_i hc
        rw [Bool.and_eq_true] at hc
        have := (hI.fin (hcl hc.1)).1
        rw [hd] at this
        simp at this
      · simp only [Option.some.injEq] at hs; subst hs; exact ⟨h.act, h.ns, h.nc, h.ret, h.cl⟩
  | stopCall =>
    simp only [LiveStream.step, stopCall, Option.some.injEq] at hs
    subst hs
    exact ⟨h.act, h.ns, h.nc, fun hc => h.ret (by simpa using hc), fun hc => by simpa using h.cl hc⟩
  | stopRun i =>
    simp only [LiveStream.step, stopRun] at hs
    split at hs
    case isFalse => simp at hs
    rename_i hl
    rw [Bool.and_eq_true, lockFree_iff] at hl
    split at hs <;> simp only [Option.some.injEq] at hs <;> subst hs
    · refine ⟨h.act, h.ns, h.nc, fun hc => ?_, fun hc => ?_⟩
      · exact h.ret ((List.mem_or_eq_of_mem_set hc).resolve_right (by simp))
      · exact .inr ((h.cl hc).resolve_left hl.1.2)
    · refine ⟨h.act, h.ns, h.nc, fun hc => ?_, fun _ => ?_⟩
      · exact h.ret ((List.mem_or_eq_of_mem_set hc).resolve_right (by simp))
      · left
        have h2 := hl.2
        simp only [beq_iff_eq, List.getElem?_eq_some_iff] at h2
        obtain ⟨hi, _⟩ := h2
        exact List.mem_set hi _
  | take =>
    simp only [LiveStream.step, take] at hs
    split at hs
    · simp at hs
    split at hs
    case isFalse => simp at hs
    simp only [Option.some.injEq] at hs
    subst hs
    exact ⟨h.act, h.ns, h.nc, h.ret, h.cl⟩
  | finish i =>
    simp only [LiveStream.step, finish] at hs
    split at hs
    · simp at hs
    simp only [Option.some.injEq] at hs
    subst hs
    exact ⟨h.act, h.ns, h.nc, h.ret, h.cl⟩
  | stopEnd i =>
    simp only [LiveStream.step, stopEnd] at hs
    split at hs
    case isFalse => simp at hs
    split at hs <;> simp only [Option.some.injEq] at hs <;> subst hs
    · exact ⟨by simp [notify_phase], (hnm _ (by rfl)).1, (hnm _ (by rfl)).2, fun _ => by simp [notify_phase], fun _ => by simp [notify_phase]⟩
    · rename_i hp
      have hf : s.phase = .finished := by
        have := h.act
        cases hq : s.phase <;> simp_all
      exact ⟨h.act, h.ns, h.nc, fun _ => hf, fun _ => .inr hf⟩

theorem Started.exec (n : Nat) (obs : List ω) (hobs : obs.Nodup) (acts : List (Act ε)) : ∀ (s s' : State ω ε), Inv obs s → Started s →
    exec n obs s acts = some s' → Started s' := by
  induction acts with
  | nil => intro s s' _ h hs; simp only [LiveStream.exec, Option.some.injEq] at hs; exact hs ▸ h
  | cons a as ih =>
    intro s s' hI h hs
    simp only [LiveStream.exec, Option.bind_eq_some_iff] at hs
    obtain ⟨s1, h1, h2⟩ := hs
    exact ih s1 s' (hI.step n obs hobs s s1 a h1) (h.step n obs s s1 a hI h1) h2

theorem exec_append (n : Nat) (obs : List ω) (as bs : List (Act ε)) : ∀ (s : State ω ε),
    exec n obs s (as ++ bs) = (exec n obs s as).bind fun s' => exec n obs s' bs := by
  induction as with
  | nil => intro s; rfl
  | cons a as ih =>
    intro s
    simp only [List.cons_append, LiveStream.exec, Option.bind_assoc]
    congr 1
    funext s'
    exact ih s'

/-! ### the number of threads calling `stop` -/

theorem stops_length_step (n : Nat) (obs : List ω) (s s' : State ω ε) (a : Act ε) (hs : step n obs s a = some s') :
    s'.stops.length = s.stops.length + stopCalls [a] := by
  cases a <;> simp only [LiveStream.step, append, start, deliver, stopCall, stopRun, take, finish, stopEnd] at hs <;>
    (repeat' split at hs) <;> simp_all [stopCalls, notify_len] <;> subst hs <;> simp [notify_len]

theorem stops_length (n : Nat) (obs : List ω) (acts : List (Act ε)) : ∀ (s s' : State ω ε),
    exec n obs s acts = some s' → s'.stops.length = s.stops.length + stopCalls acts := by
  induction acts with
  | nil => intro s s' hs; simp only [LiveStream.exec, Option.some.injEq] at hs; subst hs; simp [stopCalls]
  | cons a as ih =>
    intro s s' hs
    simp only [LiveStream.exec, Option.bind_eq_some_iff] at hs
    obtain ⟨s1, h1, h2⟩ := hs
    have e1 := stops_length_step n obs s s1 a h1
    have e2 := ih s1 s' h2
    have : stopCalls (a :: as) = stopCalls [a] + stopCalls as := by
      simp only [stopCalls, List.countP_cons, List.countP_nil]; omega
    omega

end LiveStream
end Verif
