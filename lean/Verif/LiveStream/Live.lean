import Verif.LiveStream.Order
set_option linter.unusedSectionVars false
namespace Verif
namespace LiveStream
variable {ω ε : Type} [DecidableEq ω]

/-! ### one call of `stop`: no lost wake-up -/

structure Single (s : State ω ε) : Prop where
  len : s.stops.length ≤ 1
  w : s.waiters = (if s.mail = .waiting then [.mail] else []) ++ (if s.stops = [.waiting] then [.stop 0] else [])
  x : s.stops = [.waiting] → s.mail = .ready
  mw : s.mail = .waiting → s.dq = [] ∧ s.phase ≠ .finished
  md : s.mail = .done → s.phase = .finished

/-- `notify` in a state with at most one waiter -/
theorem notify_single (s : State ω ε) (hw : s.waiters = (if s.mail = .waiting then [.mail] else []) ++ (if s.stops = [.waiting] then [.stop 0] else []))
    (x : s.stops = [.waiting] → s.mail = .ready) :
    notify s = { s with
      waiters := []
      mail := if s.mail = .waiting then .ready else s.mail
      stops := if s.stops = [.waiting] then [.ready] else s.stops } := by
  unfold notify
  by_cases h1 : s.mail = .waiting
  · have h2 : s.stops ≠ [.waiting] := fun h => by rw [x h] at h1; simp at h1
    rw [hw]
    simp [h1, h2]
  · by_cases h2 : s.stops = [.waiting]
    · rw [hw]; simp [h1, h2]
    · rw [if_neg h1, if_neg h2] at hw
      have hw0 : s.waiters = [] := hw
      rw [hw0]; simp only [if_neg h1, if_neg h2]
      cases s; simp_all

theorem stops_cases (l : List Stop) (h : l.length ≤ 1) : l = [] ∨ ∃ t, l = [t] := by
  match l, h with
  | [], _ => exact .inl rfl
  | [t], _ => exact .inr ⟨t, rfl⟩

theorem Single.step (n : Nat) (obs : List ω) (s s' : State ω ε) (a : Act ε) (hI : Inv obs s) (hS : Started s) (h : Single s)
    (hs : step n obs s a = some s') (hlen : s'.stops.length ≤ 1) : Single s' := by
  obtain ⟨hl, hw, hx, hmw, hmd⟩ := h
  cases a with
  | append e =>
    simp only [LiveStream.step, append] at hs
    split at hs
    case isFalse => simp at hs
    split at hs
    case isFalse => simp only [Option.some.injEq] at hs; subst hs; exact ⟨hl, hw, hx, hmw, hmd⟩
    rename_i hp
    simp only [Option.some.injEq] at hs
    subst hs
    rw [notify_single { s with dq := s.dq ++ [e], accepted := s.accepted ++ [e] } hw hx]
    refine ⟨by dsimp only; split <;> simp_all, ?_, ?_, ?_, ?_⟩ <;> dsimp only
    · by_cases h1 : s.mail = .waiting <;> by_cases h2 : s.stops = [.waiting] <;> simp [h1, h2]
    · by_cases h2 : s.stops = [.waiting] <;> simp [h2]
    · by_cases h1 : s.mail = .waiting <;> simp [h1]
    · by_cases h1 : s.mail = .waiting <;> simp [h1]; exact hmd
  | start =>
    simp only [LiveStream.step, start] at hs
    split at hs
    case isFalse => simp at hs
    rename_i hl
    rw [Bool.and_eq_true] at hl
    exact absurd (by simpa using hl.2) hS.ns
  | deliver =>
    simp only [LiveStream.step, deliver] at hs
    split at hs
    case isFalse => simp at hs
    rename_i hlf
    rw [Bool.and_eq_true, beq_iff_eq] at hlf
    split at hs
    · rename_i hd
      rw [notify_single s hw hx] at hs
      dsimp only at hs
      split at hs <;> simp only [Option.some.injEq] at hs <;> subst hs <;> rename_i hp
      · refine ⟨by dsimp only; split <;> simp_all, ?_, ?_, ?_, ?_⟩ <;> dsimp only
        · by_cases h2 : s.stops = [.waiting] <;> simp [h2]
        · by_cases h2 : s.stops = [.waiting] <;> simp [h2]
        · exact fun _ => ⟨hd, hp⟩
        · simp
      · refine ⟨by dsimp only; split <;> simp_all, ?_, ?_, ?_, ?_⟩ <;> dsimp only
        · by_cases h2 : s.stops = [.waiting] <;> simp [h2]
        · by_cases h2 : s.stops = [.waiting] <;> simp [h2]
        · simp
        · simpa using hp
    · rename_i e rest hd
      split at hs <;> simp only [Option.some.injEq] at hs <;> subst hs
      · rename_i hc
        rw [Bool.and_eq_true] at hc
        rw [lockFree_iff] at hlf
        have := (hI.fin ((hS.cl hc.1).resolve_left hlf.1.2)).1
        rw [hd] at this
        simp at this
      · refine ⟨hl, hw, hx, fun hc => ?_, hmd⟩
        dsimp only at hc; rw [hlf.2] at hc; simp at hc
  | stopCall =>
    simp only [LiveStream.step, stopCall, Option.some.injEq] at hs
    subst hs
    dsimp only at hlen
    rcases stops_cases _ hl with h0 | ⟨t, h0⟩
    · refine ⟨hlen, ?_, ?_, hmw, hmd⟩ <;> dsimp only
      · rw [hw, h0]; simp
      · rw [h0]; simp
    · rw [h0] at hlen; simp at hlen
  | stopRun i =>
    simp only [LiveStream.step, stopRun] at hs
    split at hs
    case isFalse => simp at hs
    rename_i hlf
    rw [Bool.and_eq_true, lockFree_iff, beq_iff_eq] at hlf
    obtain ⟨⟨hcr, _⟩, hi⟩ := hlf
    rcases stops_cases _ hl with h0 | ⟨t, h0⟩
    · rw [h0] at hi; simp at hi
    rw [h0] at hi
    match i, hi with
    | 0, hi =>
      simp at hi
      subst hi
      split at hs <;> simp only [Option.some.injEq] at hs <;> subst hs <;> rename_i hd
      · have hm : s.mail = .ready := by
          have h1 : s.mail ≠ .waiting := fun hc => by rw [(hmw hc).1] at hd; simp at hd
          have h2 : s.mail ≠ .done := fun hc => by rw [(hI.fin (hmd hc)).1] at hd; simp at hd
          have h3 := hS.ns
          cases hq : s.mail <;> simp_all
        refine ⟨by simpa using hl, ?_, ?_, hmw, hmd⟩ <;> dsimp only
        · rw [hw, h0]; simp [hm]
        · exact fun _ => hm
      · refine ⟨by simpa using hl, ?_, ?_, hmw, hmd⟩ <;> dsimp only
        · rw [hw, h0]; simp
        · rw [h0]; simp
  | take =>
    simp only [LiveStream.step, take] at hs
    split at hs
    · simp at hs
    split at hs
    case isFalse => simp at hs
    simp only [Option.some.injEq] at hs
    subst hs
    exact ⟨hl, hw, hx, hmw, hmd⟩
  | finish i =>
    simp only [LiveStream.step, finish] at hs
    split at hs
    · simp at hs
    simp only [Option.some.injEq] at hs
    subst hs
    exact ⟨hl, hw, hx, hmw, hmd⟩
  | stopEnd i =>
    simp only [LiveStream.step, stopEnd] at hs
    split at hs
    case isFalse => simp at hs
    rename_i hlf
    simp only [Bool.and_eq_true, beq_iff_eq, List.isEmpty_iff] at hlf
    have hi := hlf.1.1
    rcases stops_cases _ hl with h0 | ⟨t, h0⟩
    · rw [h0] at hi; simp at hi
    rw [h0] at hi
    match i, hi with
    | 0, hi =>
      simp at hi
      subst hi
      split at hs <;> simp only [Option.some.injEq] at hs <;> subst hs <;> rename_i hp
      · have hw' : s.waiters = (if s.mail = .waiting then [.mail] else []) ++ (if s.stops.set 0 .returned = [.waiting] then [.stop 0] else []) := by
          rw [hw, h0]; simp
        rw [notify_single { s with stops := s.stops.set 0 .returned, phase := .finished } hw' (by simp [h0])]
        refine ⟨by dsimp only; split <;> simp_all, ?_, ?_, ?_, ?_⟩ <;> dsimp only
        · by_cases h1 : s.mail = .waiting <;> simp [h1, h0]
        · rw [h0]; simp
        · by_cases h1 : s.mail = .waiting <;> simp [h1]
        · simp
      · refine ⟨by simpa using hl, ?_, ?_, hmw, hmd⟩ <;> dsimp only
        · rw [hw, h0]; simp
        · rw [h0]; simp

theorem stops_length_le (n : Nat) (obs : List ω) (acts : List (Act ε)) (s s' : State ω ε) (hs : exec n obs s acts = some s') :
    s.stops.length ≤ s'.stops.length := by
  have := stops_length n obs acts s s' hs; omega

theorem Single.exec (n : Nat) (obs : List ω) (hobs : obs.Nodup) (acts : List (Act ε)) : ∀ (s s' : State ω ε), Inv obs s → Started s → Single s →
    exec n obs s acts = some s' → s'.stops.length ≤ 1 → Single s' := by
  induction acts with
  | nil => intro s s' _ _ h hs _; simp only [LiveStream.exec, Option.some.injEq] at hs; exact hs ▸ h
  | cons a as ih =>
    intro s s' hI hS h hs hlen
    simp only [LiveStream.exec, Option.bind_eq_some_iff] at hs
    obtain ⟨s1, h1, h2⟩ := hs
    have := stops_length_le n obs as s1 s' h2
    exact ih s1 s' (hI.step n obs hobs s s1 a h1) (hS.step n obs s s1 a hI h1) (h.step n obs s s1 a hI hS h1 (by omega)) h2 hlen

/-- what is left to do -/
def mailW : Mail → Nat
  | .ready => 4
  | .waiting => 1
  | _ => 0

def stopW : Stop → Nat
  | .ready => 8
  | .waiting => 7
  | .shutting => 6
  | .returned => 0

def work (obs : List ω) (s : State ω ε) : Nat :=
  (2 * obs.length + 1) * s.dq.length + 2 * s.queue.length + s.running.length + mailW s.mail + (s.stops.map stopW).sum

theorem work_step (n : Nat) (obs : List ω) (s s' : State ω ε) (a : Act ε) (ha : a.internal = true) (h : Single s)
    (hs : step n obs s a = some s') : work obs s' < work obs s := by
  obtain ⟨hl, hw, hx, hmw, hmd⟩ := h
  cases a with
  | append e => simp [Act.internal] at ha
  | start => simp [Act.internal] at ha
  | stopCall => simp [Act.internal] at ha
  | deliver =>
    simp only [LiveStream.step, deliver] at hs
    split at hs
    case isFalse => simp at hs
    rename_i hlf
    rw [Bool.and_eq_true, beq_iff_eq] at hlf
    split at hs
    · rename_i hd
      rw [notify_single s hw hx] at hs
      dsimp only at hs
      split at hs <;> simp only [Option.some.injEq] at hs <;> subst hs <;>
      · by_cases h2 : s.stops = [.waiting] <;> simp [work, hlf.2, hd, h2, mailW, stopW]
    · rename_i e rest hd
      split at hs <;> simp only [Option.some.injEq] at hs <;> subst hs <;> simp [work, hd, mailW, hlf.2, Nat.mul_add] <;> omega
  | stopRun i =>
    simp only [LiveStream.step, stopRun] at hs
    split at hs
    case isFalse => simp at hs
    rename_i hlf
    rw [Bool.and_eq_true, lockFree_iff, beq_iff_eq] at hlf
    obtain ⟨⟨hcr, _⟩, hi⟩ := hlf
    rcases stops_cases _ hl with h0 | ⟨t, h0⟩
    · rw [h0] at hi; simp at hi
    rw [h0] at hi
    match i, hi with
    | 0, hi =>
      simp at hi
      subst hi
      split at hs <;> simp only [Option.some.injEq] at hs <;> subst hs <;> simp [work, h0, stopW]
  | take =>
    simp only [LiveStream.step, take] at hs
    split at hs
    · simp at hs
    rename_i hq
    split at hs
    case isFalse => simp at hs
    simp only [Option.some.injEq] at hs
    subst hs
    simp [work, hq]; omega
  | finish i =>
    simp only [LiveStream.step, finish] at hs
    split at hs
    · simp at hs
    rename_i t ht
    simp only [Option.some.injEq] at hs
    subst hs
    rw [List.getElem?_eq_some_iff] at ht
    obtain ⟨hi, _⟩ := ht
    simp [work, List.length_eraseIdx, hi]; omega
  | stopEnd i =>
    simp only [LiveStream.step, stopEnd] at hs
    split at hs
    case isFalse => simp at hs
    rename_i hlf
    simp only [Bool.and_eq_true, beq_iff_eq, List.isEmpty_iff] at hlf
    have hi := hlf.1.1
    rcases stops_cases _ hl with h0 | ⟨t, h0⟩
    · rw [h0] at hi; simp at hi
    rw [h0] at hi
    match i, hi with
    | 0, hi =>
      simp at hi
      subst hi
      split at hs <;> simp only [Option.some.injEq] at hs <;> subst hs
      · have hw' : s.waiters = (if s.mail = .waiting then [.mail] else []) ++ (if s.stops.set 0 .returned = [.waiting] then [.stop 0] else []) := by
          rw [hw, h0]; simp
        rw [notify_single { s with stops := s.stops.set 0 .returned, phase := .finished } hw' (by simp [h0])]
        by_cases h1 : s.mail = .waiting <;> simp [work, h0, h1, stopW, mailW]
      · simp [work, h0, stopW]

theorem work_exec (n : Nat) (obs : List ω) (hobs : obs.Nodup) (acts : List (Act ε)) : ∀ (s s' : State ω ε), Inv obs s → Started s → Single s →
    (∀ a ∈ acts, a.internal = true) → exec n obs s acts = some s' → acts.length ≤ work obs s := by
  induction acts with
  | nil => intro s s' _ _ _ _ _; simp
  | cons a as ih =>
    intro s s' hI hS h ha hs
    simp only [LiveStream.exec, Option.bind_eq_some_iff] at hs
    obtain ⟨s1, h1, h2⟩ := hs
    have hint := ha a List.mem_cons_self
    have e0 := stops_length_step n obs s s1 a h1
    have : stopCalls [a] = 0 := by cases a <;> simp_all [stopCalls, Act.internal]
    have e1 := work_step n obs s s1 a hint h h1
    have e2 := ih s1 s' (hI.step n obs hobs s s1 a h1) (hS.step n obs s s1 a hI h1)
      (h.step n obs s s1 a hI hS h1 (by have := h.len; omega)) (fun b hb => ha b (List.mem_cons_of_mem _ hb)) h2
    simp only [List.length_cons]; omega

/-- a state in which nothing can happen any more is the final one -/
theorem quiet_final (n : Nat) (hn : 0 < n) (obs : List ω) (s : State ω ε) (hS : Started s) (h : Single s) (h1 : s.stops.length = 1)
    (hq : Quiet n obs s) : s.mail = .done ∧ s.stops = [.returned] ∧ s.phase = .finished := by
  obtain ⟨hl, hw, hx, hmw, hmd⟩ := h
  have hrun : s.running = [] := by
    match hr : s.running with
    | [] => rfl
    | t :: ts =>
      have := hq (.finish 0) rfl
      simp [LiveStream.step, finish, hr] at this
  have hqu : s.queue = [] := by
    match hr : s.queue with
    | [] => rfl
    | t :: ts =>
      have := hq .take rfl
      simp [LiveStream.step, take, hr, hrun] at this
      omega
  rcases stops_cases _ hl with h0 | ⟨t, h0⟩
  · rw [h0] at h1; simp at h1
  have ht1 : t ≠ .shutting := by
    rintro rfl
    have := hq (.stopEnd 0) rfl
    simp only [LiveStream.step, stopEnd, h0, hqu, hrun] at this
    simp at this
    split at this <;> simp at this
  have hlf : lockFree s = true := by
    rw [lockFree_iff, h0]; exact ⟨hS.nc, by simpa using fun h => ht1 h.symm⟩
  have hmr : s.mail ≠ .ready := by
    intro hm
    have := hq .deliver rfl
    simp only [LiveStream.step, deliver, hlf, hm] at this
    simp at this
    split at this
    · split at this <;> simp at this
    · split at this <;> simp at this
  have ht2 : t ≠ .ready := by
    rintro rfl
    have := hq (.stopRun 0) rfl
    simp only [LiveStream.step, stopRun, hlf, h0] at this
    simp at this
    split at this <;> simp at this
  have ht3 : t ≠ .waiting := by
    rintro rfl
    exact hmr (hx h0)
  have ht : t = .returned := by cases t <;> simp_all
  subst ht
  have hf := hS.ret (by rw [h0]; simp)
  refine ⟨?_, h0, hf⟩
  have hm1 : s.mail ≠ .waiting := fun hc => (hmw hc).2 hf
  have := hS.ns
  have := hS.nc
  cases hq : s.mail <;> simp_all

end LiveStream
end Verif
