import Verif.LiveStream.Live
set_option linter.unusedSectionVars false
/-
C79: the live event stream.
-/
namespace Verif
open LiveStream
section
variable {ω ε : Type} [DecidableEq ω]

private theorem afterStart (n : Nat) (obs : List ω) (hobs : obs.Nodup) (acts : List (Act ε)) (h : StartFirst acts) (s : State ω ε)
    (hs : exec n obs init acts = some s) : ∃ (s1 : State ω ε) (post : List (Act ε)), Inv obs s1 ∧ Started s1 ∧ Single s1 ∧
      s1.stops = [] ∧ stopCalls post = stopCalls acts ∧ exec n obs s1 post = some s := by
  obtain ⟨pre, post, rfl, h0⟩ := h
  rw [exec_append, Option.bind_eq_some_iff] at hs
  obtain ⟨s0, hs0, hs1⟩ := hs
  simp only [exec, Option.bind_eq_some_iff] at hs1
  obtain ⟨s1, hs1, hs2⟩ := hs1
  have hlen := stops_length n obs pre _ _ hs0
  rw [h0] at hlen
  have hst : s0.stops = [] := List.eq_nil_of_length_eq_zero (by simpa [init] using hlen)
  have hI0 := (Inv.init (ε := ε) obs).exec n obs hobs pre _ _ hs0
  have hI1 := hI0.step n obs hobs _ _ .start hs1
  -- before `start`: nobody waits, the pool is open
  have hpre : ∀ (as : List (Act ε)) (t t' : State ω ε), stopCalls as = 0 → t.stops = [] ∧ t.closed = false ∧
      (t.mail = .notStarted → t.waiters = [] ∧ t.phase = .inactive) → exec n obs t as = some t' →
      t'.closed = false ∧ (t'.mail = .notStarted → t'.waiters = [] ∧ t'.phase = .inactive) := by
    intro as
    induction as with
    | nil => intro t t' _ ht he; simp only [exec, Option.some.injEq] at he; subst he; exact ht.2
    | cons a as ih =>
      intro t t' hc ht he
      simp only [exec, Option.bind_eq_some_iff] at he
      obtain ⟨t1, e1, e2⟩ := he
      have hca : stopCalls [a] = 0 ∧ stopCalls as = 0 := by
        simp only [stopCalls, List.countP_cons, List.countP_nil] at hc ⊢; omega
      refine ih t1 t' hca.2 ?_ e2
      have hl := stops_length_step n obs t t1 a e1
      have hst1 : t1.stops = [] := List.eq_nil_of_length_eq_zero (by rw [hl, hca.1, ht.1]; rfl)
      refine ⟨hst1, ?_⟩
      obtain ⟨h1, h2, h3⟩ := ht
      cases a with
      | append e =>
        simp only [step, append] at e1
        split at e1
        case isFalse => simp at e1
        split at e1 <;> simp only [Option.some.injEq] at e1 <;> subst e1
        · refine ⟨by rw [notify_closed]; exact h2, fun hm => ?_⟩
          have hm0 : t.mail = .notStarted := by
            rcases notify_mail { t with dq := t.dq ++ [e], accepted := t.accepted ++ [e] } with q | q
            · rw [q] at hm; exact hm
            · rw [q] at hm; simp at hm
          have := h3 hm0
          refine ⟨?_, by rw [notify_phase]; exact this.2⟩
          unfold notify
          simp only [this.1]
        · exact ⟨h2, h3⟩
      | start =>
        simp only [step, start] at e1
        split at e1
        case isFalse => simp at e1
        simp only [Option.some.injEq] at e1; subst e1
        exact ⟨h2, by simp⟩
      | deliver =>
        simp only [step, deliver] at e1
        split at e1
        case isFalse => simp at e1
        rename_i hlf
        rw [Bool.and_eq_true, beq_iff_eq] at hlf
        split at e1
        · split at e1 <;> simp only [Option.some.injEq] at e1 <;> subst e1 <;> exact ⟨by simp [notify_closed, h2], by simp⟩
        · split at e1 <;> simp only [Option.some.injEq] at e1 <;> subst e1
          · exact ⟨h2, by simp⟩
          · exact ⟨h2, h3⟩
      | stopCall => simp [stopCalls] at hca
      | stopRun i =>
        simp only [step, stopRun, h1] at e1
        simp at e1
      | take =>
        simp only [step, take] at e1
        split at e1
        · simp at e1
        split at e1
        case isFalse => simp at e1
        simp only [Option.some.injEq] at e1; subst e1
        exact ⟨h2, h3⟩
      | finish i =>
        simp only [step, finish] at e1
        split at e1
        · simp at e1
        simp only [Option.some.injEq] at e1; subst e1
        exact ⟨h2, h3⟩
      | stopEnd i =>
        simp only [step, stopEnd, h1] at e1
        simp at e1
  obtain ⟨hcl, hm⟩ := hpre pre _ _ h0 ⟨rfl, rfl, fun _ => ⟨rfl, rfl⟩⟩ hs0
  refine ⟨s1, post, hI1, ?_, ?_, ?_, ?_, hs2⟩ <;> simp only [step, start] at hs1 <;> split at hs1 <;>
    simp only [Option.some.injEq, reduceCtorEq] at hs1
  · subst hs1
    exact ⟨by simp, by simp, by simp, by simp [hst], by simp [hcl]⟩
  · rename_i hlf
    rw [Bool.and_eq_true, beq_iff_eq] at hlf
    subst hs1
    exact ⟨by simp [hst], by simp [hst, (hm hlf.2).1], by simp, by simp, by simp⟩
  · subst hs1; exact hst
  · simp only [stopCalls, List.countP_append, List.countP_cons] at h0 ⊢
    simp [h0]

/-- C79: whatever the schedule, if the stream was started before it was stopped, every observer has received every accepted event exactly once when
a call of `stop` has returned. -/
theorem C79_exactly_once (n : Nat) (obs : List ω) (hobs : obs.Nodup) (acts : List (Act ε)) (h : StartFirst acts) (s : State ω ε)
    (hs : exec n obs init acts = some s) (i : Nat) (hi : s.stops[i]? = some .returned) (o : ω) (ho : o ∈ obs) :
    (recv o s.received).Perm s.accepted := by
  obtain ⟨s1, post, hI, hS, _, _, _, he⟩ := afterStart n obs hobs acts h s hs
  have hI' := hI.exec n obs hobs post _ _ he
  have hS' := hS.exec n obs hobs post _ _ hI he
  have hf := hS'.ret (List.mem_of_getElem? hi)
  obtain ⟨hd, hq, hr⟩ := hI'.fin hf
  obtain ⟨lost, h1, h2⟩ := hI'.acc o ho
  rw [h2 hS'.nc, hd, hq, hr] at h1
  simpa [recv_nil] using h1

/-- C79: at no time has an observer received an event more often than it was accepted, and nobody else receives anything; whatever the schedule. -/
theorem C79_at_most_once [DecidableEq ε] (n : Nat) (obs : List ω) (hobs : obs.Nodup) (acts : List (Act ε)) (s : State ω ε)
    (hs : exec n obs init acts = some s) :
    (∀ o ∈ obs, ∀ e, (recv o s.received).count e ≤ s.accepted.count e) ∧ (∀ p ∈ s.received, p.1 ∈ obs) := by
  have hI := (Inv.init (ε := ε) obs).exec n obs hobs acts _ _ hs
  refine ⟨fun o ho e => ?_, fun p hp => hI.mem p (.inl hp)⟩
  obtain ⟨lost, h1, _⟩ := hI.acc o ho
  rw [← h1.count_eq e, List.count_append]
  omega

/-- C79: with a pool of one worker every observer has at every time received the first accepted events, in the order in which they were appended;
when `stop` has returned, all of them. -/
theorem C79_one_worker_in_order (obs : List ω) (hobs : obs.Nodup) (acts : List (Act ε)) (s : State ω ε)
    (hs : exec 1 obs init acts = some s) (o : ω) (ho : o ∈ obs) :
    (recv o s.received <+: s.accepted) ∧
    (StartFirst acts → ∀ i : Nat, s.stops[i]? = some Stop.returned → recv o s.received = s.accepted) := by
  have hO := (Ord.init (ε := ε) obs).exec obs hobs acts _ _ (Inv.init obs) hs
  obtain ⟨lost, h1, _⟩ := hO.acc o ho
  refine ⟨⟨_, h1⟩, fun h i hi => ?_⟩
  have hp := C79_exactly_once 1 obs hobs acts h s hs i hi o ho
  exact List.IsPrefix.eq_of_length ⟨_, h1⟩ hp.length_eq

private theorem accepted_step (n : Nat) (obs : List ω) (s s' : State ω ε) (a : Act ε) (hs : step n obs s a = some s')
    (h0 : s.phase ≠ .inactive → s.mail ≠ .notStarted) (h1 : s.phase = .finished → s.stops ≠ []) :
    s'.accepted = s.accepted ++ (if s.phase = .finished then [] else appended [a]) ∧
    (s.phase = .finished → s'.phase = .finished) ∧ (s'.phase ≠ .inactive → s'.mail ≠ .notStarted) ∧ (s'.phase = .finished → s'.stops ≠ []) := by
  have hn : ∀ t : State ω ε, t.mail = s.mail → s.mail ≠ .notStarted → (notify t).mail ≠ .notStarted := by
    intro t ht hm
    rcases notify_mail t with q | q <;> rw [q]
    · rw [ht]; exact hm
    · simp
  have hl := stops_length_step n obs s s' a hs
  have hst : s.stops ≠ [] → s'.stops ≠ [] := by
    intro h hc
    rw [hc] at hl
    apply h
    apply List.eq_nil_of_length_eq_zero
    simp at hl; omega
  cases a with
  | append e =>
    simp only [LiveStream.step, append] at hs
    split at hs
    case isFalse => simp at hs
    split at hs <;> simp only [Option.some.injEq] at hs <;> subst hs <;> rename_i hp
    · refine ⟨by simp [notify_accepted, hp, appended], fun h => absurd h hp, ?_, ?_⟩
      · rw [notify_phase]; exact fun h => hn _ (by rfl) (h0 h)
      · rw [notify_phase]; exact fun h => absurd h hp
    · have hp : s.phase = .finished := by simpa using hp
      exact ⟨by simp [hp], id, h0, h1⟩
  | start =>
    simp only [LiveStream.step, start] at hs
    split at hs
    case isFalse => simp at hs
    rename_i hlf
    rw [Bool.and_eq_true, beq_iff_eq] at hlf
    simp only [Option.some.injEq] at hs; subst hs
    exact ⟨by simp [appended], fun h => absurd hlf.2 (h0 (by simp [h])), by simp, by simp⟩
  | deliver =>
    simp only [LiveStream.step, deliver] at hs
    split at hs
    case isFalse => simp at hs
    rename_i hlf
    rw [Bool.and_eq_true, beq_iff_eq] at hlf
    split at hs
    · split at hs <;> simp only [Option.some.injEq] at hs <;> subst hs
      · exact ⟨by simp [notify_accepted, appended], by simp [notify_phase], by simp, by simp only [notify_phase]; exact fun h => hst (h1 h)⟩
      · exact ⟨by simp [notify_accepted, appended], by simp [notify_phase], by simp, by simp only [notify_phase]; exact fun h => hst (h1 h)⟩
    · split at hs <;> simp only [Option.some.injEq] at hs <;> subst hs
      · exact ⟨by simp [appended], id, by simp, h1⟩
      · exact ⟨by simp [appended], id, h0, h1⟩
  | stopCall =>
    simp only [LiveStream.step, stopCall, Option.some.injEq] at hs
    subst hs
    exact ⟨by simp [appended], id, h0, by simp⟩
  | stopRun i =>
    simp only [LiveStream.step, stopRun] at hs
    split at hs
    case isFalse => simp at hs
    split at hs <;> simp only [Option.some.injEq] at hs <;> subst hs <;> exact ⟨by simp [appended], id, h0, fun h => hst (h1 h)⟩
  | take =>
    simp only [LiveStream.step, take] at hs
    split at hs
    · simp at hs
    split at hs
    case isFalse => simp at hs
    simp only [Option.some.injEq] at hs; subst hs
    exact ⟨by simp [appended], id, h0, h1⟩
  | finish i =>
    simp only [LiveStream.step, finish] at hs
    split at hs
    · simp at hs
    simp only [Option.some.injEq] at hs; subst hs
    exact ⟨by simp [appended], id, h0, h1⟩
  | stopEnd i =>
    simp only [LiveStream.step, stopEnd] at hs
    split at hs
    case isFalse => simp at hs
    rename_i hlf
    simp only [Bool.and_eq_true, beq_iff_eq] at hlf
    have hne : s.stops ≠ [] := fun h => by rw [h] at hlf; simp at hlf
    split at hs <;> simp only [Option.some.injEq] at hs <;> subst hs <;> rename_i hp
    · exact ⟨by simp [notify_accepted, appended], by simp [notify_phase], fun _ => hn _ (by rfl) (h0 (by simp [hp])), fun _ => hst hne⟩
    · exact ⟨by simp [appended], id, h0, fun _ => hst hne⟩

/-- C79, the accepted events: until the stream is finished - in particular before `stop` is called - these are all the events handed to `append`, in
order; later ones are dropped. -/
theorem C79_accepted (n : Nat) (obs : List ω) (pre post : List (Act ε)) (s1 s : State ω ε) (h1 : exec n obs init pre = some s1)
    (h2 : exec n obs s1 post = some s) :
    (s1.phase ≠ .finished → s1.accepted = appended pre) ∧
    (stopCalls pre = 0 → s1.phase ≠ .finished) ∧
    (s1.phase = .finished → s.phase = .finished ∧ s.accepted = s1.accepted) ∧
    (s1.accepted <+: s.accepted) := by
  have key : ∀ (as : List (Act ε)) (t t' : State ω ε), (t.phase ≠ .inactive → t.mail ≠ .notStarted) → (t.phase = .finished → t.stops ≠ []) →
      exec n obs t as = some t' → (t'.phase ≠ .inactive → t'.mail ≠ .notStarted) ∧ (t'.phase = .finished → t'.stops ≠ []) ∧
      (t'.phase ≠ .finished → t'.accepted = t.accepted ++ appended as) ∧
      (t.phase = .finished → t'.phase = .finished ∧ t'.accepted = t.accepted) ∧ t.accepted <+: t'.accepted := by
    intro as
    induction as with
    | nil =>
      intro t t' a b he
      simp only [exec, Option.some.injEq] at he; subst he
      exact ⟨a, b, by simp [appended], by simp, List.prefix_rfl⟩
    | cons a as ih =>
      intro t t' ha hb he
      simp only [exec, Option.bind_eq_some_iff] at he
      obtain ⟨t1, e1, e2⟩ := he
      obtain ⟨q1, q2, q3, q4⟩ := accepted_step n obs t t1 a e1 ha hb
      obtain ⟨r1, r2, r3, r4, r5⟩ := ih t1 t' q3 q4 e2
      refine ⟨r1, r2, fun h => ?_, fun h => ?_, ?_⟩
      · have : t.phase ≠ .finished := fun hc => h (r4 (q2 hc)).1
        rw [r3 h, q1, if_neg this]
        simp only [appended, List.append_assoc, ← List.filterMap_append]; rfl
      · rw [if_pos h, List.append_nil] at q1
        exact ⟨(r4 (q2 h)).1, (r4 (q2 h)).2.trans q1⟩
      · exact List.IsPrefix.trans ⟨_, q1.symm⟩ r5
  obtain ⟨a1, a2, a3, a4, a5⟩ := key pre _ _ (by simp [init]) (by simp [init]) h1
  obtain ⟨b1, b2, b3, b4, b5⟩ := key post _ _ a1 a2 h2
  refine ⟨fun h => by simpa [init] using a3 h, fun h hc => ?_, b4, b5⟩
  have := stops_length n obs pre _ _ h1
  rw [h] at this
  exact a2 hc (List.eq_nil_of_length_eq_zero (by simpa [init] using this))

/-- C79: if the stream was started, and then `stop` is called once, then - whatever has happened - what the stream does on its own comes to an end,
and then `stop` has returned, the delivery thread has ended, and all accepted events have been received by every observer: no wake-up is lost. -/
theorem C79_stop_terminates (n : Nat) (hn : 0 < n) (obs : List ω) (hobs : obs.Nodup) (acts : List (Act ε)) (h : StartFirst acts)
    (hc : stopCalls acts = 1) (s : State ω ε) (hs : exec n obs init acts = some s) :
    (∃ bound, ∀ as s', (∀ a ∈ as, Act.internal a = true) → exec n obs s as = some s' → as.length ≤ bound) ∧
    (∀ as s', (∀ a ∈ as, Act.internal a = true) → exec n obs s as = some s' → Quiet n obs s' →
      s'.mail = .done ∧ s'.stops = [.returned] ∧ s'.phase = .finished ∧ ∀ o ∈ obs, (recv o s'.received).Perm s'.accepted) := by
  obtain ⟨s1, post, hI, hS, hW, h0, hcp, he⟩ := afterStart n obs hobs acts h s hs
  have hlen := stops_length n obs post _ _ he
  rw [h0, hcp, hc] at hlen
  have hI' := hI.exec n obs hobs post _ _ he
  have hS' := hS.exec n obs hobs post _ _ hI he
  have hW' := hW.exec n obs hobs post _ _ hI hS he (by simp at hlen; omega)
  refine ⟨⟨work obs s, fun as s' ha hx => work_exec n obs hobs as s s' hI' hS' hW' ha hx⟩, fun as s' ha hx hq => ?_⟩
  have hz : stopCalls as = 0 := by
    unfold stopCalls
    rw [List.countP_eq_zero]
    intro a hm
    have := ha a hm
    cases a <;> simp_all [Act.internal]
  have hlen' := stops_length n obs as _ _ hx
  have hI2 := hI'.exec n obs hobs as _ _ hx
  have hS2 := hS'.exec n obs hobs as _ _ hI' hx
  have hW2 := hW'.exec n obs hobs as _ _ hI' hS' hx (by simp at hlen; omega)
  obtain ⟨q1, q2, q3⟩ := quiet_final n hn obs s' hS2 hW2 (by simp at hlen; omega) hq
  refine ⟨q1, q2, q3, fun o ho => ?_⟩
  obtain ⟨hd, hqe, hr⟩ := hI2.fin q3
  obtain ⟨lost, e1, e2⟩ := hI2.acc o ho
  rw [e2 hS2.nc, hd, hqe, hr] at e1
  simpa [recv_nil] using e1

end

/-- C79: with one worker, a streaming discovery of the directly-follows graph fed by a live stream ends with the graph of the appended events
(which C18 relates to batch discovery). -/
theorem C79_discovery {ω κ α : Type} [DecidableEq ω] [DecidableEq κ] [DecidableEq α] (obs : List ω) (hobs : obs.Nodup)
    (acts : List (Act (StreamDfg.Event κ α))) (h : StartFirst acts) (s : State ω (StreamDfg.Event κ α)) (hs : exec 1 obs init acts = some s)
    (i : Nat) (hi : s.stops[i]? = some .returned) (o : ω) (ho : o ∈ obs) :
    StreamDfg.run (recv o s.received) = StreamDfg.run s.accepted := by
  rw [(C79_one_worker_in_order obs hobs acts s hs o ho).2 h i hi]

/-! ### refutations, and the hypotheses are met -/

/-- a schedule with two workers, two events of one case -/
def raceActs : List (Act (StreamDfg.Event Nat String)) :=
  [.start, .append ⟨some 1, some "a"⟩, .append ⟨some 1, some "b"⟩, .deliver, .deliver, .take, .take, .finish 1, .finish 0, .deliver, .stopCall,
   .stopRun 0, .stopEnd 0, .deliver]

/-- C79: with the default pool of six workers, two events appended by one thread in order can be received in the other order, and the streaming
discovery then finds the directly-follows pair the wrong way round. -/
theorem C79_order_refuted : StartFirst raceActs ∧ ∃ s, exec 6 [()] init raceActs = some s ∧ s.stops = [.returned] ∧ s.mail = .done ∧
    s.accepted = appended raceActs ∧
    (StreamDfg.run s.accepted).dfg = [(("a", "b"), 1)] ∧ (StreamDfg.run (recv () s.received)).dfg = [(("b", "a"), 1)] := by
  refine ⟨⟨[], _, rfl, rfl⟩, _, rfl, rfl, rfl, rfl, ?_, ?_⟩ <;> decide

/-- a schedule with two calls of `stop` -/
def twoStops : List (Act Nat) :=
  [.start, .append 7, .stopCall, .stopCall, .stopRun 0, .stopRun 1, .deliver, .deliver, .take, .finish 0, .stopRun 0, .stopEnd 0, .stopRun 1, .stopEnd 1]

/-- C79: if `stop` is called by two threads, the second one can be woken instead of the delivery thread, which then waits forever (it is not a daemon:
the interpreter does not exit). -/
theorem C79_two_stops_refuted : StartFirst twoStops ∧ ∃ s, exec 6 [()] init twoStops = some s ∧ s.stops = [.returned, .returned] ∧
    s.mail = .waiting ∧ s.waiters = [.mail] ∧ Quiet 6 [()] s := by
  refine ⟨⟨[], _, rfl, rfl⟩, _, rfl, rfl, rfl, rfl, ?_⟩
  intro a ha
  cases a with
  | append e => simp [Act.internal] at ha
  | start => simp [Act.internal] at ha
  | stopCall => simp [Act.internal] at ha
  | deliver => rfl
  | take => rfl
  | finish i => rfl
  | stopRun i => match i with
    | 0 => rfl
    | 1 => rfl
    | i + 2 => rfl
  | stopEnd i => match i with
    | 0 => rfl
    | 1 => rfl
    | i + 2 => rfl

/-- C79: `stop` on a stream that has events but was never started waits forever. -/
theorem C79_never_started_refuted : ∃ s : State Unit Nat, exec 6 [()] init [.append 7, .stopCall, .stopRun 0] = some s ∧
    s.stops = [.waiting] ∧ Quiet 6 [()] s := by
  refine ⟨_, rfl, rfl, ?_⟩
  intro a ha
  cases a with
  | append e => simp [Act.internal] at ha
  | start => simp [Act.internal] at ha
  | stopCall => simp [Act.internal] at ha
  | deliver => rfl
  | take => rfl
  | finish i => rfl
  | stopRun i => match i with
    | 0 => rfl
    | i + 1 => rfl
  | stopEnd i => match i with
    | 0 => rfl
    | i + 1 => rfl

/-- C79: `stop` before `start` shuts the pool down without finishing the stream: the next delivered event is lost, the delivery thread dies with the lock
held, and every later call of `append` blocks. -/
theorem C79_stop_before_start_refuted : ∃ s : State Unit Nat, exec 6 [()] init [.stopCall, .stopRun 0, .stopEnd 0, .start, .append 7, .deliver] = some s ∧
    s.stops = [.returned] ∧ s.accepted = [7] ∧ s.received = [] ∧ s.mail = .crashed ∧ ∀ e, step 6 [()] s (.append e) = none :=
  ⟨_, rfl, rfl, rfl, rfl, rfl, fun _ => rfl⟩

/-- a schedule for the theorems above: an event while the delivery thread waits, one while `stop` waits, two observers, two workers -/
def okActs : List (Act Nat) :=
  [.append 1, .start, .deliver, .deliver, .append 2, .stopCall, .stopRun 0, .append 3, .deliver, .deliver, .take, .take, .finish 1, .take, .finish 0]

example : StartFirst okActs ∧ stopCalls okActs = 1 ∧ ∃ s, exec 2 [true, false] init okActs = some s ∧ s.accepted = [1, 2, 3] ∧
    s.mail = .ready ∧ s.received = [(false, 1), (true, 1)] := 
  ⟨⟨[.append 1], _, rfl, rfl⟩, rfl, _, rfl, rfl, rfl, rfl⟩

/-- continued to the end -/
example : ∃ s, exec 2 [true, false] init (okActs ++ [.deliver, .finish 0, .stopRun 0, .take, .take, .finish 1, .take, .finish 1, .finish 0, .stopEnd 0, .append 9, .deliver]) = some s ∧
    s.stops = [.returned] ∧ s.mail = .done ∧ s.accepted = [1, 2, 3] ∧ recv true s.received = [1, 2, 3] ∧ recv false s.received = [1, 3, 2] :=
  ⟨_, rfl, rfl, rfl, rfl, rfl, rfl⟩

end Verif
