import Verif.CycleTime.Model
/-
Property theorems C68: what the cycle time counts.
-/
set_option linter.unusedSectionVars false
namespace Verif
open CycleTime
namespace CycleTime

/-! ### specification -/

/-- some event is being executed in the time slot from `k` to `k + 1` -/
def busy (events : List Ev) (k : Int) : Bool := events.any fun e => decide (e.1 ≤ k) && decide (k < e.2)

/-- the number of busy time slots between `a` and `b` -/
def busyTime (events : List Ev) (a b : Int) : Nat := ((List.range (b - a).toNat).filter fun i => busy events (a + (i : Nat))).length

/-- every event ends after (or when) it starts -/
def WF (events : List Ev) : Prop := ∀ e ∈ events, e.1 ≤ e.2

/-- `s` is the begin of the last busy period: some event starts at `s`, all events that start before also end before, and every event that
starts later touches an earlier one -/
structure LastPeriod (events : List Ev) (s : Int) : Prop where
  start : ∃ e ∈ events, e.1 = s
  before : ∀ e ∈ events, e.1 < s → e.2 < s
  after : ∀ e ∈ events, s < e.1 → ∃ e' ∈ events, e'.1 < e.1 ∧ e.1 ≤ e'.2

/-- `m` is the last completion -/
def LastEnd (events : List Ev) (m : Int) : Prop := (∃ e ∈ events, e.2 = m) ∧ ∀ e ∈ events, e.2 ≤ m

/-! ### counting -/

def cnt (p : Int → Bool) (a : Int) (n : Nat) : Nat := ((List.range n).filter fun i => p (a + (i : Nat))).length

theorem cnt_succ (p : Int → Bool) (a : Int) (n : Nat) : cnt p a (n + 1) = cnt p a n + if p (a + n) then 1 else 0 := by
  unfold cnt
  rw [List.range_succ, List.filter_append, List.length_append]
  simp only [List.filter_cons, List.filter_nil]
  split <;> simp

theorem cnt_add (p : Int → Bool) (a : Int) (m : Nat) : ∀ n, cnt p a (m + n) = cnt p a m + cnt p (a + m) n
  | 0 => by simp [cnt]
  | n + 1 => by
    rw [← Nat.add_assoc, cnt_succ, cnt_add p a m n, cnt_succ, Nat.add_assoc]
    congr 3
    rw [show a + ((m + n : Nat) : Int) = a + m + n by omega]

theorem cnt_full {p : Int → Bool} {a : Int} : ∀ {n : Nat}, (∀ k, a ≤ k → k < a + n → p k = true) → cnt p a n = n
  | 0, _ => by simp [cnt]
  | n + 1, h => by
    rw [cnt_succ, cnt_full (fun k h1 h2 => h k h1 (by omega)), if_pos (h _ (by omega) (by omega))]

theorem cnt_none {p : Int → Bool} {a : Int} : ∀ {n : Nat}, (∀ k, a ≤ k → k < a + n → p k = false) → cnt p a n = 0
  | 0, _ => by simp [cnt]
  | n + 1, h => by
    rw [cnt_succ, cnt_none (fun k h1 h2 => h k h1 (by omega)), if_neg (by rw [h _ (by omega) (by omega)]; simp)]

theorem cnt_congr {p q : Int → Bool} {a : Int} : ∀ {n : Nat}, (∀ k, a ≤ k → k < a + n → p k = q k) → cnt p a n = cnt q a n
  | 0, _ => by simp [cnt]
  | n + 1, h => by
    rw [cnt_succ, cnt_succ, cnt_congr (fun k h1 h2 => h k h1 (by omega)), h _ (by omega) (by omega)]

theorem busyTime_eq (es : List Ev) (a b : Int) : busyTime es a b = cnt (busy es) a (b - a).toNat := rfl

theorem busyTime_split {es : List Ev} {a b c : Int} (h1 : a ≤ b) (h2 : b ≤ c) : busyTime es a c = busyTime es a b + busyTime es b c := by
  rw [busyTime_eq, busyTime_eq, busyTime_eq, show (c - a).toNat = (b - a).toNat + (c - b).toNat by omega, cnt_add]
  congr 2
  omega

theorem busyTime_full {es : List Ev} {a b : Int} (hab : a ≤ b) (h : ∀ k, a ≤ k → k < b → busy es k = true) :
    (busyTime es a b : Int) = b - a := by
  rw [busyTime_eq, cnt_full (fun k h1 h2 => h k h1 (by omega))]; omega

theorem busyTime_none {es : List Ev} {a b : Int} (h : ∀ k, a ≤ k → k < b → busy es k = false) : busyTime es a b = 0 := by
  rw [busyTime_eq]
  exact cnt_none (fun k h1 h2 => h k h1 (by omega))

theorem busyTime_congr {es es' : List Ev} {a b : Int} (h : ∀ k, a ≤ k → k < b → busy es k = busy es' k) :
    busyTime es a b = busyTime es' a b := by
  rw [busyTime_eq, busyTime_eq]
  exact cnt_congr (fun k h1 h2 => h k h1 (by omega))

theorem busy_iff {es : List Ev} {k : Int} : busy es k = true ↔ ∃ e ∈ es, e.1 ≤ k ∧ k < e.2 := by
  simp [busy, List.any_eq_true]

theorem busy_false {es : List Ev} {k : Int} : busy es k = false ↔ ∀ e ∈ es, e.1 ≤ k → e.2 ≤ k := by
  rw [← Bool.not_eq_true, busy_iff]
  constructor
  · intro h e he h1
    have : ¬ k < e.2 := fun h2 => h ⟨e, he, h1, h2⟩
    omega
  · rintro h ⟨e, he, h1, h2⟩
    have := h e he h1
    omega

/-! ### the loop -/

/-- what holds after the events `P` -/
structure Inv (P : List Ev) (s : St) : Prop where
  last : LastPeriod P s.st
  fin : LastEnd P s.et
  full : ∀ k, s.st ≤ k → k < s.et → busy P k = true
  le : s.st ≤ s.et
  prod : ∀ a, (∀ e ∈ P, a ≤ e.1) → s.prod = busyTime P a s.st

theorem inv_one {e : Ev} (h : e.1 ≤ e.2) : Inv [e] ⟨0, e.1, e.2⟩ := by
  refine ⟨⟨⟨e, by simp, rfl⟩, ?_, ?_⟩, ⟨⟨e, by simp, rfl⟩, by simp⟩, ?_, h, ?_⟩
  · intro e' he' h'
    rw [List.mem_singleton.1 he'] at h'
    simp at h'
  · intro e' he' h'
    rw [List.mem_singleton.1 he'] at h'
    simp at h'
  · intro k h1 h2
    exact busy_iff.2 ⟨e, by simp, h1, h2⟩
  · intro a ha
    show 0 = _
    rw [busyTime_none]
    · rfl
    · intro k h1 h2
      refine busy_false.2 fun e' he' h' => ?_
      rw [List.mem_singleton.1 he'] at h'
      simp only at h2
      omega

theorem inv_step {P : List Ev} {s : St} {e : Ev} (h : Inv P s) (hwf : e.1 ≤ e.2) (hs : ∀ x ∈ P, x.1 ≤ e.1) :
    Inv (P ++ [e]) (step s e) := by
  obtain ⟨hl, hf, hfull, hse, hp⟩ := h
  obtain ⟨e0, he0, h0⟩ := hl.start
  have hst := hs e0 he0
  have hmem : ∀ {x}, x ∈ P → x ∈ P ++ [e] := fun h => List.mem_append_left _ h
  have hme : e ∈ P ++ [e] := by simp
  have hbusy : ∀ {k}, busy P k = true → busy (P ++ [e]) k = true := by
    intro k hk
    obtain ⟨x, hx, hx'⟩ := busy_iff.1 hk
    exact busy_iff.2 ⟨x, hmem hx, hx'⟩
  unfold step
  split
  · next hgt =>
    have hend : ∀ x ∈ P, x.2 < e.1 := fun x hx => by have := hf.2 x hx; omega
    have hmax : max s.et e.2 = e.2 := by omega
    refine ⟨⟨⟨e, hme, rfl⟩, fun x hx hlt => ?_, fun x hx hlt => ?_⟩, ⟨⟨e, hme, hmax.symm⟩, fun x hx => ?_⟩, fun k h1 h2 => ?_,
      by show e.1 ≤ max s.et e.2; omega, fun a ha => ?_⟩
    · rcases List.mem_append.1 hx with hx | hx
      · exact hend x hx
      · rw [List.mem_singleton.1 hx] at hlt; simp at hlt
    · rcases List.mem_append.1 hx with hx | hx
      · have := hs x hx; simp only at hlt; omega
      · rw [List.mem_singleton.1 hx] at hlt; simp at hlt
    · rcases List.mem_append.1 hx with hx | hx
      · have := hend x hx
        show x.2 ≤ max s.et e.2
        omega
      · rw [List.mem_singleton.1 hx]
        show e.2 ≤ max s.et e.2
        omega
    · simp only [hmax] at h1 h2
      exact busy_iff.2 ⟨e, hme, h1, h2⟩
    · have haP : ∀ x ∈ P, a ≤ x.1 := fun x hx => ha x (hmem hx)
      have has : a ≤ s.st := h0 ▸ haP e0 he0
      show s.prod + (s.et - s.st) = _
      rw [hp a haP]
      rw [show busyTime (P ++ [e]) a e.1 = busyTime P a e.1 from ?_]
      · rw [busyTime_split (a := a) (b := s.st) (c := e.1) has (by omega), busyTime_split (a := s.st) (b := s.et) (c := e.1) hse (by omega),
          busyTime_none (a := s.et) (b := e.1)]
        · have := busyTime_full hse hfull
          omega
        · intro k h1 h2
          exact busy_false.2 fun x hx _ => by have := hf.2 x hx; omega
      · refine busyTime_congr fun k h1 h2 => ?_
        cases hb : busy P k with
        | true => exact hbusy hb
        | false =>
          refine busy_false.2 fun x hx hle => ?_
          rcases List.mem_append.1 hx with hx | hx
          · exact busy_false.1 hb x hx hle
          · rw [List.mem_singleton.1 hx] at hle; omega
  · next hle =>
    have hle : e.1 ≤ s.et := by omega
    have hst' : s.st ≤ e.1 := by omega
    refine ⟨⟨⟨e0, hmem he0, h0⟩, fun x hx hlt => ?_, fun x hx hlt => ?_⟩, ⟨?_, fun x hx => ?_⟩, fun k h1 h2 => ?_,
      by show s.st ≤ max s.et e.2; omega, fun a ha => ?_⟩
    · rcases List.mem_append.1 hx with hx | hx
      · exact hl.before x hx hlt
      · rw [List.mem_singleton.1 hx] at hlt
        simp only at hlt; omega
    · rcases List.mem_append.1 hx with hx | hx
      · obtain ⟨y, hy, hy'⟩ := hl.after x hx hlt
        exact ⟨y, hmem hy, hy'⟩
      · rw [List.mem_singleton.1 hx] at hlt ⊢
        simp only at hlt
        by_cases hex : ∃ y ∈ P, y.1 < e.1 ∧ e.1 ≤ y.2
        · obtain ⟨y, hy, hy'⟩ := hex
          exact ⟨y, hmem hy, hy'⟩
        · exfalso
          obtain ⟨y, hy, hy'⟩ := hf.1
          have hys := hs y hy
          by_cases hyl : y.1 < e.1
          · exact hex ⟨y, hy, hyl, by omega⟩
          · have : y.1 = e.1 := by omega
            obtain ⟨z, hz, hz1, hz2⟩ := hl.after y hy (by omega)
            exact hex ⟨z, hz, by omega, by omega⟩
    · by_cases hm : s.et ≤ e.2
      · exact ⟨e, hme, by simp only; omega⟩
      · obtain ⟨y, hy, hy'⟩ := hf.1
        exact ⟨y, hmem hy, by simp only; omega⟩
    · rcases List.mem_append.1 hx with hx | hx
      · have := hf.2 x hx
        show x.2 ≤ max s.et e.2
        omega
      · rw [List.mem_singleton.1 hx]
        show e.2 ≤ max s.et e.2
        omega
    · simp only at h1 h2
      by_cases hk : k < s.et
      · exact hbusy (hfull k h1 hk)
      · exact busy_iff.2 ⟨e, hme, by omega, by omega⟩
    · rw [hp a fun x hx => ha x (hmem hx)]
      simp only
      rw [busyTime_congr]
      intro k h1 h2
      cases hb : busy P k with
      | true => exact (hbusy hb).symm
      | false =>
        refine (busy_false.2 fun x hx hle' => ?_).symm
        rcases List.mem_append.1 hx with hx | hx
        · exact busy_false.1 hb x hx hle'
        · rw [List.mem_singleton.1 hx] at hle'; omega

theorem inv_foldl : ∀ (l : List Ev) {P : List Ev} {s : St}, Inv P s → WF l → (∀ x ∈ P, ∀ y ∈ l, x.1 ≤ y.1) →
    l.Pairwise (fun x y => x.1 ≤ y.1) → Inv (P ++ l) (l.foldl step s)
  | [], P, s, h, _, _, _ => by simpa using h
  | e :: l, P, s, h, hw, hs, hp => by
    rw [List.pairwise_cons] at hp
    have := inv_foldl l (inv_step h (hw e (by simp)) (fun x hx => hs x hx e (by simp))) (fun x hx => hw x (by simp [hx])) (fun x hx y hy => by
      rcases List.mem_append.1 hx with hx | hx
      · exact hs x hx y (by simp [hy])
      · rw [List.mem_singleton.1 hx]; exact hp.1 y hy) hp.2
    simpa using this

theorem LastPeriod.perm {l l' : List Ev} (hp : l.Perm l') {s : Int} (h : LastPeriod l s) : LastPeriod l' s :=
  ⟨let ⟨e, he, h'⟩ := h.start; ⟨e, hp.mem_iff.1 he, h'⟩, fun e he => h.before e (hp.mem_iff.2 he), fun e he hlt =>
    let ⟨e', he', h'⟩ := h.after e (hp.mem_iff.2 he) hlt; ⟨e', hp.mem_iff.1 he', h'⟩⟩

theorem busy_perm {l l' : List Ev} (hp : l.Perm l') : busy l = busy l' := by
  funext k
  unfold busy
  rw [Bool.eq_iff_iff, List.any_eq_true, List.any_eq_true]
  constructor
  · rintro ⟨x, hx, h⟩; exact ⟨x, hp.mem_iff.1 hx, h⟩
  · rintro ⟨x, hx, h⟩; exact ⟨x, hp.mem_iff.2 hx, h⟩

theorem keyLe_trans (a b c : Ev) (h1 : keyLe a b = true) (h2 : keyLe b c = true) : keyLe a c = true := by
  simp only [keyLe, Bool.or_eq_true, Bool.and_eq_true, decide_eq_true_eq] at *; omega

theorem keyLe_total (a b : Ev) : (keyLe a b || keyLe b a) = true := by
  simp only [keyLe, Bool.or_eq_true, Bool.and_eq_true, decide_eq_true_eq]; omega

theorem inv_final {events : List Ev} (hw : WF events) {p : Int} (h : production events = some p) :
    ∃ s m, LastPeriod events s ∧ LastEnd events m ∧ s ≤ m ∧ (∀ k, s ≤ k → k < m → busy events k = true) ∧
      ∀ a, (∀ e ∈ events, a ≤ e.1) → p = busyTime events a s := by
  have hperm := List.mergeSort_perm events keyLe
  have hsort : (events.mergeSort keyLe).Pairwise (fun x y => x.1 ≤ y.1) := by
    refine (List.pairwise_mergeSort keyLe_trans keyLe_total events).imp fun {a b} h => ?_
    simp only [keyLe, Bool.or_eq_true, Bool.and_eq_true, decide_eq_true_eq] at h
    omega
  have hw' : WF (events.mergeSort keyLe) := fun e he => hw e (hperm.mem_iff.1 he)
  unfold production at h
  cases hm : events.mergeSort keyLe with
  | nil => rw [hm] at h; simp at h
  | cons e es =>
    rw [hm] at h hsort hw' hperm
    simp only [Option.some.injEq] at h
    rw [List.pairwise_cons] at hsort
    have hi := inv_foldl es (inv_one (hw' e (by simp))) (fun x hx => hw' x (by simp [hx])) (fun x hx y hy => by
      rw [List.mem_singleton.1 hx]; exact hsort.1 y hy) hsort.2
    rw [show [e] ++ es = e :: es from rfl] at hi
    have hb := busy_perm hperm
    refine ⟨_, _, hi.last.perm hperm, ⟨?_, fun x hx => hi.fin.2 x (hperm.mem_iff.2 hx)⟩, ?_, fun k h1 h2 => ?_, fun a ha => ?_⟩
    · obtain ⟨x, hx, hx'⟩ := hi.fin.1
      exact ⟨x, hperm.mem_iff.1 hx, hx'⟩
    · obtain ⟨x, hx, hx'⟩ := hi.last.start
      have := hi.fin.2 x hx
      have := hw' x hx
      omega
    · rw [← hb]; exact hi.full k h1 h2
    · rw [← h, hi.prod a fun x hx => ha x (hperm.mem_iff.1 hx), busyTime, busyTime, hb]

theorem LastPeriod.uniq {events : List Ev} {s s' : Int} (h : LastPeriod events s) (h' : LastPeriod events s') : s = s' := by
  have key : ∀ {a b : Int}, LastPeriod events a → LastPeriod events b → ¬ a < b := by
    intro a b ha hb hlt
    obtain ⟨e, he, rfl⟩ := hb.start
    obtain ⟨e', he', h1, h2⟩ := ha.after e he hlt
    have := hb.before e' he' h1
    omega
  have h1 := key h h'
  have h2 := key h' h
  omega

end CycleTime

/-- **C68 (1)**: the production time that the cycle time is computed from, for every list of events that end after they start (in any
order): the number of busy time slots **before the begin of the last busy period**. -/
theorem C68_production {events : List Ev} (hw : WF events) (hne : events ≠ []) {s a : Int} (hs : LastPeriod events s)
    (ha : ∀ e ∈ events, a ≤ e.1) : production events = some (busyTime events a s : Int) := by
  cases h : production events with
  | none =>
    unfold production at h
    cases hm : events.mergeSort keyLe with
    | nil =>
      have := (List.mergeSort_perm events keyLe).length_eq
      rw [hm] at this
      exact absurd (List.length_eq_zero_iff.1 this.symm) hne
    | cons e es => rw [hm] at h; simp at h
  | some p =>
    obtain ⟨s', m, h1, _, _, _, h2⟩ := inv_final hw h
    rw [h2 a ha, hs.uniq h1]

/-- **C68 (2)**: there always is a last busy period, it lasts until the last completion without interruption, and the whole production
time of the log is what is counted plus the length of that period: the last period is always missing. -/
theorem C68_missing {events : List Ev} (hw : WF events) {p : Int} (h : production events = some p) {m : Int} (hm : LastEnd events m) :
    ∃ s, LastPeriod events s ∧ s ≤ m ∧ ∀ a, (∀ e ∈ events, a ≤ e.1) → (busyTime events a m : Int) = p + (m - s) := by
  obtain ⟨s, m', h1, h2, h3, h4, h5⟩ := inv_final hw h
  have e : m = m' := by
    obtain ⟨⟨x, hx, hx'⟩, hm2⟩ := hm
    obtain ⟨⟨y, hy, hy'⟩, hm2'⟩ := h2
    have := hm2 y hy
    have := hm2' x hx
    omega
  subst e
  refine ⟨s, h1, h3, fun a ha => ?_⟩
  have has : a ≤ s := by
    obtain ⟨x, hx, rfl⟩ := h1.start
    exact ha x hx
  rw [busyTime_split has h3, h5 a ha]
  have := busyTime_full h3 h4
  omega

/-- **C68 (3)**: it is never negative and at most the time between the first start and the last completion. -/
theorem C68_bounds {events : List Ev} (hw : WF events) {p : Int} (h : production events = some p) {a m : Int}
    (ha : ∀ e ∈ events, a ≤ e.1) (hm : ∀ e ∈ events, e.2 ≤ m) : 0 ≤ p ∧ p ≤ m - a := by
  obtain ⟨s, m', h1, h2, h3, h4, h5⟩ := inv_final hw h
  obtain ⟨x, hx, hx'⟩ := h1.start
  have h6 := ha x hx
  have h7 := hm x hx
  have h8 := hw x hx
  rw [h5 a ha]
  refine ⟨by omega, ?_⟩
  have : busyTime events a s ≤ (s - a).toNat := by
    unfold busyTime
    exact Nat.le_trans (List.length_filter_le _ _) (by simp)
  omega

/-- **C68 (4)**: the order of the events does not matter. -/
theorem C68_order {events events' : List Ev} (hp : events.Perm events') (hw : WF events) : production events = production events' := by
  have hw' : WF events' := fun e he => hw e (hp.mem_iff.2 he)
  by_cases hne : events = []
  · subst hne
    rw [List.nil_perm.1 hp]
  · have hne' : events' ≠ [] := by rintro rfl; exact hne (List.perm_nil.1 hp)
    obtain ⟨a, ha⟩ : ∃ a, ∀ e ∈ events, a ≤ e.1 := by
      clear hp hw hne
      induction events with
      | nil => exact ⟨0, by simp⟩
      | cons x xs ih =>
        obtain ⟨a, ha⟩ := ih
        refine ⟨min a x.1, fun e he => ?_⟩
        rcases List.mem_cons.1 he with rfl | he
        · omega
        · have := ha e he; omega
    cases h : production events with
    | none =>
      unfold production at h
      cases hm : events.mergeSort keyLe with
      | nil =>
        have := (List.mergeSort_perm events keyLe).length_eq
        rw [hm] at this
        exact absurd (List.length_eq_zero_iff.1 this.symm) hne
      | cons e es => rw [hm] at h; simp at h
    | some p =>
      obtain ⟨s, m, h1, _, _, _, h5⟩ := inv_final hw h
      rw [C68_production hw' hne' (h1.perm hp) (fun e he => ha e (hp.mem_iff.2 he)), h5 a ha, busyTime, busyTime, busy_perm hp]

/-- **C68 (5, the expected value refuted)**: a log without idle time (every event but the first ones touches an earlier event) has the cycle
time 0, however long it was worked on. -/
theorem C68_refuted {log : List (List Ev)} (hw : WF log.flatten) {s : Int} (hs : LastPeriod log.flatten s)
    (hfirst : ∀ e ∈ log.flatten, s ≤ e.1) : ofLog log = some 0 := by
  have hne : log.flatten ≠ [] := by
    obtain ⟨e, he, _⟩ := hs.start
    intro h; rw [h] at he; simp at he
  have hl : log.length ≠ 0 := by
    intro h
    rw [List.length_eq_zero_iff.1 h] at hne
    exact hne rfl
  have : busyTime log.flatten s s = 0 := by simp [busyTime]
  rw [ofLog, cycleTime, if_neg hl, C68_production hw hne hs hfirst, this]
  simp [Rat.div_def]

/-- like the example of the documentation: 4 units produced one after the other in 8 hours without idle time; the documented cycle time is
2 hours, the computed one is 0 -/
theorem C68_refuted_case : ofLog [[(0, 2)], [(2, 4)], [(4, 6)], [(6, 8)]] = some 0 ∧
    (busyTime [(0, 2), (2, 4), (4, 6), (6, 8)] 0 8 : Rat) / 4 = 2 := by
  refine ⟨C68_refuted (s := 0) (by unfold WF; decide) ⟨by decide, by decide, by decide⟩ (by decide), ?_⟩
  rw [show busyTime [(0, 2), (2, 4), (4, 6), (6, 8)] 0 8 = 8 by decide]
  grind

/-- two busy periods: the first one is counted -/
theorem C68_case : production [(5, 9), (0, 3), (20, 30), (7, 12)] = some 10 ∧ LastPeriod [(5, 9), (0, 3), (20, 30), (7, 12)] 20 ∧
    LastEnd [(5, 9), (0, 3), (20, 30), (7, 12)] 30 ∧ busyTime [(5, 9), (0, 3), (20, 30), (7, 12)] 0 30 = 20 := by
  have hl : LastPeriod [(5, 9), (0, 3), (20, 30), (7, 12)] 20 := ⟨by decide, by decide, by decide⟩
  refine ⟨?_, hl, ⟨by decide, by decide⟩, by decide⟩
  rw [C68_production (a := 0) (by unfold WF; decide) (by simp) hl (by decide)]
  decide

end Verif
