import Verif.Batches.Model
/-
Property theorems C70: detection of batches.
-/
set_option linter.unusedSectionVars false
namespace Verif
open Batches
namespace Batches

/-! ### specification -/

/-- `heapify` and `sort` rearrange their list (nothing else is assumed on them, and nothing on the comparison) -/
structure Ops.OK (o : Ops) : Prop where
  heapify : ∀ l, (o.heapify l).Perm l
  sort : ∀ l, (o.sort l).Perm l

/-- the bounds of the interval are those of its events, which are listed once -/
structure Hull (v : Iv) : Prop where
  nodup : v.evs.Nodup
  left : ∀ e ∈ v.evs, v.st ≤ e.st
  right : ∀ e ∈ v.evs, e.et ≤ v.et
  first : ∃ e ∈ v.evs, e.st = v.st
  last : ∃ e ∈ v.evs, e.et = v.et

/-- the intervals have different events -/
def Disj (x y : Iv) : Prop := ∀ e ∈ x.evs, e ∉ y.evs

/-- the intervals partition the events -/
structure Partition (events : List Ev) (l : List Iv) : Prop where
  cover : ∀ e, e ∈ events ↔ ∃ v ∈ l, e ∈ v.evs
  hull : ∀ v ∈ l, Hull v
  disj : l.Pairwise Disj

/-- two executions that overlap or are at most `d` apart -/
def Close (d : Int) (e f : Ev) : Prop := f.st - e.et ≤ d ∧ e.st - f.et ≤ d

/-! ### partitions -/

theorem Disj.symm {x y : Iv} (h : Disj x y) : Disj y x := fun e he he' => h e he' he

theorem Partition.perm {events : List Ev} {l l' : List Iv} (h : Partition events l) (hp : l.Perm l') : Partition events l' :=
  ⟨fun e => by rw [h.cover]; simp only [hp.mem_iff], fun v hv => h.hull v (hp.mem_iff.2 hv), (hp.pairwise_iff fun h => h.symm).1 h.disj⟩

theorem mem_union {a b : List Ev} {e : Ev} : e ∈ union a b ↔ e ∈ a ∨ e ∈ b := by
  simp only [union, List.mem_append, List.mem_filter, decide_eq_true_eq]
  by_cases h : e ∈ a <;> simp [h]

theorem nodup_union {a b : List Ev} (ha : a.Nodup) (hb : b.Nodup) : (union a b).Nodup := by
  rw [union, List.nodup_append]
  refine ⟨ha, hb.filter _, fun x hx y hy e => ?_⟩
  simp only [List.mem_filter, decide_eq_true_eq] at hy
  exact hy.2 (e ▸ hx)

theorem hull_join {x y : Iv} (hx : Hull x) (hy : Hull y) : Hull (join x y) := by
  obtain ⟨e1, h1, h1'⟩ := hx.first
  obtain ⟨e2, h2, h2'⟩ := hy.first
  obtain ⟨e3, h3, h3'⟩ := hx.last
  obtain ⟨e4, h4, h4'⟩ := hy.last
  refine ⟨nodup_union hx.nodup hy.nodup, fun e he => ?_, fun e he => ?_, ?_, ?_⟩
  · rcases mem_union.1 he with he | he
    · have := hx.left e he; simp only [join]; omega
    · have := hy.left e he; simp only [join]; omega
  · rcases mem_union.1 he with he | he
    · have := hx.right e he; simp only [join]; omega
    · have := hy.right e he; simp only [join]; omega
  · by_cases h : x.st ≤ y.st
    · exact ⟨e1, mem_union.2 (.inl h1), by simp only [join]; omega⟩
    · exact ⟨e2, mem_union.2 (.inr h2), by simp only [join]; omega⟩
  · by_cases h : x.et ≤ y.et
    · exact ⟨e4, mem_union.2 (.inr h4), by simp only [join]; omega⟩
    · exact ⟨e3, mem_union.2 (.inl h3), by simp only [join]; omega⟩

theorem Partition.join {events : List Ev} {l : List Iv} {x y : Iv} (h : Partition events (x :: y :: l)) : Partition events (join x y :: l) := by
  obtain ⟨hx, hyl⟩ := List.pairwise_cons.1 h.disj
  obtain ⟨hy, hl⟩ := List.pairwise_cons.1 hyl
  refine ⟨fun e => ?_, fun v hv => ?_, List.pairwise_cons.2 ⟨fun v hv e he he' => ?_, hl⟩⟩
  · rw [h.cover]
    simp only [List.mem_cons, exists_eq_or_imp]
    show e ∈ x.evs ∨ e ∈ y.evs ∨ _ ↔ e ∈ union x.evs y.evs ∨ _
    rw [mem_union, or_assoc]
  · rcases List.mem_cons.1 hv with rfl | hv
    · exact hull_join (h.hull x (by simp)) (h.hull y (by simp))
    · exact h.hull v (by simp [hv])
  · rcases mem_union.1 he with he | he
    · exact hx v (by simp [hv]) e he he'
    · exact hy v hv e he he'

theorem firstPair_some {p : Iv → Iv → Bool} : ∀ {l pre : List Iv} {x y : Iv} {post : List Iv}, firstPair p l = some (pre, x, y, post) →
    l = pre ++ x :: y :: post ∧ p x y = true
  | [], _, _, _, _, h => by simp [firstPair] at h
  | [_], _, _, _, _, h => by simp [firstPair] at h
  | a :: b :: l, pre, x, y, post, h => by
    rw [firstPair] at h
    split at h
    · next hp =>
      simp only [Option.some.injEq, Prod.mk.injEq] at h
      obtain ⟨rfl, rfl, rfl, rfl⟩ := h
      exact ⟨rfl, hp⟩
    · cases hr : firstPair p (b :: l) with
      | none => rw [hr] at h; simp at h
      | some r =>
        rw [hr] at h
        obtain ⟨r1, r2, r3, r4⟩ := r
        simp only [Option.map_some, Option.some.injEq, Prod.mk.injEq] at h
        obtain ⟨rfl, rfl, rfl, rfl⟩ := h
        obtain ⟨e, hp⟩ := firstPair_some hr
        exact ⟨by rw [e]; rfl, hp⟩

theorem partition_mergeOverlapping {o : Ops} (ho : o.OK) {events : List Ev} : ∀ (fuel : Nat) {l : List Iv}, Partition events l →
    Partition events (mergeOverlapping o fuel l)
  | 0, l, h => h
  | fuel + 1, l, h => by
    rw [mergeOverlapping]
    split
    · exact h
    · next pre x y post hf =>
      obtain ⟨e, _⟩ := firstPair_some hf
      subst e
      refine partition_mergeOverlapping ho fuel (Partition.perm ?_ (ho.sort _).symm)
      have h1 : Partition events (x :: y :: (pre ++ post)) := h.perm (by
        have : (pre ++ x :: y :: post).Perm (x :: (pre ++ y :: post)) := List.perm_middle
        exact this.trans (List.Perm.cons _ List.perm_middle))
      refine h1.join.perm ?_
      exact (List.perm_append_singleton _ _).symm

theorem siftdown_perm (lt : Iv → Iv → Bool) : ∀ (fuel : Nat) (l : List Iv) (pos : Nat), (siftdown lt fuel l pos).Perm l
  | 0, l, _ => .refl _
  | fuel + 1, l, pos => by
    rw [siftdown]
    split
    · exact .refl _
    · split
      · split
        · exact (siftdown_perm lt fuel _ _).trans (List.set_set_perm _ _)
        · exact .refl _
      · exact .refl _

theorem heappush_perm (lt : Iv → Iv → Bool) (l : List Iv) (x : Iv) : (heappush lt l x).Perm (x :: l) :=
  (siftdown_perm lt _ _ _).trans (List.perm_append_singleton _ _)

theorem split_at {l : List Iv} {i : Nat} (h : i + 1 < l.length) : l.Perm (l[i] :: l[i + 1] :: (l.take i ++ l.drop (i + 2))) := by
  have e : l = l.take i ++ l[i] :: l[i + 1] :: l.drop (i + 2) := by
    rw [List.getElem_cons_drop, List.getElem_cons_drop, List.take_append_drop]
  have h1 : (l.take i ++ l[i] :: l[i + 1] :: l.drop (i + 2)).Perm (l[i] :: (l.take i ++ l[i + 1] :: l.drop (i + 2))) := List.perm_middle
  have h2 := h1.trans (List.Perm.cons _ List.perm_middle)
  rw [← e] at h2
  exact h2

theorem nearPass_spec {o : Ops} {d : Int} {events : List Ev} : ∀ (fuel i : Nat) (l : List Iv) (c : Bool), l.length - i ≤ fuel → Partition events l →
    Partition events (nearPass o d fuel i l c).1 ∧ (nearPass o d fuel i l c).1.length ≤ l.length ∧
    ((nearPass o d fuel i l c).2 = true → c = true ∨ (nearPass o d fuel i l c).1.length < l.length) ∧
    ((nearPass o d fuel i l c).2 = false → (nearPass o d fuel i l c).1 = l ∧ c = false ∧
      ∀ j, i ≤ j → ∀ h : j + 1 < l.length, near d l[j] l[j + 1] = false)
  | 0, i, l, c, hf, hp => by
    rw [nearPass]
    exact ⟨hp, Nat.le_refl _, fun h => .inl h, fun h => ⟨rfl, h, fun j hj h => by omega⟩⟩
  | fuel + 1, i, l, c, hf, hp => by
    rw [nearPass]
    split
    · next hi =>
      split
      · have hlen : (heappush o.lt (l.take i ++ l.drop (i + 2)) (join l[i] l[i + 1])).length = l.length - 1 := by
          rw [(heappush_perm _ _ _).length_eq]
          simp only [List.length_cons, List.length_append, List.length_take, List.length_drop]
          omega
        have hp' : Partition events (heappush o.lt (l.take i ++ l.drop (i + 2)) (join l[i] l[i + 1])) :=
          ((hp.perm (split_at hi)).join).perm (heappush_perm _ _ _).symm
        obtain ⟨h1, h2, h3, h4⟩ := nearPass_spec (o := o) (d := d) fuel i _ true (by rw [hlen]; omega) hp'
        rw [hlen] at h2
        refine ⟨h1, by omega, fun _ => .inr (by omega), fun h => ?_⟩
        have := (h4 h).2.1
        simp at this
      · next hn =>
        obtain ⟨h1, h2, h3, h4⟩ := nearPass_spec (o := o) (d := d) fuel (i + 1) l c (by omega) hp
        refine ⟨h1, h2, h3, fun h => ?_⟩
        obtain ⟨h5, h6, h7⟩ := h4 h
        refine ⟨h5, h6, fun j hj h => ?_⟩
        by_cases e : j = i
        · subst e; simpa using hn
        · exact h7 j (by omega) h
    · next hi => exact ⟨hp, Nat.le_refl _, fun h => .inl h, fun h => ⟨rfl, h, fun j hj h => by omega⟩⟩

/-- no two neighbours are near -/
def Apart (d : Int) (l : List Iv) : Prop := ∀ j, ∀ h : j + 1 < l.length, near d l[j] l[j + 1] = false

theorem mergeNear_spec {o : Ops} {d : Int} {events : List Ev} : ∀ (fuel : Nat) (l : List Iv), l.length < fuel → Partition events l →
    Partition events (mergeNear o d fuel l) ∧ Apart d (mergeNear o d fuel l)
  | 0, l, hf, _ => by omega
  | fuel + 1, l, hf, hp => by
    obtain ⟨h1, h2, h3, h4⟩ := nearPass_spec (o := o) (d := d) l.length 0 l false (by omega) hp
    have hm : mergeNear o d (fuel + 1) l =
      if (nearPass o d l.length 0 l false).2 then mergeNear o d fuel (nearPass o d l.length 0 l false).1 else (nearPass o d l.length 0 l false).1 := rfl
    rw [hm]
    split
    · next hc =>
      have := (h3 hc).resolve_left (by simp)
      exact mergeNear_spec fuel _ (by omega) h1
    · next hc =>
      obtain ⟨h5, _, h6⟩ := h4 (by simpa using hc)
      refine ⟨h1, ?_⟩
      rw [h5]
      exact fun j h => h6 j (by omega) h

theorem partition_init {events : List Ev} (hn : events.Nodup) : Partition events (events.map fun e => (⟨e.st, e.et, [e]⟩ : Iv)) := by
  refine ⟨fun e => ?_, fun v hv => ?_, ?_⟩
  · constructor
    · intro he
      exact ⟨_, List.mem_map.2 ⟨e, he, rfl⟩, by simp⟩
    · rintro ⟨v, hv, he⟩
      obtain ⟨e', he', rfl⟩ := List.mem_map.1 hv
      rw [List.mem_singleton.1 he]; exact he'
  · obtain ⟨e, he, rfl⟩ := List.mem_map.1 hv
    exact ⟨by simp, by simp, by simp, ⟨e, by simp, rfl⟩, ⟨e, by simp, rfl⟩⟩
  · rw [List.pairwise_map]
    refine List.Pairwise.imp ?_ hn
    intro a b hab e he he'
    rw [List.mem_singleton.1 he] at he'
    exact hab (List.mem_singleton.1 he')

theorem intervals_spec {o : Ops} (ho : o.OK) (d : Int) {events : List Ev} (hn : events.Nodup) :
    Partition events (intervals o d events) ∧ Apart d (intervals o d events) :=
  mergeNear_spec _ _ (Nat.lt_succ_self _) (partition_mergeOverlapping ho _ ((partition_init hn).perm (ho.heapify _).symm))

theorem pairwise_of_adjacent {d : Int} (hd : 0 ≤ d) : ∀ {l : List Iv}, (∀ v ∈ l, v.st ≤ v.et) →
    (∀ j, ∀ h : j + 1 < l.length, near d l[j] l[j + 1] = false) → l.Pairwise fun x y => y.st > x.et + d
  | [], _, _ => .nil
  | [x], _, _ => by simp
  | x :: y :: l, hw, h => by
    have ih := pairwise_of_adjacent hd (l := y :: l) (fun v hv => hw v (by simp [hv])) (fun j hj => h (j + 1) (by simpa using hj))
    have h0 := h 0 (by simp)
    simp only [near, decide_eq_false_iff_not, List.getElem_cons_zero, List.getElem_cons_succ] at h0
    refine List.pairwise_cons.2 ⟨fun v hv => ?_, ih⟩
    rcases List.mem_cons.1 hv with rfl | hv
    · omega
    · have := (List.pairwise_cons.1 ih).1 v hv
      have := hw y (by simp)
      omega

end Batches

/-- **C70 (1)**: whatever the order of the events, the intervals that are searched for batches partition the events: every event is in
exactly one of them, and the bounds of an interval are the earliest start and the latest end of its events. -/
theorem C70_partition {o : Ops} (ho : o.OK) (d : Int) {events : List Ev} (hn : events.Nodup) : Partition events (intervals o d events) :=
  (intervals_spec ho d hn).1

/-- **C70 (2)**: the intervals are listed in the order of time and lie more than the merge distance apart. -/
theorem C70_separated {o : Ops} (ho : o.OK) {d : Int} (hd : 0 ≤ d) {events : List Ev} (hn : events.Nodup) (hw : ∀ e ∈ events, e.st ≤ e.et) :
    (intervals o d events).Pairwise fun x y => y.st > x.et + d := by
  obtain ⟨h1, h2⟩ := intervals_spec ho d hn
  refine pairwise_of_adjacent hd (fun v hv => ?_) h2
  obtain ⟨e, he, h3⟩ := (h1.hull v hv).first
  have := (h1.hull v hv).right e he
  have := hw e ((h1.cover e).2 ⟨v, hv, he⟩)
  omega

/-- **C70 (3)**: two executions that overlap or are at most the merge distance apart are in the same interval; so they are in the same
batch if the interval is reported. -/
theorem C70_close_together {o : Ops} (ho : o.OK) {d : Int} (hd : 0 ≤ d) {events : List Ev} (hn : events.Nodup)
    (hw : ∀ e ∈ events, e.st ≤ e.et) {e f : Ev} (he : e ∈ events) (hf : f ∈ events) (hc : Close d e f) :
    ∃ v ∈ intervals o d events, e ∈ v.evs ∧ f ∈ v.evs := by
  have hp := C70_partition ho d hn
  have hs := C70_separated ho hd hn hw
  obtain ⟨v, hv, hev⟩ := (hp.cover e).1 he
  obtain ⟨u, hu, hfu⟩ := (hp.cover f).1 hf
  obtain ⟨i, hi, rfl⟩ := List.mem_iff_getElem.1 hv
  obtain ⟨j, hj, rfl⟩ := List.mem_iff_getElem.1 hu
  rw [List.pairwise_iff_getElem] at hs
  have h1 := (hp.hull _ hv).left e hev
  have h2 := (hp.hull _ hv).right e hev
  have h3 := (hp.hull _ hu).left f hfu
  have h4 := (hp.hull _ hu).right f hfu
  obtain ⟨hc1, hc2⟩ := hc
  by_cases hij : i = j
  · subst hij
    exact ⟨_, hv, hev, hfu⟩
  · rcases Nat.lt_or_gt_of_ne hij with h | h
    · have := hs i j hi hj h; omega
    · have := hs j i hj hi h; omega

/-- **C70 (4)**: the reported batches are the intervals with at least the minimum number of executions. -/
theorem C70_reported {o : Ops} (d : Int) (m : Nat) (events : List Ev) (b : Iv) :
    (∃ t, (t, b) ∈ detectSingle o d m events) ↔ b ∈ intervals o d events ∧ b.evs.length ≥ m := by
  unfold detectSingle
  simp only [List.mem_map, List.mem_filter, decide_eq_true_eq, Prod.mk.injEq]
  constructor
  · rintro ⟨t, v, ⟨h1, h2⟩, _, rfl⟩
    exact ⟨h1, h2⟩
  · rintro ⟨h1, h2⟩
    exact ⟨_, b, ⟨h1, h2⟩, rfl, rfl⟩

namespace Batches

theorem all_head {β : Type} [DecidableEq β] (f : Ev → β) (l : List Ev) :
    (l.all fun e => decide (some (f e) = l.head?.map f)) = true ↔ ∀ e ∈ l, ∀ e' ∈ l, f e = f e' := by
  simp only [List.all_eq_true, decide_eq_true_eq]
  cases l with
  | nil => simp
  | cons x l =>
    simp only [List.head?_cons, Option.map_some, Option.some.injEq]
    constructor
    · intro h e he e' he'
      rw [h e he, h e' he']
    · intro h e he
      exact h e he x (by simp)

theorem isSequential_iff : ∀ {l : List Ev}, isSequential l = true ↔ ∀ j, ∀ h : j + 1 < l.length, l[j].et = l[j + 1].st
  | [] => by simp [isSequential]
  | [x] => by simp [isSequential]
  | x :: y :: l => by
    rw [isSequential, Bool.and_eq_true, decide_eq_true_eq, isSequential_iff (l := y :: l)]
    constructor
    · rintro ⟨h1, h2⟩ j hj
      match j with
      | 0 => exact h1
      | j + 1 => exact h2 j (by simpa using hj)
    · intro h
      exact ⟨h 0 (by simp), fun j hj => h (j + 1) (by simpa using hj)⟩

end Batches

/-- **C70 (5)**: the type of a batch: simultaneous if all executions start together and end together, batching on start if (only) all start
together, batching on end if (only) all end together, otherwise sequential if the executions (in the order of time) follow each other
without pause or overlap, otherwise concurrent. -/
theorem C70_types (b : Iv) :
    (batchType b = .simultaneous ↔ (∀ e ∈ b.evs, ∀ e' ∈ b.evs, e.st = e'.st) ∧ (∀ e ∈ b.evs, ∀ e' ∈ b.evs, e.et = e'.et)) ∧
    (batchType b = .batchingStart ↔ (∀ e ∈ b.evs, ∀ e' ∈ b.evs, e.st = e'.st) ∧ ¬ (∀ e ∈ b.evs, ∀ e' ∈ b.evs, e.et = e'.et)) ∧
    (batchType b = .batchingEnd ↔ ¬ (∀ e ∈ b.evs, ∀ e' ∈ b.evs, e.st = e'.st) ∧ (∀ e ∈ b.evs, ∀ e' ∈ b.evs, e.et = e'.et)) ∧
    (batchType b = .seqBatching ↔ ¬ (∀ e ∈ b.evs, ∀ e' ∈ b.evs, e.st = e'.st) ∧ ¬ (∀ e ∈ b.evs, ∀ e' ∈ b.evs, e.et = e'.et) ∧
      ∃ l : List Ev, l.Perm b.evs ∧ l.Pairwise (fun x y => evLe x y = true) ∧ ∀ j, ∀ h : j + 1 < l.length, l[j].et = l[j + 1].st) := by
  have hp := List.mergeSort_perm b.evs evLe
  have h1 := all_head Ev.st (b.evs.mergeSort evLe)
  have h2 := all_head Ev.et (b.evs.mergeSort evLe)
  simp only [hp.mem_iff] at h1 h2
  have htr : ∀ x y z : Ev, evLe x y = true → evLe y z = true → evLe x z = true := by
    intro x y z hxy hyz
    simp only [evLe, Bool.or_eq_true, Bool.and_eq_true, decide_eq_true_eq] at *
    rcases hxy with h | ⟨e, h⟩ <;> rcases hyz with h' | ⟨e', h'⟩
    · left; omega
    · left; omega
    · left; omega
    · right
      refine ⟨by omega, ?_⟩
      rcases h with h | ⟨e1, h⟩ <;> rcases h' with h' | ⟨e1', h'⟩
      · left; omega
      · left; omega
      · left; omega
      · right
        refine ⟨by omega, ?_⟩
        rcases h with h | ⟨e2, h⟩ <;> rcases h' with h' | ⟨e2', h'⟩
        · left; exact String.lt_trans h h'
        · left; rw [← e2']; exact h
        · left; rw [e2]; exact h'
        · right; exact ⟨e2.trans e2', by omega⟩
  have htot : ∀ x y : Ev, (evLe x y || evLe y x) = true := by
    intro x y
    simp only [evLe, Bool.or_eq_true, Bool.and_eq_true, decide_eq_true_eq]
    by_cases e1 : x.st = y.st
    · by_cases e2 : x.et = y.et
      · by_cases e3 : x.case = y.case
        · by_cases e4 : x.id ≤ y.id
          · exact .inl (.inr ⟨e1, .inr ⟨e2, .inr ⟨e3, e4⟩⟩⟩)
          · exact .inr (.inr ⟨e1.symm, .inr ⟨e2.symm, .inr ⟨e3.symm, by omega⟩⟩⟩)
        · by_cases e4 : x.case < y.case
          · exact .inl (.inr ⟨e1, .inr ⟨e2, .inl e4⟩⟩)
          · have : y.case < x.case := by
              by_cases e5 : y.case < x.case
              · exact e5
              · exact absurd (String.le_antisymm (String.not_lt.1 e5) (String.not_lt.1 e4)) e3
            exact .inr (.inr ⟨e1.symm, .inr ⟨e2.symm, .inl this⟩⟩)
      · by_cases e4 : x.et < y.et
        · exact .inl (.inr ⟨e1, .inl e4⟩)
        · exact .inr (.inr ⟨e1.symm, .inl (by omega)⟩)
    · by_cases e4 : x.st < y.st
      · exact .inl (.inl e4)
      · exact .inr (.inl (by omega))
  have hanti : ∀ x y : Ev, evLe x y = true → evLe y x = true → x = y := by
    intro x y hxy hyx
    simp only [evLe, Bool.or_eq_true, Bool.and_eq_true, decide_eq_true_eq] at *
    have e1 : x.st = y.st := by omega
    rw [e1] at hxy hyx
    simp only [Int.lt_irrefl, false_or, true_and] at hxy hyx
    have e2 : x.et = y.et := by omega
    rw [e2] at hxy hyx
    simp only [Int.lt_irrefl, false_or, true_and] at hxy hyx
    have e3 : x.case = y.case := by
      rcases hxy with h | h
      · rcases hyx with h' | h'
        · exact absurd h' (String.lt_asymm h)
        · exact h'.1.symm
      · exact h.1
    rw [e3] at hxy hyx
    simp only [String.lt_irrefl, false_or, true_and] at hxy hyx
    have e4 : x.id = y.id := by omega
    cases x; cases y; simp_all
  have h3 : (∃ l : List Ev, l.Perm b.evs ∧ l.Pairwise (fun x y => evLe x y = true) ∧ ∀ j, ∀ h : j + 1 < l.length, l[j].et = l[j + 1].st) ↔
      isSequential (b.evs.mergeSort evLe) = true := by
    rw [isSequential_iff]
    constructor
    · rintro ⟨l, hl1, hl2, hl3⟩
      have : l = b.evs.mergeSort evLe :=
        (hl1.trans hp.symm).eq_of_pairwise (fun x y _ _ h h' => hanti x y h h') hl2 (List.pairwise_mergeSort htr htot b.evs)
      rw [← this]; exact hl3
    · intro h
      exact ⟨_, hp, List.pairwise_mergeSort htr htot b.evs, h⟩
  rw [h3, ← h1, ← h2]
  unfold batchType
  simp only
  cases ((b.evs.mergeSort evLe).all fun e => decide (some e.st = (b.evs.mergeSort evLe).head?.map Ev.st)) <;>
  cases ((b.evs.mergeSort evLe).all fun e => decide (some e.et = (b.evs.mergeSort evLe).head?.map Ev.et)) <;>
  cases isSequential (b.evs.mergeSort evLe) <;> simp

end Verif
