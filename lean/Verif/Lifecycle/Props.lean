import Verif.Lifecycle.Match
import Mathlib.Data.List.Perm.Subperm
set_option linter.unusedSectionVars false
/-
C82: conversion between lifecycle logs and interval logs.
-/
namespace Verif
namespace Lifecycle
open Dict

/-! ### Specification of the way there and back -/

/-- an interval event: start and end, the start not after the end, no transition -/
def IsInterval (e : Ev) : Prop := e.trans = none ∧ ∃ s, e.st = some s ∧ s ≤ e.ts

/-- two intervals of which none lies inside the other, with both ends different -/
def NotNested (a b : Ev) : Prop := (a.st.getD 0 ≤ b.st.getD 0 ∧ a.ts ≤ b.ts) ∨ (b.st.getD 0 ≤ a.st.getD 0 ∧ b.ts ≤ a.ts)

/-- the intervals with the given starts and ends, in order -/
def zipIntervals (k : String × Option String) (starts ends : List Int) : List Ev :=
  (starts.zip ends).map fun p => ⟨k.1, k.2, none, p.2, some p.1⟩

/-! ### Lemmas -/

instance : Std.Total byStart := ⟨fun a b => by unfold byStart; omega⟩
instance : IsTrans Ev byStart := ⟨fun a b c h1 h2 => by unfold byStart at *; omega⟩
instance : Std.Total before := ⟨fun a b => by unfold before; omega⟩
instance : IsTrans Tagged before := ⟨fun a b c h1 h2 => by unfold before at *; omega⟩

def startsOf (k : String × Option String) (t : List Ev) : List Ev := t.filter fun e => isStart e && decide (key e = k)
def completesOf (k : String × Option String) (t : List Ev) : List Ev := t.filter fun e => isComplete e && decide (key e = k)

theorem key_interval (e : Ev) (s : Int) : key (interval e s) = key e := rfl

theorem zipWith_snoc_left (f : Ev → Ev → Ev) (C S : List Ev) (c s : Ev) (R : List Ev) (h : S.drop C.length = s :: R) :
    List.zipWith f (C ++ [c]) S = List.zipWith f C S ++ [f c s] := by
  induction C generalizing S with
  | nil => simp at h; subst h; simp
  | cons x C ih =>
    cases S with
    | nil => simp at h
    | cons y S => simp only [List.length_cons, List.drop_succ_cons] at h; simp [ih S h]

theorem zipWith_right_long (f : Ev → Ev → Ev) (C S S' : List Ev) (h : C.length ≤ S.length) :
    List.zipWith f C (S ++ S') = List.zipWith f C S := by
  induction C generalizing S with
  | nil => simp
  | cons x C ih =>
    cases S with
    | nil => simp at h
    | cons y S => simp only [List.length_cons, Nat.add_le_add_iff_right] at h; simp [ih S h]

/-- with enough start events everywhere, the pairs of an activity are first with first, second with second, ... -/
theorem pair_fifo (k : String × Option String) (t : List Ev) (hb : ∀ A, A <+: t → (completesOf k A).length ≤ (startsOf k A).length) :
    (Dict.get? (t.foldl pairStep ([], [])).1 k).getD [] = (startsOf k t).drop (completesOf k t).length ∧
    (pairAll t).filter (fun e => decide (key e = k)) = List.zipWith (fun c s => interval c s.ts) (completesOf k t) (startsOf k t) := by
  unfold pairAll
  induction t using List.reverseRecOn with
  | nil => simp [startsOf, completesOf, Dict.get?]
  | append_singleton t e ih =>
    obtain ⟨h1, h2⟩ := ih fun A hA => hb A (hA.trans (List.prefix_append _ _))
    have hbt := hb t (List.prefix_append _ _)
    have hbe := hb _ (List.prefix_refl _)
    rw [List.foldl_append, List.foldl_cons, List.foldl_nil]
    set acc := t.foldl pairStep ([], []) with hacc
    have eS : startsOf k (t ++ [e]) = startsOf k t ++ if isStart e && decide (key e = k) then [e] else [] := by
      unfold startsOf; rw [List.filter_append]; congr 1; by_cases h : (isStart e && decide (key e = k)) = true <;> simp [h]
    have eC : completesOf k (t ++ [e]) = completesOf k t ++ if isComplete e && decide (key e = k) then [e] else [] := by
      unfold completesOf; rw [List.filter_append]; congr 1; by_cases h : (isComplete e && decide (key e = k)) = true <;> simp [h]
    rw [eS, eC] at hbe ⊢
    unfold pairStep
    by_cases hs : isStart e = true
    · have hc := not_both e hs
      rw [if_pos hs]
      by_cases hk : key e = k
      · subst hk
        simp only [hs, hc, decide_true, Bool.and_true, if_true, Bool.false_eq_true, if_false, List.append_nil, get?_set, Option.getD_some]
        refine ⟨?_, ?_⟩
        · rw [h1, List.drop_append_of_le_length hbt]
        · rw [h2, zipWith_right_long _ _ _ _ hbt]
      · have hk' : ¬ k = key e := fun h => hk h.symm
        simp only [hk, hk', decide_false, Bool.and_false, Bool.false_eq_true, if_false, List.append_nil, get?_set]
        exact ⟨h1, h2⟩
    · rw [if_neg hs]
      have hs' : isStart e = false := by simpa using hs
      by_cases hc : isComplete e = true
      · rw [if_pos hc]
        by_cases hk : key e = k
        · subst hk
          simp only [hs', hc, decide_true, Bool.and_true, if_true, Bool.false_eq_true, if_false, List.append_nil] at hbe ⊢
          rw [List.length_append, List.length_singleton] at hbe ⊢
          rw [h1]
          cases hq : (startsOf (key e) t).drop (completesOf (key e) t).length with
          | nil =>
            rw [List.drop_eq_nil_iff] at hq; omega
          | cons s R =>
            dsimp only
            simp only [get?_set, if_true, Option.getD_some]
            refine ⟨?_, ?_⟩
            · rw [← List.drop_drop, hq]; rfl
            · rw [List.filter_append, h2, zipWith_snoc_left _ _ _ _ _ R hq]
              simp [key_interval]
        · have hk' : ¬ k = key e := fun h => hk h.symm
          simp only [hk, decide_false, Bool.and_false, Bool.false_eq_true, if_false, List.append_nil]
          split
          · refine ⟨h1, ?_⟩
            rw [List.filter_append, h2]; simp [key_interval, hk]
          · refine ⟨by simp only [get?_set, hk, hk', if_false]; exact h1, ?_⟩
            rw [List.filter_append, h2]; simp [key_interval, hk]
      · rw [if_neg hc]
        have hc' : isComplete e = false := by simpa using hc
        simp only [hs', hc', Bool.false_and, Bool.false_eq_true, if_false, List.append_nil]
        exact ⟨h1, h2⟩

theorem start_ev (e : Ev) (s : Int) : isStart { e with trans := some "start", ts := s, st := none } = true ∧
    isComplete { e with trans := some "start", ts := s, st := none } = false := by
  constructor
  · unfold isStart transition; simp only [Option.getD_some]; decide
  · unfold isComplete transition; simp only [Option.getD_some]; decide

theorem complete_ev (e : Ev) : isStart { e with trans := some "complete", st := none } = false ∧
    isComplete { e with trans := some "complete", st := none } = true := by
  constructor
  · unfold isStart transition; simp only [Option.getD_some]; decide
  · unfold isComplete transition; simp only [Option.getD_some]; decide

/-- what `splitAll` yields -/
theorem splitAll_spec : ∀ (t : List Ev) (i : Nat), (∀ e ∈ t, IsInterval e) → ∃ l, splitAll i t = some l ∧
    (∀ k, (startsOf k (l.map Tagged.ev)).map Ev.ts = (t.filter fun e => decide (key e = k)).map fun e => e.st.getD 0) ∧
    (∀ k, (completesOf k (l.map Tagged.ev)).map Ev.ts = (t.filter fun e => decide (key e = k)).map Ev.ts) ∧
    ((l.filter fun x => isComplete x.ev).map Tagged.idx = List.range' i t.length) ∧
    (∀ x ∈ l, isComplete x.ev = true → ∃ y ∈ l, isStart y.ev = true ∧ key y.ev = key x.ev ∧ y.idx = x.idx ∧ y.lif < x.lif ∧ y.ev.ts ≤ x.ev.ts) := by
  intro t
  induction t with
  | nil => intro i _; exact ⟨[], rfl, by simp [startsOf], by simp [completesOf], by simp, by simp⟩
  | cons e t ih =>
    intro i h
    obtain ⟨l, h1, h2, h3, h4, h5⟩ := ih (i + 1) fun x hx => h x (List.mem_cons_of_mem _ hx)
    obtain ⟨_, s, hs, hle⟩ := h e List.mem_cons_self
    have es := start_ev e s
    have ec := complete_ev e
    refine ⟨split e s i ++ l, by simp [splitAll, hs, h1], ?_, ?_, ?_, ?_⟩
    · intro k
      have := h2 k
      unfold startsOf at this ⊢
      simp only [List.map_append, List.filter_append, split, List.map_cons, List.map_nil, List.filter_cons, List.filter_nil, es.1, ec.1,
        Bool.true_and, Bool.false_and, Bool.false_eq_true, if_false]
      rw [this]
      have hk : key { e with trans := some "start", ts := s, st := none } = key e := rfl
      rw [hk]
      by_cases hke : key e = k <;> simp [hke, hs]
    · intro k
      have := h3 k
      unfold completesOf at this ⊢
      simp only [List.map_append, List.filter_append, split, List.map_cons, List.map_nil, List.filter_cons, List.filter_nil, es.2, ec.2,
        Bool.true_and, Bool.false_and, Bool.false_eq_true, if_false]
      rw [this]
      have hk : key { e with trans := some "complete", st := none } = key e := rfl
      rw [hk]
      by_cases hke : key e = k <;> simp [hke]
    · simp only [List.filter_append, split, List.filter_cons, List.filter_nil, es.2, ec.2, Bool.false_eq_true, if_false, if_true, List.map_append,
        List.map_cons, List.map_nil]
      rw [h4]; simp [List.range'_succ]
    · intro x hx hc
      rcases List.mem_append.1 hx with hx | hx
      · simp only [split, List.mem_cons, List.not_mem_nil, or_false] at hx
        rcases hx with rfl | rfl
        · rw [es.2] at hc; simp at hc
        · exact ⟨⟨{ e with trans := some "start", ts := s, st := none }, i, 0⟩, by simp [split], es.1, rfl, rfl, by simp, hle⟩
      · obtain ⟨y, a, b⟩ := h5 x hx hc
        exact ⟨y, List.mem_append_right _ a, b⟩

theorem prefix_map {α β : Type} (f : α → β) (l : List α) (A : List β) (h : A <+: l.map f) : ∃ A', A' <+: l ∧ A = A'.map f := by
  obtain ⟨B, hB⟩ := h
  exact ⟨l.take A.length, List.take_prefix _ _, by rw [List.map_take, ← hB]; simp⟩

theorem sortInt (l l' : List Int) (hp : l.Perm l') (hs : l.Pairwise (· ≤ ·)) : l = l'.insertionSort (· ≤ ·) :=
  (hp.trans (List.perm_insertionSort (· ≤ ·) l').symm).eq_of_pairwise' hs (List.pairwise_insertionSort (· ≤ ·) l')

theorem zipWith_intervals (k : String × Option String) : ∀ (C S : List Ev), (∀ c ∈ C, key c = k) →
    List.zipWith (fun c s => interval c s.ts) C S = zipIntervals k (S.map Ev.ts) (C.map Ev.ts) := by
  intro C
  induction C with
  | nil => intro S _; simp [zipIntervals]
  | cons c C ih =>
    intro S h
    cases S with
    | nil => simp [zipIntervals]
    | cons s S =>
      have hc := h c List.mem_cons_self
      have := ih S fun x hx => h x (List.mem_cons_of_mem _ hx)
      simp only [List.zipWith_cons_cons, this, zipIntervals, List.map_cons, List.zip_cons_cons]
      rw [← hc]; rfl

theorem lifecycle_pairs (t : List Ev) (h : ∀ e ∈ t, IsInterval e) : ∃ L, lifecycleTrace t = some L ∧ ∀ k,
    (pairAll L).filter (fun e => decide (key e = k)) = zipIntervals k
      (((t.filter fun e => decide (key e = k)).map fun e => e.st.getD 0).insertionSort (· ≤ ·))
      (((t.filter fun e => decide (key e = k)).map Ev.ts).insertionSort (· ≤ ·)) := by
  obtain ⟨l, h1, h2, h3, h4, h5⟩ := splitAll_spec t 0 h
  refine ⟨(l.insertionSort before).map Tagged.ev, by simp [lifecycleTrace, h1], fun k => ?_⟩
  set L' := l.insertionSort before with hL'
  have hperm : L'.Perm l := List.perm_insertionSort before l
  have hsorted : L'.Pairwise before := List.pairwise_insertionSort before l
  have hts : (L'.map Tagged.ev).Pairwise (fun a b => a.ts ≤ b.ts) := by
    rw [List.pairwise_map]
    refine hsorted.imp fun {a b} hab => ?_
    unfold before at hab; omega
  -- every complete event comes after its start event
  have hbal : ∀ A, A <+: L'.map Tagged.ev → (completesOf k A).length ≤ (startsOf k A).length := by
    intro A hA
    obtain ⟨A', hA', rfl⟩ := prefix_map _ _ _ hA
    obtain ⟨B', hB'⟩ := hA'
    set cs := A'.filter fun x => isComplete x.ev && decide (key x.ev = k) with hcs
    set ss := A'.filter fun x => isStart x.ev && decide (key x.ev = k) with hss
    have e1 : (completesOf k (A'.map Tagged.ev)).length = (cs.map Tagged.idx).length := by
      unfold completesOf; rw [List.filter_map]; simp [hcs, Function.comp_def]
    have e2 : (startsOf k (A'.map Tagged.ev)).length = (ss.map Tagged.idx).length := by
      unfold startsOf; rw [List.filter_map]; simp [hss, Function.comp_def]
    rw [e1, e2]
    have hnd : (cs.map Tagged.idx).Nodup := by
      have hn : ((L'.filter fun x => isComplete x.ev).map Tagged.idx).Nodup := by
        have : ((L'.filter fun x => isComplete x.ev).map Tagged.idx).Perm ((l.filter fun x => isComplete x.ev).map Tagged.idx) :=
          (hperm.filter _).map _
        rw [this.nodup_iff, h4]
        exact List.nodup_range'
      refine hn.sublist (List.Sublist.map _ ?_)
      have s1 : cs.Sublist (A'.filter fun x => isComplete x.ev) := by
        have : cs = (A'.filter fun x => isComplete x.ev).filter fun x => decide (key x.ev = k) := by
          rw [hcs, List.filter_filter]; congr 1; funext x; rw [Bool.and_comm]
        rw [this]; exact List.filter_sublist
      exact s1.trans (List.Sublist.filter _ (by rw [← hB']; exact List.sublist_append_left _ _))
    refine (hnd.subperm fun i hi => ?_).length_le
    obtain ⟨x, hx, rfl⟩ := List.mem_map.1 hi
    rw [hcs, List.mem_filter, Bool.and_eq_true, decide_eq_true_eq] at hx
    obtain ⟨hxA, hxc, hxk⟩ := hx
    have hxl : x ∈ l := hperm.mem_iff.1 (by rw [← hB']; exact List.mem_append_left _ hxA)
    obtain ⟨y, hy, a1, a2, a3, a4, a5⟩ := h5 x hxl hxc
    have hyL : y ∈ A' ++ B' := by rw [hB']; exact hperm.mem_iff.2 hy
    have hyA : y ∈ A' := by
      rcases List.mem_append.1 hyL with a | a
      · exact a
      · exfalso
        rw [← hB', List.pairwise_append] at hsorted
        have := hsorted.2.2 x hxA y a
        unfold before at this; omega
    refine List.mem_map.2 ⟨y, ?_, a3⟩
    rw [hss, List.mem_filter, Bool.and_eq_true, decide_eq_true_eq]
    exact ⟨hyA, a1, a2.trans hxk⟩
  rw [(pair_fifo k _ hbal).2]
  rw [zipWith_intervals k _ _ (fun c hc => by unfold completesOf at hc; rw [List.mem_filter, Bool.and_eq_true, decide_eq_true_eq] at hc; exact hc.2.2)]
  have f1 : (startsOf k (L'.map Tagged.ev)).map Ev.ts = ((t.filter fun e => decide (key e = k)).map fun e => e.st.getD 0).insertionSort (· ≤ ·) := by
    apply sortInt
    · rw [← h2 k]; exact ((hperm.map _).filter _).map _
    · rw [List.pairwise_map]
      exact hts.sublist List.filter_sublist
  have f2 : (completesOf k (L'.map Tagged.ev)).map Ev.ts = ((t.filter fun e => decide (key e = k)).map Ev.ts).insertionSort (· ≤ ·) := by
    apply sortInt
    · rw [← h3 k]; exact ((hperm.map _).filter _).map _
    · rw [List.pairwise_map]
      exact hts.sublist List.filter_sublist
  rw [f1, f2]

/-- intervals none of which lies inside another: sorting starts and ends separately does not tear them apart -/
theorem zip_sorted (k : String × Option String) (l : List Ev) (hk : ∀ e ∈ l, key e = k) (hi : ∀ e ∈ l, IsInterval e)
    (hn : ∀ a ∈ l, ∀ b ∈ l, NotNested a b) :
    (zipIntervals k ((l.map fun e => e.st.getD 0).insertionSort (· ≤ ·)) ((l.map Ev.ts).insertionSort (· ≤ ·))).Perm l := by
  let r : Ev → Ev → Prop := fun a b => a.st.getD 0 < b.st.getD 0 ∨ (a.st.getD 0 = b.st.getD 0 ∧ a.ts ≤ b.ts)
  have : DecidableRel r := fun a b => inferInstanceAs (Decidable (a.st.getD 0 < b.st.getD 0 ∨ (a.st.getD 0 = b.st.getD 0 ∧ a.ts ≤ b.ts)))
  have : Std.Total r := ⟨fun a b => by simp only [r]; omega⟩
  have : IsTrans Ev r := ⟨fun a b c h1 h2 => by simp only [r] at *; omega⟩
  set l' := l.insertionSort r with hl'
  have hp : l'.Perm l := List.perm_insertionSort r l
  have hs : l'.Pairwise r := List.pairwise_insertionSort r l
  have hs2 : l'.Pairwise fun a b => a.st.getD 0 ≤ b.st.getD 0 ∧ a.ts ≤ b.ts := by
    refine hs.imp_of_mem fun {a b} ha hb hab => ?_
    have := hn a (hp.mem_iff.1 ha) b (hp.mem_iff.1 hb)
    unfold NotNested at this
    simp only [r] at hab; omega
  have e1 : (l.map fun e => e.st.getD 0).insertionSort (· ≤ ·) = l'.map fun e => e.st.getD 0 := by
    symm; apply sortInt
    · exact hp.map _
    · rw [List.pairwise_map]; exact hs2.imp fun h => h.1
  have e2 : (l.map Ev.ts).insertionSort (· ≤ ·) = l'.map Ev.ts := by
    symm; apply sortInt
    · exact hp.map _
    · rw [List.pairwise_map]; exact hs2.imp fun h => h.2
  rw [e1, e2]
  have : zipIntervals k (l'.map fun e => e.st.getD 0) (l'.map Ev.ts) = l' := by
    unfold zipIntervals
    rw [List.zip_map', List.map_map]
    have : l'.map id = l' := List.map_id _
    conv_rhs => rw [← this]
    apply List.map_congr_left
    intro e he
    have h1 := hk e (hp.mem_iff.1 he)
    obtain ⟨h2, s, h3, _⟩ := hi e (hp.mem_iff.1 he)
    obtain ⟨act, inst, trans, ts, st⟩ := e
    simp only at h2 h3
    subst h2; subst h3
    simp only [key] at h1
    subst h1
    rfl
  rw [this]; exact hp

theorem perm_of_filters (A B : List Ev) (h : ∀ k, (A.filter fun e => decide (key e = k)).Perm (B.filter fun e => decide (key e = k))) : A.Perm B := by
  rw [List.perm_iff_count]
  intro e
  have := (h (key e)).count_eq e
  rw [List.count_filter (by simp), List.count_filter (by simp)] at this
  exact this

theorem mapAll_spec {α β : Type} (f : α → Option β) : ∀ (l : List α) (P : α → β → Prop), (∀ x ∈ l, ∃ y, f x = some y ∧ P x y) →
    ∃ ys, mapAll f l = some ys ∧ List.Forall₂ P l ys := by
  intro l P
  induction l with
  | nil => intro _; exact ⟨[], rfl, .nil⟩
  | cons x xs ih =>
    intro h
    obtain ⟨y, h1, h2⟩ := h x List.mem_cons_self
    obtain ⟨ys, h3, h4⟩ := ih fun z hz => h z (List.mem_cons_of_mem _ hz)
    exact ⟨y :: ys, by simp [mapAll, h1, h3], .cons h2 h4⟩

theorem forall₂_right {α β : Type} {R : α → β → Prop} {Q : β → Prop} (hQ : ∀ a b, R a b → Q b) {A : List α} {B : List β}
    (h : List.Forall₂ R A B) : ∀ b ∈ B, Q b := by
  induction h with
  | nil => simp
  | cons hab _ ih =>
    intro b hb
    rcases List.mem_cons.1 hb with rfl | hb
    · exact hQ _ _ hab
    · exact ih b hb

end Lifecycle

open Lifecycle

/-- C82, to_interval: every trace of the result consists, sorted by start, of one interval for every complete event, which ends with the complete event
and begins with the start event matched to it, or with itself if none is left.  The matching is the one described by `Matching`. -/
theorem C82_to_interval (L : Log) (hne : L.traces ≠ []) (hp : L.ptype ≠ some "interval") (hf : firstEvent L (fun e => e.st.isSome) = false) :
    (toInterval L).ptype = some "interval" ∧
    List.Forall₂ (fun t t' => ∃ m, Matching t m ∧ (t'.map some).Perm ((completes t).map (resultAt t m)) ∧
      t'.Pairwise fun a b => a.st.getD 0 ≤ b.st.getD 0) L.traces (toInterval L).traces := by
  have e : toInterval L = ⟨some "interval", L.traces.map intervalTrace⟩ := by
    unfold toInterval
    rw [if_pos (List.length_pos_iff.2 hne), if_neg hp, if_neg (by rw [hf]; simp)]
  rw [e]
  refine ⟨rfl, ?_⟩
  simp only
  rw [List.forall₂_map_right_iff, List.forall₂_same]
  intro t _
  obtain ⟨m, q, h⟩ := inv_exists t
  refine ⟨m, h.mat, ?_, ?_⟩
  · rw [← h.out]
    exact (List.perm_insertionSort byStart _).map _
  · exact List.pairwise_insertionSort byStart _

/-- C82, durations: if the timestamps of a trace do not decrease, no interval ends before it starts. -/
theorem C82_durations (t : List Ev) (h : t.Pairwise fun a b => a.ts ≤ b.ts) : ∀ e ∈ intervalTrace t, IsInterval e := by
  intro e he
  have he' : e ∈ pairAll t := (List.perm_insertionSort byStart _).mem_iff.1 he
  obtain ⟨m, q, hI⟩ := inv_exists t
  have : some e ∈ (completes t).map (resultAt t m) := by rw [← hI.out]; exact List.mem_map.2 ⟨e, he', rfl⟩
  obtain ⟨p, hp, hr⟩ := List.mem_map.1 this
  unfold resultAt at hr
  cases hq : t[p]? with
  | none => rw [hq] at hr; simp at hr
  | some c =>
    rw [hq] at hr
    simp only [Option.map_some, Option.some.injEq] at hr
    subst hr
    refine ⟨rfl, _, rfl, ?_⟩
    cases hm : m p with
    | none => simp [interval]
    | some s =>
      obtain ⟨e1, f1, a1, a2, _, _, _, a6⟩ := hI.mat.start p s hm
      rw [hq] at a1
      simp only [Option.some.injEq] at a1
      subst a1
      simp only [Option.bind_some, a2, Option.map_some, Option.getD_some, interval]
      rw [List.getElem?_eq_some_iff] at hq a2
      obtain ⟨hp1, hp2⟩ := hq
      obtain ⟨hs1, hs2⟩ := a2
      have := List.pairwise_iff_getElem.1 h s p hs1 hp1 a6
      rw [hp2, hs2] at this; exact this

/-- C82, idempotence -/
theorem C82_idempotent (L : Log) :
    toInterval (toInterval L) = toInterval L ∧ ∀ L', toLifecycle L = some L' → toLifecycle L' = some L' := by
  refine ⟨?_, ?_⟩
  · by_cases h1 : L.traces.length > 0
    · by_cases h2 : L.ptype = some "interval"
      · have : toInterval L = L := by simp [toInterval, h1, h2]
        rw [this, this]
      · by_cases h3 : firstEvent L (fun e => e.st.isSome) = true
        · have : toInterval L = L := by simp [toInterval, h1, h2, h3]
          rw [this, this]
        · have : toInterval L = ⟨some "interval", L.traces.map intervalTrace⟩ := by simp [toInterval, h1, h2, h3]
          rw [this]; simp [toInterval]
    · have : toInterval L = L := by simp [toInterval, h1]
      rw [this, this]
  · intro L' hL
    unfold toLifecycle at hL
    split at hL
    · rename_i h1
      split at hL
      · rename_i h2; simp only [Option.some.injEq] at hL; subst hL; simp [toLifecycle, h2]
      · split at hL
        · rename_i h2 h3; simp only [Option.some.injEq] at hL; subst hL; simp [toLifecycle, h3]
        · rw [Option.map_eq_some_iff] at hL
          obtain ⟨ts, _, rfl⟩ := hL
          simp [toLifecycle]
    · rename_i h1
      simp only [Option.some.injEq] at hL; subst hL
      simp [toLifecycle, h1]

/-- C82, there and back: an interval log is converted to a lifecycle log and back without an error; for every activity (and instance) the starts and
the ends are kept, the first start with the first end and so on. -/
theorem C82_roundtrip (L : Log) (hp : L.ptype ≠ some "lifecycle") (hi : ∀ t ∈ L.traces, ∀ e ∈ t, IsInterval e) (hne : L.traces ≠ []) :
    ∃ L', toLifecycle L = some L' ∧ List.Forall₂ (fun t t' => ∀ k, (t'.filter fun e => decide (key e = k)).Perm (zipIntervals k
      (((t.filter fun e => decide (key e = k)).map fun e => e.st.getD 0).insertionSort (· ≤ ·))
      (((t.filter fun e => decide (key e = k)).map Ev.ts).insertionSort (· ≤ ·)))) L.traces (toInterval L').traces := by
  have hfe : firstEvent L (fun e => e.trans.isSome) = false := by
    unfold firstEvent
    match ht : L.traces with
    | [] => rfl
    | [] :: _ => rfl
    | (e :: t) :: ts =>
      have := (hi (e :: t) (by rw [ht]; simp) e (by simp)).1
      simp [this]
  obtain ⟨ys, h1, h2⟩ := mapAll_spec lifecycleTrace L.traces (fun t L => (∀ e ∈ L, e.st = none) ∧ ∀ k,
      (pairAll L).filter (fun e => decide (key e = k)) = zipIntervals k
      (((t.filter fun e => decide (key e = k)).map fun e => e.st.getD 0).insertionSort (· ≤ ·))
      (((t.filter fun e => decide (key e = k)).map Ev.ts).insertionSort (· ≤ ·))) (fun t ht => by
    obtain ⟨y, a, b⟩ := lifecycle_pairs t (hi t ht)
    refine ⟨y, a, ?_, b⟩
    unfold lifecycleTrace at a
    rw [Option.map_eq_some_iff] at a
    obtain ⟨l, a1, rfl⟩ := a
    intro e he
    obtain ⟨x, hx, rfl⟩ := List.mem_map.1 he
    rw [List.mem_insertionSort] at hx
    have key : ∀ (t : List Ev) (i : Nat) (l : List Tagged), splitAll i t = some l → ∀ x ∈ l, x.ev.st = none := by
      intro t
      induction t with
      | nil => intro i l h x hx; simp only [splitAll, Option.some.injEq] at h; subst h; simp at hx
      | cons e t ih =>
        intro i l h x hx
        simp only [splitAll, Option.bind_eq_some_iff, Option.map_eq_some_iff] at h
        obtain ⟨s, _, r, hr, rfl⟩ := h
        rcases List.mem_append.1 hx with hx | hx
        · simp only [split, List.mem_cons, List.not_mem_nil, or_false] at hx
          rcases hx with rfl | rfl <;> rfl
        · exact ih _ _ hr x hx
    exact key t 0 l a1 x hx)
  have hlen : L.traces.length > 0 := List.length_pos_iff.2 hne
  refine ⟨⟨some "lifecycle", ys⟩, ?_, ?_⟩
  · unfold toLifecycle
    rw [if_pos hlen, if_neg hp, if_neg (by rw [hfe]; simp), h1]; rfl
  · have hy : ys.length > 0 := by rw [← h2.length_eq]; exact hlen
    have hfe2 : firstEvent ⟨some "lifecycle", ys⟩ (fun e => e.st.isSome) = false := by
      have hall : ∀ y ∈ ys, ∀ e ∈ y, e.st = none := forall₂_right (fun _ _ h => h.1) h2
      unfold firstEvent
      clear h1 h2 hy
      match ys, hall with
      | [], _ => rfl
      | [] :: _, _ => rfl
      | (e :: t) :: ts, hall => simp [hall (e :: t) (by simp) e (by simp)]
    have : toInterval ⟨some "lifecycle", ys⟩ = ⟨some "interval", ys.map intervalTrace⟩ := by
      unfold toInterval
      rw [if_pos hy, if_neg (by simp), if_neg (by rw [hfe2]; simp)]
    rw [this]
    simp only
    rw [List.forall₂_map_right_iff]
    refine h2.imp fun t y hty k => ?_
    rw [← hty.2 k]
    exact (List.perm_insertionSort byStart _).filter _

/-- C82, there and back: if no interval lies inside another one of the same activity and instance, the result has the same events. -/
theorem C82_roundtrip_exact (L : Log) (hp : L.ptype ≠ some "lifecycle") (hi : ∀ t ∈ L.traces, ∀ e ∈ t, IsInterval e) (hne : L.traces ≠ [])
    (hn : ∀ t ∈ L.traces, ∀ a ∈ t, ∀ b ∈ t, key a = key b → NotNested a b) :
    ∃ L', toLifecycle L = some L' ∧ List.Forall₂ List.Perm L.traces (toInterval L').traces := by
  obtain ⟨L', h1, h2⟩ := C82_roundtrip L hp hi hne
  refine ⟨L', h1, ?_⟩
  have key : ∀ (A B : List (List Ev)), (∀ t ∈ A, t ∈ L.traces) → List.Forall₂ (fun t t' => ∀ k, (t'.filter fun e => decide (Lifecycle.key e = k)).Perm (zipIntervals k
      (((t.filter fun e => decide (Lifecycle.key e = k)).map fun e => e.st.getD 0).insertionSort (· ≤ ·))
      (((t.filter fun e => decide (Lifecycle.key e = k)).map Ev.ts).insertionSort (· ≤ ·)))) A B → List.Forall₂ List.Perm A B := by
    intro A B hA h
    induction h with
    | nil => exact .nil
    | @cons t t' A B ht _ ih =>
      refine .cons ?_ (ih fun x hx => hA x (List.mem_cons_of_mem _ hx))
      have htm := hA t List.mem_cons_self
      refine perm_of_filters _ _ fun k => ((ht k).trans ?_).symm
      refine zip_sorted k _ (fun e he => ?_) (fun e he => ?_) (fun a ha b hb => ?_)
      · simpa using (List.mem_filter.1 he).2
      · exact hi t htm e (List.mem_filter.1 he).1
      · have ha' := List.mem_filter.1 ha
        have hb' := List.mem_filter.1 hb
        exact hn t htm a ha'.1 b hb'.1 (by rw [of_decide_eq_true ha'.2, of_decide_eq_true hb'.2])
  exact key _ _ (fun _ h => h) h2

/-- C82: nested intervals of the same activity are torn apart by the way there and back. -/
theorem C82_nested_refuted : ∃ L', toLifecycle ⟨none, [[⟨"a", none, none, 10, some 0⟩, ⟨"a", none, none, 2, some 1⟩]]⟩ = some L' ∧
    (toInterval L').traces = [[⟨"a", none, none, 2, some 0⟩, ⟨"a", none, none, 10, some 1⟩]] := ⟨_, rfl, by decide⟩

/-- C82: only the first event of the first trace tells whether a log is an interval log; if the first trace is empty, an interval log is taken for a
lifecycle log and all its start timestamps are overwritten. -/
theorem C82_first_trace_refuted :
    (toInterval ⟨none, [[], [⟨"a", none, none, 10, some 0⟩]]⟩).traces = [[], [⟨"a", none, none, 10, some 10⟩]] ∧
    (toInterval ⟨none, [[⟨"a", none, none, 10, some 0⟩], []]⟩).traces = [[⟨"a", none, none, 10, some 0⟩], []] := by decide

/-- a trace with two executions of `a` that overlap, an unmatched complete event, an open start event and another transition -/
example : intervalTrace [⟨"a", none, some "START", 0, none⟩, ⟨"a", none, some "start", 1, none⟩, ⟨"b", none, some "complete", 2, none⟩,
      ⟨"a", none, some "suspend", 3, none⟩, ⟨"a", none, none, 4, none⟩, ⟨"a", some "i", some "complete", 5, none⟩, ⟨"a", none, some "complete", 6, none⟩,
      ⟨"c", none, some "start", 7, none⟩] =
    [⟨"a", none, none, 4, some 0⟩, ⟨"a", none, none, 6, some 1⟩, ⟨"b", none, none, 2, some 2⟩, ⟨"a", some "i", none, 5, some 5⟩] := by decide

example : NotNested ⟨"a", none, none, 10, some 0⟩ ⟨"a", none, none, 12, some 1⟩ ∧ IsInterval ⟨"a", none, none, 10, some 0⟩ :=
  ⟨.inl (by decide), rfl, 0, rfl, by decide⟩

end Verif
