import Verif.DfgNet.Playout
import Verif.DfgNet.Proofs
import Mathlib.Data.List.Nodup
import Mathlib.Algebra.Order.Field.Rat
import Mathlib.Tactic.Ring
import Mathlib.Tactic.Linarith
import Mathlib.Tactic.FieldSimp
set_option linter.unusedSectionVars false
/-
C44: proofs on the playout of directly-follows graphs.
-/
namespace Verif.DfgNet
variable {α : Type} [DecidableEq α]

/-- Arcs, starts and ends without the frequencies. -/
def Graph.E (g : Graph α) : List (α × α) := g.arcs.map Prod.fst
def Graph.S (g : Graph α) : List α := g.starts.map Prod.fst
def Graph.F (g : Graph α) : List α := g.ends.map Prod.fst

/-- The partial traces that follow. -/
def children (g : Graph α) (maxOcc : Nat) (x : Rat × List α) : List (Rat × List α) :=
  match x.2.getLast? with
  | none => []
  | some a => ((shares g a).getD []).filterMap fun y => match y.1 with
    | none => none
    | some b => if x.2.count b < maxOcc then some (x.1 * y.2, x.2 ++ [b]) else none

/-- What is yielded for a partial trace. -/
def yields (g : Graph α) (maxOcc : Nat) (x : Rat × List α) : List (List α × Rat) :=
  match x.2.getLast? with
  | none => []
  | some a => ((shares g a).getD []).filterMap fun y => match y.1 with
    | none => if 0 < maxOcc then some (x.2, x.1 * y.2) else none
    | some _ => none

theorem foldl_extend (maxOcc : Nat) (p : Rat) (w : List α) (l : List (Option α × Rat)) (st : PState α) :
    l.foldl (extend maxOcc p w) st =
      { partials := st.partials ++ l.filterMap fun y => match y.1 with
          | none => none
          | some b => if w.count b < maxOcc then some (p * y.2, w ++ [b]) else none,
        yielded := st.yielded ++ l.filterMap fun y => match y.1 with
          | none => if 0 < maxOcc then some (w, p * y.2) else none
          | some _ => none } := by
  induction l generalizing st with
  | nil => simp
  | cons y l ih =>
    rw [List.foldl_cons, ih, List.filterMap_cons, List.filterMap_cons]
    obtain ⟨o, r⟩ := y
    cases o with
    | none =>
      by_cases h : 0 < maxOcc
      · simp [extend, h]
      · simp [extend, h]
    | some b =>
      by_cases h : w.count b < maxOcc
      · simp [extend, h]
      · simp [extend, h]

/-- A partial trace that makes sense. -/
structure Valid (g : Graph α) (maxOcc : Nat) (w : List α) : Prop where
  start : ∃ a ∈ g.S, w.head? = some a
  linked : ∀ i a b, w[i]? = some a → w[i + 1]? = some b → (a, b) ∈ g.E
  occ : ∀ a, w.count a ≤ maxOcc

theorem targets_ne (g : Graph α) (hc : Complete g) (a : α) (h : a ∈ g.S ∨ ∃ e ∈ g.E, e.2 = a) : targets g a ≠ [] := by
  have : a ∈ g.starts.map Prod.fst ∨ ∃ e ∈ g.arcs, e.1.2 = a := by
    rcases h with h | ⟨e, he, h⟩
    · exact .inl h
    · obtain ⟨x, hx, rfl⟩ := List.mem_map.1 he
      exact .inr ⟨x, hx, h⟩
  unfold targets
  rcases hc.leaves a this with h | ⟨e, he, h⟩
  · have : ((g.ends.get? a).isSome) = true := (Dict.mem_keys_iff g.ends a).1 h
    cases hh : g.ends.get? a with
    | none => rw [hh] at this; cases this
    | some n => simp
  · intro h0
    have := (List.append_eq_nil_iff.1 h0).1
    rw [List.map_eq_nil_iff, List.filter_eq_nil_iff] at this
    exact this e he (by simpa using h)

theorem shares_some (g : Graph α) (a : α) (h : targets g a ≠ []) :
    shares g a = some ((targets g a).map fun x => (x.1, (x.2 : Rat) / weight (targets g a))) := by
  unfold shares
  split
  · rename_i h0; exact absurd h0 h
  · rfl

theorem valid_last (g : Graph α) (maxOcc : Nat) (w : List α) (h : Valid g maxOcc w) :
    ∃ a, w.getLast? = some a ∧ (a ∈ g.S ∨ ∃ e ∈ g.E, e.2 = a) := by
  obtain ⟨s, hs, hh⟩ := h.start
  have hne : w ≠ [] := by intro h0; subst h0; simp at hh
  have hl : 0 < w.length := List.length_pos_iff.2 hne
  refine ⟨w[w.length - 1], by rw [List.getLast?_eq_getElem?]; simp [hl], ?_⟩
  by_cases h1 : w.length = 1
  · left
    obtain ⟨b, rfl⟩ := List.length_eq_one_iff.1 h1
    simp at hh; subst hh; exact hs
  · right
    have e1 : w.length - 2 + 1 = w.length - 1 := by omega
    exact ⟨_, h.linked (w.length - 2) w[w.length - 2] w[w.length - 1] (by simp [show w.length - 2 < w.length by omega])
      (by rw [e1]; simp [hl]), rfl⟩

theorem mem_targets_some (g : Graph α) (a b : α) (n : Int) : (some b, n) ∈ targets g a ↔ ((a, b), n) ∈ g.arcs := by
  unfold targets
  rw [List.mem_append, List.mem_map]
  constructor
  · rintro (⟨⟨⟨x, y⟩, m⟩, h, he⟩ | h)
    · obtain ⟨h1, h2⟩ := List.mem_filter.1 h
      simp at h2 he
      obtain ⟨rfl, rfl⟩ := he
      subst h2; exact h1
    · cases hh : g.ends.get? a <;> rw [hh] at h <;> simp at h
  · intro h
    exact .inl ⟨((a, b), n), List.mem_filter.2 ⟨h, by simp⟩, rfl⟩

theorem mem_targets_none (g : Graph α) (a : α) (n : Int) : (none, n) ∈ targets g a ↔ g.ends.get? a = some n := by
  unfold targets
  rw [List.mem_append, List.mem_map]
  constructor
  · rintro (⟨e, h, he⟩ | h)
    · simp at he
    · cases hh : g.ends.get? a with
      | none => rw [hh] at h; simp at h
      | some m => rw [hh] at h; simp at h; subst h; rfl
  · intro h
    right
    rw [h]; simp

theorem weight_targets (g : Graph α) (a : α) : weight (targets g a) = outFlow g a := by
  unfold weight targets outFlow
  rw [List.map_append, List.sum_append, List.map_map]
  push_cast
  congr 1
  · induction g.arcs.filter fun e => decide (e.1.1 = a) with
    | nil => simp
    | cons x l ih => simp at ih ⊢; rw [ih]
  · unfold Dict.count
    cases g.ends.get? a <;> simp

theorem pos_targets (g : Graph α) (hc : Complete g) (a : α) : ∀ x ∈ targets g a, 0 < x.2 := by
  rintro ⟨o, n⟩ h
  cases o with
  | none =>
    rw [mem_targets_none] at h
    exact hc.pos.2.2 _ (Dict.mem_of_get? h)
  | some b => exact hc.pos.1 _ ((mem_targets_some g a b n).1 h)

theorem weight_pos (l : List (Option α × Int)) (h : ∀ x ∈ l, 0 < x.2) (hne : l ≠ []) : 0 < weight l := by
  unfold weight
  have h0 : ∀ l : List (Option α × Int), (∀ x ∈ l, 0 < x.2) → 0 ≤ (l.map fun x => (x.2 : Rat)).sum := by
    intro l
    induction l with
    | nil => simp
    | cons x l ih =>
      intro h
      have h1 := ih fun y hy => h y (by simp [hy])
      have h2 : (0 : Rat) < x.2 := by exact_mod_cast h x (by simp)
      simp only [List.map_cons, List.sum_cons]; linarith
  obtain ⟨x, l, rfl⟩ := List.exists_cons_of_ne_nil hne
  have h1 := h0 l fun y hy => h y (by simp [hy])
  have h2 : (0 : Rat) < x.2 := by exact_mod_cast h x (by simp)
  simp only [List.map_cons, List.sum_cons]; linarith

theorem targets_nodup (g : Graph α) (hc : Complete g) (a : α) : ((targets g a).map Prod.fst).Nodup := by
  unfold targets
  rw [List.map_append, List.nodup_append]
  refine ⟨?_, ?_, ?_⟩
  · rw [List.map_map]
    have h1 : ((g.arcs.filter fun e => decide (e.1.1 = a)).map Prod.fst).Nodup :=
      List.Nodup.sublist (List.Sublist.map _ List.filter_sublist) hc.keys.1
    rw [List.Nodup, List.pairwise_map] at h1 ⊢
    apply h1.imp_of_mem
    intro x y hx hy hne h
    simp at h
    have hx1 := (List.mem_filter.1 hx).2
    have hy1 := (List.mem_filter.1 hy).2
    simp at hx1 hy1
    exact hne (Prod.ext (hx1.trans hy1.symm) h)
  · cases g.ends.get? a <;> simp
  · intro x hx y hy h
    subst h
    obtain ⟨e, he, rfl⟩ := List.mem_map.1 hx
    obtain ⟨e', he', rfl⟩ := List.mem_map.1 he
    cases hh : g.ends.get? a <;> rw [hh] at hy <;> simp at hy

/-- The enumeration of the traces that start with a partial trace. -/
def enum (g : Graph α) (maxOcc : Nat) : Nat → Rat × List α → List (List α × Rat)
  | 0, _ => []
  | n + 1, x => yields g maxOcc x ++ (children g maxOcc x).flatMap (enum g maxOcc n)

/-- How many rounds it takes. -/
def size (g : Graph α) (maxOcc : Nat) : Nat → Rat × List α → Nat
  | 0, _ => 0
  | n + 1, x => 1 + ((children g maxOcc x).map (size g maxOcc n)).sum

theorem valid_child (g : Graph α) (hc : Complete g) (maxOcc : Nat) (x y : Rat × List α) (hv : Valid g maxOcc x.2) (hy : y ∈ children g maxOcc x) :
    Valid g maxOcc y.2 ∧ y.2.length = x.2.length + 1 ∧
      ∃ a b n, x.2.getLast? = some a ∧ y.2 = x.2 ++ [b] ∧ ((a, b), n) ∈ g.arcs ∧ y.1 = x.1 * ((n : Rat) / outFlow g a) ∧ x.2.count b < maxOcc := by
  obtain ⟨a, ha, ha'⟩ := valid_last g maxOcc x.2 hv
  unfold children at hy
  simp only [ha, shares_some g a (targets_ne g hc a ha'), Option.getD_some, List.mem_filterMap, List.mem_map] at hy
  obtain ⟨z, ⟨⟨o, n⟩, hn, rfl⟩, hz⟩ := hy
  cases o with
  | none => simp at hz
  | some b =>
    simp only at hz
    split at hz
    · rename_i hlt
      simp only [Option.some.injEq] at hz
      subst hz
      have hb := (mem_targets_some g a b n).1 hn
      refine ⟨⟨?_, ?_, ?_⟩, by simp, a, b, n, ha, rfl, hb, by rw [weight_targets], hlt⟩
      · obtain ⟨s, hs, hh⟩ := hv.start
        exact ⟨s, hs, by simp [hh]⟩
      · intro i c d hci hdi
        by_cases hi : i + 1 < x.2.length
        · rw [List.getElem?_append_left hi] at hdi
          rw [List.getElem?_append_left (by omega)] at hci
          exact hv.linked i c d hci hdi
        · have hlen := (List.getElem?_eq_some_iff.1 hdi).1
          simp at hlen
          have hi' : i + 1 = x.2.length := by omega
          rw [List.getElem?_append_right (by omega)] at hdi
          rw [List.getElem?_append_left (by omega)] at hci
          simp [hi'] at hdi
          rw [List.getLast?_eq_getElem?] at ha
          have : i = x.2.length - 1 := by omega
          rw [this, ha] at hci
          simp at hci
          subst hci; subst hdi
          exact List.mem_map.2 ⟨_, hb, rfl⟩
      · intro c
        rw [List.count_append]
        by_cases hcb : b = c
        · subst hcb; simp; omega
        · have := hv.occ c
          simp [List.count_singleton, hcb]; omega
    · cases hz

/-! ### lengths -/

theorem length_le_counts (A w : List α) (h : ∀ a ∈ w, a ∈ A) : w.length ≤ (A.map fun a => w.count a).sum := by
  induction w with
  | nil => simp
  | cons x w ih =>
    have h1 := ih fun a ha => h a (by simp [ha])
    have h2 : ∀ A : List α, (A.map fun a => (x :: w).count a).sum = (A.map fun a => w.count a).sum + A.count x := by
      intro A
      induction A with
      | nil => simp
      | cons a A ihA =>
        rw [List.map_cons, List.sum_cons, ihA, List.map_cons, List.sum_cons, List.count_cons, List.count_cons]
        by_cases hax : a = x
        · subst hax; simp; omega
        · have : ¬ x = a := fun h => hax h.symm
          simp [hax, this]; omega
    rw [h2, List.length_cons]
    have : 0 < A.count x := List.count_pos_iff.2 (h x (by simp))
    omega

/-- Bound on the length of the traces. -/
def bound (g : Graph α) (maxOcc : Nat) : Nat := (g.S ++ g.E.map Prod.snd).length * maxOcc

theorem valid_length (g : Graph α) (maxOcc : Nat) (w : List α) (hv : Valid g maxOcc w) : w.length ≤ bound g maxOcc := by
  have h1 : ∀ a ∈ w, a ∈ g.S ++ g.E.map Prod.snd := by
    intro a ha
    obtain ⟨i, hi, rfl⟩ := List.mem_iff_getElem.1 ha
    rw [List.mem_append]
    cases i with
    | zero =>
      obtain ⟨s, hs, hh⟩ := hv.start
      left
      rw [List.head?_eq_getElem?] at hh
      simp [hi] at hh
      rw [hh]; exact hs
    | succ i =>
      right
      exact List.mem_map.2 ⟨_, hv.linked i w[i] w[i + 1] (by simp [show i < w.length by omega]) (by simp [hi]), rfl⟩
  refine Nat.le_trans (length_le_counts _ w h1) ?_
  unfold bound
  generalize g.S ++ g.E.map Prod.snd = A
  induction A with
  | nil => simp
  | cons a A ih =>
    simp only [List.map_cons, List.sum_cons, List.length_cons, Nat.succ_mul]
    have := hv.occ a
    omega

/-- The full enumeration. -/
def full (g : Graph α) (maxOcc : Nat) (x : Rat × List α) : List (List α × Rat) :=
  enum g maxOcc (bound g maxOcc + 1 - x.2.length) x

def fullSize (g : Graph α) (maxOcc : Nat) (x : Rat × List α) : Nat :=
  size g maxOcc (bound g maxOcc + 1 - x.2.length) x

theorem full_unfold (g : Graph α) (hc : Complete g) (maxOcc : Nat) (x : Rat × List α) (hv : Valid g maxOcc x.2) :
    full g maxOcc x = yields g maxOcc x ++ (children g maxOcc x).flatMap (full g maxOcc) ∧
    fullSize g maxOcc x = 1 + ((children g maxOcc x).map (fullSize g maxOcc)).sum := by
  have hl := valid_length g maxOcc x.2 hv
  have e1 : bound g maxOcc + 1 - x.2.length = (bound g maxOcc - x.2.length) + 1 := by omega
  have e2 : ∀ y ∈ children g maxOcc x, bound g maxOcc + 1 - y.2.length = bound g maxOcc - x.2.length := by
    intro y hy
    have := (valid_child g hc maxOcc x y hv hy).2.1
    omega
  constructor
  · unfold full
    rw [e1, enum]
    congr 1
    generalize children g maxOcc x = l at e2
    induction l with
    | nil => rfl
    | cons y l ih =>
      rw [List.flatMap_cons, List.flatMap_cons, ih fun z hz => e2 z (by simp [hz]), e2 y (by simp)]
  · unfold fullSize
    rw [e1, size]
    congr 2
    apply List.map_congr_left
    intro y hy
    rw [e2 y hy]

/-! ### the loop -/

theorem pstep_eq (g : Graph α) (hc : Complete g) (maxOcc : Nat) {pick} (hp : Picks pick) (st : PState α)
    (hv : ∀ x ∈ st.partials, Valid g maxOcc x.2) (hne : st.partials ≠ []) :
    ∃ x rest, st.partials.Perm (x :: rest) ∧
      pstep g maxOcc pick st = some { partials := rest ++ children g maxOcc x, yielded := st.yielded ++ yields g maxOcc x } := by
  cases hpk : pick st.partials with
  | none => exact absurd (hp.2 _ hpk) hne
  | some y =>
    obtain ⟨⟨p, w⟩, rest⟩ := y
    have hperm := hp.1 _ _ _ hpk
    have hvx := hv (p, w) (hperm.mem_iff.2 (by simp))
    obtain ⟨a, ha, ha'⟩ := valid_last g maxOcc w hvx
    refine ⟨(p, w), rest, hperm, ?_⟩
    unfold pstep
    rw [hpk]
    simp only [ha]
    rw [shares_some g a (targets_ne g hc a ha')]
    simp only [foldl_extend]
    unfold children yields
    simp only [ha]
    rw [shares_some g a (targets_ne g hc a ha')]
    rfl

theorem valid_init (g : Graph α) (maxOcc : Nat) (hm : 1 ≤ maxOcc) : ∀ x ∈ (startShares g).map fun x => (x.2, [x.1]),
    Valid g maxOcc x.2 := by
  intro x hx
  simp only [startShares, List.map_map, List.mem_map, Function.comp] at hx
  obtain ⟨y, hy, rfl⟩ := hx
  refine ⟨⟨y.1, List.mem_map.2 ⟨y, hy, rfl⟩, rfl⟩, ?_, ?_⟩
  · intro i a b _ hb; simp at hb
  · intro a
    by_cases h : y.1 = a
    · simp [h]; omega
    · simp [List.count_singleton, h]

/-- The loop invariant. -/
structure PInv (g : Graph α) (maxOcc : Nat) (n : Nat) (st : PState α) : Prop where
  valid : ∀ x ∈ st.partials, Valid g maxOcc x.2
  all : (st.yielded ++ st.partials.flatMap (full g maxOcc)).Perm
    (((startShares g).map fun x => (x.2, [x.1])).flatMap (full g maxOcc))
  left : n ≤ ((((startShares g).map fun x => ((x.2, [x.1]) : Rat × List α)).map (fullSize g maxOcc)).sum) →
    (st.partials.map (fullSize g maxOcc)).sum + n = (((startShares g).map fun x => (x.2, [x.1])).map (fullSize g maxOcc)).sum

theorem fullSize_pos (g : Graph α) (hc : Complete g) (maxOcc : Nat) (x : Rat × List α) (hv : Valid g maxOcc x.2) : 0 < fullSize g maxOcc x := by
  rw [(full_unfold g hc maxOcc x hv).2]; omega

theorem prun_inv (g : Graph α) (hc : Complete g) (maxOcc : Nat) (hm : 1 ≤ maxOcc) {pick} (hp : Picks pick) (n : Nat) :
    ∃ st, prun g maxOcc pick n = some st ∧ PInv g maxOcc n st := by
  induction n with
  | zero =>
    refine ⟨_, rfl, valid_init g maxOcc hm, ?_, ?_⟩
    · simp
    · intro _; simp
  | succ n ih =>
    obtain ⟨st, h1, hi⟩ := ih
    by_cases hne : st.partials = []
    · have hpk : pick st.partials = none := by
        cases hpk : pick st.partials with
        | none => rfl
        | some y => have := hp.1 _ _ _ hpk; rw [hne] at this; exact absurd this.symm.eq_nil (by simp)
      refine ⟨st, ?_, hi.valid, hi.all, ?_⟩
      · show (prun g maxOcc pick n).bind _ = _
        rw [h1]
        show pstep g maxOcc pick st = some st
        unfold pstep; rw [hpk]
      · intro hle
        have := hi.left (by omega)
        rw [hne] at this
        simp at this
        simp at hle
        omega
    · obtain ⟨x, rest, hperm, hst⟩ := pstep_eq g hc maxOcc hp st hi.valid hne
      have hvx := hi.valid x (hperm.mem_iff.2 (by simp))
      refine ⟨{ partials := rest ++ children g maxOcc x, yielded := st.yielded ++ yields g maxOcc x }, ?_, ?_, ?_, ?_⟩
      · show (prun g maxOcc pick n).bind _ = _
        rw [h1]
        exact hst
      · intro y hy
        rcases List.mem_append.1 hy with hy | hy
        · exact hi.valid y (hperm.mem_iff.2 (by simp [hy]))
        · exact (valid_child g hc maxOcc x y hvx hy).1
      · refine List.Perm.trans ?_ hi.all
        have h2 : (st.partials.flatMap (full g maxOcc)).Perm ((x :: rest).flatMap (full g maxOcc)) := hperm.flatMap_right _
        refine List.Perm.trans ?_ (List.Perm.append_left _ h2.symm)
        rw [List.flatMap_cons, (full_unfold g hc maxOcc x hvx).1]
        simp only [List.flatMap_append, List.append_assoc]
        refine List.Perm.append_left _ (List.Perm.append_left _ ?_)
        exact List.perm_append_comm
      · intro hle
        have h3 := hi.left (by omega)
        have h4 : (st.partials.map (fullSize g maxOcc)).sum = ((x :: rest).map (fullSize g maxOcc)).sum :=
          (hperm.map _).sum_eq
        rw [h4, List.map_cons, List.sum_cons, (full_unfold g hc maxOcc x hvx).2] at h3
        simp only [List.map_append, List.sum_append]
        omega

theorem prun_ends (g : Graph α) (hc : Complete g) (maxOcc : Nat) (hm : 1 ≤ maxOcc) {pick} (hp : Picks pick) :
    ∃ n st, prun g maxOcc pick n = some st ∧ st.partials = [] ∧
      st.yielded.Perm (((startShares g).map fun x => (x.2, [x.1])).flatMap (full g maxOcc)) := by
  obtain ⟨st, h1, hi⟩ := prun_inv g hc maxOcc hm hp ((((startShares g).map fun x => ((x.2, [x.1]) : Rat × List α)).map (fullSize g maxOcc)).sum)
  have h2 := hi.left (Nat.le_refl _)
  have h3 : st.partials = [] := by
    cases hq : st.partials with
    | nil => rfl
    | cons x l =>
      rw [hq] at h2
      have := fullSize_pos g hc maxOcc x (hi.valid x (by simp [hq]))
      simp only [List.map_cons, List.sum_cons] at h2
      omega
  refine ⟨_, st, h1, h3, ?_⟩
  have := hi.all
  rw [h3] at this
  simpa using this

end Verif.DfgNet
