import Verif.Petri.Sys
/-
Blocks: nets with one entry and one exit place that realise a language; composition of blocks (C14).
-/
namespace Verif.Sys
open Verif Lang
variable {α : Type}

/-- places of a block that nobody else uses -/
def Inner (lo hi p : Nat) : Prop := lo ≤ p ∧ p < hi

/-- `T` is a block from place `i` to place `o` with private places `lo..hi-1` that realises the language `L`. -/
structure Block (T : List (Tr α)) (i o lo hi : Nat) (L : Lang α) : Prop where
  ilo : i < lo
  olo : o < lo
  le : lo ≤ hi
  ne : i ≠ o
  pre : ∀ t ∈ T, t.pre ≠ [] ∧ ∀ p ∈ t.pre, p = i ∨ Inner lo hi p
  post : ∀ t ∈ T, ∀ p ∈ t.post, p = o ∨ Inner lo hi p
  proper : ∀ w M, Run T (toks [i]) w M → 1 ≤ M o → M = toks [o]
  safe : ∀ w M, Run T (toks [i]) w M → ∀ p, M p ≤ 1
  complete : ∀ w M, Run T (toks [i]) w M → ∃ v, Run T M v (toks [o])
  live : ∀ t ∈ T, ∃ w M M', Run T (toks [i]) w M ∧ t.fires M M'
  used : ∀ p, Inner lo hi p → (∃ t ∈ T, p ∈ t.pre) ∧ ∃ t ∈ T, p ∈ t.post
  lang : ∀ w, L w ↔ Run T (toks [i]) w (toks [o])

variable {T T1 T2 : List (Tr α)} {i o p lo hi lo1 hi1 lo2 hi2 : Nat} {L L1 L2 : Lang α}

theorem Block.within (h : Block T i o lo hi L) : Within T (fun p => p = i ∨ p = o ∨ Inner lo hi p) := by
  intro t ht
  refine ⟨fun p hp => ?_, fun p hp => ?_⟩
  · rcases (h.pre t ht).2 p hp with h | h
    · exact .inl h
    · exact .inr (.inr h)
  · exact .inr (h.post t ht p hp)

theorem Block.supp (h : Block T i o lo hi L) {w : List α} {M : Mk} (hr : Run T (toks [i]) w M) {p : Nat} (hp : 1 ≤ M p) :
    p = i ∨ p = o ∨ Inner lo hi p := by
  refine Classical.byContradiction fun hn => ?_
  rw [hr.outside h.within hn, toks_single] at hp
  split at hp
  · exact hn (.inl ‹_›)
  · omega

/-- the entry place is empty after the first step -/
theorem Block.entry (h : Block T i o lo hi L) {w : List α} {M : Mk} (hr : Run T (toks [i]) w M) (hi : 1 ≤ M i) :
    M = toks [i] ∧ w = [] := by
  induction hr with
  | nil => exact ⟨rfl, rfl⟩
  | @snoc w M1 M2 t hr ht hf ih =>
    exfalso
    have hpost : i ∉ t.post := by
      intro hm
      rcases h.post t ht i hm with e | e
      · exact h.ne e
      · have := h.ilo; unfold Inner at e; omega
    rcases hf.pos hi with h1 | h1
    · obtain ⟨rfl, _⟩ := ih h1
      have hpre : i ∈ t.pre := by
        obtain ⟨hne, _⟩ := h.pre t ht
        obtain ⟨q, hq⟩ := List.exists_mem_of_ne_nil _ hne
        have := hf.mem_pre hq
        rw [toks_single] at this
        split at this
        · subst q; exact hq
        · omega
      have h2 := hf.2 i
      have h3 := List.count_pos_iff.2 hpre
      rw [List.count_eq_zero.2 hpost, toks_single, if_pos rfl] at h2
      omega
    · exact hpost h1

theorem Block.mono (h : Block T1 i o lo hi L) (hT : ∀ t, t ∈ T1 ↔ t ∈ T2) : Block T2 i o lo hi L := by
  have e : ∀ M w M', Run T1 M w M' ↔ Run T2 M w M' := fun M w M' =>
    ⟨fun h => h.mono fun t ht => (hT t).1 ht, fun h => h.mono fun t ht => (hT t).2 ht⟩
  refine ⟨h.ilo, h.olo, h.le, h.ne, fun t ht => h.pre t ((hT t).2 ht), fun t ht => h.post t ((hT t).2 ht),
    fun w M hr => h.proper w M ((e _ _ _).2 hr), fun w M hr => h.safe w M ((e _ _ _).2 hr), ?_, ?_, ?_, ?_⟩
  · intro w M hr
    obtain ⟨v, hv⟩ := h.complete w M ((e _ _ _).2 hr)
    exact ⟨v, (e _ _ _).1 hv⟩
  · intro t ht
    obtain ⟨w, M, M', hr, hf⟩ := h.live t ((hT t).2 ht)
    exact ⟨w, M, M', (e _ _ _).1 hr, hf⟩
  · intro p hp
    obtain ⟨⟨t, ht, h1⟩, ⟨t', ht', h2⟩⟩ := h.used p hp
    exact ⟨⟨t, (hT t).1 ht, h1⟩, ⟨t', (hT t').1 ht', h2⟩⟩
  · intro w; rw [h.lang, e]

theorem Block.congr (h : Block T i o lo hi L1) (hL : ∀ w, L1 w ↔ L2 w) : Block T i o lo hi L2 :=
  { h with lang := fun w => by rw [← hL, h.lang] }

/-- the words of a block can be completed, so its language is not empty -/
theorem Block.nonempty (h : Block T i o lo hi L) : ∃ w, L w := by
  obtain ⟨v, hv⟩ := h.complete [] _ .nil
  exact ⟨v, (h.lang v).2 hv⟩

theorem toks_ne (h : i ≠ o) : toks [o] ≠ toks [i] := by
  intro e
  have := congrFun e o
  rw [toks_single, toks_single, if_pos rfl, if_neg (Ne.symm h)] at this; omega

/-- some transition consumes from the entry place -/
theorem Block.uses_i (h : Block T i o lo hi L) : ∃ t ∈ T, i ∈ t.pre := by
  obtain ⟨v, hv⟩ := h.complete [] _ .nil
  rcases hv.head with ⟨_, e⟩ | ⟨t, ht, M1, _, hf, _, _⟩
  · exact absurd e (toks_ne h.ne)
  · obtain ⟨q, hq⟩ := List.exists_mem_of_ne_nil _ (h.pre t ht).1
    have := hf.mem_pre hq
    rw [toks_single] at this
    split at this
    · subst q; exact ⟨t, ht, hq⟩
    · omega

/-- some transition produces into the exit place -/
theorem Block.uses_o (h : Block T i o lo hi L) : ∃ t ∈ T, o ∈ t.post := by
  obtain ⟨v, hv⟩ := h.complete [] _ .nil
  refine Classical.byContradiction fun hn => ?_
  have key : ∀ w M, Run T (toks [i]) w M → M o = 0 := by
    intro w M hr
    induction hr with
    | nil => rw [toks_single, if_neg (Ne.symm h.ne)]
    | @snoc w M1 M2 t hr ht hf ih =>
      refine Nat.eq_zero_of_not_pos fun hpos => ?_
      rcases hf.pos hpos with h1 | h1
      · omega
      · exact hn ⟨t, ht, h1⟩
  have := key _ _ hv
  rw [toks_single, if_pos rfl] at this; omega

/-! ### leaf -/

theorem block_leaf (l : Option α) (i o lo : Nat) (hi : i < lo) (ho : o < lo) (hne : i ≠ o) :
    Block [⟨[i], [o], l⟩] i o lo lo (fun w => w = l.toList) := by
  let t : Tr α := ⟨[i], [o], l⟩
  have hf : t.fires (toks [i]) (toks [o]) := fires_self t
  have key : ∀ w M, Run [t] (toks [i]) w M → (w = [] ∧ M = toks [i]) ∨ (w = l.toList ∧ M = toks [o]) := by
    intro w M hr
    induction hr with
    | nil => exact .inl ⟨rfl, rfl⟩
    | @snoc w M1 M2 t' hr ht hf' ih =>
      have : t' = t := by simpa using ht
      subst this
      rcases ih with ⟨rfl, rfl⟩ | ⟨rfl, rfl⟩
      · exact .inr ⟨rfl, hf'.det hf⟩
      · have := hf'.mem_pre (p := i) (by simp [t])
        rw [toks_single, if_neg hne] at this; omega
  refine ⟨hi, ho, Nat.le_refl _, hne, by simp, by simp, ?_, ?_, ?_, ?_, fun p hp => by unfold Inner at hp; omega, ?_⟩
  · intro w M hr hM
    rcases key w M hr with ⟨_, rfl⟩ | ⟨_, rfl⟩
    · rw [toks_single, if_neg (Ne.symm hne)] at hM; omega
    · rfl
  · intro w M hr p
    rcases key w M hr with ⟨_, rfl⟩ | ⟨_, rfl⟩ <;> (rw [toks_single]; split <;> omega)
  · intro w M hr
    rcases key w M hr with ⟨_, rfl⟩ | ⟨_, rfl⟩
    · exact ⟨_, Run.step (by simp [t]) hf⟩
    · exact ⟨[], .nil⟩
  · intro t' ht'
    have : t' = t := by simpa using ht'
    subst this
    exact ⟨[], _, _, .nil, hf⟩
  · intro w
    constructor
    · rintro rfl; exact Run.step (by simp [t]) hf
    · intro hr
      rcases key w _ hr with ⟨_, e⟩ | ⟨h, _⟩
      · have := congrFun e o
        rw [toks_single, toks_single, if_pos rfl, if_neg (Ne.symm hne)] at this; omega
      · exact h

/-! ### sequence of two blocks -/

theorem seq_run (h1 : Block T1 i p lo1 hi1 L1) (h2 : Block T2 p o lo2 hi2 L2) (hio : i ≠ o) (hi' : i < lo2) (ho : o < lo1)
    (hd : hi1 ≤ lo2) (hp : ¬ Inner lo2 hi2 i) {w : List α} {M : Mk} (hr : Run (T1 ++ T2) (toks [i]) w M) :
    Run T1 (toks [i]) w M ∨ ∃ u v, w = u ++ v ∧ Run T1 (toks [i]) u (toks [p]) ∧ Run T2 (toks [p]) v M := by
  have := h1.ilo; have := h1.olo; have := h1.le; have := h2.ilo; have := h2.olo; have := h2.le
  have := h1.ne; have := h2.ne
  induction hr with
  | nil => exact .inl .nil
  | @snoc w M1 M2 t hr ht hf ih =>
    rcases List.mem_append.1 ht with ht | ht
    · rcases ih with h | ⟨u, v, rfl, hu, hv⟩
      · exact .inl (.snoc h ht hf)
      · exfalso
        obtain ⟨q, hq⟩ := List.exists_mem_of_ne_nil _ (h1.pre t ht).1
        have hq1 := (h1.pre t ht).2 q hq
        have hq2 := h2.supp hv (hf.mem_pre hq)
        unfold Inner at *
        omega
    · rcases ih with h | ⟨u, v, rfl, hu, hv⟩
      · right
        obtain ⟨q, hq⟩ := List.exists_mem_of_ne_nil _ (h2.pre t ht).1
        have hq1 := (h2.pre t ht).2 q hq
        have hM := hf.mem_pre hq
        have hq2 := h1.supp h hM
        have hqp : q = p := by unfold Inner at *; omega
        subst hqp
        have := h1.proper _ _ h hM
        subst this
        exact ⟨w, _, rfl, h, Run.step ht hf⟩
      · exact .inr ⟨u, _, by rw [List.append_assoc], hu, .snoc hv ht hf⟩

theorem block_seq (h1 : Block T1 i p lo1 hi1 L1) (h2 : Block T2 p o lo2 hi2 L2) (hio : i ≠ o) (hi' : i < p) (ho : o < p)
    (hp : lo1 = p + 1) (hd' : lo2 = hi1) : Block (T1 ++ T2) i o p hi2 (cat L1 L2) := by
  have hd : hi1 ≤ lo2 := by omega
  have a1 := h1.ilo; have a2 := h1.olo; have a3 := h1.le; have a4 := h2.ilo; have a5 := h2.olo; have a6 := h2.le
  have hni : ¬ Inner lo2 hi2 i := by unfold Inner; omega
  have key := fun {w : List α} {M : Mk} (hr : Run (T1 ++ T2) (toks [i]) w M) =>
    seq_run h1 h2 hio (by omega) (by omega) hd hni hr
  have hL : ∀ t ∈ T1, t ∈ T1 ++ T2 := fun t h => List.mem_append.2 (.inl h)
  have hR : ∀ t ∈ T2, t ∈ T1 ++ T2 := fun t h => List.mem_append.2 (.inr h)
  have no1 : ∀ w M, Run T1 (toks [i]) w M → M o = 0 := by
    intro w M hr
    refine Nat.eq_zero_of_not_pos fun hpos => ?_
    have := h1.supp hr hpos
    unfold Inner at this; omega
  refine ⟨hi', ho, by omega, hio, ?_, ?_, ?_, ?_, ?_, ?_, ?_, ?_⟩
  · intro t ht
    rcases List.mem_append.1 ht with ht | ht
    · refine ⟨(h1.pre t ht).1, fun q hq => ?_⟩
      have := (h1.pre t ht).2 q hq
      unfold Inner at *; omega
    · refine ⟨(h2.pre t ht).1, fun q hq => ?_⟩
      have := (h2.pre t ht).2 q hq
      unfold Inner at *; omega
  · intro t ht q hq
    rcases List.mem_append.1 ht with ht | ht
    · have := h1.post t ht q hq
      unfold Inner at *; omega
    · have := h2.post t ht q hq
      unfold Inner at *; omega
  · intro w M hr hM
    rcases key hr with h | ⟨u, v, _, _, hv⟩
    · have := no1 _ _ h; omega
    · exact h2.proper _ _ hv hM
  · intro w M hr q
    rcases key hr with h | ⟨u, v, _, _, hv⟩
    · exact h1.safe _ _ h q
    · exact h2.safe _ _ hv q
  · intro w M hr
    obtain ⟨x, hx⟩ := h2.complete [] _ .nil
    rcases key hr with h | ⟨u, v, _, _, hv⟩
    · obtain ⟨y, hy⟩ := h1.complete _ _ h
      exact ⟨y ++ x, (hy.mono hL).trans (hx.mono hR)⟩
    · obtain ⟨y, hy⟩ := h2.complete _ _ hv
      exact ⟨y, hy.mono hR⟩
  · intro t ht
    rcases List.mem_append.1 ht with ht | ht
    · obtain ⟨w, M, M', hr, hf⟩ := h1.live t ht
      exact ⟨w, M, M', hr.mono hL, hf⟩
    · obtain ⟨w, M, M', hr, hf⟩ := h2.live t ht
      obtain ⟨y, hy⟩ := h1.complete [] _ .nil
      exact ⟨y ++ w, M, M', (hy.mono hL).trans (hr.mono hR), hf⟩
  · intro q hq
    have hq' : q = p ∨ Inner lo1 hi1 q ∨ Inner lo2 hi2 q := by unfold Inner at *; omega
    rcases hq' with rfl | hq | hq
    · obtain ⟨t, ht, h3⟩ := h2.uses_i
      obtain ⟨t', ht', h4⟩ := h1.uses_o
      exact ⟨⟨t, hR t ht, h3⟩, ⟨t', hL t' ht', h4⟩⟩
    · obtain ⟨⟨t, ht, h3⟩, ⟨t', ht', h4⟩⟩ := h1.used q hq
      exact ⟨⟨t, hL t ht, h3⟩, ⟨t', hL t' ht', h4⟩⟩
    · obtain ⟨⟨t, ht, h3⟩, ⟨t', ht', h4⟩⟩ := h2.used q hq
      exact ⟨⟨t, hR t ht, h3⟩, ⟨t', hR t' ht', h4⟩⟩
  · intro w
    constructor
    · rintro ⟨u, v, hu, hv, rfl⟩
      exact (((h1.lang u).1 hu).mono hL).trans (((h2.lang v).1 hv).mono hR)
    · intro hr
      rcases key hr with h | ⟨u, v, rfl, hu, hv⟩
      · have := no1 _ _ h
        rw [toks_single, if_pos rfl] at this; omega
      · exact ⟨u, v, (h1.lang u).2 hu, (h2.lang v).2 hv, rfl⟩

/-! ### choice between two blocks -/

theorem xor_run (h1 : Block T1 i o lo1 hi1 L1) (h2 : Block T2 i o lo2 hi2 L2) (hd : hi1 ≤ lo2)
    {w : List α} {M : Mk} (hr : Run (T1 ++ T2) (toks [i]) w M) : Run T1 (toks [i]) w M ∨ Run T2 (toks [i]) w M := by
  have := h1.ilo; have := h1.olo; have := h1.le; have := h2.ilo; have := h2.olo; have := h2.le
  have := h1.ne; have := h2.ne
  induction hr with
  | nil => exact .inl .nil
  | @snoc w M1 M2 t hr ht hf ih =>
    rcases List.mem_append.1 ht with ht | ht
    · rcases ih with h | h
      · exact .inl (.snoc h ht hf)
      · left
        obtain ⟨q, hq⟩ := List.exists_mem_of_ne_nil _ (h1.pre t ht).1
        have hM := hf.mem_pre hq
        have hq1 := (h1.pre t ht).2 q hq
        have hq2 := h2.supp h hM
        have : q = i := by unfold Inner at *; omega
        subst this
        obtain ⟨rfl, rfl⟩ := h2.entry h hM
        exact .snoc .nil ht hf
    · rcases ih with h | h
      · right
        obtain ⟨q, hq⟩ := List.exists_mem_of_ne_nil _ (h2.pre t ht).1
        have hM := hf.mem_pre hq
        have hq1 := (h2.pre t ht).2 q hq
        have hq2 := h1.supp h hM
        have : q = i := by unfold Inner at *; omega
        subst this
        obtain ⟨rfl, rfl⟩ := h1.entry h hM
        exact .snoc .nil ht hf
      · exact .inr (.snoc h ht hf)

theorem block_xor (h1 : Block T1 i o lo1 hi1 L1) (h2 : Block T2 i o lo2 hi2 L2) (hd' : lo2 = hi1) :
    Block (T1 ++ T2) i o lo1 hi2 (fun w => L1 w ∨ L2 w) := by
  have hd : hi1 ≤ lo2 := by omega
  have a1 := h1.ilo; have a2 := h1.olo; have a3 := h1.le; have a4 := h2.ilo; have a5 := h2.olo; have a6 := h2.le
  have key := fun {w : List α} {M : Mk} (hr : Run (T1 ++ T2) (toks [i]) w M) => xor_run h1 h2 hd hr
  have hL : ∀ t ∈ T1, t ∈ T1 ++ T2 := fun t h => List.mem_append.2 (.inl h)
  have hR : ∀ t ∈ T2, t ∈ T1 ++ T2 := fun t h => List.mem_append.2 (.inr h)
  refine ⟨a1, a2, by omega, h1.ne, ?_, ?_, ?_, ?_, ?_, ?_, ?_, ?_⟩
  · intro t ht
    rcases List.mem_append.1 ht with ht | ht
    · refine ⟨(h1.pre t ht).1, fun q hq => ?_⟩
      have := (h1.pre t ht).2 q hq
      unfold Inner at *; omega
    · refine ⟨(h2.pre t ht).1, fun q hq => ?_⟩
      have := (h2.pre t ht).2 q hq
      unfold Inner at *; omega
  · intro t ht q hq
    rcases List.mem_append.1 ht with ht | ht
    · have := h1.post t ht q hq
      unfold Inner at *; omega
    · have := h2.post t ht q hq
      unfold Inner at *; omega
  · intro w M hr hM
    rcases key hr with h | h
    · exact h1.proper _ _ h hM
    · exact h2.proper _ _ h hM
  · intro w M hr q
    rcases key hr with h | h
    · exact h1.safe _ _ h q
    · exact h2.safe _ _ h q
  · intro w M hr
    rcases key hr with h | h
    · obtain ⟨y, hy⟩ := h1.complete _ _ h
      exact ⟨y, hy.mono hL⟩
    · obtain ⟨y, hy⟩ := h2.complete _ _ h
      exact ⟨y, hy.mono hR⟩
  · intro t ht
    rcases List.mem_append.1 ht with ht | ht
    · obtain ⟨w, M, M', hr, hf⟩ := h1.live t ht
      exact ⟨w, M, M', hr.mono hL, hf⟩
    · obtain ⟨w, M, M', hr, hf⟩ := h2.live t ht
      exact ⟨w, M, M', hr.mono hR, hf⟩
  · intro q hq
    have hq' : Inner lo1 hi1 q ∨ Inner lo2 hi2 q := by unfold Inner at *; omega
    rcases hq' with hq | hq
    · obtain ⟨⟨t, ht, h3⟩, ⟨t', ht', h4⟩⟩ := h1.used q hq
      exact ⟨⟨t, hL t ht, h3⟩, ⟨t', hL t' ht', h4⟩⟩
    · obtain ⟨⟨t, ht, h3⟩, ⟨t', ht', h4⟩⟩ := h2.used q hq
      exact ⟨⟨t, hR t ht, h3⟩, ⟨t', hR t' ht', h4⟩⟩
  · intro w
    constructor
    · rintro (h | h)
      · exact ((h1.lang w).1 h).mono hL
      · exact ((h2.lang w).1 h).mono hR
    · intro hr
      rcases key hr with h | h
      · exact .inl ((h1.lang w).2 h)
      · exact .inr ((h2.lang w).2 h)

end Verif.Sys
