import Verif.Convert.BlockLoop
import Verif.Convert.ReduceSteps
/-
Loops in which the redo part leads back to the place where the do part starts (C72); blocks up to the order of the tokens.
-/
namespace Verif.Sys
open Verif Lang
variable {α : Type}

variable {T0 TR : List (Tr α)} {i o n d lo0 hi0 loR hiR : Nat} {D R : Lang α}

/-- the transitions of a loop: enter, leave -/
def loopTr2 (T0 TR : List (Tr α)) (i o n d : Nat) : List (Tr α) := ⟨[i], [n], none⟩ :: ⟨[d], [o], none⟩ :: (T0 ++ TR)

theorem loop2_run (h0 : Block T0 n d lo0 hi0 D) (hR : Block TR d n loR hiR R) (hi : i < n) (ho : o < n) (hio : i ≠ o)
    (hnd : n < d) (hr : hi0 ≤ loR) {w : List α} {M : Mk} (hrun : Run (loopTr2 T0 TR i o n d) (toks [i]) w M) :
    (w = [] ∧ M = toks [i]) ∨
    (∃ u v, Rep D R u ∧ w = u ++ v ∧ Run T0 (toks [n]) v M) ∨
    (∃ u x v, Rep D R u ∧ D x ∧ w = u ++ x ++ v ∧ Run TR (toks [d]) v M) ∨
    (M = toks [o] ∧ loopL D [R] w) := by
  have a1 := h0.ilo; have a2 := h0.olo; have a3 := h0.le; have a4 := h0.ne
  have b1 := hR.ilo; have b2 := hR.olo; have b3 := hR.le; have b4 := hR.ne
  induction hrun with
  | nil => exact .inl ⟨rfl, rfl⟩
  | @snoc w M1 M2 t hr' ht hf ih =>
    have ht' : t = ⟨[i], [n], none⟩ ∨ t = ⟨[d], [o], none⟩ ∨ t ∈ T0 ∨ t ∈ TR := by
      simpa [loopTr2] using ht
    rcases ih with ⟨rfl, rfl⟩ | ⟨u, v, hu, rfl, hv⟩ | ⟨u, x, v, hu, hx, rfl, hv⟩ | ⟨rfl, hl⟩
    · have sup : ∀ q ∈ t.pre, q = i := by
        intro q hq
        have := hf.mem_pre hq
        rw [toks_single] at this
        split at this
        · assumption
        · omega
      rcases ht' with e | e | ht' | ht'
      · have := fires_one e hf rfl
        subst this; subst e
        exact .inr (.inl ⟨[], [], .nil, by simp, .nil⟩)
      · have := sup d (by simp [e]); omega
      · obtain ⟨q, hq⟩ := List.exists_mem_of_ne_nil _ (h0.pre t ht').1
        have h1 := (h0.pre t ht').2 q hq
        have := sup q hq
        unfold Inner at h1; omega
      · obtain ⟨q, hq⟩ := List.exists_mem_of_ne_nil _ (hR.pre t ht').1
        have h1 := (hR.pre t ht').2 q hq
        have := sup q hq
        unfold Inner at h1; omega
    · have sup : ∀ q ∈ t.pre, q = n ∨ q = d ∨ Inner lo0 hi0 q := fun q hq => h0.supp hv (hf.mem_pre hq)
      rcases ht' with e | e | ht' | ht'
      · have := sup i (by simp [e]); unfold Inner at this; omega
      · have hM := h0.proper _ _ hv (hf.mem_pre (p := d) (by simp [e]))
        have := fires_one e hf hM
        subst hM; subst this; subst e
        refine .inr (.inr (.inr ⟨rfl, ?_⟩))
        simp only [Option.toList_none, List.append_nil]
        exact (loopL_iff_rep _).2 ⟨u, v, hu, (h0.lang v).2 hv, rfl⟩
      · exact .inr (.inl ⟨u, _, hu, by rw [List.append_assoc], .snoc hv ht' hf⟩)
      · obtain ⟨q, hq⟩ := List.exists_mem_of_ne_nil _ (hR.pre t ht').1
        have h1 := (hR.pre t ht').2 q hq
        have h2 := sup q hq
        have : q = d := by unfold Inner at *; omega
        subst this
        have hM := h0.proper _ _ hv (hf.mem_pre hq)
        subst hM
        exact .inr (.inr (.inl ⟨u, v, _, hu, (h0.lang v).2 hv, rfl, Run.step ht' hf⟩))
    · have sup : ∀ q ∈ t.pre, q = d ∨ q = n ∨ Inner loR hiR q := fun q hq => hR.supp hv (hf.mem_pre hq)
      rcases ht' with e | e | ht' | ht'
      · have := sup i (by simp [e]); unfold Inner at this; omega
      · obtain ⟨hM, rfl⟩ := hR.entry hv (hf.mem_pre (p := d) (by simp [e]))
        have := fires_one e hf hM
        subst hM; subst this; subst e
        refine .inr (.inr (.inr ⟨rfl, ?_⟩))
        simp only [Option.toList_none, List.append_nil]
        exact (loopL_iff_rep _).2 ⟨u, x, hu, hx, rfl⟩
      · obtain ⟨q, hq⟩ := List.exists_mem_of_ne_nil _ (h0.pre t ht').1
        have h1 := (h0.pre t ht').2 q hq
        have h2 := sup q hq
        have : q = n := by unfold Inner at *; omega
        subst this
        have hM := hR.proper _ _ hv (hf.mem_pre hq)
        subst hM
        refine .inr (.inl ⟨u ++ (x ++ v), _, .snoc hu hx ((hR.lang v).2 hv), ?_, Run.step ht' hf⟩)
        simp [List.append_assoc]
      · exact .inr (.inr (.inl ⟨u, x, _, hu, hx, by simp [List.append_assoc], .snoc hv ht' hf⟩))
    · exfalso
      have sup : ∀ q ∈ t.pre, q = o := by
        intro q hq
        have := hf.mem_pre hq
        rw [toks_single] at this
        split at this
        · assumption
        · omega
      rcases ht' with e | e | ht' | ht'
      · have := sup i (by simp [e]); omega
      · have := sup d (by simp [e]); omega
      · obtain ⟨q, hq⟩ := List.exists_mem_of_ne_nil _ (h0.pre t ht').1
        have h1 := (h0.pre t ht').2 q hq
        have := sup q hq
        unfold Inner at h1; omega
      · obtain ⟨q, hq⟩ := List.exists_mem_of_ne_nil _ (hR.pre t ht').1
        have h1 := (hR.pre t ht').2 q hq
        have := sup q hq
        unfold Inner at h1; omega

theorem block_loop2 (h0 : Block T0 n d lo0 hi0 D) (hR : Block TR d n loR hiR R) (hi : i < n) (ho : o < n) (hio : i ≠ o)
    (hnd' : d = n + 1) (hlo0 : lo0 = d + 1) (hloR : loR = hi0) :
    Block (loopTr2 T0 TR i o n d) i o n hiR (loopL D [R]) := by
  have hnd : n < d := by omega
  have hr : hi0 ≤ loR := by omega
  have a1 := h0.ilo; have a2 := h0.olo; have a3 := h0.le; have a4 := h0.ne
  have b1 := hR.ilo; have b2 := hR.olo; have b3 := hR.le; have b4 := hR.ne
  have key := fun {w : List α} {M : Mk} (hrun : Run (loopTr2 T0 TR i o n d) (toks [i]) w M) =>
    loop2_run h0 hR hi ho hio hnd hr hrun
  have m0 : ∀ t ∈ T0, t ∈ loopTr2 T0 TR i o n d := fun t ht => by simp [loopTr2, ht]
  have mR : ∀ t ∈ TR, t ∈ loopTr2 T0 TR i o n d := fun t ht => by simp [loopTr2, ht]
  have rinit : Run (loopTr2 T0 TR i o n d) (toks [i]) [] (toks [n]) :=
    Run.step (t := ⟨[i], [n], none⟩) (by simp [loopTr2]) (fires_self _)
  have rexit : Run (loopTr2 T0 TR i o n d) (toks [d]) [] (toks [o]) :=
    Run.step (t := ⟨[d], [o], none⟩) (by simp [loopTr2]) (fires_self _)
  have rrep : ∀ u, Rep D R u → Run (loopTr2 T0 TR i o n d) (toks [i]) u (toks [n]) := by
    intro u hu
    induction hu with
    | nil => exact rinit
    | @snoc u x y _ hx hy ih =>
      have := ih.trans ((((h0.lang x).1 hx).mono m0).trans (((hR.lang y).1 hy).mono mR))
      simpa [List.append_assoc] using this
  obtain ⟨x0, hx0⟩ := h0.nonempty
  have rx0 := ((h0.lang x0).1 hx0).mono m0
  have no0 : ∀ v M, Run T0 (toks [n]) v M → M o = 0 := by
    intro v M hv
    refine Nat.eq_zero_of_not_pos fun hpos => ?_
    have := h0.supp hv hpos
    unfold Inner at this; omega
  have noR : ∀ v M, Run TR (toks [d]) v M → M o = 0 := by
    intro v M hv
    refine Nat.eq_zero_of_not_pos fun hpos => ?_
    have := hR.supp hv hpos
    unfold Inner at this; omega
  refine ⟨hi, ho, by omega, hio, ?_, ?_, ?_, ?_, ?_, ?_, ?_, ?_⟩
  · intro t ht
    have ht' : t = ⟨[i], [n], none⟩ ∨ t = ⟨[d], [o], none⟩ ∨ t ∈ T0 ∨ t ∈ TR := by
      simpa [loopTr2] using ht
    rcases ht' with rfl | rfl | ht | ht
    · simp
    · simp [Inner]; omega
    · refine ⟨(h0.pre t ht).1, fun q hq => ?_⟩
      have := (h0.pre t ht).2 q hq
      unfold Inner at *; omega
    · refine ⟨(hR.pre t ht).1, fun q hq => ?_⟩
      have := (hR.pre t ht).2 q hq
      unfold Inner at *; omega
  · intro t ht q hq
    have ht' : t = ⟨[i], [n], none⟩ ∨ t = ⟨[d], [o], none⟩ ∨ t ∈ T0 ∨ t ∈ TR := by
      simpa [loopTr2] using ht
    rcases ht' with rfl | rfl | ht | ht
    · have : q = n := by simpa using hq
      unfold Inner; omega
    · have : q = o := by simpa using hq
      unfold Inner; omega
    · have := h0.post t ht q hq
      unfold Inner at *; omega
    · have := hR.post t ht q hq
      unfold Inner at *; omega
  · intro w M hrun hM
    rcases key hrun with ⟨_, rfl⟩ | ⟨u, v, _, _, hv⟩ | ⟨u, x, v, _, _, _, hv⟩ | ⟨rfl, _⟩
    · rw [toks_single, if_neg (Ne.symm hio)] at hM; omega
    · have := no0 _ _ hv; omega
    · have := noR _ _ hv; omega
    · rfl
  · intro w M hrun q
    rcases key hrun with ⟨_, rfl⟩ | ⟨u, v, _, _, hv⟩ | ⟨u, x, v, _, _, _, hv⟩ | ⟨rfl, _⟩
    · rw [toks_single]; split <;> omega
    · exact h0.safe _ _ hv q
    · exact hR.safe _ _ hv q
    · rw [toks_single]; split <;> omega
  · intro w M hrun
    rcases key hrun with ⟨_, rfl⟩ | ⟨u, v, _, _, hv⟩ | ⟨u, x, v, _, _, _, hv⟩ | ⟨rfl, _⟩
    · exact ⟨_, rinit.trans (rx0.trans rexit)⟩
    · obtain ⟨y, hy⟩ := h0.complete _ _ hv
      exact ⟨_, (hy.mono m0).trans rexit⟩
    · obtain ⟨y, hy⟩ := hR.complete _ _ hv
      exact ⟨_, (hy.mono mR).trans (rx0.trans rexit)⟩
    · exact ⟨[], .nil⟩
  · intro t ht
    have ht' : t = ⟨[i], [n], none⟩ ∨ t = ⟨[d], [o], none⟩ ∨ t ∈ T0 ∨ t ∈ TR := by
      simpa [loopTr2] using ht
    rcases ht' with rfl | rfl | ht | ht
    · exact ⟨_, _, _, .nil, fires_self ⟨[i], [n], none⟩⟩
    · exact ⟨_, _, _, rinit.trans rx0, fires_self ⟨[d], [o], none⟩⟩
    · obtain ⟨w, M, M', hw, hf⟩ := h0.live t ht
      exact ⟨_, M, M', rinit.trans (hw.mono m0), hf⟩
    · obtain ⟨w, M, M', hw, hf⟩ := hR.live t ht
      exact ⟨_, M, M', rinit.trans (rx0.trans (hw.mono mR)), hf⟩
  · intro q hq
    have hq' : q = n ∨ q = d ∨ Inner lo0 hi0 q ∨ Inner loR hiR q := by unfold Inner at *; omega
    rcases hq' with rfl | rfl | hq | hq
    · obtain ⟨t, ht, h3⟩ := h0.uses_i
      exact ⟨⟨t, m0 t ht, h3⟩, ⟨⟨[i], [q], none⟩, by simp [loopTr2], by simp⟩⟩
    · obtain ⟨t, ht, h3⟩ := h0.uses_o
      exact ⟨⟨⟨[q], [o], none⟩, by simp [loopTr2], by simp⟩, ⟨t, m0 t ht, h3⟩⟩
    · obtain ⟨⟨t, ht, h3⟩, ⟨t', ht', h4⟩⟩ := h0.used q hq
      exact ⟨⟨t, m0 t ht, h3⟩, ⟨t', m0 t' ht', h4⟩⟩
    · obtain ⟨⟨t, ht, h3⟩, ⟨t', ht', h4⟩⟩ := hR.used q hq
      exact ⟨⟨t, mR t ht, h3⟩, ⟨t', mR t' ht', h4⟩⟩
  · intro w
    constructor
    · intro h
      obtain ⟨u, x, hu, hx, rfl⟩ := (loopL_iff_rep w).1 h
      have := (rrep u hu).trans ((((h0.lang x).1 hx).mono m0).trans rexit)
      simpa using this
    · intro hrun
      rcases key hrun with ⟨_, e⟩ | ⟨u, v, _, _, hv⟩ | ⟨u, x, v, _, _, _, hv⟩ | ⟨_, h⟩
      · have := congrFun e o
        rw [toks_single, toks_single, if_pos rfl, if_neg (Ne.symm hio)] at this; omega
      · have := no0 _ _ hv
        rw [toks_single, if_pos rfl] at this; omega
      · have := noR _ _ hv
        rw [toks_single, if_pos rfl] at this; omega
      · exact h


end Verif.Sys
