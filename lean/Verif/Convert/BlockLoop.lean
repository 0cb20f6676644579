import Verif.Convert.Block
/-
Loop and parallel composition of blocks (C14).
-/
namespace Verif.Sys
open Verif Lang
variable {α : Type}

/-! ### loop -/

/-- finished iterations: words of `(D R)*` -/
inductive Rep (D R : Lang α) : Lang α
  | nil : Rep D R []
  | snoc {u x y} : Rep D R u → D x → R y → Rep D R (u ++ (x ++ y))

theorem loopL_of_rep {D R : Lang α} {u : List α} (h : Rep D R u) : ∀ {w}, loopL D [R] w → loopL D [R] (u ++ w) := by
  induction h with
  | nil => intro w hw; exact hw
  | @snoc u x y _ hx hy ih =>
    intro w hw
    have := ih (loopL.again R hx (by simp) hy hw)
    simpa [List.append_assoc] using this

theorem loopL_iff_rep {D R : Lang α} (w : List α) : loopL D [R] w ↔ ∃ u x, Rep D R u ∧ D x ∧ w = u ++ x := by
  constructor
  · intro h
    induction h with
    | exit hd => exact ⟨[], _, .nil, hd, by simp⟩
    | @again d r w Q hd hQ hr hrest ih =>
      have hQ : Q = R := by simpa using hQ
      subst hQ
      obtain ⟨u, x, hu, hx, rfl⟩ := ih
      refine ⟨d ++ r ++ u, x, ?_, hx, by simp [List.append_assoc]⟩
      clear hx hrest
      induction hu with
      | nil => simpa using Rep.snoc .nil hd hr
      | @snoc u x y _ hx hy ih =>
        have := Rep.snoc ih hx hy
        simpa [List.append_assoc] using this
  · rintro ⟨u, x, hu, hx, rfl⟩
    exact loopL_of_rep hu (.exit hx)

theorem loopL_xor (D : Lang α) (Rs : List (Lang α)) (w : List α) : loopL D [xorL Rs] w ↔ loopL D Rs w := by
  constructor
  · intro h
    induction h with
    | exit hd => exact .exit hd
    | again Q hd hQ hr _ ih =>
      have hQ : Q = xorL Rs := by simpa using hQ
      subst hQ
      obtain ⟨R, hR, hr⟩ := hr
      exact .again R hd hR hr ih
  · intro h
    induction h with
    | exit hd => exact .exit hd
    | again R hd hR hr _ ih => exact .again (xorL Rs) hd (by simp) ⟨R, hR, hr⟩ ih

variable {T0 TR : List (Tr α)} {i o n d r lo0 hi0 loR hiR : Nat} {D R : Lang α}

/-- the transitions of a loop: enter, repeat, leave -/
def loopTr (T0 TR : List (Tr α)) (i o n d r : Nat) : List (Tr α) :=
  ⟨[i], [n], none⟩ :: ⟨[r], [n], none⟩ :: ⟨[d], [o], none⟩ :: (T0 ++ TR)

theorem fires_one {t : Tr α} {p q : Nat} (ht : t = ⟨[p], [q], none⟩) {M M' : Mk} (hf : t.fires M M') (hM : M = toks [p]) :
    M' = toks [q] := by
  subst ht hM
  exact hf.det (fires_self ⟨[p], [q], none⟩)

theorem loop_run (h0 : Block T0 n d lo0 hi0 D) (hR : Block TR d r loR hiR R) (hi : i < n) (ho : o < n) (hio : i ≠ o)
    (hnd : n < d) (hr : hi0 ≤ r) {w : List α} {M : Mk} (hrun : Run (loopTr T0 TR i o n d r) (toks [i]) w M) :
    (w = [] ∧ M = toks [i]) ∨
    (∃ u v, Rep D R u ∧ w = u ++ v ∧ Run T0 (toks [n]) v M) ∨
    (∃ u x v, Rep D R u ∧ D x ∧ w = u ++ x ++ v ∧ Run TR (toks [d]) v M) ∨
    (M = toks [o] ∧ loopL D [R] w) := by
  have a1 := h0.ilo; have a2 := h0.olo; have a3 := h0.le; have a4 := h0.ne
  have b1 := hR.ilo; have b2 := hR.olo; have b3 := hR.le; have b4 := hR.ne
  induction hrun with
  | nil => exact .inl ⟨rfl, rfl⟩
  | @snoc w M1 M2 t hr' ht hf ih =>
    have ht' : t = ⟨[i], [n], none⟩ ∨ t = ⟨[r], [n], none⟩ ∨ t = ⟨[d], [o], none⟩ ∨ t ∈ T0 ∨ t ∈ TR := by
      simpa [loopTr] using ht
    rcases ih with ⟨rfl, rfl⟩ | ⟨u, v, hu, rfl, hv⟩ | ⟨u, x, v, hu, hx, rfl, hv⟩ | ⟨rfl, hl⟩
    · have sup : ∀ q ∈ t.pre, q = i := by
        intro q hq
        have := hf.mem_pre hq
        rw [toks_single] at this
        split at this
        · assumption
        · omega
      rcases ht' with e | e | e | ht' | ht'
      · have := fires_one e hf rfl
        subst this; subst e
        exact .inr (.inl ⟨[], [], .nil, by simp, .nil⟩)
      · have := sup r (by simp [e]); omega
      · have := sup d (by simp [e]); omega
      · obtain ⟨q, hq⟩ := List.exists_mem_of_ne_nil _ (h0.pre t ht').1
        have h1 := (h0.pre t ht').2 q hq
        have := sup q hq
        unfold Inner at h1; omega
      · obtain ⟨q, hq⟩ := List.exists_mem_of_ne_nil _ (hR.pre t ht').1
        have h1 := (hR.pre t ht').2 q hq
        have := sup q hq
        unfold Inner at h1; omega
    · have sup : ∀ q ∈ t.pre, q = n ∨ q = d ∨ Inner lo0 hi0 q := fun q hq => h0.supp hv (hf.mem_pre hq)
      rcases ht' with e | e | e | ht' | ht'
      · have := sup i (by simp [e]); unfold Inner at this; omega
      · have := sup r (by simp [e]); unfold Inner at this; omega
      · have hM := h0.proper _ _ hv (hf.mem_pre (p := d) (by simp [e]))
        have := fires_one e hf hM
        subst hM; subst this; subst e
        refine .inr (.inr (.inr ⟨rfl, ?_⟩))
        simp only [Option.toList_none, List.append_nil]
        exact (loopL_iff_rep _).2 ⟨u, v, hu, (h0.lang v).2 hv, rfl⟩
      · exact .inr (.inl ⟨u, _, hu, by rw [List.append_assoc], .snoc hv ht' hf⟩)
      · obtain ⟨q, hq⟩ := List.exists_mem_of_ne_nil _ (hR.pre t ht').1
        have h1 := (hR.pre t ht').2 q hq
        have h2 := sup q hq
        have : q = d := by unfold Inner at *; omega
        subst this
        have hM := h0.proper _ _ hv (hf.mem_pre hq)
        subst hM
        exact .inr (.inr (.inl ⟨u, v, _, hu, (h0.lang v).2 hv, rfl, Run.step ht' hf⟩))
    · have sup : ∀ q ∈ t.pre, q = d ∨ q = r ∨ Inner loR hiR q := fun q hq => hR.supp hv (hf.mem_pre hq)
      rcases ht' with e | e | e | ht' | ht'
      · have := sup i (by simp [e]); unfold Inner at this; omega
      · have hM := hR.proper _ _ hv (hf.mem_pre (p := r) (by simp [e]))
        have := fires_one e hf hM
        subst hM; subst this; subst e
        refine .inr (.inl ⟨u ++ (x ++ v), [], .snoc hu hx ((hR.lang v).2 hv), ?_, .nil⟩)
        simp [List.append_assoc]
      · obtain ⟨hM, rfl⟩ := hR.entry hv (hf.mem_pre (p := d) (by simp [e]))
        have := fires_one e hf hM
        subst hM; subst this; subst e
        refine .inr (.inr (.inr ⟨rfl, ?_⟩))
        simp only [Option.toList_none, List.append_nil]
        exact (loopL_iff_rep _).2 ⟨u, x, hu, hx, rfl⟩
      · obtain ⟨q, hq⟩ := List.exists_mem_of_ne_nil _ (h0.pre t ht').1
        have h1 := (h0.pre t ht').2 q hq
        have h2 := sup q hq
        have : q = d := by unfold Inner at *; omega
        unfold Inner at *; omega
      · exact .inr (.inr (.inl ⟨u, x, _, hu, hx, by simp [List.append_assoc], .snoc hv ht' hf⟩))
    · exfalso
      have sup : ∀ q ∈ t.pre, q = o := by
        intro q hq
        have := hf.mem_pre hq
        rw [toks_single] at this
        split at this
        · assumption
        · omega
      rcases ht' with e | e | e | ht' | ht'
      · have := sup i (by simp [e]); omega
      · have := sup r (by simp [e]); omega
      · have := sup d (by simp [e]); omega
      · obtain ⟨q, hq⟩ := List.exists_mem_of_ne_nil _ (h0.pre t ht').1
        have h1 := (h0.pre t ht').2 q hq
        have := sup q hq
        unfold Inner at h1; omega
      · obtain ⟨q, hq⟩ := List.exists_mem_of_ne_nil _ (hR.pre t ht').1
        have h1 := (hR.pre t ht').2 q hq
        have := sup q hq
        unfold Inner at h1; omega

theorem block_loop (h0 : Block T0 n d lo0 hi0 D) (hR : Block TR d r loR hiR R) (hi : i < n) (ho : o < n) (hio : i ≠ o)
    (hnd' : d = n + 1) (hlo0 : lo0 = d + 1) (hr' : r = hi0) (hloR : loR = r + 1) :
    Block (loopTr T0 TR i o n d r) i o n hiR (loopL D [R]) := by
  have hnd : n < d := by omega
  have hr : hi0 ≤ r := by omega
  have a1 := h0.ilo; have a2 := h0.olo; have a3 := h0.le; have a4 := h0.ne
  have b1 := hR.ilo; have b2 := hR.olo; have b3 := hR.le; have b4 := hR.ne
  have key := fun {w : List α} {M : Mk} (hrun : Run (loopTr T0 TR i o n d r) (toks [i]) w M) =>
    loop_run h0 hR hi ho hio hnd hr hrun
  have m0 : ∀ t ∈ T0, t ∈ loopTr T0 TR i o n d r := fun t ht => by simp [loopTr, ht]
  have mR : ∀ t ∈ TR, t ∈ loopTr T0 TR i o n d r := fun t ht => by simp [loopTr, ht]
  have rinit : Run (loopTr T0 TR i o n d r) (toks [i]) [] (toks [n]) :=
    Run.step (t := ⟨[i], [n], none⟩) (by simp [loopTr]) (fires_self _)
  have rloop : Run (loopTr T0 TR i o n d r) (toks [r]) [] (toks [n]) :=
    Run.step (t := ⟨[r], [n], none⟩) (by simp [loopTr]) (fires_self _)
  have rexit : Run (loopTr T0 TR i o n d r) (toks [d]) [] (toks [o]) :=
    Run.step (t := ⟨[d], [o], none⟩) (by simp [loopTr]) (fires_self _)
  have rrep : ∀ u, Rep D R u → Run (loopTr T0 TR i o n d r) (toks [i]) u (toks [n]) := by
    intro u hu
    induction hu with
    | nil => exact rinit
    | @snoc u x y _ hx hy ih =>
      have := ih.trans ((((h0.lang x).1 hx).mono m0).trans ((((hR.lang y).1 hy).mono mR).trans rloop))
      simpa [List.append_assoc] using this
  obtain ⟨x0, hx0⟩ := h0.nonempty
  obtain ⟨y0, hy0⟩ := hR.nonempty
  have rx0 := ((h0.lang x0).1 hx0).mono m0
  have ry0 := ((hR.lang y0).1 hy0).mono mR
  have no0 : ∀ v M, Run T0 (toks [n]) v M → M o = 0 := by
    intro v M hv
    refine Nat.eq_zero_of_not_pos fun hpos => ?_
    have := h0.supp hv hpos
    unfold Inner at this; omega
  have noR : ∀ v M, Run TR (toks [d]) v M → M o = 0 := by
    intro v M hv
    refine Nat.eq_zero_of_not_pos fun hpos => ?_
    have := hR.supp hv hpos
    unfold Inner at this; omega
  refine ⟨hi, ho, by omega, hio, ?_, ?_, ?_, ?_, ?_, ?_, ?_, ?_⟩
  · intro t ht
    have ht' : t = ⟨[i], [n], none⟩ ∨ t = ⟨[r], [n], none⟩ ∨ t = ⟨[d], [o], none⟩ ∨ t ∈ T0 ∨ t ∈ TR := by
      simpa [loopTr] using ht
    rcases ht' with rfl | rfl | rfl | ht | ht
    · simp
    · simp [Inner]; omega
    · simp [Inner]; omega
    · refine ⟨(h0.pre t ht).1, fun q hq => ?_⟩
      have := (h0.pre t ht).2 q hq
      unfold Inner at *; omega
    · refine ⟨(hR.pre t ht).1, fun q hq => ?_⟩
      have := (hR.pre t ht).2 q hq
      unfold Inner at *; omega
  · intro t ht q hq
    have ht' : t = ⟨[i], [n], none⟩ ∨ t = ⟨[r], [n], none⟩ ∨ t = ⟨[d], [o], none⟩ ∨ t ∈ T0 ∨ t ∈ TR := by
      simpa [loopTr] using ht
    rcases ht' with rfl | rfl | rfl | ht | ht
    · have : q = n := by simpa using hq
      unfold Inner; omega
    · have : q = n := by simpa using hq
      unfold Inner; omega
    · have : q = o := by simpa using hq
      unfold Inner; omega
    · have := h0.post t ht q hq
      unfold Inner at *; omega
    · have := hR.post t ht q hq
      unfold Inner at *; omega
  · intro w M hrun hM
    rcases key hrun with ⟨_, rfl⟩ | ⟨u, v, _, _, hv⟩ | ⟨u, x, v, _, _, _, hv⟩ | ⟨rfl, _⟩
    · rw [toks_single, if_neg (Ne.symm hio)] at hM; omega
    · have := no0 _ _ hv; omega
    · have := noR _ _ hv; omega
    · rfl
  · intro w M hrun q
    rcases key hrun with ⟨_, rfl⟩ | ⟨u, v, _, _, hv⟩ | ⟨u, x, v, _, _, _, hv⟩ | ⟨rfl, _⟩
    · rw [toks_single]; split <;> omega
    · exact h0.safe _ _ hv q
    · exact hR.safe _ _ hv q
    · rw [toks_single]; split <;> omega
  · intro w M hrun
    rcases key hrun with ⟨_, rfl⟩ | ⟨u, v, _, _, hv⟩ | ⟨u, x, v, _, _, _, hv⟩ | ⟨rfl, _⟩
    · exact ⟨_, rinit.trans (rx0.trans rexit)⟩
    · obtain ⟨y, hy⟩ := h0.complete _ _ hv
      exact ⟨_, (hy.mono m0).trans rexit⟩
    · obtain ⟨y, hy⟩ := hR.complete _ _ hv
      exact ⟨_, (hy.mono mR).trans (rloop.trans (rx0.trans rexit))⟩
    · exact ⟨[], .nil⟩
  · intro t ht
    have ht' : t = ⟨[i], [n], none⟩ ∨ t = ⟨[r], [n], none⟩ ∨ t = ⟨[d], [o], none⟩ ∨ t ∈ T0 ∨ t ∈ TR := by
      simpa [loopTr] using ht
    rcases ht' with rfl | rfl | rfl | ht | ht
    · exact ⟨_, _, _, .nil, fires_self ⟨[i], [n], none⟩⟩
    · exact ⟨_, _, _, rinit.trans (rx0.trans ry0), fires_self ⟨[r], [n], none⟩⟩
    · exact ⟨_, _, _, rinit.trans rx0, fires_self ⟨[d], [o], none⟩⟩
    · obtain ⟨w, M, M', hw, hf⟩ := h0.live t ht
      exact ⟨_, M, M', rinit.trans (hw.mono m0), hf⟩
    · obtain ⟨w, M, M', hw, hf⟩ := hR.live t ht
      exact ⟨_, M, M', rinit.trans (rx0.trans (hw.mono mR)), hf⟩
  · intro q hq
    have hq' : q = n ∨ q = d ∨ q = r ∨ Inner lo0 hi0 q ∨ Inner loR hiR q := by unfold Inner at *; omega
    rcases hq' with rfl | rfl | rfl | hq | hq
    · obtain ⟨t, ht, h3⟩ := h0.uses_i
      exact ⟨⟨t, m0 t ht, h3⟩, ⟨⟨[i], [q], none⟩, by simp [loopTr], by simp⟩⟩
    · obtain ⟨t, ht, h3⟩ := h0.uses_o
      exact ⟨⟨⟨[q], [o], none⟩, by simp [loopTr], by simp⟩, ⟨t, m0 t ht, h3⟩⟩
    · obtain ⟨t, ht, h3⟩ := hR.uses_o
      exact ⟨⟨⟨[q], [n], none⟩, by simp [loopTr], by simp⟩, ⟨t, mR t ht, h3⟩⟩
    · obtain ⟨⟨t, ht, h3⟩, ⟨t', ht', h4⟩⟩ := h0.used q hq
      exact ⟨⟨t, m0 t ht, h3⟩, ⟨t', m0 t' ht', h4⟩⟩
    · obtain ⟨⟨t, ht, h3⟩, ⟨t', ht', h4⟩⟩ := hR.used q hq
      exact ⟨⟨t, mR t ht, h3⟩, ⟨t', mR t' ht', h4⟩⟩
  · intro w
    constructor
    · intro h
      obtain ⟨u, x, hu, hx, rfl⟩ := (loopL_iff_rep w).1 h
      have := (rrep u hu).trans ((((h0.lang x).1 hx).mono m0).trans rexit)
      simpa using this
    · intro hrun
      rcases key hrun with ⟨_, e⟩ | ⟨u, v, _, _, hv⟩ | ⟨u, x, v, _, _, _, hv⟩ | ⟨_, h⟩
      · have := congrFun e o
        rw [toks_single, toks_single, if_pos rfl, if_neg (Ne.symm hio)] at this; omega
      · have := no0 _ _ hv
        rw [toks_single, if_pos rfl] at this; omega
      · have := noR _ _ hv
        rw [toks_single, if_pos rfl] at this; omega
      · exact h

/-! ### parallel blocks -/

/-- `T` runs from one token on each place of `is` to one token on each place of `os`; all places are in `lo..hi-1`. -/
structure Multi (T : List (Tr α)) (is os : List Nat) (lo hi : Nat) (L : Lang α) : Prop where
  le : lo ≤ hi
  ins : ∀ p ∈ is, Inner lo hi p
  outs : ∀ p ∈ os, Inner lo hi p
  within : Within T (Inner lo hi)
  pre : ∀ t ∈ T, t.pre ≠ []
  proper : ∀ w M, Run T (toks is) w M → (∀ p ∈ os, 1 ≤ M p) → M = toks os
  safe : ∀ w M, Run T (toks is) w M → ∀ p, M p ≤ 1
  complete : ∀ w M, Run T (toks is) w M → ∃ v, Run T M v (toks os)
  live : ∀ t ∈ T, ∃ w M M', Run T (toks is) w M ∧ t.fires M M'
  used : ∀ p, Inner lo hi p → ((∃ t ∈ T, p ∈ t.pre) ∨ p ∈ os) ∧ ((∃ t ∈ T, p ∈ t.post) ∨ p ∈ is)
  lang : ∀ w, L w ↔ Run T (toks is) w (toks os)

theorem Block.multi {T : List (Tr α)} {i o lo hi a : Nat} {L : Lang α} (h : Block T i o lo hi L) (hi' : i = a) (ho : o = a + 1)
    (hlo : lo = a + 2) :
    Multi T [i] [o] a hi L := by
  have a1 := h.ilo; have a2 := h.olo; have a3 := h.le
  refine ⟨by omega, ?_, ?_, ?_, fun t ht => (h.pre t ht).1, ?_, h.safe, h.complete, h.live, ?_, h.lang⟩
  · intro p hp
    have : p = i := by simpa using hp
    unfold Inner; omega
  · intro p hp
    have : p = o := by simpa using hp
    unfold Inner; omega
  · intro t ht
    refine ⟨fun p hp => ?_, fun p hp => ?_⟩
    · have := (h.within t ht).1 p hp
      unfold Inner at *; omega
    · have := (h.within t ht).2 p hp
      unfold Inner at *; omega
  · intro w M hr hM
    exact h.proper w M hr (hM o (by simp))
  · intro q hq
    have hq' : q = i ∨ q = o ∨ Inner lo hi q := by unfold Inner at *; omega
    rcases hq' with rfl | rfl | hq
    · exact ⟨.inl h.uses_i, .inr (by simp)⟩
    · exact ⟨.inr (by simp), .inl h.uses_o⟩
    · exact ⟨.inl (h.used q hq).1, .inl (h.used q hq).2⟩

theorem Run.of_empty {M M' : Mk} {w : List α} (h : Run [] M w M') : w = [] ∧ M' = M := by
  cases h with
  | nil => exact ⟨rfl, rfl⟩
  | snoc _ ht _ => simp at ht

theorem multi_nil (n : Nat) : Multi ([] : List (Tr α)) [] [] n n eps := by
  refine ⟨Nat.le_refl _, by simp, by simp, by intro t ht; simp at ht, by simp, ?_, ?_, ?_, by simp,
    fun p hp => by unfold Inner at hp; omega, ?_⟩
  · intro w M hr _; exact hr.of_empty.2
  · intro w M hr p; rw [hr.of_empty.2]; simp
  · intro w M hr; rw [hr.of_empty.2]; exact ⟨[], .nil⟩
  · intro w
    constructor
    · intro h; cases h; exact .nil
    · intro hr; exact hr.of_empty.1

variable {T1 T2 : List (Tr α)} {is1 os1 is2 os2 : List Nat} {lo mi hi : Nat} {L1 L2 : Lang α}

theorem Multi.supp {T : List (Tr α)} {is os : List Nat} {L : Lang α} (h : Multi T is os lo hi L) {w : List α} {M : Mk}
    (hr : Run T (toks is) w M) {p : Nat} (hp : ¬ Inner lo hi p) : M p = 0 := by
  rw [hr.outside h.within hp]
  exact toks_zero.2 fun hm => hp (h.ins p hm)

theorem multi_append (h1 : Multi T1 is1 os1 lo mi L1) (h2 : Multi T2 is2 os2 mi hi L2) :
    Multi (T1 ++ T2) (is1 ++ is2) (os1 ++ os2) lo hi (shuf L1 L2) := by
  have a1 := h1.le; have a2 := h2.le
  have hd : ∀ p, Inner lo mi p → ¬ Inner mi hi p := by intro p; unfold Inner; omega
  have key : ∀ w M, Run (T1 ++ T2) (toks (is1 ++ is2)) w M → ∃ M1 M2 u v, M = madd M1 M2 ∧ Run T1 (toks is1) u M1 ∧
      Run T2 (toks is2) v M2 ∧ Shuffle u v w := by
    intro w M hr
    rw [toks_append] at hr
    exact Run.prod h1.within h2.within hd (fun p hp => toks_zero.2 fun hm => hp (h1.ins p hm))
      (fun p hp => toks_zero.2 fun hm => hp (h2.ins p hm)) hr
  refine ⟨by omega, ?_, ?_, ?_, ?_, ?_, ?_, ?_, ?_, ?_, ?_⟩
  · intro p hp
    rcases List.mem_append.1 hp with hp | hp
    · have := h1.ins p hp; unfold Inner at *; omega
    · have := h2.ins p hp; unfold Inner at *; omega
  · intro p hp
    rcases List.mem_append.1 hp with hp | hp
    · have := h1.outs p hp; unfold Inner at *; omega
    · have := h2.outs p hp; unfold Inner at *; omega
  · intro t ht
    rcases List.mem_append.1 ht with ht | ht
    · exact ⟨fun p hp => by have := (h1.within t ht).1 p hp; unfold Inner at *; omega,
        fun p hp => by have := (h1.within t ht).2 p hp; unfold Inner at *; omega⟩
    · exact ⟨fun p hp => by have := (h2.within t ht).1 p hp; unfold Inner at *; omega,
        fun p hp => by have := (h2.within t ht).2 p hp; unfold Inner at *; omega⟩
  · intro t ht
    rcases List.mem_append.1 ht with ht | ht
    · exact h1.pre t ht
    · exact h2.pre t ht
  · intro w M hr hM
    obtain ⟨M1, M2, u, v, rfl, hr1, hr2, _⟩ := key w M hr
    rw [h1.proper _ _ hr1 fun p hp => by
        have h := hM p (by simp [hp])
        rw [madd, h2.supp hr2 (hd p (h1.outs p hp))] at h; omega,
      h2.proper _ _ hr2 fun p hp => by
        have h := hM p (by simp [hp])
        rw [madd, h1.supp hr1 (fun h => hd p h (h2.outs p hp))] at h; omega, toks_append]
  · intro w M hr p
    obtain ⟨M1, M2, u, v, rfl, hr1, hr2, _⟩ := key w M hr
    have b1 := h1.safe _ _ hr1 p
    have b2 := h2.safe _ _ hr2 p
    unfold madd
    by_cases hp : Inner lo mi p
    · rw [h2.supp hr2 (hd p hp)]; omega
    · rw [h1.supp hr1 hp]; omega
  · intro w M hr
    obtain ⟨M1, M2, u, v, rfl, hr1, hr2, _⟩ := key w M hr
    obtain ⟨x, hx⟩ := h1.complete _ _ hr1
    obtain ⟨y, hy⟩ := h2.complete _ _ hr2
    rw [toks_append]
    exact ⟨x ++ y, Run.shuffle (Shuffle.append x y) hx hy⟩
  · intro t ht
    rcases List.mem_append.1 ht with ht | ht
    · obtain ⟨w, M, M', hw, hf⟩ := h1.live t ht
      refine ⟨w, madd M (toks is2), madd M' (toks is2), ?_, hf.frame _⟩
      rw [toks_append]
      exact Run.shuffle (Shuffle.nil_right w) hw .nil
    · obtain ⟨w, M, M', hw, hf⟩ := h2.live t ht
      refine ⟨w, madd (toks is1) M, madd (toks is1) M', ?_, ?_⟩
      · rw [toks_append]
        exact Run.shuffle (Shuffle.nil_left w) .nil hw
      · rw [madd_comm _ M, madd_comm _ M']; exact hf.frame _
  · intro q hq
    have hq' : Inner lo mi q ∨ Inner mi hi q := by unfold Inner at *; omega
    rcases hq' with hq | hq
    · obtain ⟨h3, h4⟩ := h1.used q hq
      exact ⟨h3.imp (fun ⟨t, ht, h⟩ => ⟨t, by simp [ht], h⟩) (fun h => by simp [h]),
        h4.imp (fun ⟨t, ht, h⟩ => ⟨t, by simp [ht], h⟩) (fun h => by simp [h])⟩
    · obtain ⟨h3, h4⟩ := h2.used q hq
      exact ⟨h3.imp (fun ⟨t, ht, h⟩ => ⟨t, by simp [ht], h⟩) (fun h => by simp [h]),
        h4.imp (fun ⟨t, ht, h⟩ => ⟨t, by simp [ht], h⟩) (fun h => by simp [h])⟩
  · intro w
    constructor
    · rintro ⟨u, v, hu, hv, hs⟩
      rw [toks_append, toks_append]
      exact Run.shuffle hs ((h1.lang u).1 hu) ((h2.lang v).1 hv)
    · intro hr
      obtain ⟨M1, M2, u, v, e, hr1, hr2, hs⟩ := key w _ hr
      have e1 : M1 = toks os1 := h1.proper _ _ hr1 fun p hp => by
        have h := congrFun e p
        have h' : 1 ≤ toks (os1 ++ os2) p := toks_pos.2 (by simp [hp])
        rw [madd, h2.supp hr2 (hd p (h1.outs p hp))] at h; omega
      have e2 : M2 = toks os2 := h2.proper _ _ hr2 fun p hp => by
        have h := congrFun e p
        have h' : 1 ≤ toks (os1 ++ os2) p := toks_pos.2 (by simp [hp])
        rw [madd, h1.supp hr1 (fun h => hd p h (h2.outs p hp))] at h; omega
      subst e1 e2
      exact ⟨u, v, (h1.lang u).2 hr1, (h2.lang v).2 hr2, hs⟩

/-- split and join around parallel blocks -/
def parTr (T : List (Tr α)) (i o : Nat) (is os : List Nat) : List (Tr α) :=
  ⟨[i], is, none⟩ :: ⟨os, [o], none⟩ :: T

theorem block_par {T : List (Tr α)} {is os : List Nat} {L : Lang α} (h : Multi T is os lo hi L) (hi' : i < lo) (ho : o < lo)
    (hio : i ≠ o) (hos : os ≠ []) : Block (parTr T i o is os) i o lo hi L := by
  have a1 := h.le
  have mT : ∀ t ∈ T, t ∈ parTr T i o is os := fun t ht => by simp [parTr, ht]
  have noo : ∀ v M, Run T (toks is) v M → M o = 0 := fun v M hv => h.supp hv (by unfold Inner; omega)
  have noi : ∀ v M, Run T (toks is) v M → M i = 0 := fun v M hv => h.supp hv (by unfold Inner; omega)
  have key : ∀ w M, Run (parTr T i o is os) (toks [i]) w M →
      (w = [] ∧ M = toks [i]) ∨ Run T (toks is) w M ∨ (M = toks [o] ∧ L w) := by
    intro w M hr
    induction hr with
    | nil => exact .inl ⟨rfl, rfl⟩
    | @snoc w M1 M2 t hr ht hf ih =>
      have ht' : t = ⟨[i], is, none⟩ ∨ t = ⟨os, [o], none⟩ ∨ t ∈ T := by simpa [parTr] using ht
      rcases ih with ⟨rfl, rfl⟩ | hv | ⟨rfl, _⟩
      · have sup : ∀ q ∈ t.pre, q = i := by
          intro q hq
          have := hf.mem_pre hq
          rw [toks_single] at this
          split at this
          · assumption
          · omega
        rcases ht' with rfl | rfl | ht'
        · have := hf.det (fires_self ⟨[i], is, none⟩)
          subst this
          exact .inr (.inl .nil)
        · obtain ⟨q, hq⟩ := List.exists_mem_of_ne_nil _ hos
          have := sup q hq
          have := h.outs q hq
          unfold Inner at this; omega
        · obtain ⟨q, hq⟩ := List.exists_mem_of_ne_nil _ (h.pre t ht')
          have := sup q hq
          have := (h.within t ht').1 q hq
          unfold Inner at this; omega
      · rcases ht' with rfl | rfl | ht'
        · have := hf.mem_pre (p := i) (by simp)
          have := noi _ _ hv; omega
        · have hM := h.proper _ _ hv fun p hp => hf.mem_pre hp
          subst hM
          have := hf.det (fires_self ⟨os, [o], none⟩)
          subst this
          refine .inr (.inr ⟨rfl, (h.lang _).2 ?_⟩)
          simpa using hv
        · exact .inr (.inl (.snoc hv ht' hf))
      · exfalso
        have sup : ∀ q ∈ t.pre, q = o := by
          intro q hq
          have := hf.mem_pre hq
          rw [toks_single] at this
          split at this
          · assumption
          · omega
        rcases ht' with rfl | rfl | ht'
        · have := sup i (by simp); omega
        · obtain ⟨q, hq⟩ := List.exists_mem_of_ne_nil _ hos
          have := sup q hq
          have := h.outs q hq
          unfold Inner at this; omega
        · obtain ⟨q, hq⟩ := List.exists_mem_of_ne_nil _ (h.pre t ht')
          have := sup q hq
          have := (h.within t ht').1 q hq
          unfold Inner at this; omega
  have rs : Run (parTr T i o is os) (toks [i]) [] (toks is) :=
    Run.step (t := ⟨[i], is, none⟩) (by simp [parTr]) (fires_self _)
  have rj : Run (parTr T i o is os) (toks os) [] (toks [o]) :=
    Run.step (t := ⟨os, [o], none⟩) (by simp [parTr]) (fires_self _)
  obtain ⟨x0, rx0⟩ := h.complete [] _ .nil
  refine ⟨hi', ho, a1, hio, ?_, ?_, ?_, ?_, ?_, ?_, ?_, ?_⟩
  · intro t ht
    have ht' : t = ⟨[i], is, none⟩ ∨ t = ⟨os, [o], none⟩ ∨ t ∈ T := by simpa [parTr] using ht
    rcases ht' with rfl | rfl | ht
    · simp
    · exact ⟨hos, fun p hp => .inr (h.outs p hp)⟩
    · exact ⟨h.pre t ht, fun p hp => .inr ((h.within t ht).1 p hp)⟩
  · intro t ht p hp
    have ht' : t = ⟨[i], is, none⟩ ∨ t = ⟨os, [o], none⟩ ∨ t ∈ T := by simpa [parTr] using ht
    rcases ht' with rfl | rfl | ht
    · exact .inr (h.ins p hp)
    · left; simpa using hp
    · exact .inr ((h.within t ht).2 p hp)
  · intro w M hr hM
    rcases key w M hr with ⟨_, rfl⟩ | hv | ⟨rfl, _⟩
    · rw [toks_single, if_neg (Ne.symm hio)] at hM; omega
    · have := noo _ _ hv; omega
    · rfl
  · intro w M hr q
    rcases key w M hr with ⟨_, rfl⟩ | hv | ⟨rfl, _⟩
    · rw [toks_single]; split <;> omega
    · exact h.safe _ _ hv q
    · rw [toks_single]; split <;> omega
  · intro w M hr
    rcases key w M hr with ⟨_, rfl⟩ | hv | ⟨rfl, _⟩
    · exact ⟨_, rs.trans ((rx0.mono mT).trans rj)⟩
    · obtain ⟨y, hy⟩ := h.complete _ _ hv
      exact ⟨_, (hy.mono mT).trans rj⟩
    · exact ⟨[], .nil⟩
  · intro t ht
    have ht' : t = ⟨[i], is, none⟩ ∨ t = ⟨os, [o], none⟩ ∨ t ∈ T := by simpa [parTr] using ht
    rcases ht' with rfl | rfl | ht
    · exact ⟨_, _, _, .nil, fires_self _⟩
    · exact ⟨_, _, _, rs.trans (rx0.mono mT), fires_self _⟩
    · obtain ⟨w, M, M', hw, hf⟩ := h.live t ht
      exact ⟨_, M, M', rs.trans (hw.mono mT), hf⟩
  · intro q hq
    obtain ⟨h3, h4⟩ := h.used q hq
    constructor
    · rcases h3 with ⟨t, ht, h3⟩ | h3
      · exact ⟨t, mT t ht, h3⟩
      · exact ⟨⟨os, [o], none⟩, by simp [parTr], h3⟩
    · rcases h4 with ⟨t, ht, h4⟩ | h4
      · exact ⟨t, mT t ht, h4⟩
      · exact ⟨⟨[i], is, none⟩, by simp [parTr], h4⟩
  · intro w
    constructor
    · intro hL
      have := rs.trans ((((h.lang w).1 hL).mono mT).trans rj)
      simpa using this
    · intro hr
      rcases key w _ hr with ⟨_, e⟩ | hv | ⟨_, hL⟩
      · have := congrFun e o
        rw [toks_single, toks_single, if_pos rfl, if_neg (Ne.symm hio)] at this; omega
      · have := noo _ _ hv
        rw [toks_single, if_pos rfl] at this; omega
      · exact hL

end Verif.Sys
