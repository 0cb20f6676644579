import Verif.Convert.BlockLoop
/-
Interleaving composition of blocks (C14): children one after the other in any order, guarded by a control place.
-/
namespace Verif.Sys
open Verif Lang
variable {α : Type}

theorem toks_perm {l m : List Nat} (h : l.Perm m) : toks l = toks m := by
  funext p; exact h.count_eq p

theorem toks_cons (p : Nat) (l : List Nat) : toks (p :: l) = madd (toks [p]) (toks l) := toks_append [p] l

theorem perm_map_exists {β γ : Type} (f : β → γ) {l m : List γ} (h : l.Perm m) :
    ∀ ks : List β, m = ks.map f → ∃ ks' : List β, ks'.Perm ks ∧ l = ks'.map f := by
  induction h with
  | nil => intro ks hk; exact ⟨[], by rw [List.map_eq_nil_iff.1 hk.symm], rfl⟩
  | cons x _ ih =>
    intro ks hk
    cases ks with
    | nil => simp at hk
    | cons k ks =>
      simp only [List.map_cons, List.cons.injEq] at hk
      obtain ⟨ks', hp, rfl⟩ := ih ks hk.2
      exact ⟨k :: ks', hp.cons k, by simp [hk.1]⟩
  | swap x y l =>
    intro ks hk
    match ks, hk with
    | a :: b :: ks, hk =>
      simp only [List.map_cons, List.cons.injEq] at hk
      exact ⟨b :: a :: ks, .swap _ _ _, by simp [hk.1, hk.2.1, hk.2.2]⟩
  | trans _ _ ih1 ih2 =>
    intro ks hk
    obtain ⟨ks1, hp1, rfl⟩ := ih2 ks hk
    obtain ⟨ks2, hp2, rfl⟩ := ih1 ks1 rfl
    exact ⟨ks2, hp2.trans hp1, rfl⟩

theorem seqL_snoc (Ls : List (Lang α)) (L : Lang α) {u v : List α} (hu : seqL Ls u) (hv : L v) : seqL (Ls ++ [L]) (u ++ v) := by
  induction Ls generalizing u with
  | nil => cases hu; exact ⟨v, [], hv, rfl, by simp⟩
  | cons M Ls ih =>
    obtain ⟨x, y, hx, hy, rfl⟩ := hu
    exact ⟨x, y ++ v, hx, ih hy, by simp [List.append_assoc]⟩

/-- a child of an interleaving node: its waiting place, its finished place, its block -/
structure IKid (α : Type) where
  pI : Nat
  pF : Nat
  ip : Nat
  fp : Nat
  lo : Nat
  hi : Nat
  T : List (Tr α)
  L : Lang α

/-- the children use consecutive intervals of places -/
inductive IKids : List (IKid α) → Nat → Nat → Prop
  | nil (n : Nat) : IKids [] n n
  | cons {k : IKid α} {ks : List (IKid α)} {n hi : Nat} : k.pI = n → k.pF = n + 1 → k.ip = n + 2 → k.fp = n + 3 → k.lo = n + 4 →
      Block k.T k.ip k.fp k.lo k.hi k.L → IKids ks k.hi hi → IKids (k :: ks) n hi

/-- shape of one child -/
structure IKid.OK (k : IKid α) : Prop where
  pF : k.pF = k.pI + 1
  ip : k.ip = k.pI + 2
  fp : k.fp = k.pI + 3
  lo : k.lo = k.pI + 4
  block : Block k.T k.ip k.fp k.lo k.hi k.L

theorem IKids.le {ks : List (IKid α)} {n hi : Nat} (h : IKids ks n hi) : n ≤ hi := by
  induction h with
  | nil => exact Nat.le_refl _
  | cons h1 h2 h3 h4 h5 hb _ ih => have := hb.le; omega

theorem IKids.ok {ks : List (IKid α)} {n hi : Nat} (h : IKids ks n hi) : ∀ k ∈ ks, k.OK ∧ n ≤ k.pI ∧ k.hi ≤ hi := by
  induction h with
  | nil => simp
  | cons h1 h2 h3 h4 h5 hb hk ih =>
    intro k' hk'
    have := hb.le; have := hk.le
    rcases List.mem_cons.1 hk' with rfl | hk'
    · exact ⟨⟨by omega, by omega, by omega, by omega, hb⟩, by omega, by omega⟩
    · obtain ⟨a, b, c⟩ := ih k' hk'
      exact ⟨a, by omega, c⟩

theorem IKids.pairwise {ks : List (IKid α)} {n hi : Nat} (h : IKids ks n hi) : ks.Pairwise fun k k' => k.hi ≤ k'.pI := by
  induction h with
  | nil => exact .nil
  | cons _ _ _ _ _ _ hk ih => exact .cons (fun k' hk' => (hk.ok k' hk').2.1) ih

/-- a place belongs to one child only -/
theorem IKids.unique {ks : List (IKid α)} {n hi : Nat} (h : IKids ks n hi) {k k' : IKid α} (hk : k ∈ ks) (hk' : k' ∈ ks) {p : Nat}
    (h1 : Inner k.pI k.hi p) (h2 : Inner k'.pI k'.hi p) : k = k' := by
  have hp := h.pairwise
  clear h
  induction hp with
  | nil => simp at hk
  | cons ha _ ih =>
    rcases List.mem_cons.1 hk with e | hm <;> rcases List.mem_cons.1 hk' with e' | hm'
    · rw [e, e']
    · have := ha _ hm'; subst e; unfold Inner at *; omega
    · have := ha _ hm; subst e'; unfold Inner at *; omega
    · exact ih hm hm'

theorem IKids.nodup {ks : List (IKid α)} {n hi : Nat} (h : IKids ks n hi) : ks.Nodup := by
  have hok := h.ok
  have hp := h.pairwise
  clear h
  induction hp with
  | nil => exact .nil
  | @cons k ks ha _ ih =>
    refine .cons ?_ (ih fun k' hk' => hok k' (by simp [hk']))
    intro k' hk' e
    subst e
    have h1 := ha _ hk'
    obtain ⟨h2, _⟩ := hok k (by simp)
    have := h2.block.le; have := h2.lo; omega

theorem IKids.covers {ks : List (IKid α)} {n hi : Nat} (h : IKids ks n hi) {p : Nat} (hp : Inner n hi p) :
    ∃ k ∈ ks, Inner k.pI k.hi p := by
  induction h with
  | nil => unfold Inner at hp; omega
  | @cons k ks n hi h1 h2 h3 h4 h5 hb hk ih =>
    by_cases hlt : p < k.hi
    · exact ⟨k, by simp, by unfold Inner at *; omega⟩
    · obtain ⟨k', hk', h'⟩ := ih (by unfold Inner at *; omega)
      exact ⟨k', by simp [hk'], h'⟩

/-- start the child: take the control token -/
def IKid.iT (c : Nat) (k : IKid α) : Tr α := ⟨[k.pI, c], [k.ip], none⟩
/-- finish the child: give it back -/
def IKid.fT (c : Nat) (k : IKid α) : Tr α := ⟨[k.fp], [k.pF, c], none⟩

/-- the transitions of an interleaving node -/
def interTr (ks : List (IKid α)) (i o c : Nat) : List (Tr α) :=
  ⟨[i], c :: ks.map IKid.pI, none⟩ :: ⟨c :: ks.map IKid.pF, [o], none⟩ :: ks.flatMap fun k => k.iT c :: k.fT c :: k.T

theorem mem_interTr {ks : List (IKid α)} {i o c : Nat} {t : Tr α} : t ∈ interTr ks i o c ↔
    t = ⟨[i], c :: ks.map IKid.pI, none⟩ ∨ t = ⟨c :: ks.map IKid.pF, [o], none⟩ ∨
    ∃ k ∈ ks, t = k.iT c ∨ t = k.fT c ∨ t ∈ k.T := by
  simp [interTr]

variable {ks : List (IKid α)} {i o c hi : Nat}

/-- no child is active: `done` have finished, `rest` are waiting -/
def idle (c : Nat) (done rest : List (IKid α)) : Mk := toks (c :: (done.map IKid.pF ++ rest.map IKid.pI))
/-- the tokens outside of the active child -/
def others (done rest : List (IKid α)) : Mk := toks (done.map IKid.pF ++ rest.map IKid.pI)

theorem start_fires (c : Nat) (done rest : List (IKid α)) (k : IKid α) (rest' : List (IKid α)) (hp : rest.Perm (k :: rest')) :
    (k.iT c).fires (idle c done rest) (madd (toks [k.ip]) (others done rest')) := by
  have e : idle c done rest = madd (toks [k.pI, c]) (others done rest') := by
    unfold idle others
    rw [← toks_append]
    refine toks_perm ?_
    have h1 := (hp.map IKid.pI)
    refine (((h1.append_left (done.map IKid.pF)).cons c).trans ?_)
    simp only [List.map_cons, List.cons_append, List.nil_append]
    refine (List.Perm.cons c List.perm_middle).trans (.swap _ _ _)
  rw [e]
  exact (fires_self (k.iT c)).frame _

theorem finish_fires (c : Nat) (done rest : List (IKid α)) (k : IKid α) :
    (k.fT c).fires (madd (toks [k.fp]) (others done rest)) (idle c (done ++ [k]) rest) := by
  have e : idle c (done ++ [k]) rest = madd (toks [k.pF, c]) (others done rest) := by
    unfold idle others
    rw [← toks_append]
    refine toks_perm ?_
    simp only [List.map_append, List.map_cons, List.map_nil, List.append_assoc, List.cons_append, List.nil_append]
    exact (List.Perm.cons c List.perm_middle).trans (.swap _ _ _)
  rw [e]
  exact (fires_self (k.fT c)).frame _

/-- places of `others` -/
theorem others_pos {done rest : List (IKid α)} {p : Nat} : 1 ≤ others done rest p ↔ (∃ k ∈ done, k.pF = p) ∨ ∃ k ∈ rest, k.pI = p := by
  unfold others
  rw [toks_pos]
  simp

theorem idle_pos {done rest : List (IKid α)} {p : Nat} :
    1 ≤ idle c done rest p ↔ p = c ∨ (∃ k ∈ done, k.pF = p) ∨ ∃ k ∈ rest, k.pI = p := by
  unfold idle
  rw [toks_pos]
  simp

theorem inter_run (hk : IKids ks (c + 1) hi) (hi' : i < c) (ho : o < c) (hio : i ≠ o) {w : List α} {M : Mk}
    (hr : Run (interTr ks i o c) (toks [i]) w M) :
    (w = [] ∧ M = toks [i]) ∨
    (∃ done rest, (done ++ rest).Perm ks ∧ seqL (done.map IKid.L) w ∧ M = idle c done rest) ∨
    (∃ done k rest u v N, (done ++ k :: rest).Perm ks ∧ seqL (done.map IKid.L) u ∧ w = u ++ v ∧ Run k.T (toks [k.ip]) v N ∧
      M = madd N (others done rest)) ∨
    (M = toks [o] ∧ interL (ks.map IKid.L) w) := by
  have hok := hk.ok
  induction hr with
  | nil => exact .inl ⟨rfl, rfl⟩
  | @snoc w M1 M2 t hr ht hf ih =>
    rw [mem_interTr] at ht
    rcases ih with ⟨rfl, rfl⟩ | ⟨done, rest, hp, hw, rfl⟩ | ⟨done, k, rest, u, v, N, hp, hu, rfl, hv, rfl⟩ | ⟨rfl, _⟩
    · have sup : ∀ q ∈ t.pre, q = i := by
        intro q hq
        have := hf.mem_pre hq
        rw [toks_single] at this
        split at this
        · assumption
        · omega
      rcases ht with rfl | rfl | ⟨k, hks, ht⟩
      · have := hf.det (fires_self _)
        subst this
        exact .inr (.inl ⟨[], ks, by simp, by simp [seqL, eps], by simp [idle]⟩)
      · have := sup c (by simp); omega
      · obtain ⟨kok, k1, k2⟩ := hok k hks
        have b := kok.block; have := b.le; have := kok.pF; have := kok.ip; have := kok.fp; have := kok.lo
        rcases ht with rfl | rfl | ht
        · have := sup c (by simp [IKid.iT]); omega
        · have := sup k.fp (by simp [IKid.fT]); omega
        · obtain ⟨q, hq⟩ := List.exists_mem_of_ne_nil _ (b.pre t ht).1
          have h1 := (b.pre t ht).2 q hq
          have := sup q hq
          unfold Inner at h1; omega
    · -- idle
      have hmem : ∀ k, k ∈ done ∨ k ∈ rest ↔ k ∈ ks := by
        intro k; rw [← hp.mem_iff, List.mem_append]
      have hnd : (done ++ rest).Nodup := hp.nodup_iff.2 hk.nodup
      have hdis : ∀ k, k ∈ done → k ∈ rest → False := fun k h1 h2 => (List.nodup_append.1 hnd).2.2 k h1 k h2 rfl
      have sup : ∀ q ∈ t.pre, q = c ∨ (∃ k ∈ done, k.pF = q) ∨ ∃ k ∈ rest, k.pI = q := fun q hq => idle_pos.1 (hf.mem_pre hq)
      -- a place of a child that is marked
      have own : ∀ k ∈ ks, ∀ q ∈ t.pre, Inner k.pI k.hi q → (k ∈ done ∧ k.pF = q) ∨ (k ∈ rest ∧ k.pI = q) := by
        intro k hks q hq hin
        obtain ⟨kok, k1, k2⟩ := hok k hks
        rcases sup q hq with e | ⟨k', hk', e⟩ | ⟨k', hk', e⟩
        · unfold Inner at hin; omega
        · have hk'' := (hmem k').1 (.inl hk')
          obtain ⟨kok', _, _⟩ := hok k' hk''
          have := kok'.pF; have := kok'.lo; have := kok'.block.le
          have : k = k' := hk.unique hks hk'' hin (by unfold Inner; omega)
          subst this; exact .inl ⟨hk', e⟩
        · have hk'' := (hmem k').1 (.inr hk')
          obtain ⟨kok', _, _⟩ := hok k' hk''
          have := kok'.pF; have := kok'.lo; have := kok'.block.le
          have : k = k' := hk.unique hks hk'' hin (by unfold Inner; omega)
          subst this; exact .inr ⟨hk', e⟩
      rcases ht with rfl | rfl | ⟨k, hks, ht⟩
      · rcases sup i (by simp) with e | ⟨k', hk', e⟩ | ⟨k', hk', e⟩
        · omega
        · obtain ⟨kok, k1, k2⟩ := hok k' ((hmem k').1 (.inl hk'))
          have := kok.pF; omega
        · obtain ⟨kok, k1, k2⟩ := hok k' ((hmem k').1 (.inr hk'))
          omega
      · have hrest : rest = [] := by
          refine List.eq_nil_iff_forall_not_mem.2 fun k hkr => ?_
          have hks := (hmem k).1 (.inr hkr)
          obtain ⟨kok, k1, k2⟩ := hok k hks
          have := kok.pF; have := kok.lo; have := kok.block.le
          rcases own k hks k.pF (by simp only [List.mem_cons, List.mem_map]; exact .inr ⟨k, hks, rfl⟩) (by unfold Inner; omega) with ⟨h1, _⟩ | ⟨_, h2⟩
          · exact hdis k h1 hkr
          · omega
        subst hrest
        rw [List.append_nil] at hp
        have e : idle c done [] = toks (c :: ks.map IKid.pF) := by
          unfold idle
          refine toks_perm ?_
          simpa using hp.map IKid.pF
        rw [e] at hf
        have := hf.det (fires_self _)
        subst this
        refine .inr (.inr (.inr ⟨rfl, done.map IKid.L, hp.map _, ?_⟩))
        simpa using hw
      · obtain ⟨kok, k1, k2⟩ := hok k hks
        have b := kok.block; have := b.le; have := kok.pF; have := kok.ip; have := kok.fp; have := kok.lo
        rcases ht with rfl | rfl | ht
        · rcases own k hks k.pI (by simp [IKid.iT]) (by unfold Inner; omega) with ⟨_, e⟩ | ⟨hkr, _⟩
          · omega
          · obtain ⟨r1, r2, rfl⟩ := List.append_of_mem hkr
            have := hf.det (start_fires c done _ k (r1 ++ r2) List.perm_middle)
            subst this
            refine .inr (.inr (.inl ⟨done, k, r1 ++ r2, w, [], _, ?_, hw, by simp [IKid.iT], .nil, rfl⟩))
            exact (List.Perm.append_left _ List.perm_middle.symm).trans hp
        · exfalso
          rcases own k hks k.fp (by simp [IKid.fT]) (by unfold Inner; omega) with ⟨_, e⟩ | ⟨_, e⟩ <;> omega
        · exfalso
          obtain ⟨q, hq⟩ := List.exists_mem_of_ne_nil _ (b.pre t ht).1
          have h1 := (b.pre t ht).2 q hq
          rcases own k hks q hq (by unfold Inner at *; omega) with ⟨_, e⟩ | ⟨_, e⟩ <;> (unfold Inner at h1; omega)
    · -- k is active
      have hmem : ∀ k', k' ∈ done ∨ k' = k ∨ k' ∈ rest ↔ k' ∈ ks := by
        intro k'; rw [← hp.mem_iff, List.mem_append, List.mem_cons]
      have hks : k ∈ ks := (hmem k).1 (by simp)
      have hnd : (done ++ k :: rest).Nodup := hp.nodup_iff.2 hk.nodup
      have hkd : k ∉ done := fun h => (List.nodup_append.1 hnd).2.2 k h k (by simp) rfl
      have hkr : k ∉ rest := (List.nodup_cons.1 (List.nodup_append.1 hnd).2.1).1
      obtain ⟨kok, k1, k2⟩ := hok k hks
      have b := kok.block; have := b.le; have := kok.pF; have := kok.ip; have := kok.fp; have := kok.lo
      -- places of others are waiting or finished places of other children
      have oth : ∀ p, 1 ≤ others done rest p → ∃ k' ∈ ks, k' ≠ k ∧ (k'.pF = p ∨ k'.pI = p) := by
        intro p hp'
        rcases others_pos.1 hp' with ⟨k', hk', e⟩ | ⟨k', hk', e⟩
        · exact ⟨k', (hmem k').1 (.inl hk'), fun e' => hkd (e' ▸ hk'), .inl e⟩
        · exact ⟨k', (hmem k').1 (.inr (.inr hk')), fun e' => hkr (e' ▸ hk'), .inr e⟩
      have othk : ∀ p, Inner k.pI k.hi p → others done rest p = 0 := by
        intro p hin
        refine Nat.eq_zero_of_not_pos fun hpos => ?_
        obtain ⟨k', hk', hne, e⟩ := oth p hpos
        obtain ⟨kok', _, _⟩ := hok k' hk'
        have := kok'.pF; have := kok'.lo; have := kok'.block.le
        exact hne (hk.unique hk' hks (by unfold Inner; omega) hin)
      have othlow : ∀ p, p ≤ c → others done rest p = 0 := by
        intro p hin
        refine Nat.eq_zero_of_not_pos fun hpos => ?_
        obtain ⟨k', hk', hne, e⟩ := oth p hpos
        obtain ⟨kok', _, _⟩ := hok k' hk'
        have := kok'.pF; omega
      have Nsup : ∀ p, ¬ Inner k.pI k.hi p → N p = 0 := by
        intro p hin
        refine Nat.eq_zero_of_not_pos fun hpos => ?_
        have := b.supp hv hpos
        unfold Inner at *; omega
      have low : ∀ p, p ≤ c → madd N (others done rest) p = 0 := by
        intro p hpc
        rw [madd, othlow p hpc, Nsup p (by unfold Inner; omega)]
      rcases ht with rfl | rfl | ⟨k', hks', ht⟩
      · have := hf.mem_pre (p := i) (by simp)
        rw [low i (by omega)] at this; omega
      · have := hf.mem_pre (p := c) (by simp)
        rw [low c (by omega)] at this; omega
      · obtain ⟨kok', k1', k2'⟩ := hok k' hks'
        have b' := kok'.block; have := b'.le; have := kok'.pF; have := kok'.ip; have := kok'.fp; have := kok'.lo
        -- an inner place of k' that is marked belongs to k
        have same : ∀ q ∈ t.pre, q = k'.ip ∨ q = k'.fp ∨ Inner k'.lo k'.hi q → k' = k := by
          intro q hq hin
          have hpos := hf.mem_pre hq
          by_cases hNq : Inner k.pI k.hi q
          · exact hk.unique hks' hks (by unfold Inner at *; omega) hNq
          · exfalso
            rw [madd, Nsup q hNq] at hpos
            obtain ⟨k'', hk'', _, e⟩ := oth q (by omega)
            obtain ⟨kok'', _, _⟩ := hok k'' hk''
            have := kok''.pF; have := kok''.lo; have := kok''.block.le
            have e2 := hk.unique hk'' hks' (p := q) (by unfold Inner; omega) (by unfold Inner at *; omega)
            subst e2
            unfold Inner at hin; omega
        rcases ht with rfl | rfl | ht
        · have := hf.mem_pre (p := c) (by simp [IKid.iT])
          rw [low c (by omega)] at this; omega
        · have e := same k'.fp (by simp [IKid.fT]) (by simp)
          subst e
          have hpos := hf.mem_pre (p := k'.fp) (by simp [IKid.fT])
          rw [madd, othk _ (by unfold Inner; omega)] at hpos
          have hN := b.proper _ _ hv (by omega)
          subst hN
          have := hf.det (finish_fires c done rest k')
          subst this
          refine .inr (.inl ⟨done ++ [k'], rest, ?_, ?_, rfl⟩)
          · simpa using hp
          · have := seqL_snoc _ k'.L hu ((b.lang v).2 hv)
            simpa [IKid.fT] using this
        · obtain ⟨q, hq⟩ := List.exists_mem_of_ne_nil _ (b'.pre t ht).1
          have h1 := (b'.pre t ht).2 q hq
          have e := same q hq (by rcases h1 with h1 | h1 <;> simp [h1])
          subst e
          obtain ⟨N', hf', rfl⟩ := hf.unframe fun p hp' => othk p (by
            have := (b.pre t ht).2 p hp'
            unfold Inner at *; omega)
          exact .inr (.inr (.inl ⟨done, k', rest, u, _, N', hp, hu, by rw [List.append_assoc], .snoc hv ht hf', rfl⟩))
    · exfalso
      have sup : ∀ q ∈ t.pre, q = o := by
        intro q hq
        have := hf.mem_pre hq
        rw [toks_single] at this
        split at this
        · assumption
        · omega
      rcases ht with rfl | rfl | ⟨k, hks, ht⟩
      · have := sup i (by simp); omega
      · have := sup c (by simp); omega
      · obtain ⟨kok, k1, k2⟩ := hok k hks
        have b := kok.block; have := b.le; have := kok.pF; have := kok.ip; have := kok.fp; have := kok.lo
        rcases ht with rfl | rfl | ht
        · have := sup c (by simp [IKid.iT]); omega
        · have := sup k.fp (by simp [IKid.fT]); omega
        · obtain ⟨q, hq⟩ := List.exists_mem_of_ne_nil _ (b.pre t ht).1
          have h1 := (b.pre t ht).2 q hq
          have := sup q hq
          unfold Inner at h1; omega

theorem inter_kidT {k : IKid α} (hk : k ∈ ks) : ∀ t ∈ k.T, t ∈ interTr ks i o c :=
  fun _ ht => mem_interTr.2 (.inr (.inr ⟨k, hk, .inr (.inr ht)⟩))

/-- one child runs from start to end -/
theorem inter_kid (hk : IKids ks (c + 1) hi) {k : IKid α} (hks : k ∈ ks) {x : List α} (hx : k.L x) (done rest : List (IKid α)) :
    Run (interTr ks i o c) (idle c done (k :: rest)) x (idle c (done ++ [k]) rest) := by
  have b := (hk.ok k hks).1.block
  have r1 : Run (interTr ks i o c) (idle c done (k :: rest)) [] (madd (toks [k.ip]) (others done rest)) :=
    Run.step (t := k.iT c) (mem_interTr.2 (.inr (.inr ⟨k, hks, .inl rfl⟩))) (start_fires c done _ k rest (List.Perm.refl _))
  have r2 := (((b.lang x).1 hx).mono (inter_kidT (ks := ks) (i := i) (o := o) (c := c) hks)).frame (others done rest)
  have r3 : Run (interTr ks i o c) (madd (toks [k.fp]) (others done rest)) [] (idle c (done ++ [k]) rest) :=
    Run.step (t := k.fT c) (mem_interTr.2 (.inr (.inr ⟨k, hks, .inr (.inl rfl)⟩))) (finish_fires c done rest k)
  have := r1.trans (r2.trans r3)
  simpa using this

theorem inter_rest (hk : IKids ks (c + 1) hi) (rest : List (IKid α)) : ∀ (done : List (IKid α)) (x : List α),
    (∀ k ∈ rest, k ∈ ks) → seqL (rest.map IKid.L) x → Run (interTr ks i o c) (idle c done rest) x (idle c (done ++ rest) []) := by
  induction rest with
  | nil => intro done x _ hx; cases hx; rw [List.append_nil]; exact .nil
  | cons k rest ih =>
    intro done x hm hx
    obtain ⟨u, v, hu, hv, rfl⟩ := hx
    have := (inter_kid (i := i) (o := o) hk (hm k (by simp)) hu done rest).trans
      (ih (done ++ [k]) v (fun k' h => hm k' (by simp [h])) hv)
    simpa [List.append_assoc] using this

theorem inter_join {done : List (IKid α)} (hp : done.Perm ks) : Run (interTr ks i o c) (idle c done []) [] (toks [o]) := by
  have e : idle c done [] = toks (c :: ks.map IKid.pF) := by
    unfold idle
    refine toks_perm ?_
    simpa using hp.map IKid.pF
  rw [e]
  exact Run.step (t := ⟨c :: ks.map IKid.pF, [o], none⟩) (mem_interTr.2 (.inr (.inl rfl))) (fires_self _)

theorem inter_words (hk : IKids ks (c + 1) hi) (rest : List (IKid α)) (hm : ∀ k ∈ rest, k ∈ ks) :
    ∃ x, seqL (rest.map IKid.L) x := by
  induction rest with
  | nil => exact ⟨[], rfl⟩
  | cons k rest ih =>
    obtain ⟨x, hx⟩ := ih fun k' h => hm k' (by simp [h])
    obtain ⟨y, hy⟩ := (hk.ok k (hm k (by simp))).1.block.nonempty
    exact ⟨y ++ x, y, x, hy, hx, rfl⟩

theorem block_inter (hk : IKids ks (c + 1) hi) (hi' : i < c) (ho : o < c) (hio : i ≠ o) :
    Block (interTr ks i o c) i o c hi (interL (ks.map IKid.L)) := by
  have hok := hk.ok
  have hle := hk.le
  have key := fun {w : List α} {M : Mk} (hr : Run (interTr ks i o c) (toks [i]) w M) => inter_run hk hi' ho hio hr
  have rs : Run (interTr ks i o c) (toks [i]) [] (idle c [] ks) := by
    have : idle c [] ks = toks (c :: ks.map IKid.pI) := by simp [idle]
    rw [this]
    exact Run.step (t := ⟨[i], c :: ks.map IKid.pI, none⟩) (mem_interTr.2 (.inl rfl)) (fires_self _)
  have fin : ∀ done rest : List (IKid α), (done ++ rest).Perm ks → ∃ x, Run (interTr ks i o c) (idle c done rest) x (toks [o]) := by
    intro done rest hp
    have hm : ∀ k ∈ rest, k ∈ ks := fun k h => hp.mem_iff.1 (by simp [h])
    obtain ⟨x, hx⟩ := inter_words hk rest hm
    exact ⟨_, (inter_rest hk rest done x hm hx).trans (inter_join hp)⟩
  have ranges : ∀ k ∈ ks, c < k.pI ∧ k.pI < hi ∧ k.pF = k.pI + 1 ∧ k.ip = k.pI + 2 ∧ k.fp = k.pI + 3 ∧ k.lo = k.pI + 4 ∧
      k.pI + 4 ≤ k.hi ∧ k.hi ≤ hi := by
    intro k hks
    obtain ⟨kok, k1, k2⟩ := hok k hks
    have := kok.block.le; have := kok.pF; have := kok.ip; have := kok.fp; have := kok.lo
    omega
  have safe1 : ∀ (done rest : List (IKid α)), (done ++ rest).Perm ks → ∀ p, others done rest p ≤ 1 := by
    intro done rest hp p
    have hnd : (done ++ rest).Nodup := hp.nodup_iff.2 hk.nodup
    have : (done.map IKid.pF ++ rest.map IKid.pI).Nodup := by
      have inj : ∀ k ∈ ks, ∀ k' ∈ ks, (k.pI = k'.pI ∨ k.pI = k'.pF ∨ k.pF = k'.pI ∨ k.pF = k'.pF) → k = k' := by
        intro k hk1 k' hk2 h
        have a := ranges k hk1; have b := ranges k' hk2
        rcases h with h | h | h | h
        · exact hk.unique hk1 hk2 (p := k.pI) (by unfold Inner; omega) (by unfold Inner; omega)
        · exact hk.unique hk1 hk2 (p := k.pI) (by unfold Inner; omega) (by unfold Inner; omega)
        · exact hk.unique hk1 hk2 (p := k.pF) (by unfold Inner; omega) (by unfold Inner; omega)
        · exact hk.unique hk1 hk2 (p := k.pF) (by unfold Inner; omega) (by unfold Inner; omega)
      have hmem : ∀ k, k ∈ done ∨ k ∈ rest → k ∈ ks := fun k h => hp.mem_iff.1 (List.mem_append.2 h)
      rw [List.nodup_append] at hnd ⊢
      refine ⟨?_, ?_, ?_⟩
      · refine List.pairwise_map.2 (List.Pairwise.imp_of_mem ?_ hnd.1)
        intro a b ha hb hne e
        exact hne (inj a (hmem a (.inl ha)) b (hmem b (.inl hb)) (.inr (.inr (.inr e))))
      · refine List.pairwise_map.2 (List.Pairwise.imp_of_mem ?_ hnd.2.1)
        intro a b ha hb hne e
        exact hne (inj a (hmem a (.inr ha)) b (hmem b (.inr hb)) (.inl e))
      · intro x hx y hy e
        obtain ⟨a, ha, rfl⟩ := List.mem_map.1 hx
        obtain ⟨b, hb, rfl⟩ := List.mem_map.1 hy
        exact hnd.2.2 a ha b hb (inj a (hmem a (.inl ha)) b (hmem b (.inr hb)) (.inr (.inr (.inl e))))
    exact List.nodup_iff_count.1 this p
  refine ⟨hi', ho, by omega, hio, ?_, ?_, ?_, ?_, ?_, ?_, ?_, ?_⟩
  · intro t ht
    rcases mem_interTr.1 ht with rfl | rfl | ⟨k, hks, ht⟩
    · simp
    · refine ⟨by simp, fun p hp => .inr ?_⟩
      rcases List.mem_cons.1 hp with rfl | hp
      · unfold Inner; omega
      · obtain ⟨k, hks, rfl⟩ := List.mem_map.1 hp
        have := ranges k hks; unfold Inner; omega
    · have := ranges k hks
      rcases ht with rfl | rfl | ht
      · refine ⟨by simp [IKid.iT], fun p hp => .inr ?_⟩
        have : p = k.pI ∨ p = c := by simpa [IKid.iT] using hp
        unfold Inner; omega
      · refine ⟨by simp [IKid.fT], fun p hp => .inr ?_⟩
        have : p = k.fp := by simpa [IKid.fT] using hp
        unfold Inner; omega
      · have b := (hok k hks).1.block
        refine ⟨(b.pre t ht).1, fun p hp => .inr ?_⟩
        have := (b.pre t ht).2 p hp
        unfold Inner at *; omega
  · intro t ht p hp
    rcases mem_interTr.1 ht with rfl | rfl | ⟨k, hks, ht⟩
    · right
      rcases List.mem_cons.1 hp with rfl | hp
      · unfold Inner; omega
      · obtain ⟨k, hks, rfl⟩ := List.mem_map.1 hp
        have := ranges k hks; unfold Inner; omega
    · left; simpa using hp
    · right
      have := ranges k hks
      rcases ht with rfl | rfl | ht
      · have : p = k.ip := by simpa [IKid.iT] using hp
        unfold Inner; omega
      · have : p = k.pF ∨ p = c := by simpa [IKid.fT] using hp
        unfold Inner; omega
      · have b := (hok k hks).1.block
        have := b.post t ht p hp
        unfold Inner at *; omega
  · intro w M hr hM
    rcases key hr with ⟨_, rfl⟩ | ⟨done, rest, hp, _, rfl⟩ | ⟨done, k, rest, u, v, N, hp, _, _, hv, rfl⟩ | ⟨rfl, _⟩
    · rw [toks_single, if_neg (Ne.symm hio)] at hM; omega
    · exfalso
      rcases idle_pos.1 hM with e | ⟨k, hk', e⟩ | ⟨k, hk', e⟩
      · omega
      · have := ranges k (hp.mem_iff.1 (by simp [hk'])); omega
      · have := ranges k (hp.mem_iff.1 (by simp [hk'])); omega
    · exfalso
      have hks : k ∈ ks := hp.mem_iff.1 (by simp)
      have := ranges k hks
      have hN : N o = 0 := by
        refine Nat.eq_zero_of_not_pos fun hpos => ?_
        have := (hok k hks).1.block.supp hv hpos
        unfold Inner at this; omega
      rw [madd, hN] at hM
      rcases others_pos.1 (show 1 ≤ others done rest o by omega) with ⟨k, hk', e⟩ | ⟨k, hk', e⟩
      · have := ranges k (hp.mem_iff.1 (by simp [hk'])); omega
      · have := ranges k (hp.mem_iff.1 (by simp [hk'])); omega
    · rfl
  · intro w M hr p
    rcases key hr with ⟨_, rfl⟩ | ⟨done, rest, hp, _, rfl⟩ | ⟨done, k, rest, u, v, N, hp, _, _, hv, rfl⟩ | ⟨rfl, _⟩
    · rw [toks_single]; split <;> omega
    · have h1 := safe1 done rest hp p
      have e : idle c done rest p = toks [c] p + others done rest p := by
        unfold idle others; rw [toks_cons]; rfl
      rw [e, toks_single]
      split
      · have : others done rest p = 0 := by
          refine Nat.eq_zero_of_not_pos fun hpos => ?_
          rcases others_pos.1 hpos with ⟨k, hk', e⟩ | ⟨k, hk', e⟩
          · have := ranges k (hp.mem_iff.1 (by simp [hk'])); omega
          · have := ranges k (hp.mem_iff.1 (by simp [hk'])); omega
        omega
      · omega
    · have hks : k ∈ ks := hp.mem_iff.1 (by simp)
      have b := (hok k hks).1.block
      have h1 := b.safe _ _ hv p
      have hnd : (done ++ k :: rest).Nodup := hp.nodup_iff.2 hk.nodup
      have h2 : others done rest p ≤ 1 := by
        have := safe1 done (k :: rest) hp p
        have e : others done (k :: rest) p = toks [k.pI] p + others done rest p := by
          have : others done (k :: rest) = madd (toks [k.pI]) (others done rest) := by
            unfold others
            rw [← toks_append]
            refine toks_perm ?_
            simp only [List.map_cons, List.cons_append, List.nil_append]
            exact List.perm_middle
          rw [this]; rfl
        omega
      unfold madd
      by_cases hN : 1 ≤ N p
      · have := b.supp hv hN
        have hr' := ranges k hks
        have : others done rest p = 0 := by
          refine Nat.eq_zero_of_not_pos fun hpos => ?_
          rcases others_pos.1 hpos with ⟨k', hk', e⟩ | ⟨k', hk', e⟩
          · have hks' : k' ∈ ks := hp.mem_iff.1 (by simp [hk'])
            have := ranges k' hks'
            have e2 := hk.unique hks hks' (p := p) (by unfold Inner at *; omega) (by unfold Inner; omega)
            subst e2; exact (List.nodup_append.1 hnd).2.2 k hk' k (by simp) rfl
          · have hks' : k' ∈ ks := hp.mem_iff.1 (by simp [hk'])
            have := ranges k' hks'
            have e2 := hk.unique hks hks' (p := p) (by unfold Inner at *; omega) (by unfold Inner; omega)
            subst e2; exact (List.nodup_cons.1 (List.nodup_append.1 hnd).2.1).1 hk'
        omega
      · omega
    · rw [toks_single]; split <;> omega
  · intro w M hr
    rcases key hr with ⟨_, rfl⟩ | ⟨done, rest, hp, _, rfl⟩ | ⟨done, k, rest, u, v, N, hp, _, _, hv, rfl⟩ | ⟨rfl, _⟩
    · obtain ⟨x, hx⟩ := fin [] ks (by simp)
      exact ⟨_, rs.trans hx⟩
    · exact fin done rest hp
    · have hks : k ∈ ks := hp.mem_iff.1 (by simp)
      obtain ⟨x, hx⟩ := (hok k hks).1.block.complete _ _ hv
      obtain ⟨y, hy⟩ := fin (done ++ [k]) rest (by simpa using hp)
      exact ⟨_, ((hx.mono (inter_kidT hks)).frame (others done rest)).trans
        ((Run.step (t := k.fT c) (mem_interTr.2 (.inr (.inr ⟨k, hks, .inr (.inl rfl)⟩))) (finish_fires c done rest k)).trans hy)⟩
    · exact ⟨[], .nil⟩
  · intro t ht
    rcases mem_interTr.1 ht with rfl | rfl | ⟨k, hks, ht⟩
    · exact ⟨_, _, _, .nil, fires_self _⟩
    · obtain ⟨x, hx⟩ := inter_words hk ks fun _ h => h
      have := rs.trans (inter_rest (i := i) (o := o) hk ks [] x (fun _ h => h) hx)
      refine ⟨_, _, toks [o], this, ?_⟩
      · have e : idle c ([] ++ ks) [] = toks (c :: ks.map IKid.pF) := by simp [idle]
        rw [e]; exact fires_self _
    · obtain ⟨r1, r2, hr12⟩ := List.append_of_mem hks
      have hp : ks.Perm (k :: (r1 ++ r2)) := by rw [hr12]; exact List.perm_middle
      have hst := start_fires c [] ks k (r1 ++ r2) hp
      have ri : Run (interTr ks i o c) (toks [i]) [] (madd (toks [k.ip]) (others [] (r1 ++ r2))) := by
        have := rs.trans (Run.step (t := k.iT c) (mem_interTr.2 (.inr (.inr ⟨k, hks, .inl rfl⟩))) hst)
        simpa [IKid.iT] using this
      rcases ht with rfl | rfl | ht
      · exact ⟨_, _, _, rs, hst⟩
      · obtain ⟨x, hx⟩ := (hok k hks).1.block.complete [] _ .nil
        exact ⟨_, _, _, ri.trans ((hx.mono (inter_kidT hks)).frame _), finish_fires c [] (r1 ++ r2) k⟩
      · obtain ⟨w, M, M', hw, hf⟩ := (hok k hks).1.block.live t ht
        exact ⟨_, _, _, ri.trans ((hw.mono (inter_kidT hks)).frame _), hf.frame _⟩
  · intro p hp
    by_cases hpc : p = c
    · subst hpc
      exact ⟨⟨⟨p :: ks.map IKid.pF, [o], none⟩, mem_interTr.2 (.inr (.inl rfl)), by simp⟩,
        ⟨⟨[i], p :: ks.map IKid.pI, none⟩, mem_interTr.2 (.inl rfl), by simp⟩⟩
    · obtain ⟨k, hks, hin⟩ := hk.covers (p := p) (by unfold Inner at *; omega)
      have hr' := ranges k hks
      have b := (hok k hks).1.block
      have mT := inter_kidT (i := i) (o := o) (c := c) hks
      have mi : k.iT c ∈ interTr ks i o c := mem_interTr.2 (.inr (.inr ⟨k, hks, .inl rfl⟩))
      have mf : k.fT c ∈ interTr ks i o c := mem_interTr.2 (.inr (.inr ⟨k, hks, .inr (.inl rfl)⟩))
      have hq : p = k.pI ∨ p = k.pF ∨ p = k.ip ∨ p = k.fp ∨ Inner k.lo k.hi p := by unfold Inner at *; omega
      rcases hq with e | e | e | e | hq
      · exact ⟨⟨_, mi, by simp [IKid.iT, e]⟩, ⟨⟨[i], c :: ks.map IKid.pI, none⟩, mem_interTr.2 (.inl rfl), by
          simp only [List.mem_cons, List.mem_map]; exact .inr ⟨k, hks, e.symm⟩⟩⟩
      · exact ⟨⟨⟨c :: ks.map IKid.pF, [o], none⟩, mem_interTr.2 (.inr (.inl rfl)), by
          simp only [List.mem_cons, List.mem_map]; exact .inr ⟨k, hks, e.symm⟩⟩, ⟨_, mf, by simp [IKid.fT, e]⟩⟩
      · obtain ⟨t, ht, h1⟩ := b.uses_i
        exact ⟨⟨t, mT t ht, e ▸ h1⟩, ⟨_, mi, by simp [IKid.iT, e]⟩⟩
      · obtain ⟨t, ht, h1⟩ := b.uses_o
        exact ⟨⟨_, mf, by simp [IKid.fT, e]⟩, ⟨t, mT t ht, e ▸ h1⟩⟩
      · obtain ⟨⟨t, ht, h1⟩, ⟨t', ht', h2⟩⟩ := b.used p hq
        exact ⟨⟨t, mT t ht, h1⟩, ⟨t', mT t' ht', h2⟩⟩
  · intro w
    constructor
    · rintro ⟨Ms, hp, hs⟩
      obtain ⟨ks', hp', rfl⟩ := perm_map_exists IKid.L hp ks rfl
      have hm : ∀ k ∈ ks', k ∈ ks := fun k h => hp'.mem_iff.1 h
      have e : idle c [] ks = idle c [] ks' := by
        unfold idle
        refine toks_perm ?_
        simpa using hp'.symm.map IKid.pI
      have := rs.trans ((e ▸ inter_rest (i := i) (o := o) hk ks' [] w hm hs :
        Run (interTr ks i o c) (idle c [] ks) w (idle c ([] ++ ks') [])).trans (inter_join hp'))
      simpa using this
    · intro hr
      rcases key hr with ⟨_, e⟩ | ⟨done, rest, hp, _, e⟩ | ⟨done, k, rest, u, v, N, hp, _, _, hv, e⟩ | ⟨_, h⟩
      · exact absurd e (toks_ne hio)
      · exfalso
        have hM : 1 ≤ idle c done rest o := by rw [← e, toks_single, if_pos rfl]; omega
        rcases idle_pos.1 hM with e | ⟨k, hk', e⟩ | ⟨k, hk', e⟩
        · omega
        · have := ranges k (hp.mem_iff.1 (by simp [hk'])); omega
        · have := ranges k (hp.mem_iff.1 (by simp [hk'])); omega
      · exfalso
        have hks : k ∈ ks := hp.mem_iff.1 (by simp)
        have := ranges k hks
        have hN : N o = 0 := by
          refine Nat.eq_zero_of_not_pos fun hpos => ?_
          have := (hok k hks).1.block.supp hv hpos
          unfold Inner at this; omega
        have hM := congrFun e o
        rw [toks_single, if_pos rfl, madd, hN] at hM
        rcases others_pos.1 (show 1 ≤ others done rest o by omega) with ⟨k, hk', e⟩ | ⟨k, hk', e⟩
        · have := ranges k (hp.mem_iff.1 (by simp [hk'])); omega
        · have := ranges k (hp.mem_iff.1 (by simp [hk'])); omega
      · exact h

end Verif.Sys
