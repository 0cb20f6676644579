import Verif.Convert.BlockInter
/-
The OR block: at least one child is started, every other child is started or skipped (C14).
-/
namespace Verif.Sys
open Verif Lang
variable {α : Type}

/-! ### language -/

/-- a word of `L` or nothing -/
def opt (L : Lang α) : Lang α := fun w => w = [] ∨ L w

theorem parL_opt (Ls : List (Lang α)) : ∀ w, parL (Ls.map opt) w ↔ ∃ Ms, Ms.Sublist Ls ∧ parL Ms w := by
  induction Ls with
  | nil =>
    intro w
    constructor
    · intro h; exact ⟨[], .slnil, h⟩
    · rintro ⟨Ms, hs, h⟩
      cases hs; exact h
  | cons L Ls ih =>
    intro w
    constructor
    · rintro ⟨u, v, hu, hv, hs⟩
      obtain ⟨Ms, hm, hp⟩ := (ih v).1 hv
      rcases hu with rfl | hu
      · rw [hs.eq_of_nil_left]
        exact ⟨Ms, hm.cons L, hp⟩
      · exact ⟨L :: Ms, hm.cons_cons L, u, v, hu, hp, hs⟩
    · rintro ⟨Ms, hm, hp⟩
      cases hm with
      | cons _ hm => exact ⟨[], w, .inl rfl, (ih w).2 ⟨Ms, hm, hp⟩, Shuffle.nil_left w⟩
      | cons_cons _ hm =>
        obtain ⟨u, v, hu, hv, hs⟩ := hp
        exact ⟨u, v, .inr hu, (ih v).2 ⟨_, hm, hv⟩, hs⟩

theorem orL_iff (Ls : List (Lang α)) (w : List α) : orL Ls w ↔
    ∃ A L B, Ls = A ++ L :: B ∧ shuf (parL (A.map opt)) (shuf L (parL (B.map opt))) w := by
  constructor
  · rintro ⟨Ms, hne, hm, hp⟩
    induction hm generalizing w with
    | slnil => exact absurd rfl hne
    | cons L hm ih =>
      obtain ⟨A, K, B, rfl, u, v, hu, hv, hs⟩ := ih w hne hp
      exact ⟨L :: A, K, B, rfl, u, v, ⟨[], u, .inl rfl, hu, Shuffle.nil_left u⟩, hv, hs⟩
    | cons_cons L hm ih =>
      obtain ⟨u, v, hu, hv, hs⟩ := hp
      exact ⟨[], L, _, rfl, [], w, rfl, ⟨u, v, hu, (parL_opt _ v).2 ⟨_, hm, hv⟩, hs⟩, Shuffle.nil_left w⟩
  · rintro ⟨A, L, B, rfl, u, v, hu, ⟨x, y, hx, hy, hs'⟩, hs⟩
    obtain ⟨Ma, ha, pa⟩ := (parL_opt A u).1 hu
    obtain ⟨Mb, hb, pb⟩ := (parL_opt B y).1 hy
    refine ⟨Ma ++ L :: Mb, by simp, ha.append (hb.cons_cons L), ?_⟩
    rw [parL_append]
    exact ⟨u, v, pa, ⟨x, y, hx, pb, hs'⟩, hs⟩

/-! ### nets with several entries and exits, without liveness -/

/-- `T` runs from one token on each place of `is` to one token on each place of `os` (transitions may be dead) -/
structure Multi0 (T : List (Tr α)) (is os : List Nat) (lo hi : Nat) (L : Lang α) : Prop where
  le : lo ≤ hi
  ins : ∀ p ∈ is, Inner lo hi p
  outs : ∀ p ∈ os, Inner lo hi p
  within : Within T (Inner lo hi)
  proper : ∀ w M, Run T (toks is) w M → (∀ p ∈ os, 1 ≤ M p) → M = toks os
  safe : ∀ w M, Run T (toks is) w M → ∀ p, M p ≤ 1
  complete : ∀ w M, Run T (toks is) w M → ∃ v, Run T M v (toks os)
  lang : ∀ w, L w ↔ Run T (toks is) w (toks os)

theorem multi0_nil (n : Nat) : Multi0 ([] : List (Tr α)) [] [] n n eps :=
  have h := multi_nil (α := α) n
  ⟨h.le, h.ins, h.outs, h.within, h.proper, h.safe, h.complete, h.lang⟩

variable {T1 T2 : List (Tr α)} {is1 os1 is2 os2 : List Nat} {lo mi hi : Nat} {L1 L2 : Lang α}

theorem Multi0.supp {T : List (Tr α)} {is os : List Nat} {L : Lang α} (h : Multi0 T is os lo hi L) {w : List α} {M : Mk}
    (hr : Run T (toks is) w M) {p : Nat} (hp : ¬ Inner lo hi p) : M p = 0 := by
  rw [hr.outside h.within hp]
  exact toks_zero.2 fun hm => hp (h.ins p hm)

theorem multi0_append (h1 : Multi0 T1 is1 os1 lo mi L1) (h2 : Multi0 T2 is2 os2 mi hi L2) :
    Multi0 (T1 ++ T2) (is1 ++ is2) (os1 ++ os2) lo hi (shuf L1 L2) := by
  have a1 := h1.le; have a2 := h2.le
  have hd : ∀ p, Inner lo mi p → ¬ Inner mi hi p := by intro p; unfold Inner; omega
  have key : ∀ w M, Run (T1 ++ T2) (toks (is1 ++ is2)) w M → ∃ M1 M2 u v, M = madd M1 M2 ∧ Run T1 (toks is1) u M1 ∧
      Run T2 (toks is2) v M2 ∧ Shuffle u v w := by
    intro w M hr
    rw [toks_append] at hr
    exact Run.prod h1.within h2.within hd (fun p hp => toks_zero.2 fun hm => hp (h1.ins p hm))
      (fun p hp => toks_zero.2 fun hm => hp (h2.ins p hm)) hr
  refine ⟨by omega, ?_, ?_, ?_, ?_, ?_, ?_, ?_⟩
  · intro p hp
    rcases List.mem_append.1 hp with hp | hp
    · have := h1.ins p hp; unfold Inner at *; omega
    · have := h2.ins p hp; unfold Inner at *; omega
  · intro p hp
    rcases List.mem_append.1 hp with hp | hp
    · have := h1.outs p hp; unfold Inner at *; omega
    · have := h2.outs p hp; unfold Inner at *; omega
  · intro t ht
    rcases List.mem_append.1 ht with ht | ht
    · exact ⟨fun p hp => by have := (h1.within t ht).1 p hp; unfold Inner at *; omega,
        fun p hp => by have := (h1.within t ht).2 p hp; unfold Inner at *; omega⟩
    · exact ⟨fun p hp => by have := (h2.within t ht).1 p hp; unfold Inner at *; omega,
        fun p hp => by have := (h2.within t ht).2 p hp; unfold Inner at *; omega⟩
  · intro w M hr hM
    obtain ⟨M1, M2, u, v, rfl, hr1, hr2, _⟩ := key w M hr
    rw [h1.proper _ _ hr1 fun p hp => by
        have h := hM p (by simp [hp])
        rw [madd, h2.supp hr2 (hd p (h1.outs p hp))] at h; omega,
      h2.proper _ _ hr2 fun p hp => by
        have h := hM p (by simp [hp])
        rw [madd, h1.supp hr1 (fun h => hd p h (h2.outs p hp))] at h; omega, toks_append]
  · intro w M hr p
    obtain ⟨M1, M2, u, v, rfl, hr1, hr2, _⟩ := key w M hr
    have b1 := h1.safe _ _ hr1 p
    have b2 := h2.safe _ _ hr2 p
    unfold madd
    by_cases hp : Inner lo mi p
    · rw [h2.supp hr2 (hd p hp)]; omega
    · rw [h1.supp hr1 hp]; omega
  · intro w M hr
    obtain ⟨M1, M2, u, v, rfl, hr1, hr2, _⟩ := key w M hr
    obtain ⟨x, hx⟩ := h1.complete _ _ hr1
    obtain ⟨y, hy⟩ := h2.complete _ _ hr2
    rw [toks_append]
    exact ⟨x ++ y, Run.shuffle (Shuffle.append x y) hx hy⟩
  · intro w
    constructor
    · rintro ⟨u, v, hu, hv, hs⟩
      rw [toks_append, toks_append]
      exact Run.shuffle hs ((h1.lang u).1 hu) ((h2.lang v).1 hv)
    · intro hr
      obtain ⟨M1, M2, u, v, e, hr1, hr2, hs⟩ := key w _ hr
      have e1 : M1 = toks os1 := h1.proper _ _ hr1 fun p hp => by
        have h := congrFun e p
        have h' : 1 ≤ toks (os1 ++ os2) p := toks_pos.2 (by simp [hp])
        rw [madd, h2.supp hr2 (hd p (h1.outs p hp))] at h; omega
      have e2 : M2 = toks os2 := h2.proper _ _ hr2 fun p hp => by
        have h := congrFun e p
        have h' : 1 ≤ toks (os1 ++ os2) p := toks_pos.2 (by simp [hp])
        rw [madd, h1.supp hr1 (fun h => hd p h (h2.outs p hp))] at h; omega
      subst e1 e2
      exact ⟨u, v, (h1.lang u).2 hr1, (h2.lang v).2 hr2, hs⟩

/-! ### the children of an OR node -/

/-- a child of an OR node: waiting place, start place, end place, its block -/
structure OKid (α : Type) where
  ini : Nat
  st : Nat
  en : Nat
  lo : Nat
  hi : Nat
  T : List (Tr α)
  L : Lang α

/-- shape of one child -/
structure OKid.OK (k : OKid α) : Prop where
  st : k.st = k.ini + 1
  en : k.en = k.ini + 2
  lo : k.lo = k.ini + 3
  block : Block k.T k.st k.en k.lo k.hi k.L

/-- the children use consecutive intervals of places -/
inductive OKids : List (OKid α) → Nat → Nat → Prop
  | nil (n : Nat) : OKids [] n n
  | cons {k : OKid α} {ks : List (OKid α)} {n hi : Nat} : k.ini = n → k.OK → OKids ks k.hi hi → OKids (k :: ks) n hi

theorem OKids.le {ks : List (OKid α)} {n hi : Nat} (h : OKids ks n hi) : n ≤ hi := by
  induction h with
  | nil => exact Nat.le_refl _
  | cons h1 hk _ ih => have := hk.block.le; have := hk.lo; omega

theorem OKids.ok {ks : List (OKid α)} {n hi : Nat} (h : OKids ks n hi) : ∀ k ∈ ks, k.OK ∧ n ≤ k.ini ∧ k.hi ≤ hi := by
  induction h with
  | nil => simp
  | @cons k ks n hi h1 hk hks ih =>
    intro k' hk'
    have := hk.block.le; have := hk.lo; have := hks.le
    rcases List.mem_cons.1 hk' with rfl | hk'
    · exact ⟨hk, by omega, by omega⟩
    · obtain ⟨a, b, c⟩ := ih k' hk'
      exact ⟨a, by omega, c⟩

theorem OKids.split {A B : List (OKid α)} {n hi : Nat} (h : OKids (A ++ B) n hi) : ∃ m, OKids A n m ∧ OKids B m hi := by
  induction A generalizing n with
  | nil => exact ⟨n, .nil n, h⟩
  | cons k A ih =>
    cases h with
    | cons h1 hk hks =>
      obtain ⟨m, h3, h4⟩ := ih hks
      exact ⟨m, .cons h1 hk h3, h4⟩

theorem OKids.covers {ks : List (OKid α)} {n hi : Nat} (h : OKids ks n hi) {p : Nat} (hp : Inner n hi p) :
    ∃ k ∈ ks, Inner k.ini k.hi p := by
  induction h with
  | nil => unfold Inner at hp; omega
  | @cons k ks n hi h1 hk hks ih =>
    by_cases hlt : p < k.hi
    · exact ⟨k, by simp, by unfold Inner at *; omega⟩
    · obtain ⟨k', hk', h'⟩ := ih (by unfold Inner at *; omega)
      exact ⟨k', by simp [hk'], h'⟩

/-- the child as seen by itself: it starts, or is skipped -/
def OKid.loc (k : OKid α) : List (Tr α) := ⟨[k.ini], [k.st], none⟩ :: ⟨[k.ini], [k.en], none⟩ :: k.T

theorem OKid.loc_multi {k : OKid α} (h : k.OK) : Multi0 k.loc [k.ini] [k.en] k.ini k.hi (opt k.L) := by
  have h1 := h.st; have h2 := h.en; have h3 := h.lo; have b := h.block; have h4 := b.le
  have mT : ∀ t ∈ k.T, t ∈ k.loc := fun t ht => by simp [OKid.loc, ht]
  have noi : ∀ w M, Run k.T (toks [k.st]) w M → M k.ini = 0 := by
    intro w M hr
    refine Nat.eq_zero_of_not_pos fun hp => ?_
    have := b.supp hr hp
    unfold Inner at this; omega
  have nost : ∀ t ∈ k.T, ∀ p, t.pre ≠ [] ∧ (∀ q ∈ t.pre, q = p) → p = k.st ∨ Inner k.lo k.hi p := by
    intro t ht p ⟨hne, hq⟩
    obtain ⟨q, hq'⟩ := List.exists_mem_of_ne_nil _ hne
    have := (b.pre t ht).2 q hq'
    rw [hq q hq'] at this
    exact this
  have key : ∀ w M, Run k.loc (toks [k.ini]) w M → (w = [] ∧ M = toks [k.ini]) ∨ Run k.T (toks [k.st]) w M ∨
      (w = [] ∧ M = toks [k.en]) := by
    intro w M hr
    induction hr with
    | nil => exact .inl ⟨rfl, rfl⟩
    | @snoc w M1 M2 t hr ht hf ih =>
      have ht' : t = ⟨[k.ini], [k.st], none⟩ ∨ t = ⟨[k.ini], [k.en], none⟩ ∨ t ∈ k.T := by simpa [OKid.loc] using ht
      rcases ih with ⟨rfl, rfl⟩ | hv | ⟨rfl, rfl⟩
      · rcases ht' with rfl | rfl | ht'
        · have := hf.det (fires_self ⟨[k.ini], [k.st], none⟩); subst this; exact .inr (.inl .nil)
        · have := hf.det (fires_self ⟨[k.ini], [k.en], none⟩); subst this; exact .inr (.inr ⟨rfl, rfl⟩)
        · exfalso
          have := nost t ht' k.ini ⟨(b.pre t ht').1, fun q hq => by
            have := hf.mem_pre hq
            simpa using toks_pos.1 this⟩
          unfold Inner at this; omega
      · rcases ht' with rfl | rfl | ht'
        · have := hf.mem_pre (p := k.ini) (by simp); have := noi _ _ hv; omega
        · have := hf.mem_pre (p := k.ini) (by simp); have := noi _ _ hv; omega
        · exact .inr (.inl (.snoc hv ht' hf))
      · exfalso
        rcases ht' with rfl | rfl | ht'
        · have := toks_pos.1 (hf.mem_pre (p := k.ini) (by simp)); simp at this; omega
        · have := toks_pos.1 (hf.mem_pre (p := k.ini) (by simp)); simp at this; omega
        · have := nost t ht' k.en ⟨(b.pre t ht').1, fun q hq => by
            have := hf.mem_pre hq
            simpa using toks_pos.1 this⟩
          unfold Inner at this; omega
  have rs : Run k.loc (toks [k.ini]) [] (toks [k.st]) :=
    Run.step (t := ⟨[k.ini], [k.st], none⟩) (by simp [OKid.loc]) (fires_self _)
  have rk : Run k.loc (toks [k.ini]) [] (toks [k.en]) :=
    Run.step (t := ⟨[k.ini], [k.en], none⟩) (by simp [OKid.loc]) (fires_self _)
  refine ⟨by omega, ?_, ?_, ?_, ?_, ?_, ?_, ?_⟩
  · intro p hp
    have : p = k.ini := by simpa using hp
    unfold Inner; omega
  · intro p hp
    have : p = k.en := by simpa using hp
    unfold Inner; omega
  · intro t ht
    have ht' : t = ⟨[k.ini], [k.st], none⟩ ∨ t = ⟨[k.ini], [k.en], none⟩ ∨ t ∈ k.T := by simpa [OKid.loc] using ht
    rcases ht' with rfl | rfl | ht
    · exact ⟨fun p hp => by have : p = k.ini := by simpa using hp
                            unfold Inner; omega,
        fun p hp => by have : p = k.st := by simpa using hp
                       unfold Inner; omega⟩
    · exact ⟨fun p hp => by have : p = k.ini := by simpa using hp
                            unfold Inner; omega,
        fun p hp => by have : p = k.en := by simpa using hp
                       unfold Inner; omega⟩
    · exact ⟨fun p hp => by have := (b.within t ht).1 p hp; unfold Inner at *; omega,
        fun p hp => by have := (b.within t ht).2 p hp; unfold Inner at *; omega⟩
  · intro w M hr hM
    have hM := hM k.en (by simp)
    rcases key w M hr with ⟨_, rfl⟩ | hv | ⟨_, rfl⟩
    · have := toks_pos.1 hM; simp at this; omega
    · exact b.proper _ _ hv hM
    · rfl
  · intro w M hr p
    rcases key w M hr with ⟨_, rfl⟩ | hv | ⟨_, rfl⟩
    · rw [toks_single]; split <;> omega
    · exact b.safe _ _ hv p
    · rw [toks_single]; split <;> omega
  · intro w M hr
    rcases key w M hr with ⟨_, rfl⟩ | hv | ⟨_, rfl⟩
    · exact ⟨_, rk⟩
    · obtain ⟨x, hx⟩ := b.complete _ _ hv
      exact ⟨x, hx.mono mT⟩
    · exact ⟨[], .nil⟩
  · intro w
    constructor
    · rintro (rfl | hw)
      · exact rk
      · exact rs.trans (((b.lang w).1 hw).mono mT)
    · intro hr
      rcases key w _ hr with ⟨_, e⟩ | hv | ⟨rfl, _⟩
      · exact absurd e (toks_ne (by omega))
      · exact .inr ((b.lang w).2 hv)
      · exact .inl rfl

theorem OKids.multi {ks : List (OKid α)} {n hi : Nat} (h : OKids ks n hi) :
    Multi0 (ks.flatMap OKid.loc) (ks.map OKid.ini) (ks.map OKid.en) n hi (parL ((ks.map OKid.L).map opt)) := by
  induction h with
  | nil => exact multi0_nil _
  | @cons k ks n hi h1 hk hks ih =>
    have := multi0_append (OKid.loc_multi hk) ih
    rw [h1] at this
    simpa [parL, h1] using this

/-- a started child -/
theorem OKid.started {k : OKid α} (h : k.OK) : Multi0 k.T [k.st] [k.en] k.ini k.hi k.L := by
  have h1 := h.st; have h2 := h.en; have h3 := h.lo; have b := h.block; have h4 := b.le
  have m := b.multi (a := k.ini + 1) h1 (by omega) (by omega)
  refine ⟨by omega, ?_, ?_, ?_, m.proper, m.safe, m.complete, m.lang⟩
  · intro p hp; have := m.ins p hp; unfold Inner at *; omega
  · intro p hp; have := m.outs p hp; unfold Inner at *; omega
  · intro t ht
    exact ⟨fun p hp => by have := (m.within t ht).1 p hp; unfold Inner at *; omega,
      fun p hp => by have := (m.within t ht).2 p hp; unfold Inner at *; omega⟩

/-- transitions, tokens when child `k` has been started first -/
def orT (A : List (OKid α)) (k : OKid α) (B : List (OKid α)) : List (Tr α) := A.flatMap OKid.loc ++ (k.T ++ B.flatMap OKid.loc)
def orI (A : List (OKid α)) (k : OKid α) (B : List (OKid α)) : List Nat := A.map OKid.ini ++ ([k.st] ++ B.map OKid.ini)
def orLg (A : List (OKid α)) (k : OKid α) (B : List (OKid α)) : Lang α :=
  shuf (parL ((A.map OKid.L).map opt)) (shuf k.L (parL ((B.map OKid.L).map opt)))

variable {A B ks : List (OKid α)} {k : OKid α} {n : Nat}

theorem OKids.first (h : OKids (A ++ k :: B) n hi) :
    Multi0 (orT A k B) (orI A k B) ((A ++ k :: B).map OKid.en) n hi (orLg A k B) := by
  obtain ⟨m, hA, hB⟩ := h.split
  cases hB with
  | cons h1 hk hB =>
    have := multi0_append hA.multi (multi0_append (h1 ▸ OKid.started hk) hB.multi)
    simpa [orT, orI, orLg] using this

/-- the waiting place of the child started first stays empty -/
theorem OKids.first_ini (h : OKids (A ++ k :: B) n hi) {w : List α} {M : Mk} (hr : Run (orT A k B) (toks (orI A k B)) w M) :
    M k.ini = 0 := by
  obtain ⟨m, hA, hB⟩ := h.split
  cases hB with
  | cons h1 hk hB =>
    have mA := hA.multi; have mB := hB.multi
    have b := hk.block; have e1 := hk.st; have e2 := hk.en; have e3 := hk.lo; have e4 := b.le
    have hw : Within (orT A k B) (fun p => p ≠ k.ini) := by
      intro t ht
      rcases List.mem_append.1 ht with ht | ht
      · exact ⟨fun p hp => by have := (mA.within t ht).1 p hp; unfold Inner at this; omega,
          fun p hp => by have := (mA.within t ht).2 p hp; unfold Inner at this; omega⟩
      · rcases List.mem_append.1 ht with ht | ht
        · exact ⟨fun p hp => by have := (b.within t ht).1 p hp; unfold Inner at this; omega,
            fun p hp => by have := (b.within t ht).2 p hp; unfold Inner at this; omega⟩
        · exact ⟨fun p hp => by have := (mB.within t ht).1 p hp; unfold Inner at this; omega,
            fun p hp => by have := (mB.within t ht).2 p hp; unfold Inner at this; omega⟩
    rw [hr.outside hw (p := k.ini) (by simp)]
    refine toks_zero.2 fun hm => ?_
    unfold orI at hm
    rcases List.mem_append.1 hm with hm | hm
    · have := mA.ins _ hm; unfold Inner at this; omega
    · rcases List.mem_append.1 hm with hm | hm
      · simp at hm; omega
      · have := mB.ins _ hm; unfold Inner at this; omega

/-! ### the OR node -/

/-- start the child as the first one -/
def OKid.S (c : Nat) (k : OKid α) : Tr α := ⟨[c + 1, k.ini], [k.st, c], none⟩
/-- start the child later -/
def OKid.La (c : Nat) (k : OKid α) : Tr α := ⟨[c, k.ini], [k.st, c], none⟩
/-- skip the child -/
def OKid.Sk (c : Nat) (k : OKid α) : Tr α := ⟨[c, k.ini], [c, k.en], none⟩

/-- the transitions of an OR node; `c` is the terminal place and `c+1` the first place -/
def orTr (ks : List (OKid α)) (i o c : Nat) : List (Tr α) :=
  ⟨[i], (c + 1) :: ks.map OKid.ini, none⟩ :: ⟨c :: ks.map OKid.en, [o], none⟩ ::
    ks.flatMap fun k => k.S c :: k.La c :: k.Sk c :: k.T

theorem mem_orTr {ks : List (OKid α)} {i o c : Nat} {t : Tr α} : t ∈ orTr ks i o c ↔
    t = ⟨[i], (c + 1) :: ks.map OKid.ini, none⟩ ∨ t = ⟨c :: ks.map OKid.en, [o], none⟩ ∨
    ∃ k ∈ ks, t = k.S c ∨ t = k.La c ∨ t = k.Sk c ∨ t ∈ k.T := by
  simp [orTr]

/-- a token that is taken and given back -/
theorem fires_catalyst {c : Nat} {pre post post' : List Nat} {l : Option α} {N M' : Mk} (hp : post'.Perm (c :: post))
    (hf : (⟨c :: pre, post', l⟩ : Tr α).fires (madd (toks [c]) N) M') :
    ∃ N', (⟨pre, post, l⟩ : Tr α).fires N N' ∧ M' = madd (toks [c]) N' := by
  have hc : ∀ p, pre.count p ≤ N p := by
    intro p
    have := hf.1 p
    simp only [madd, toks, List.count_cons, List.count_nil] at this; omega
  refine ⟨fun p => N p + post.count p - pre.count p, ⟨hc, fun p => ?_⟩, ?_⟩
  · have := hc p; show N p + _ - _ + _ = _; simp only; omega
  · funext p
    have h1 := hf.2 p; have h2 := hc p
    simp only [hp.count_eq p] at h1
    simp only [madd, toks, List.count_cons, List.count_nil] at h1 ⊢; omega

theorem fires_catalyst' {c : Nat} {pre post post' : List Nat} {l : Option α} {N N' : Mk} (hp : post'.Perm (c :: post))
    (hf : (⟨pre, post, l⟩ : Tr α).fires N N') : (⟨c :: pre, post', l⟩ : Tr α).fires (madd (toks [c]) N) (madd (toks [c]) N') := by
  refine ⟨fun p => ?_, fun p => ?_⟩
  · have := hf.1 p; simp only [madd, toks, List.count_cons, List.count_nil] at this ⊢; omega
  · have h1 := hf.2 p
    simp only [hp.count_eq p]
    simp only [madd, toks, List.count_cons, List.count_nil] at h1 ⊢; omega

variable {i o c : Nat}

theorem S_fires (A B : List (OKid α)) (k : OKid α) (c : Nat) :
    (k.S c).fires (toks ((c + 1) :: (A ++ k :: B).map OKid.ini)) (madd (toks [c]) (toks (orI A k B))) := by
  have e : toks ((c + 1) :: (A ++ k :: B).map OKid.ini) = madd (toks [c + 1, k.ini]) (toks (A.map OKid.ini ++ B.map OKid.ini)) := by
    rw [← toks_append]
    refine toks_perm ?_
    simp only [List.map_append, List.map_cons, List.cons_append, List.nil_append]
    exact List.Perm.cons _ List.perm_middle
  have e' : madd (toks [c]) (toks (orI A k B)) = madd (toks [k.st, c]) (toks (A.map OKid.ini ++ B.map OKid.ini)) := by
    rw [← toks_append, ← toks_append]
    refine toks_perm ?_
    simp only [orI, List.cons_append, List.nil_append]
    exact (List.Perm.cons c List.perm_middle).trans (.swap _ _ _)
  rw [e, e']
  exact (fires_self (k.S c)).frame _

theorem or_run (hk : OKids ks (c + 2) hi) (hi' : i < c) (ho : o < c) (hio : i ≠ o) {w : List α} {M : Mk}
    (hr : Run (orTr ks i o c) (toks [i]) w M) :
    (w = [] ∧ M = toks [i]) ∨ (w = [] ∧ M = toks ((c + 1) :: ks.map OKid.ini)) ∨
    (∃ A k B N, ks = A ++ k :: B ∧ M = madd (toks [c]) N ∧ Run (orT A k B) (toks (orI A k B)) w N) ∨
    (M = toks [o] ∧ orL (ks.map OKid.L) w) := by
  have hok := hk.ok
  have hkT : ∀ k ∈ ks, ∀ t ∈ k.T, t.pre ≠ [] ∧ ∀ p ∈ t.pre, Inner (k.ini + 1) k.hi p := by
    intro k hks t ht
    obtain ⟨kok, k1, k2⟩ := hok k hks
    have e1 := kok.st; have e2 := kok.en; have e3 := kok.lo; have e4 := kok.block.le
    refine ⟨(kok.block.pre t ht).1, fun p hp => ?_⟩
    have := (kok.block.pre t ht).2 p hp
    unfold Inner at *; omega
  induction hr with
  | nil => exact .inl ⟨rfl, rfl⟩
  | @snoc w M1 M2 t hr ht hf ih =>
    rw [mem_orTr] at ht
    rcases ih with ⟨rfl, rfl⟩ | ⟨rfl, rfl⟩ | ⟨A, k, B, N, hks, rfl, hv⟩ | ⟨rfl, _⟩
    · have sup : ∀ q ∈ t.pre, q = i := fun q hq => by simpa using toks_pos.1 (hf.mem_pre hq)
      rcases ht with rfl | rfl | ⟨k, hks, ht⟩
      · have := hf.det (fires_self _); subst this
        exact .inr (.inl ⟨rfl, rfl⟩)
      · have := sup c (by simp); omega
      · obtain ⟨kok, k1, k2⟩ := hok k hks
        rcases ht with rfl | rfl | rfl | ht
        · have := sup k.ini (by simp [OKid.S]); omega
        · have := sup k.ini (by simp [OKid.La]); omega
        · have := sup k.ini (by simp [OKid.Sk]); omega
        · obtain ⟨hne, hin⟩ := hkT k hks t ht
          obtain ⟨q, hq⟩ := List.exists_mem_of_ne_nil _ hne
          have := sup q hq; have := hin q hq
          unfold Inner at this; omega
    · have sup : ∀ q ∈ t.pre, q = c + 1 ∨ ∃ k ∈ ks, k.ini = q := fun q hq => by
        simpa using toks_pos.1 (hf.mem_pre hq)
      have suplt : ∀ q ∈ t.pre, c + 1 ≤ q := by
        intro q hq
        rcases sup q hq with h | ⟨k', hk', rfl⟩
        · omega
        · have := (hok k' hk').2.1; omega
      rcases ht with rfl | rfl | ⟨k, hks, ht⟩
      · have := suplt i (by simp); omega
      · have := suplt c (by simp); omega
      · rcases ht with rfl | rfl | rfl | ht
        · obtain ⟨A, B, hAB⟩ := List.append_of_mem hks
          rw [hAB] at hf
          have := hf.det (S_fires A B k c); subst this
          exact .inr (.inr (.inl ⟨A, k, B, _, hAB, rfl, .nil⟩))
        · have := suplt c (by simp [OKid.La]); omega
        · have := suplt c (by simp [OKid.Sk]); omega
        · exfalso
          obtain ⟨hne, hin⟩ := hkT k hks t ht
          obtain ⟨q, hq⟩ := List.exists_mem_of_ne_nil _ hne
          have h1 := hin q hq
          obtain ⟨kok, k1, k2⟩ := hok k hks
          rcases sup q hq with h | ⟨k', hk', e⟩
          · unfold Inner at h1; omega
          · obtain ⟨A, B, hAB⟩ := List.append_of_mem hks
            rw [hAB] at hk hk'
            obtain ⟨m, hA, hB⟩ := hk.split
            cases hB with
            | cons e1 hkk hB =>
              rcases List.mem_append.1 hk' with hm | hm
              · have hh := hA.ok k' hm
                have := hh.1.block.le; have := hh.1.lo
                unfold Inner at h1; omega
              · rcases List.mem_cons.1 hm with rfl | hm
                · unfold Inner at h1; omega
                · have := hB.ok k' hm
                  unfold Inner at h1; omega
    · subst hks
      have mu := hk.first
      have N0 : ∀ p, ¬ Inner (c + 2) hi p → N p = 0 := fun p hp => mu.supp hv hp
      have sup : ∀ q ∈ t.pre, q = c ∨ Inner (c + 2) hi q := by
        intro q hq
        have h1 := hf.mem_pre hq
        by_cases hin : Inner (c + 2) hi q
        · exact .inr hin
        · rw [madd, N0 q hin, toks_single] at h1
          split at h1
          · exact .inl ‹_›
          · omega
      -- the same step seen from the children
      have locmem : ∀ k' ∈ A ++ k :: B, k' = k ∨ ∀ t ∈ k'.loc, t ∈ orT A k B := by
        intro k' hk'
        rcases List.mem_append.1 hk' with hm | hm
        · refine .inr fun t ht => ?_
          exact List.mem_append.2 (.inl (List.mem_flatMap.2 ⟨k', hm, ht⟩))
        · rcases List.mem_cons.1 hm with e | hm
          · exact .inl e
          · refine .inr fun t ht => ?_
            exact List.mem_append.2 (.inr (List.mem_append.2 (.inr (List.mem_flatMap.2 ⟨k', hm, ht⟩))))
      have hini := hk.first_ini hv
      rcases ht with rfl | rfl | ⟨k', hks', ht⟩
      · have := sup i (by simp); unfold Inner at this; omega
      · have hN := mu.proper _ _ hv fun p hp => by
          have h1 := hf.mem_pre (p := p) (List.mem_cons_of_mem _ hp)
          have := mu.outs p hp
          rw [madd, toks_single, if_neg (by unfold Inner at this; omega)] at h1
          omega
        subst hN
        rw [← toks_append] at hf
        have := hf.det (fires_self _); subst this
        refine .inr (.inr (.inr ⟨rfl, (orL_iff _ _).2 ⟨A.map OKid.L, k.L, B.map OKid.L, by simp, ?_⟩⟩))
        have := (mu.lang w).2 hv
        simpa [orLg] using this
      · have hk1 := (hok k' hks').2.1
        rcases ht with rfl | rfl | rfl | ht
        · have := sup (c + 1) (by simp [OKid.S]); unfold Inner at this; omega
        · rcases locmem k' hks' with e | hl
          · subst e
            have h1 := hf.mem_pre (p := k'.ini) (by simp [OKid.La])
            rw [madd, hini, toks_single, if_neg (by omega)] at h1
            omega
          · obtain ⟨N', hf', rfl⟩ := fires_catalyst (pre := [k'.ini]) (post := [k'.st]) (l := (none : Option α))
              (.swap _ _ _) hf
            exact .inr (.inr (.inl ⟨A, k, B, N', rfl, rfl,
              .snoc (t := ⟨[k'.ini], [k'.st], none⟩) hv (hl _ (by simp [OKid.loc])) hf'⟩))
        · rcases locmem k' hks' with e | hl
          · subst e
            have h1 := hf.mem_pre (p := k'.ini) (by simp [OKid.Sk])
            rw [madd, hini, toks_single, if_neg (by omega)] at h1
            omega
          · obtain ⟨N', hf', rfl⟩ := fires_catalyst (pre := [k'.ini]) (post := [k'.en]) (l := (none : Option α))
              (.refl _) hf
            exact .inr (.inr (.inl ⟨A, k, B, N', rfl, rfl,
              .snoc (t := ⟨[k'.ini], [k'.en], none⟩) hv (hl _ (by simp [OKid.loc])) hf'⟩))
        · have hm : t ∈ orT A k B := by
            rcases locmem k' hks' with e | hl
            · subst e; simp [orT, ht]
            · exact hl t (by simp [OKid.loc, ht])
          rw [madd_comm] at hf
          obtain ⟨N', hf', rfl⟩ := hf.unframe fun p hp => by
            rw [toks_single, if_neg]
            intro e
            have := (hkT k' hks' t ht).2 p hp
            unfold Inner at this; omega
          exact .inr (.inr (.inl ⟨A, k, B, N', rfl, madd_comm _ _, .snoc hv hm hf'⟩))
    · exfalso
      have sup : ∀ q ∈ t.pre, q = o := fun q hq => by simpa using toks_pos.1 (hf.mem_pre hq)
      rcases ht with rfl | rfl | ⟨k, hks, ht⟩
      · have := sup i (by simp); omega
      · have := sup c (by simp); omega
      · obtain ⟨kok, k1, k2⟩ := hok k hks
        rcases ht with rfl | rfl | rfl | ht
        · have := sup k.ini (by simp [OKid.S]); omega
        · have := sup k.ini (by simp [OKid.La]); omega
        · have := sup k.ini (by simp [OKid.Sk]); omega
        · obtain ⟨hne, hin⟩ := hkT k hks t ht
          obtain ⟨q, hq⟩ := List.exists_mem_of_ne_nil _ hne
          have := sup q hq; have := hin q hq
          unfold Inner at this; omega

/-- the runs of the children are runs of the OR net -/
theorem or_lift {w : List α} {M N : Mk} (hc : OKids (A ++ k :: B) (c + 2) hi) (hr : Run (orT A k B) M w N) :
    Run (orTr (A ++ k :: B) i o c) (madd (toks [c]) M) w (madd (toks [c]) N) := by
  induction hr with
  | nil => exact .nil
  | @snoc w M1 M2 t hr ht hf ih =>
    have hm : (∃ k' ∈ A ++ k :: B, t ∈ k'.loc) := by
      unfold orT at ht
      simp only [List.mem_append, List.mem_flatMap] at ht
      rcases ht with ⟨k', hk', ht⟩ | ht | ⟨k', hk', ht⟩
      · exact ⟨k', by simp [hk'], ht⟩
      · exact ⟨k, by simp, by simp [OKid.loc, ht]⟩
      · exact ⟨k', by simp [hk'], ht⟩
    obtain ⟨k', hk', hl⟩ := hm
    have hl' : t = ⟨[k'.ini], [k'.st], none⟩ ∨ t = ⟨[k'.ini], [k'.en], none⟩ ∨ t ∈ k'.T := by simpa [OKid.loc] using hl
    rcases hl' with rfl | rfl | hl'
    · exact .snoc (t := k'.La c) ih (mem_orTr.2 (.inr (.inr ⟨k', hk', .inr (.inl rfl)⟩))) (fires_catalyst' (.swap _ _ _) hf)
    · exact .snoc (t := k'.Sk c) ih (mem_orTr.2 (.inr (.inr ⟨k', hk', .inr (.inr (.inl rfl))⟩))) (fires_catalyst' (.refl _) hf)
    · rw [madd_comm _ M2, madd_comm _ M1] at *
      exact .snoc ih (mem_orTr.2 (.inr (.inr ⟨k', hk', .inr (.inr (.inr hl'))⟩))) (hf.frame _)

theorem other_first {ks : List (OKid α)} (h2 : 2 ≤ ks.length) {k : OKid α} (hk : k ∈ ks) :
    ∃ A k0 B, ks = A ++ k0 :: B ∧ (k ∈ A ∨ k ∈ B) := by
  obtain ⟨A, B, rfl⟩ := List.append_of_mem hk
  cases A with
  | nil =>
    cases B with
    | nil => simp at h2
    | cons k0 B => exact ⟨[k], k0, B, rfl, .inl (by simp)⟩
  | cons k0 A => exact ⟨[], k0, A ++ k :: B, rfl, .inr (by simp)⟩

theorem block_or (hk : OKids ks (c + 2) hi) (hi' : i < c) (ho : o < c) (hio : i ≠ o) (h2 : 2 ≤ ks.length) :
    Block (orTr ks i o c) i o c hi (orL (ks.map OKid.L)) := by
  have hok := hk.ok
  have hle := hk.le
  have ranges : ∀ k ∈ ks, c + 2 ≤ k.ini ∧ k.st = k.ini + 1 ∧ k.en = k.ini + 2 ∧ k.lo = k.ini + 3 ∧ k.lo ≤ k.hi ∧ k.hi ≤ hi := by
    intro k hks
    obtain ⟨kok, k1, k2⟩ := hok k hks
    exact ⟨k1, kok.st, kok.en, kok.lo, kok.block.le, k2⟩
  have key := fun {w : List α} {M : Mk} => or_run (w := w) (M := M) hk hi' ho hio
  have hne : ks ≠ [] := by intro e; simp [e] at h2
  have r0 : Run (orTr ks i o c) (toks [i]) [] (toks ((c + 1) :: ks.map OKid.ini)) :=
    Run.step (t := ⟨[i], (c + 1) :: ks.map OKid.ini, none⟩) (mem_orTr.2 (.inl rfl)) (fires_self _)
  have r1 : ∀ A k B, ks = A ++ k :: B → Run (orTr ks i o c) (toks [i]) [] (madd (toks [c]) (toks (orI A k B))) := by
    intro A k B e
    have hf := S_fires A B k c
    rw [← e] at hf
    have := r0.trans (Run.step (t := k.S c) (mem_orTr.2 (.inr (.inr ⟨k, by simp [e], .inl rfl⟩))) hf)
    simpa [OKid.S] using this
  have rj : Run (orTr ks i o c) (madd (toks [c]) (toks (ks.map OKid.en))) [] (toks [o]) := by
    rw [← toks_append]
    exact Run.step (t := ⟨c :: ks.map OKid.en, [o], none⟩) (mem_orTr.2 (.inr (.inl rfl))) (fires_self _)
  have fin : ∀ A k B w N, ks = A ++ k :: B → Run (orT A k B) (toks (orI A k B)) w N →
      ∃ v, Run (orTr ks i o c) (madd (toks [c]) N) v (madd (toks [c]) (toks (ks.map OKid.en))) := by
    intro A k B w N e hv
    subst e
    obtain ⟨x, hx⟩ := hk.first.complete _ _ hv
    exact ⟨x, or_lift hk hx⟩
  have kidmem : ∀ A k B k', ks = A ++ k :: B → (k' ∈ A ∨ k' ∈ B) → ∀ t ∈ k'.loc, t ∈ orT A k B := by
    intro A k B k' _ hm t ht
    rcases hm with hm | hm
    · exact List.mem_append.2 (.inl (List.mem_flatMap.2 ⟨k', hm, ht⟩))
    · exact List.mem_append.2 (.inr (List.mem_append.2 (.inr (List.mem_flatMap.2 ⟨k', hm, ht⟩))))
  refine ⟨hi', ho, by omega, hio, ?_, ?_, ?_, ?_, ?_, ?_, ?_, ?_⟩
  · intro t ht
    rcases mem_orTr.1 ht with rfl | rfl | ⟨k, hks, ht⟩
    · simp
    · refine ⟨by simp, fun p hp => .inr ?_⟩
      rcases List.mem_cons.1 hp with e | hp
      · unfold Inner; omega
      · obtain ⟨k, hks, rfl⟩ := List.mem_map.1 hp
        have := ranges k hks
        unfold Inner; omega
    · have hr := ranges k hks
      rcases ht with rfl | rfl | rfl | ht
      · refine ⟨by simp [OKid.S], fun p hp => .inr ?_⟩
        have : p = c + 1 ∨ p = k.ini := by simpa [OKid.S] using hp
        unfold Inner; omega
      · refine ⟨by simp [OKid.La], fun p hp => .inr ?_⟩
        have : p = c ∨ p = k.ini := by simpa [OKid.La] using hp
        unfold Inner; omega
      · refine ⟨by simp [OKid.Sk], fun p hp => .inr ?_⟩
        have : p = c ∨ p = k.ini := by simpa [OKid.Sk] using hp
        unfold Inner; omega
      · have b := (hok k hks).1.block
        refine ⟨(b.pre t ht).1, fun p hp => .inr ?_⟩
        have := (b.pre t ht).2 p hp
        unfold Inner at *; omega
  · intro t ht p hp
    rcases mem_orTr.1 ht with rfl | rfl | ⟨k, hks, ht⟩
    · right
      rcases List.mem_cons.1 hp with e | hp
      · unfold Inner; omega
      · obtain ⟨k, hks, rfl⟩ := List.mem_map.1 hp
        have := ranges k hks
        unfold Inner; omega
    · left; simpa using hp
    · right
      have hr := ranges k hks
      rcases ht with rfl | rfl | rfl | ht
      · have : p = k.st ∨ p = c := by simpa [OKid.S] using hp
        unfold Inner; omega
      · have : p = k.st ∨ p = c := by simpa [OKid.La] using hp
        unfold Inner; omega
      · have : p = c ∨ p = k.en := by simpa [OKid.Sk] using hp
        unfold Inner; omega
      · have b := (hok k hks).1.block
        have := b.post t ht p hp
        unfold Inner at *; omega
  · intro w M hr hM
    rcases key hr with ⟨_, rfl⟩ | ⟨_, rfl⟩ | ⟨A, k, B, N, e, rfl, hv⟩ | ⟨rfl, _⟩
    · have := toks_pos.1 hM; simp at this; omega
    · exfalso
      rcases List.mem_cons.1 (toks_pos.1 hM) with h | h
      · omega
      · obtain ⟨k, hks, e⟩ := List.mem_map.1 h
        have := ranges k hks; omega
    · exfalso
      subst e
      rw [madd, hk.first.supp hv (by unfold Inner; omega), toks_single, if_neg (by omega)] at hM
      omega
    · rfl
  · intro w M hr p
    rcases key hr with ⟨_, rfl⟩ | ⟨_, rfl⟩ | ⟨A, k, B, N, e, rfl, hv⟩ | ⟨rfl, _⟩
    · rw [toks_single]; split <;> omega
    · have hb := hk.multi.safe [] _ .nil p
      rw [toks_cons, madd, toks_single]
      split
      · subst p
        have : toks (ks.map OKid.ini) (c + 1) = 0 := hk.multi.supp .nil (by unfold Inner; omega)
        omega
      · omega
    · subst e
      have hb := hk.first.safe _ _ hv p
      rw [madd, toks_single]
      split
      · rw [hk.first.supp hv (by unfold Inner; omega)]
        omega
      · omega
    · rw [toks_single]; split <;> omega
  · intro w M hr
    rcases key hr with ⟨_, rfl⟩ | ⟨_, rfl⟩ | ⟨A, k, B, N, e, rfl, hv⟩ | ⟨rfl, _⟩
    · obtain ⟨k, hks⟩ := List.exists_mem_of_ne_nil _ hne
      obtain ⟨A, B, e⟩ := List.append_of_mem hks
      obtain ⟨v, hv⟩ := fin A k B [] _ e .nil
      exact ⟨_, (r1 A k B e).trans (hv.trans rj)⟩
    · obtain ⟨k, hks⟩ := List.exists_mem_of_ne_nil _ hne
      obtain ⟨A, B, e⟩ := List.append_of_mem hks
      obtain ⟨v, hv⟩ := fin A k B [] _ e .nil
      have hf := S_fires A B k c
      rw [← e] at hf
      exact ⟨_, (Run.step (t := k.S c) (mem_orTr.2 (.inr (.inr ⟨k, hks, .inl rfl⟩))) hf).trans (hv.trans rj)⟩
    · obtain ⟨v, hv⟩ := fin A k B _ _ e hv
      exact ⟨_, hv.trans rj⟩
    · exact ⟨[], .nil⟩
  · intro t ht
    rcases mem_orTr.1 ht with rfl | rfl | ⟨k, hks, ht⟩
    · exact ⟨_, _, _, .nil, fires_self _⟩
    · obtain ⟨k, hks⟩ := List.exists_mem_of_ne_nil _ hne
      obtain ⟨A, B, e⟩ := List.append_of_mem hks
      obtain ⟨v, hv⟩ := fin A k B [] _ e .nil
      refine ⟨_, _, toks [o], (r1 A k B e).trans hv, ?_⟩
      rw [← toks_append]; exact fires_self _
    · rcases ht with rfl | rfl | rfl | ht
      · obtain ⟨A, B, e⟩ := List.append_of_mem hks
        have hf := S_fires A B k c
        rw [← e] at hf
        exact ⟨_, _, _, r0, hf⟩
      · obtain ⟨A, k0, B, e, hm⟩ := other_first h2 hks
        have hin : k.ini ∈ orI A k0 B := by
          unfold orI
          simp only [List.mem_append, List.mem_map]
          rcases hm with hm | hm
          · exact .inl ⟨k, hm, rfl⟩
          · exact .inr (.inr ⟨k, hm, rfl⟩)
        obtain ⟨x, y, hxy⟩ := List.append_of_mem hin
        have e1 : toks (orI A k0 B) = madd (toks [k.ini]) (toks (x ++ y)) := by
          rw [hxy, ← toks_append]; exact toks_perm List.perm_middle
        refine ⟨_, _, madd (toks [c]) (madd (toks [k.st]) (toks (x ++ y))), r1 A k0 B e, ?_⟩
        rw [e1]
        exact fires_catalyst' (.swap _ _ _) ((fires_self ⟨[k.ini], [k.st], none⟩).frame _)
      · obtain ⟨A, k0, B, e, hm⟩ := other_first h2 hks
        have hin : k.ini ∈ orI A k0 B := by
          unfold orI
          simp only [List.mem_append, List.mem_map]
          rcases hm with hm | hm
          · exact .inl ⟨k, hm, rfl⟩
          · exact .inr (.inr ⟨k, hm, rfl⟩)
        obtain ⟨x, y, hxy⟩ := List.append_of_mem hin
        have e1 : toks (orI A k0 B) = madd (toks [k.ini]) (toks (x ++ y)) := by
          rw [hxy, ← toks_append]; exact toks_perm List.perm_middle
        refine ⟨_, _, madd (toks [c]) (madd (toks [k.en]) (toks (x ++ y))), r1 A k0 B e, ?_⟩
        rw [e1]
        exact fires_catalyst' (.refl _) ((fires_self ⟨[k.ini], [k.en], none⟩).frame _)
      · obtain ⟨A, B, e⟩ := List.append_of_mem hks
        obtain ⟨w, M, M', hw, hf⟩ := (hok k hks).1.block.live t ht
        have e1 : toks (orI A k B) = madd (toks [k.st]) (toks (A.map OKid.ini ++ B.map OKid.ini)) := by
          unfold orI; rw [← toks_append]; exact toks_perm List.perm_middle
        have mT : ∀ t ∈ k.T, t ∈ orTr ks i o c := fun t ht => mem_orTr.2 (.inr (.inr ⟨k, hks, .inr (.inr (.inr ht))⟩))
        have hr1 := r1 A k B e
        rw [e1, madd_comm, madd_assoc] at hr1
        exact ⟨_, _, _, hr1.trans ((hw.mono mT).frame _), hf.frame _⟩
  · intro p hp
    obtain ⟨k1, hk1⟩ := List.exists_mem_of_ne_nil _ hne
    by_cases hpc : p = c
    · subst hpc
      exact ⟨⟨⟨p :: ks.map OKid.en, [o], none⟩, mem_orTr.2 (.inr (.inl rfl)), by simp⟩,
        ⟨k1.S p, mem_orTr.2 (.inr (.inr ⟨k1, hk1, .inl rfl⟩)), by simp [OKid.S]⟩⟩
    · by_cases hpc1 : p = c + 1
      · subst hpc1
        exact ⟨⟨k1.S c, mem_orTr.2 (.inr (.inr ⟨k1, hk1, .inl rfl⟩)), by simp [OKid.S]⟩,
          ⟨⟨[i], (c + 1) :: ks.map OKid.ini, none⟩, mem_orTr.2 (.inl rfl), by simp⟩⟩
      · obtain ⟨k, hks, hin⟩ := hk.covers (p := p) (by unfold Inner at *; omega)
        have hr' := ranges k hks
        have b := (hok k hks).1.block
        have mT : ∀ t ∈ k.T, t ∈ orTr ks i o c := fun t ht => mem_orTr.2 (.inr (.inr ⟨k, hks, .inr (.inr (.inr ht))⟩))
        have mS : k.S c ∈ orTr ks i o c := mem_orTr.2 (.inr (.inr ⟨k, hks, .inl rfl⟩))
        have hq : p = k.ini ∨ p = k.st ∨ p = k.en ∨ Inner k.lo k.hi p := by unfold Inner at *; omega
        rcases hq with e | e | e | hq
        · exact ⟨⟨_, mS, by simp [OKid.S, e]⟩, ⟨⟨[i], (c + 1) :: ks.map OKid.ini, none⟩, mem_orTr.2 (.inl rfl), by
            simp only [List.mem_cons, List.mem_map]; exact .inr ⟨k, hks, e.symm⟩⟩⟩
        · obtain ⟨t, ht, h1⟩ := b.uses_i
          exact ⟨⟨t, mT t ht, e ▸ h1⟩, ⟨_, mS, by simp [OKid.S, e]⟩⟩
        · obtain ⟨t, ht, h1⟩ := b.uses_o
          exact ⟨⟨⟨c :: ks.map OKid.en, [o], none⟩, mem_orTr.2 (.inr (.inl rfl)), by
            simp only [List.mem_cons, List.mem_map]; exact .inr ⟨k, hks, e.symm⟩⟩, ⟨t, mT t ht, e ▸ h1⟩⟩
        · obtain ⟨⟨t, ht, h1⟩, ⟨t', ht', h2⟩⟩ := b.used p hq
          exact ⟨⟨t, mT t ht, h1⟩, ⟨t', mT t' ht', h2⟩⟩
  · intro w
    constructor
    · intro hw
      obtain ⟨As, L, Bs, e, hs⟩ := (orL_iff _ _).1 hw
      obtain ⟨A, ks', e1, rfl, e2⟩ := List.map_eq_append_iff.1 e
      obtain ⟨k, B, rfl, rfl, rfl⟩ := List.map_eq_cons_iff.1 e2
      subst e1
      have := or_lift (i := i) (o := o) hk ((hk.first.lang w).1 hs)
      have := (r1 A k B rfl).trans (this.trans rj)
      simpa using this
    · intro hr
      rcases key hr with ⟨_, e⟩ | ⟨_, e⟩ | ⟨A, k, B, N, e, e', hv⟩ | ⟨_, h⟩
      · exact absurd e (toks_ne hio)
      · exfalso
        have hM : 1 ≤ toks ((c + 1) :: ks.map OKid.ini) o := by rw [← e, toks_single, if_pos rfl]; omega
        rcases List.mem_cons.1 (toks_pos.1 hM) with h | h
        · omega
        · obtain ⟨k, hks, e⟩ := List.mem_map.1 h
          have := ranges k hks; omega
      · exfalso
        subst e
        have hM := congrFun e' o
        rw [madd, hk.first.supp hv (by unfold Inner; omega), toks_single, toks_single, if_pos rfl, if_neg (by omega)] at hM
        omega
      · exact h

end Verif.Sys
