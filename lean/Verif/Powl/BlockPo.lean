import Verif.Convert.BlockLoop
import Verif.Powl.Lang
/-
Composition of blocks along a partial order (C48).
-/
set_option linter.unusedSectionVars false
namespace Verif.Sys
open Verif Lang
variable {α : Type}

/-- a place between the children: produced by child `src` (`none`: by the split), consumed by child `dst` (`none`: by the join) -/
structure Ctl where
  p : Nat
  src : Option Nat
  dst : Option Nat

/-- a child: its block -/
structure PKid (α : Type) where
  ip : Nat
  fp : Nat
  lo : Nat
  hi : Nat
  T : List (Tr α)
  L : Lang α

/-- the places of a child -/
def PKid.Rng (k : PKid α) (p : Nat) : Prop := p = k.ip ∨ p = k.fp ∨ Inner k.lo k.hi p

def ctlIn (C : List Ctl) (d : Option Nat) : List Nat := (C.filter fun c => decide (c.dst = d)).map Ctl.p
def ctlOut (C : List Ctl) (s : Option Nat) : List Nat := (C.filter fun c => decide (c.src = s)).map Ctl.p

def iTr (K : Nat → PKid α) (C : List Ctl) (k : Nat) : Tr α := ⟨ctlIn C (some k), [(K k).ip], none⟩
def fTr (K : Nat → PKid α) (C : List Ctl) (k : Nat) : Tr α := ⟨[(K k).fp], ctlOut C (some k), none⟩
def splitTr (C : List Ctl) (i : Nat) : Tr α := ⟨[i], ctlOut C none, none⟩
def joinTr (C : List Ctl) (o : Nat) : Tr α := ⟨ctlIn C none, [o], none⟩

/-- the transitions of a partial order node -/
def poTr (K : Nat → PKid α) (n : Nat) (C : List Ctl) (i o : Nat) : List (Tr α) :=
  splitTr C i :: joinTr C o :: (List.range n).flatMap fun k => iTr K C k :: fTr K C k :: (K k).T

theorem mem_poTr {K : Nat → PKid α} {n : Nat} {C : List Ctl} {i o : Nat} {t : Tr α} : t ∈ poTr K n C i o ↔
    t = splitTr C i ∨ t = joinTr C o ∨ ∃ k, k < n ∧ (t = iTr K C k ∨ t = fTr K C k ∨ t ∈ (K k).T) := by
  simp [poTr]

structure PoSys (K : Nat → PKid α) (n : Nat) (C : List Ctl) (i o lo hi : Nat) (rk : Nat → Nat) : Prop where
  ilo : i < lo
  olo : o < lo
  ne : i ≠ o
  le : lo ≤ hi
  block : ∀ k < n, Block (K k).T (K k).ip (K k).fp (K k).lo (K k).hi (K k).L
  rng : ∀ k < n, ∀ p, (K k).Rng p → Inner lo hi p
  disj : ∀ k < n, ∀ l < n, ∀ p, (K k).Rng p → (K l).Rng p → k = l
  ctlp : ∀ c ∈ C, Inner lo hi c.p ∧ ∀ k < n, ¬ (K k).Rng c.p
  nodup : (C.map Ctl.p).Nodup
  src : ∀ c ∈ C, ∀ k, c.src = some k → k < n
  dst : ∀ c ∈ C, ∀ k, c.dst = some k → k < n
  hasIn : ∀ k < n, ∃ c ∈ C, c.dst = some k
  hasOut : ∀ k < n, ∃ c ∈ C, c.src = some k
  join : ∃ c ∈ C, c.dst = none
  rank : ∀ c ∈ C, ∀ k l, c.src = some k → c.dst = some l → rk k < rk l
  rkb : ∀ k < n, rk k ≤ n
  cover : ∀ p, Inner lo hi p → (∃ c ∈ C, c.p = p) ∨ ∃ k, k < n ∧ (K k).Rng p

inductive Ph | w | a | d
  deriving DecidableEq

def upd {β : Type} (f : Nat → β) (k : Nat) (x : β) : Nat → β := fun j => if j = k then x else f j
@[simp] theorem upd_same {β : Type} (f : Nat → β) (k : Nat) (x : β) : upd f k x k = x := by simp [upd]
theorem upd_ne {β : Type} (f : Nat → β) {j k : Nat} (x : β) (h : j ≠ k) : upd f k x j = f j := by simp [upd, h]

/-- the place holds a token: its producer is done, its consumer has not started -/
def Live (st : Nat → Ph) (c : Ctl) : Prop := (∀ k, c.src = some k → st k = .d) ∧ ∀ k, c.dst = some k → st k = .w

/-- the marking `M` in which child `k` is in phase `st k`, with marking `N k` of its own places -/
structure Cfg (K : Nat → PKid α) (n : Nat) (C : List Ctl) (M : Mk) (st : Nat → Ph) (N : Nat → Mk) : Prop where
  ctl1 : ∀ c ∈ C, Live st c → M c.p = 1
  ctl0 : ∀ c ∈ C, ¬ Live st c → M c.p = 0
  rngA : ∀ k < n, st k = .a → ∀ p, (K k).Rng p → M p = N k p
  rng0 : ∀ k < n, st k ≠ .a → ∀ p, (K k).Rng p → M p = 0
  zero : ∀ p, (∀ c ∈ C, c.p ≠ p) → (∀ k < n, ¬ (K k).Rng p) → M p = 0
  nsup : ∀ k < n, st k = .a → ∀ p, ¬ (K k).Rng p → N k p = 0
  order : ∀ c ∈ C, ∀ k l, c.src = some k → c.dst = some l → st l ≠ .w → st k = .d

variable {K : Nat → PKid α} {n : Nat} {C : List Ctl} {i o lo hi : Nat} {rk : Nat → Nat} {M M' : Mk} {st : Nat → Ph} {N : Nat → Mk} {k : Nat}

theorem count_ctl (hn : (C.map Ctl.p).Nodup) (q : Ctl → Bool) {c : Ctl} (hc : c ∈ C) :
    ((C.filter q).map Ctl.p).count c.p = if q c then 1 else 0 := by
  induction C with
  | nil => cases hc
  | cons x C ih =>
    rw [List.map_cons, List.nodup_cons] at hn
    have z : ∀ c ∈ [x], ((C.filter q).map Ctl.p).count c.p = 0 := by
      intro c hc
      rw [List.mem_singleton] at hc; subst hc
      refine List.count_eq_zero.2 fun h => hn.1 ?_
      obtain ⟨y, hy, e⟩ := List.mem_map.1 h
      exact List.mem_map.2 ⟨y, (List.mem_filter.1 hy).1, e⟩
    rcases List.mem_cons.1 hc with rfl | hc
    · cases hq : q c
      · rw [List.filter_cons_of_neg (by simp [hq]), z c (by simp)]; simp
      · rw [List.filter_cons_of_pos hq, List.map_cons, List.count_cons, z c (by simp)]; simp
    · have hne : x.p ≠ c.p := fun e => hn.1 (e ▸ List.mem_map_of_mem hc)
      have := ih hn.2 hc
      cases hq : q x
      · rw [List.filter_cons_of_neg (by simp [hq]), this]
      · rw [List.filter_cons_of_pos hq, List.map_cons, List.count_cons, this]; simp [hne]

theorem count_ctl_none (q : Ctl → Bool) {p : Nat} (hp : ∀ c ∈ C, c.p ≠ p) : ((C.filter q).map Ctl.p).count p = 0 := by
  refine List.count_eq_zero.2 fun h => ?_
  obtain ⟨y, hy, e⟩ := List.mem_map.1 h
  exact hp y (List.mem_filter.1 hy).1 e

theorem count_one (a p : Nat) : [a].count p = if p = a then 1 else 0 := toks_single a p

theorem fires_exists {t : Tr α} (h : ∀ p, t.pre.count p ≤ M p) : ∃ M', t.fires M M' :=
  ⟨fun p => M p + t.post.count p - t.pre.count p, h, fun p => by have := h p; show M p + _ - _ + _ = _; omega⟩

/-- a place is a control place, a place of exactly one child, or foreign -/
theorem PoSys.ctl_ne (P : PoSys K n C i o lo hi rk) {p : Nat} (hk : k < n) (hp : (K k).Rng p) : ∀ c ∈ C, c.p ≠ p := by
  intro c hc e
  exact (P.ctlp c hc).2 k hk (e ▸ hp)

/-- start a child -/
theorem Cfg.start (P : PoSys K n C i o lo hi rk) (h : Cfg K n C M st N) (hk : k < n) (h0 : st k = .w)
    (hp : ∀ c ∈ C, c.dst = some k → ∀ j, c.src = some j → st j = .d) :
    ∃ M', (iTr K C k).fires M M' ∧ Cfg K n C M' (upd st k .a) (upd N k (toks [(K k).ip])) := by
  have ipr : (K k).Rng (K k).ip := .inl rfl
  have cin : ∀ c ∈ C, (ctlIn C (some k)).count c.p = if c.dst = some k then 1 else 0 := fun c hc => by
    rw [ctlIn, count_ctl P.nodup _ hc]; simp
  have live : ∀ c ∈ C, c.dst = some k → Live st c := by
    intro c hc hd
    refine ⟨hp c hc hd, fun l hl => ?_⟩
    rw [hd] at hl; cases hl; exact h0
  have hen : ∀ p, (iTr K C k).pre.count p ≤ M p := by
    intro p
    by_cases hc : ∃ c ∈ C, c.p = p
    · obtain ⟨c, hc, rfl⟩ := hc
      show (ctlIn C (some k)).count c.p ≤ _
      rw [cin c hc]
      split
      · rename_i hd; rw [h.ctl1 c hc (live c hc hd)]; omega
      · omega
    · show (ctlIn C (some k)).count p ≤ _
      rw [ctlIn, count_ctl_none _ fun c h1 h2 => hc ⟨c, h1, h2⟩]; omega
  obtain ⟨M', hf⟩ := fires_exists hen
  refine ⟨M', hf, ?_⟩
  have hM : ∀ p, M' p + (ctlIn C (some k)).count p = M p + if p = (K k).ip then 1 else 0 := fun p => by
    rw [← count_one]; exact hf.2 p
  have liveiff : ∀ c ∈ C, Live (upd st k .a) c ↔ Live st c ∧ c.dst ≠ some k := by
    intro c hc
    constructor
    · intro hl
      have hd : c.dst ≠ some k := by
        intro e; have := hl.2 k e; simp at this
      refine ⟨⟨fun j hj => ?_, fun j hj => ?_⟩, hd⟩
      · have := hl.1 j hj
        by_cases e : j = k
        · subst e; simp at this
        · rwa [upd_ne _ _ e] at this
      · have := hl.2 j hj
        by_cases e : j = k
        · subst e; simp at this
        · rwa [upd_ne _ _ e] at this
    · rintro ⟨hl, hd⟩
      refine ⟨fun j hj => ?_, fun j hj => ?_⟩
      · have := hl.1 j hj
        rw [upd_ne]; exact this
        intro e; subst e; rw [h0] at this; cases this
      · rw [upd_ne]; exact hl.2 j hj
        intro e; subst e; exact hd hj
  refine ⟨?_, ?_, ?_, ?_, ?_, ?_, ?_⟩
  · intro c hc hl
    obtain ⟨hl, hd⟩ := (liveiff c hc).1 hl
    have := hM c.p
    rw [cin c hc, if_neg hd, h.ctl1 c hc hl, if_neg (P.ctl_ne hk ipr c hc)] at this
    omega
  · intro c hc hl
    have := hM c.p
    rw [cin c hc, if_neg (P.ctl_ne hk ipr c hc)] at this
    by_cases hd : c.dst = some k
    · rw [if_pos hd, h.ctl1 c hc (live c hc hd)] at this; omega
    · rw [if_neg hd, h.ctl0 c hc fun h' => hl ((liveiff c hc).2 ⟨h', hd⟩)] at this; omega
  · intro l hl hs p hr
    have := hM p
    rw [ctlIn, count_ctl_none _ (P.ctl_ne hl hr)] at this
    by_cases e : l = k
    · subst e
      rw [h.rng0 l hl (by rw [h0]; simp) p hr] at this
      rw [upd_same, toks_single]; omega
    · rw [upd_ne _ _ e] at hs ⊢
      rw [if_neg, h.rngA l hl hs p hr] at this
      · omega
      · rintro rfl; exact e (P.disj l hl k hk _ hr ipr)
  · intro l hl hs p hr
    have := hM p
    rw [ctlIn, count_ctl_none _ (P.ctl_ne hl hr)] at this
    by_cases e : l = k
    · subst e; simp at hs
    · rw [upd_ne _ _ e] at hs
      rw [if_neg, h.rng0 l hl hs p hr] at this
      · omega
      · rintro rfl; exact e (P.disj l hl k hk _ hr ipr)
  · intro p h1 h2
    have := hM p
    rw [ctlIn, count_ctl_none _ h1, h.zero p h1 h2, if_neg] at this
    · omega
    · rintro rfl; exact h2 k hk ipr
  · intro l hl hs p hr
    by_cases e : l = k
    · subst e
      rw [upd_same, toks_single, if_neg]
      rintro rfl; exact hr ipr
    · rw [upd_ne _ _ e] at hs ⊢
      exact h.nsup l hl hs p hr
  · intro c hc j l hj hl hs
    have : st j = .d := by
      by_cases e : l = k
      · subst e; exact hp c hc hl j hj
      · rw [upd_ne _ _ e] at hs; exact h.order c hc j l hj hl hs
    rw [upd_ne]; exact this
    intro e; subst e; rw [h0] at this; cases this

/-- finish a child -/
theorem Cfg.finish (P : PoSys K n C i o lo hi rk) (h : Cfg K n C M st N) (hk : k < n) (h0 : st k = .a)
    (hN : N k = toks [(K k).fp]) :
    ∃ M', (fTr K C k).fires M M' ∧ Cfg K n C M' (upd st k .d) N := by
  have fpr : (K k).Rng (K k).fp := .inr (.inl rfl)
  have cout : ∀ c ∈ C, (ctlOut C (some k)).count c.p = if c.src = some k then 1 else 0 := fun c hc => by
    rw [ctlOut, count_ctl P.nodup _ hc]; simp
  have hen : ∀ p, (fTr K C k).pre.count p ≤ M p := by
    intro p
    show [(K k).fp].count p ≤ _
    rw [count_one]
    split
    · rename_i e; subst e
      rw [h.rngA k hk h0 _ fpr, hN, toks_single, if_pos rfl]; omega
    · omega
  obtain ⟨M', hf⟩ := fires_exists hen
  refine ⟨M', hf, ?_⟩
  have hM : ∀ p, M' p + (if p = (K k).fp then 1 else 0) = M p + (ctlOut C (some k)).count p := fun p => by
    rw [← count_one]; exact hf.2 p
  have nl : ∀ c ∈ C, c.src = some k → ¬ Live st c := by
    intro c hc hs hl
    have := hl.1 k hs; rw [h0] at this; cases this
  have liveiff : ∀ c ∈ C, Live (upd st k .d) c ↔ Live st c ∨ c.src = some k := by
    intro c hc
    constructor
    · intro hl
      by_cases hs : c.src = some k
      · exact .inr hs
      · refine .inl ⟨fun j hj => ?_, fun j hj => ?_⟩
        · have := hl.1 j hj
          rwa [upd_ne] at this
          intro e; subst e; exact hs hj
        · have := hl.2 j hj
          by_cases e : j = k
          · subst e; simp at this
          · rwa [upd_ne _ _ e] at this
    · intro hh
      refine ⟨fun j hj => ?_, fun j hj => ?_⟩
      · by_cases e : j = k
        · subst e; simp
        · rw [upd_ne _ _ e]
          rcases hh with hl | hs
          · exact hl.1 j hj
          · rw [hs] at hj; cases hj; exact absurd rfl e
      · rcases hh with hl | hs
        · have := hl.2 j hj
          rw [upd_ne]; exact this
          intro e; subst e; rw [h0] at this; cases this
        · have hj' : st j = .w := by
            refine Classical.byContradiction fun hn => ?_
            have := h.order c hc k j hs hj hn
            rw [h0] at this; cases this
          rw [upd_ne]; exact hj'
          intro e; subst e; rw [h0] at hj'; cases hj'
  refine ⟨?_, ?_, ?_, ?_, ?_, ?_, ?_⟩
  · intro c hc hl
    have := hM c.p
    rw [cout c hc, if_neg (P.ctl_ne hk fpr c hc)] at this
    by_cases hs : c.src = some k
    · rw [if_pos hs, h.ctl0 c hc (nl c hc hs)] at this; omega
    · rw [if_neg hs, h.ctl1 c hc (((liveiff c hc).1 hl).resolve_right hs)] at this; omega
  · intro c hc hl
    have := hM c.p
    rw [cout c hc, if_neg (P.ctl_ne hk fpr c hc), if_neg fun hs => hl ((liveiff c hc).2 (.inr hs)),
      h.ctl0 c hc fun h' => hl ((liveiff c hc).2 (.inl h'))] at this
    omega
  · intro l hl hs p hr
    have := hM p
    rw [ctlOut, count_ctl_none _ (P.ctl_ne hl hr)] at this
    by_cases e : l = k
    · subst e; simp at hs
    · rw [upd_ne _ _ e] at hs
      rw [if_neg, h.rngA l hl hs p hr] at this
      · omega
      · rintro rfl; exact e (P.disj l hl k hk _ hr fpr)
  · intro l hl hs p hr
    have := hM p
    rw [ctlOut, count_ctl_none _ (P.ctl_ne hl hr)] at this
    by_cases e : l = k
    · subst e
      rw [h.rngA l hl h0 p hr, hN, toks_single] at this
      omega
    · rw [upd_ne _ _ e] at hs
      rw [if_neg, h.rng0 l hl hs p hr] at this
      · omega
      · rintro rfl; exact e (P.disj l hl k hk _ hr fpr)
  · intro p h1 h2
    have := hM p
    rw [ctlOut, count_ctl_none _ h1, h.zero p h1 h2, if_neg] at this
    · omega
    · rintro rfl; exact h2 k hk fpr
  · intro l hl hs p hr
    by_cases e : l = k
    · subst e; simp at hs
    · rw [upd_ne _ _ e] at hs
      exact h.nsup l hl hs p hr
  · intro c hc j l hj hl hs
    by_cases e : j = k
    · subst e; simp
    · rw [upd_ne _ _ e]
      by_cases e' : l = k
      · subst e'; exact h.order c hc j l hj hl (by rw [h0]; simp)
      · rw [upd_ne _ _ e'] at hs
        exact h.order c hc j l hj hl hs

/-- places of a transition of a child -/
theorem PoSys.kid_rng (P : PoSys K n C i o lo hi rk) (hk : k < n) {t : Tr α} (ht : t ∈ (K k).T) :
    (∀ p ∈ t.pre, (K k).Rng p) ∧ ∀ p ∈ t.post, (K k).Rng p := by
  have := (P.block k hk).within t ht
  exact ⟨fun p hp => this.1 p hp, fun p hp => this.2 p hp⟩

/-- one step of an active child -/
theorem Cfg.inner (P : PoSys K n C i o lo hi rk) (h : Cfg K n C M st N) (hk : k < n) (h0 : st k = .a) {t : Tr α} (ht : t ∈ (K k).T)
    {N' : Mk} (hf : t.fires (N k) N') : ∃ M', t.fires M M' ∧ Cfg K n C M' st (upd N k N') := by
  obtain ⟨r1, r2⟩ := P.kid_rng hk ht
  have hen : ∀ p, t.pre.count p ≤ M p := by
    intro p
    by_cases hp : p ∈ t.pre
    · rw [h.rngA k hk h0 p (r1 p hp)]; exact hf.1 p
    · rw [List.count_eq_zero.2 hp]; omega
  obtain ⟨M', hf'⟩ := fires_exists hen
  refine ⟨M', hf', ?_⟩
  have same : ∀ p, ¬ (K k).Rng p → M' p = M p := fun p hp =>
    hf'.untouched (fun h => hp (r1 p h)) (fun h => hp (r2 p h))
  have inr : ∀ p, (K k).Rng p → M' p = N' p := by
    intro p hp
    have e1 := hf'.2 p; have e2 := hf.2 p
    rw [h.rngA k hk h0 p hp] at e1
    omega
  refine ⟨?_, ?_, ?_, ?_, ?_, ?_, h.order⟩
  · intro c hc hl; rw [same _ ((P.ctlp c hc).2 k hk)]; exact h.ctl1 c hc hl
  · intro c hc hl; rw [same _ ((P.ctlp c hc).2 k hk)]; exact h.ctl0 c hc hl
  · intro l hl hs p hr
    by_cases e : l = k
    · subst e; rw [upd_same]; exact inr p hr
    · rw [upd_ne _ _ e, same p fun h' => e (P.disj l hl k hk p hr h')]; exact h.rngA l hl hs p hr
  · intro l hl hs p hr
    by_cases e : l = k
    · subst e; exact absurd h0 hs
    · rw [same p fun h' => e (P.disj l hl k hk p hr h')]; exact h.rng0 l hl hs p hr
  · intro p h1 h2
    rw [same p (h2 k hk)]; exact h.zero p h1 h2
  · intro l hl hs p hr
    by_cases e : l = k
    · subst e
      rw [upd_same, hf.untouched (fun h => hr (r1 p h)) (fun h => hr (r2 p h))]
      exact h.nsup l hl hs p hr
    · rw [upd_ne _ _ e]; exact h.nsup l hl hs p hr

/-- a run of an active child -/
theorem Cfg.innerRun (P : PoSys K n C i o lo hi rk) (h : Cfg K n C M st N) (hk : k < n) (h0 : st k = .a) {v : List α}
    {N' : Mk} (hr : Run (K k).T (N k) v N') : ∃ M', Run (poTr K n C i o) M v M' ∧ Cfg K n C M' st (upd N k N') := by
  induction hr with
  | nil =>
    refine ⟨M, .nil, ?_⟩
    have : upd N k (N k) = N := by funext j; unfold upd; split <;> simp_all
    rw [this]; exact h
  | @snoc w M1 M2 t _ ht hf ih =>
    obtain ⟨Ma, ra, ca⟩ := ih
    have hf' : t.fires (upd N k M1 k) M2 := by rw [upd_same]; exact hf
    obtain ⟨Mb, fb, cb⟩ := ca.inner P hk h0 ht hf'
    refine ⟨Mb, .snoc ra (mem_poTr.2 (.inr (.inr ⟨k, hk, .inr (.inr ht)⟩))) fb, ?_⟩
    have : upd (upd N k M1) k M2 = upd N k M2 := by funext j; unfold upd; split <;> rfl
    rwa [this] at cb

theorem iTr_mem (hk : k < n) : iTr K C k ∈ poTr K n C i o := mem_poTr.2 (.inr (.inr ⟨k, hk, .inl rfl⟩))
theorem fTr_mem (hk : k < n) : fTr K C k ∈ poTr K n C i o := mem_poTr.2 (.inr (.inr ⟨k, hk, .inr (.inl rfl)⟩))
theorem kTr_mem (hk : k < n) {t : Tr α} (ht : t ∈ (K k).T) : t ∈ poTr K n C i o := mem_poTr.2 (.inr (.inr ⟨k, hk, .inr (.inr ht)⟩))

/-- after the split nothing has started -/
theorem cfg_split (P : PoSys K n C i o lo hi rk) :
    ∃ M, (splitTr C i : Tr α).fires (toks [i]) M ∧ ∀ N, Cfg K n C M (fun _ => Ph.w) N := by
  refine ⟨toks (ctlOut C none), fires_self _, fun N => ⟨?_, ?_, ?_, ?_, ?_, ?_, ?_⟩⟩
  · intro c hc hl
    rw [toks, ctlOut, count_ctl P.nodup _ hc, if_pos]
    cases hs : c.src with
    | none => simp
    | some k => have := hl.1 k hs; cases this
  · intro c hc hl
    rw [toks, ctlOut, count_ctl P.nodup _ hc, if_neg]
    intro h
    refine hl ⟨fun k hk => ?_, fun k _ => rfl⟩
    have : c.src = none := by simpa using h
    rw [this] at hk; cases hk
  · intro l hl hs; cases hs
  · intro l hl hs p hr
    rw [toks, ctlOut, count_ctl_none _ (P.ctl_ne hl hr)]
  · intro p h1 h2; rw [toks, ctlOut, count_ctl_none _ h1]
  · intro l hl hs; cases hs
  · intro c hc k l _ _ hs; exact absurd rfl hs

/-- when all children are done the join can fire, and nothing is left -/
theorem Cfg.join (P : PoSys K n C i o lo hi rk) (h : Cfg K n C M st N) (hd : ∀ k < n, st k = .d) :
    (joinTr C o : Tr α).fires M (toks [o]) := by
  have hM : M = toks (ctlIn C none) := by
    funext p
    by_cases hc : ∃ c ∈ C, c.p = p
    · obtain ⟨c, hc, rfl⟩ := hc
      rw [toks, ctlIn, count_ctl P.nodup _ hc]
      cases hs : c.dst with
      | none =>
        rw [h.ctl1 c hc ⟨fun k hk => hd k (P.src c hc k hk), fun k hk => by rw [hs] at hk; cases hk⟩]; simp
      | some l =>
        rw [h.ctl0 c hc fun hl => by have := hl.2 l hs; rw [hd l (P.dst c hc l hs)] at this; cases this]; simp
    · have hc' : ∀ c ∈ C, c.p ≠ p := fun c h1 h2 => hc ⟨c, h1, h2⟩
      rw [toks, ctlIn, count_ctl_none _ hc']
      by_cases hr : ∃ k, k < n ∧ (K k).Rng p
      · obtain ⟨k, hk, hr⟩ := hr
        exact h.rng0 k hk (by rw [hd k hk]; simp) p hr
      · exact h.zero p hc' fun k hk hr' => hr ⟨k, hk, hr'⟩
  rw [hM]
  exact fires_self (joinTr C o)

/-! ### every run is one of the specification -/

/-- child `k` directly before child `l` -/
def Edge (C : List Ctl) (k l : Nat) : Prop := ∃ c ∈ C, c.src = some k ∧ c.dst = some l

theorem Cfg.orderT (h : Cfg K n C M st N) {j l : Nat} (hR : Relation.TransGen (Edge C) j l) (hs : st l ≠ .w) : st j = .d := by
  induction hR with
  | single he => obtain ⟨c, hc, h1, h2⟩ := he; exact h.order c hc _ _ h1 h2 hs
  | tail _ he ih => obtain ⟨c, hc, h1, h2⟩ := he; exact ih (by rw [h.order c hc _ _ h1 h2 hs]; simp)

theorem PoSys.rankT (P : PoSys K n C i o lo hi rk) {j l : Nat} (hR : Relation.TransGen (Edge C) j l) : rk j < rk l := by
  induction hR with
  | single he => obtain ⟨c, hc, h1, h2⟩ := he; exact P.rank c hc _ _ h1 h2
  | tail _ he ih => obtain ⟨c, hc, h1, h2⟩ := he; have := P.rank c hc _ _ h1 h2; omega

theorem Cfg.allDone (P : PoSys K n C i o lo hi rk) (h : Cfg K n C M st N) (hj : ∀ c ∈ C, c.dst = none → 1 ≤ M c.p) :
    ∀ k < n, st k = .d := by
  have key : ∀ m k, k < n → n - rk k ≤ m → st k = .d := by
    intro m
    induction m with
    | zero =>
      intro k hk hm
      obtain ⟨c, hc, hs⟩ := P.hasOut k hk
      cases hd : c.dst with
      | none =>
        have h1 := hj c hc hd
        refine Classical.byContradiction fun hn => ?_
        rw [h.ctl0 c hc fun hl => hn (hl.1 k hs)] at h1; omega
      | some l =>
        have := P.rank c hc k l hs hd
        have := P.rkb l (P.dst c hc l hd)
        omega
    | succ m ih =>
      intro k hk hm
      obtain ⟨c, hc, hs⟩ := P.hasOut k hk
      cases hd : c.dst with
      | none =>
        have h1 := hj c hc hd
        refine Classical.byContradiction fun hn => ?_
        rw [h.ctl0 c hc fun hl => hn (hl.1 k hs)] at h1; omega
      | some l =>
        have := P.rank c hc k l hs hd
        have hl := P.dst c hc l hd
        have := P.rkb l hl
        have := ih l hl (by omega)
        exact h.order c hc k l hs hd (by rw [this]; simp)
  intro k hk
  exact key _ k hk (Nat.le_refl _)

/-- the words of a partial order of blocks -/
def PoSpec (K : Nat → PKid α) (n : Nat) (C : List Ctl) (w : List α) : Prop :=
  ∃ es : List (Nat × α), es.map Prod.snd = w ∧ (∀ e ∈ es, e.1 < n) ∧ (∀ k < n, (K k).L (proj k es)) ∧
    ∀ i j, Relation.TransGen (Edge C) i j → es.Pairwise fun e f => ¬ (e.1 = j ∧ f.1 = i)

/-- what is known during a run -/
structure Hist (K : Nat → PKid α) (n : Nat) (C : List Ctl) (M : Mk) (st : Nat → Ph) (N : Nat → Mk) (es : List (Nat × α)) : Prop where
  cfg : Cfg K n C M st N
  mem : ∀ e ∈ es, e.1 < n ∧ st e.1 ≠ .w
  act : ∀ k < n, st k = .a → Run (K k).T (toks [(K k).ip]) (proj k es) (N k)
  done : ∀ k < n, st k = .d → (K k).L (proj k es)
  ord : ∀ i j, Relation.TransGen (Edge C) i j → es.Pairwise fun e f => ¬ (e.1 = j ∧ f.1 = i)

theorem proj_nil {es : List (Nat × α)} (h : ∀ e ∈ es, e.1 ≠ k) : proj k es = [] := by
  unfold proj
  rw [List.map_eq_nil_iff, List.filter_eq_nil_iff]
  intro e he; simpa using h e he

theorem proj_append (k : Nat) (es fs : List (Nat × α)) : proj k (es ++ fs) = proj k es ++ proj k fs := by simp [proj]
theorem proj_same (k : Nat) (l : List α) : proj k (l.map fun a => (k, a)) = l := by
  induction l with
  | nil => rfl
  | cons a l ih => simp only [proj, List.map_cons, beq_self_eq_true, List.filter_cons_of_pos] at ih ⊢; rw [ih]
theorem proj_other {j : Nat} (l : List α) (h : k ≠ j) : proj j (l.map fun a => (k, a)) = [] :=
  proj_nil fun e he => by obtain ⟨a, _, rfl⟩ := List.mem_map.1 he; exact h

theorem po_run (P : PoSys K n C i o lo hi rk) {w : List α} {M : Mk} (hr : Run (poTr K n C i o) (toks [i]) w M) :
    (w = [] ∧ M = toks [i]) ∨ (∃ st N es, Hist K n C M st N es ∧ es.map Prod.snd = w) ∨ (M = toks [o] ∧ PoSpec K n C w) := by
  induction hr with
  | nil => exact .inl ⟨rfl, rfl⟩
  | @snoc w M1 M2 t hr ht hf ih =>
    rw [mem_poTr] at ht
    rcases ih with ⟨rfl, rfl⟩ | ⟨st, N, es, H, hw⟩ | ⟨rfl, _⟩
    · have sup : ∀ q ∈ t.pre, q = i := by
        intro q hq
        have := hf.mem_pre hq
        rw [toks_single] at this
        split at this
        · assumption
        · omega
      rcases ht with rfl | rfl | ⟨k, hk, ht⟩
      · obtain ⟨M', h1, h2⟩ := cfg_split (K := K) P
        have := hf.det h1
        subst this
        refine .inr (.inl ⟨_, fun _ => toks [], [], ⟨h2 _, by simp, ?_, ?_, by simp⟩, rfl⟩)
        · intro k _ h; cases h
        · intro k _ h; cases h
      · exfalso
        obtain ⟨c, hc, hd⟩ := P.join
        have h1 := sup c.p (List.mem_map.2 ⟨c, List.mem_filter.2 ⟨hc, by simp [hd]⟩, rfl⟩)
        have h2 := (P.ctlp c hc).1; have := P.ilo
        unfold Inner at h2; omega
      · exfalso
        have key : ∀ q ∈ t.pre, Inner lo hi q → False := by
          intro q hq hin
          have := sup q hq; have := P.ilo; unfold Inner at hin; omega
        rcases ht with rfl | rfl | ht
        · obtain ⟨c, hc, hd⟩ := P.hasIn k hk
          exact key c.p (List.mem_map.2 ⟨c, List.mem_filter.2 ⟨hc, by simp [hd]⟩, rfl⟩) (P.ctlp c hc).1
        · exact key (K k).fp (by simp [fTr]) (P.rng k hk _ (.inr (.inl rfl)))
        · obtain ⟨q, hq⟩ := List.exists_mem_of_ne_nil _ ((P.block k hk).pre t ht).1
          exact key q hq (P.rng k hk q ((P.kid_rng hk ht).1 q hq))
    · have h := H.cfg
      rcases ht with rfl | rfl | ⟨k, hk, ht⟩
      · exfalso
        have h1 := hf.mem_pre (p := i) (by simp [splitTr])
        rw [h.zero i] at h1
        · omega
        · rintro c hc rfl
          have := (P.ctlp c hc).1; have := P.ilo; unfold Inner at *; omega
        · intro k hk hr'
          have := P.rng k hk i hr'; have := P.ilo; unfold Inner at *; omega
      · have hd := h.allDone P fun c hc hd => hf.mem_pre (List.mem_map.2 ⟨c, List.mem_filter.2 ⟨hc, by simp [hd]⟩, rfl⟩)
        have := hf.det (h.join (o := o) P hd)
        subst this
        refine .inr (.inr ⟨rfl, es, by simpa [joinTr] using hw, fun e he => (H.mem e he).1, fun k hk => H.done k hk (hd k hk), H.ord⟩)
      · rcases ht with rfl | rfl | ht
        · -- start
          have tok : ∀ c ∈ C, c.dst = some k → Live st c := by
            intro c hc hd
            have h1 := hf.mem_pre (p := c.p) (List.mem_map.2 ⟨c, List.mem_filter.2 ⟨hc, by simp [hd]⟩, rfl⟩)
            refine Classical.byContradiction fun hn => ?_
            rw [h.ctl0 c hc hn] at h1; omega
          obtain ⟨c0, hc0, hd0⟩ := P.hasIn k hk
          have h0 : st k = .w := (tok c0 hc0 hd0).2 k hd0
          obtain ⟨M', f', c'⟩ := h.start P hk h0 fun c hc hd => (tok c hc hd).1
          have := hf.det f'
          subst this
          have hnil : proj k es = [] := proj_nil fun e he e' => (H.mem e he).2 (e' ▸ h0)
          refine .inr (.inl ⟨_, _, es, ⟨c', ?_, ?_, ?_, H.ord⟩, by simpa [iTr] using hw⟩)
          · intro e he
            refine ⟨(H.mem e he).1, ?_⟩
            by_cases e' : e.1 = k
            · rw [e']; simp
            · rw [upd_ne _ _ e']; exact (H.mem e he).2
          · intro l hl hs
            by_cases e' : l = k
            · subst e'; rw [hnil, upd_same]; exact .nil
            · rw [upd_ne _ _ e'] at hs ⊢; exact H.act l hl hs
          · intro l hl hs
            by_cases e' : l = k
            · subst e'; simp at hs
            · rw [upd_ne _ _ e'] at hs; exact H.done l hl hs
        · -- finish
          have h1 := hf.mem_pre (p := (K k).fp) (by simp [fTr])
          have h0 : st k = .a := by
            refine Classical.byContradiction fun hn => ?_
            rw [h.rng0 k hk hn _ (.inr (.inl rfl))] at h1; omega
          rw [h.rngA k hk h0 _ (.inr (.inl rfl))] at h1
          have hN := (P.block k hk).proper _ _ (H.act k hk h0) h1
          obtain ⟨M', f', c'⟩ := h.finish P hk h0 hN
          have := hf.det f'
          subst this
          refine .inr (.inl ⟨_, _, es, ⟨c', ?_, ?_, ?_, H.ord⟩, by simpa [fTr] using hw⟩)
          · intro e he
            refine ⟨(H.mem e he).1, ?_⟩
            by_cases e' : e.1 = k
            · rw [e']; simp
            · rw [upd_ne _ _ e']; exact (H.mem e he).2
          · intro l hl hs
            by_cases e' : l = k
            · subst e'; simp at hs
            · rw [upd_ne _ _ e'] at hs; exact H.act l hl hs
          · intro l hl hs
            by_cases e' : l = k
            · subst e'
              refine ((P.block l hk).lang _).2 ?_
              rw [← hN]; exact H.act l hk h0
            · rw [upd_ne _ _ e'] at hs; exact H.done l hl hs
        · -- inner step
          obtain ⟨q, hq⟩ := List.exists_mem_of_ne_nil _ ((P.block k hk).pre t ht).1
          obtain ⟨r1, r2⟩ := P.kid_rng hk ht
          have h0 : st k = .a := by
            refine Classical.byContradiction fun hn => ?_
            have := hf.mem_pre hq
            rw [h.rng0 k hk hn q (r1 q hq)] at this; omega
          have hen : ∀ p, t.pre.count p ≤ N k p := by
            intro p
            by_cases hp : p ∈ t.pre
            · rw [← h.rngA k hk h0 p (r1 p hp)]; exact hf.1 p
            · rw [List.count_eq_zero.2 hp]; omega
          obtain ⟨N', fN⟩ := fires_exists hen
          obtain ⟨M', f', c'⟩ := h.inner P hk h0 ht fN
          have := hf.det f'
          subst this
          refine .inr (.inl ⟨_, _, es ++ t.lab.toList.map (fun a => (k, a)), ⟨c', ?_, ?_, ?_, ?_⟩, ?_⟩)
          · intro e he
            rcases List.mem_append.1 he with he | he
            · exact H.mem e he
            · obtain ⟨a, _, rfl⟩ := List.mem_map.1 he
              exact ⟨hk, by rw [h0]; simp⟩
          · intro l hl hs
            rw [proj_append]
            by_cases e' : l = k
            · subst e'; rw [upd_same, proj_same]; exact .snoc (H.act l hl hs) ht fN
            · rw [upd_ne _ _ e', proj_other _ (Ne.symm e'), List.append_nil]; exact H.act l hl hs
          · intro l hl hs
            have e' : l ≠ k := by rintro rfl; rw [h0] at hs; cases hs
            rw [proj_append, proj_other _ (Ne.symm e'), List.append_nil]; exact H.done l hl hs
          · intro a b hab
            refine List.pairwise_append.2 ⟨H.ord a b hab, ?_, ?_⟩
            · cases t.lab <;> simp
            · rintro e he f hf' ⟨h1, h2⟩
              obtain ⟨x, _, rfl⟩ := List.mem_map.1 hf'
              simp only at h2
              subst h2
              have := h.orderT hab (h1 ▸ (H.mem e he).2)
              rw [h0] at this; cases this
          · rw [List.map_append, hw, List.map_map]
            congr 1
            cases t.lab <;> simp
    · exfalso
      have hin : ∀ q ∈ t.pre, q = i ∨ Inner lo hi q := by
        intro q hq
        rcases ht with rfl | rfl | ⟨k, hk, rfl | rfl | ht⟩
        · left; simpa [splitTr] using hq
        · right
          obtain ⟨c, hc, rfl⟩ := List.mem_map.1 hq
          exact (P.ctlp c (List.mem_filter.1 hc).1).1
        · right
          obtain ⟨c, hc, rfl⟩ := List.mem_map.1 hq
          exact (P.ctlp c (List.mem_filter.1 hc).1).1
        · right
          have : q = (K k).fp := by simpa [fTr] using hq
          subst this; exact P.rng k hk _ (.inr (.inl rfl))
        · right; exact P.rng k hk q ((P.kid_rng hk ht).1 q hq)
      have hne : t.pre ≠ [] := by
        rcases ht with rfl | rfl | ⟨k, hk, rfl | rfl | ht⟩
        · simp [splitTr]
        · obtain ⟨c, hc, hd⟩ := P.join
          exact List.ne_nil_of_mem (List.mem_map.2 ⟨c, List.mem_filter.2 ⟨hc, by simp [hd]⟩, rfl⟩)
        · obtain ⟨c, hc, hd⟩ := P.hasIn k hk
          exact List.ne_nil_of_mem (List.mem_map.2 ⟨c, List.mem_filter.2 ⟨hc, by simp [hd]⟩, rfl⟩)
        · simp [fTr]
        · exact ((P.block k hk).pre t ht).1
      obtain ⟨q, hq⟩ := List.exists_mem_of_ne_nil _ hne
      have h1 := hf.mem_pre hq
      rw [toks_single] at h1
      have h2 := hin q hq
      have := P.ne; have := P.olo
      split at h1
      · unfold Inner at h2; omega
      · omega

end Verif.Sys
