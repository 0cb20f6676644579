import Verif.Align.AStar
import Mathlib.Tactic.Ring
import Mathlib.Tactic.NormNum
import Mathlib.Algebra.Order.BigOperators.Group.List
/-
Loop invariant of the A* search.
-/
set_option linter.unusedSectionVars false
namespace Verif
namespace Align
open Reach
section
variable {S T : Type} [DecidableEq T]

/-- solution vector after `t` -/
def decr (x : T → Rat) (t : T) : T → Rat := fun s => if s = t then x s - 1 else x s
/-- solution vector before `t` -/
def incr (x : T → Rat) (t : T) : T → Rat := fun s => if s = t then x s + 1 else x s

theorem decr_incr (x : T → Rat) (t : T) : decr (incr x t) t = x := by
  funext s; unfold decr incr; split <;> simp

theorem dotc_decr (cost : T → Int) (trans : List T) (hn : trans.Nodup) (x : T → Rat) (t : T) (ht : t ∈ trans) :
    dotc cost trans (decr x t) = dotc cost trans x - cost t := by
  unfold dotc
  induction trans with
  | nil => cases ht
  | cons s l ih =>
    rw [List.nodup_cons] at hn
    simp only [List.map_cons, List.sum_cons]
    by_cases h : s = t
    · subst h
      have : (l.map fun t => (cost t : Rat) * decr x s t) = l.map fun t => (cost t : Rat) * x t := by
        apply List.map_congr_left
        intro u hu
        have : u ≠ s := fun e => hn.1 (e ▸ hu)
        simp [decr, this]
      rw [this]; simp only [decr, if_true]; ring
    · rw [ih hn.2 ((List.mem_cons.1 ht).resolve_left fun e => h e.symm)]
      simp only [decr, h, if_false]; ring

theorem dotc_incr (cost : T → Int) (trans : List T) (hn : trans.Nodup) (x : T → Rat) (t : T) (ht : t ∈ trans) :
    dotc cost trans (incr x t) = dotc cost trans x + cost t := by
  have := dotc_decr cost trans hn (incr x t) t ht
  rw [decr_incr] at this; linarith

theorem dotc_nonneg {cost : T → Int} (hc : ∀ t, 0 ≤ cost t) {trans : List T} {x : T → Rat} (h : NonNeg trans x) :
    0 ≤ dotc cost trans x := by
  unfold dotc
  apply List.sum_nonneg
  intro y hy
  obtain ⟨t, ht, rfl⟩ := List.mem_map.1 hy
  exact mul_nonneg (by exact_mod_cast hc t) (h t ht)

theorem nonneg_incr {trans : List T} {x : T → Rat} (h : NonNeg trans x) (t : T) : NonNeg trans (incr x t) := by
  intro s hs
  have := h s hs
  unfold incr; split <;> linarith

variable (sem : Sem S T) (cost : T → Int) (trans : List T) (Sol : S → (T → Rat) → Prop) (lp : S → Rat × (T → Rat)) (ini fin : S)

/-- `h` is a lower bound for the cost of every solution at `m` -/
def LB (m : S) (h : Rat) : Prop := ∀ x, Sol m x → NonNeg trans x → h ≤ dotc cost trans x

/-- vectors that the search can hold: a solution found by the solver minus fired transitions -/
def FromLp (x : T → Rat) : Prop := ∃ m, ∃ k : T → Nat, ∀ t, x t = (lp m).2 t - k t

/-- tuples that the search can hold -/
structure AValid (a : ATup S T) : Prop where
  path : Path sem ini a.alignment a.m
  gcost : a.g = totalCost cost a.alignment
  nonneg : 0 ≤ a.h
  lb : LB cost trans Sol a.m a.h
  exact : a.trust = true → a.h ≤ maxAllowed → Sol a.m a.x ∧ NonNeg trans a.x ∧ a.h = dotc cost trans a.x
  fromLp : FromLp lp a.x

/-- a state from which every solution is too expensive -/
def Dead (m : S) : Prop := ∀ x, Sol m x → NonNeg trans x → maxAllowed < dotc cost trans x

/-- loop invariant; `K` records, for every closed state, the cost at which it was closed, `o` are all open tuples
(including `curr`) -/
structure AInv (o : List (ATup S T)) (closed : List S) (K : List (S × Int)) : Prop where
  fst : K.map Prod.fst = closed
  valid : ∀ a ∈ o, AValid sem cost trans Sol lp ini a
  reach : ∀ k ∈ K, Reachable sem ini k.1
  notFin : ∀ k ∈ K, sem.eqv k.1 fin = false
  opt : ∀ k ∈ K, ∀ ts m x, Path sem ini ts m → sem.eqv k.1 m = true → Sol m x → NonNeg trans x →
    totalCost cost ts + dotc cost trans x ≤ maxAllowed → k.2 ≤ totalCost cost ts
  succ : ∀ k ∈ K, ∀ t ∈ sem.enabled k.1,
    (∃ k' ∈ K, sem.eqv k'.1 (sem.exec t k.1) = true) ∨
    (∃ y ∈ o, sem.eqv y.m (sem.exec t k.1) = true ∧ y.g ≤ k.2 + cost t) ∨
    Dead cost trans Sol (sem.exec t k.1)
  start : (∃ k ∈ K, sem.eqv k.1 ini = true) ∨ (∃ y ∈ o, sem.eqv y.m ini = true ∧ y.g ≤ 0) ∨ Dead cost trans Sol ini

variable {sem cost trans Sol lp ini fin}

theorem acover (hl : Lawful sem ini) (hq : MarkingEq sem ini fin trans Sol) (hc : ∀ t, 0 ≤ cost t)
    {o : List (ATup S T)} {c : List S} {K : List (S × Int)} (h : AInv sem cost trans Sol lp ini fin o c K)
    {ts : List T} {m : S} (hp : Path sem ini ts m) :
    ∀ x, Sol m x → NonNeg trans x → totalCost cost ts + dotc cost trans x ≤ maxAllowed →
    (∃ k ∈ K, sem.eqv k.1 m = true ∧ k.2 ≤ totalCost cost ts) ∨
    (∃ y ∈ o, ∀ x', Sol m x' → NonNeg trans x' → y.f ≤ totalCost cost ts + dotc cost trans x') := by
  induction hp with
  | nil =>
    intro x hx hxn hle
    rcases h.start with ⟨k, hk, h1⟩ | ⟨y, hy, h1, h2⟩ | hd
    · exact .inl ⟨k, hk, h1, h.opt k hk [] ini x .nil h1 hx hxn hle⟩
    · refine .inr ⟨y, hy, fun x' hx' hn' => ?_⟩
      have := (h.valid y hy).lb x' (hq.congr _ _ _ .refl (h.valid y hy).path.reachable (hl.symm _ _ h1) hx') hn'
      have h2' : (y.g : Rat) ≤ 0 := by exact_mod_cast h2
      simp only [ATup.f, totalCost, List.map_nil, List.sum_nil, Int.cast_zero]; linarith
    · have := hd x hx hxn
      have h0 : (totalCost cost ([] : List T) : Rat) = 0 := by simp [totalCost]
      rw [h0] at hle; linarith
  | @snoc ts m t hp ht ih =>
    intro x hx hxn hle
    have hr := hp.reachable
    have htm := hq.mem m t hr ht
    have e : totalCost cost (ts ++ [t]) = totalCost cost ts + cost t := by simp [totalCost]
    have e' : (totalCost cost (ts ++ [t]) : Rat) = totalCost cost ts + cost t := by exact_mod_cast e
    have back : ∀ x, Sol (sem.exec t m) x → Sol m (incr x t) := fun x hx =>
      (hq.shift m t hr ht (incr x t)).2 (by
        have := decr_incr x t
        unfold decr at this; rw [this]; exact hx)
    have hct : (0 : Rat) ≤ cost t := by exact_mod_cast hc t
    have htot : (0 : Rat) ≤ totalCost cost (ts ++ [t]) := by exact_mod_cast totalCost_nonneg hc _
    have hdi := dotc_incr cost trans hq.nodup x t htm
    rcases ih (incr x t) (back x hx) (nonneg_incr hxn t) (by rw [hdi]; linarith) with ⟨k, hk, h1, h2⟩ | ⟨y, hy, h2⟩
    · have ht' := hl.enabled_congr _ _ hr (h.reach k hk) (hl.symm _ _ h1) t ht
      have hx' := hl.exec_congr _ _ (h.reach k hk) hr h1 t ht'
      rcases h.succ k hk t ht' with ⟨k', hk', h3⟩ | ⟨y, hy, h3, h4⟩ | hd
      · have h5 := hl.trans _ _ _ h3 hx'
        exact .inl ⟨k', hk', h5, h.opt k' hk' _ _ x (.snoc hp ht) h5 hx hxn hle⟩
      · refine .inr ⟨y, hy, fun x' hs' hn' => ?_⟩
        have h5 := hl.trans _ _ _ h3 hx'
        have := (h.valid y hy).lb x' (hq.congr _ _ _ (hp.snoc ht).reachable (h.valid y hy).path.reachable (hl.symm _ _ h5) hs') hn'
        have h6 : (y.g : Rat) ≤ totalCost cost (ts ++ [t]) := by
          have : y.g ≤ totalCost cost (ts ++ [t]) := by omega
          exact_mod_cast this
        unfold ATup.f; linarith
      · have := hd x (hq.congr _ _ _ (hp.snoc ht).reachable (.step (h.reach k hk) ⟨ht', rfl⟩) (hl.symm _ _ hx') hx) hxn
        linarith
    · refine .inr ⟨y, hy, fun x' hs' hn' => ?_⟩
      have := h2 (incr x' t) (back x' hs') (nonneg_incr hn' t)
      rw [dotc_incr cost trans hq.nodup x' t htm] at this
      rw [e']; linarith

theorem acover_fin (hl : Lawful sem ini) (hq : MarkingEq sem ini fin trans Sol) (hc : ∀ t, 0 ≤ cost t)
    {o : List (ATup S T)} {c : List S} {K : List (S × Int)} (h : AInv sem cost trans Sol lp ini fin o c K)
    {ts : List T} {m : S} (hp : Path sem ini ts m) (hf : sem.eqv m fin = true)
    (hle : (totalCost cost ts : Rat) ≤ maxAllowed) : ∃ y ∈ o, y.f ≤ totalCost cost ts := by
  have h0 : dotc cost trans (fun _ => (0 : Rat)) = 0 := by
    unfold dotc
    have : (trans.map fun t => (cost t : Rat) * (0 : Rat)) = trans.map fun _ => 0 := by
      apply List.map_congr_left; intros; ring
    rw [this]; simp
  have hs := hq.final m hp.reachable hf
  have hn : NonNeg trans (fun _ => (0 : Rat)) := fun _ _ => le_refl _
  rcases acover hl hq hc h hp _ hs hn (by rw [h0]; linarith) with ⟨k, hk, h1, _⟩ | ⟨y, hy, h1⟩
  · have := h.notFin k hk
    rw [hl.trans _ _ _ h1 hf] at this; cases this
  · refine ⟨y, hy, ?_⟩
    have := h1 _ hs hn
    rw [h0] at this; linarith

/-! ### Steps -/

theorem mem_pushAll (closed : List S) (curr : ATup S T) (l : List T) (o : List (ATup S T)) (y : ATup S T) :
    y ∈ pushAll sem cost trans closed curr l o ↔
      y ∈ o ∨ ∃ t ∈ l, (closed.any fun c => sem.eqv c (sem.exec t curr.m)) = false ∧
        y = ATup.child (curr.g + cost t) (max 0 (curr.h - cost t)) (sem.exec t curr.m) curr t (decr curr.x t)
          (trustSolution trans (decr curr.x t)) := by
  unfold pushAll
  induction l generalizing o with
  | nil => simp
  | cons t l ih =>
    rw [List.foldl_cons, ih]
    by_cases h : (closed.any fun c => sem.eqv c (sem.exec t curr.m)) = true
    · simp only [h, if_true]
      constructor
      · rintro (h1 | ⟨t', h1, h2, h3⟩)
        · exact .inl h1
        · exact .inr ⟨t', List.mem_cons_of_mem _ h1, h2, h3⟩
      · rintro (h1 | ⟨t', h1, h2, h3⟩)
        · exact .inl h1
        · rcases List.mem_cons.1 h1 with rfl | h1
          · rw [h] at h2; cases h2
          · exact .inr ⟨t', h1, h2, h3⟩
    · have h' := (Bool.not_eq_true _).mp h
      simp only [h', Bool.false_eq_true, if_false, derive]
      constructor
      · rintro (h1 | ⟨t', h1, h2, h3⟩)
        · rcases List.mem_append.1 h1 with h1 | h1
          · exact .inl h1
          · exact .inr ⟨t, List.mem_cons_self, h', List.mem_singleton.1 h1⟩
        · exact .inr ⟨t', List.mem_cons_of_mem _ h1, h2, h3⟩
      · rintro (h1 | ⟨t', h1, h2, h3⟩)
        · exact .inl (List.mem_append_left _ h1)
        · rcases List.mem_cons.1 h1 with rfl | h1
          · exact .inl (List.mem_append_right _ (by rw [h3]; exact List.mem_singleton.2 rfl))
          · exact .inr ⟨t', h1, h2, h3⟩

theorem AValid.child (hq : MarkingEq sem ini fin trans Sol) (hlp : LpOk cost trans Sol lp) (hc : ∀ t, 0 ≤ cost t)
    {a : ATup S T} (ha : AValid sem cost trans Sol lp ini a) (htr : a.trust = true) (hmax : a.h ≤ maxAllowed) {t : T}
    (ht : t ∈ sem.enabled a.m) :
    AValid sem cost trans Sol lp ini (ATup.child (a.g + cost t) (max 0 (a.h - cost t)) (sem.exec t a.m) a t (decr a.x t)
          (trustSolution trans (decr a.x t))) := by
  have hr := ha.path.reachable
  have htm := hq.mem _ _ hr ht
  obtain ⟨e1, e2, e3⟩ := ha.exact htr hmax
  have hlb : LB cost trans Sol (sem.exec t a.m) (max 0 (a.h - cost t)) := by
    intro x hx hn
    apply max_le (dotc_nonneg hc hn)
    have h1 := ha.lb (incr x t) ((hq.shift _ _ hr ht _).2 (by
        have := decr_incr x t
        unfold decr at this; rw [this]; exact hx)) (nonneg_incr hn t)
    rw [dotc_incr cost trans hq.nodup x t htm] at h1; linarith
  have hfl : FromLp lp (decr a.x t) := by
    obtain ⟨m, k, hk⟩ := ha.fromLp
    refine ⟨m, fun s => if s = t then k s + 1 else k s, fun s => ?_⟩
    unfold decr
    by_cases hst : s = t
    · simp only [hst, if_true]; rw [hk]; push_cast; ring
    · simp only [hst, if_false]; exact hk s
  refine ⟨.snoc ha.path ht, ?_, le_max_left _ _, hlb, ?_, hfl⟩
  · have := ha.gcost
    simp only [ATup.g, ATup.alignment, totalCost, List.map_append, List.sum_append] at this ⊢
    simp only [List.map_cons, List.map_nil, List.sum_cons, List.sum_nil, Int.add_zero]
    rw [← this]
  · intro htrust _
    simp only [ATup.trust, trustSolution, List.all_eq_true, Bool.not_eq_true', decide_eq_false_iff_not, not_lt] at htrust
    have hn : NonNeg trans (decr a.x t) := by
      intro s hs
      obtain ⟨m, k, hk⟩ := hfl
      rw [hk]
      apply hlp.gap m s hs
      rw [← hk]; exact htrust s hs
    have hs : Sol (sem.exec t a.m) (decr a.x t) := (hq.shift _ _ hr ht _).1 e1
    have hd := dotc_decr cost trans hq.nodup a.x t htm
    refine ⟨hs, hn, ?_⟩
    have h0 := dotc_nonneg hc hn
    show max 0 (a.h - cost t) = dotc cost trans (decr a.x t)
    rw [hd, e3]
    exact max_eq_right (by linarith)

theorem lp_valid (hlp : LpOk cost trans Sol lp) (hc : ∀ t, 0 ≤ cost t) (m : S) :
    0 ≤ (lp m).1 ∧ LB cost trans Sol m (lp m).1 ∧
    ((lp m).1 ≤ maxAllowed → Sol m (lp m).2 ∧ NonNeg trans (lp m).2 ∧ (lp m).1 = dotc cost trans (lp m).2) := by
  by_cases h : ∃ x, Sol m x ∧ NonNeg trans x
  · obtain ⟨h1, h2, h3, h4⟩ := hlp.feasible m h
    exact ⟨by rw [h3]; exact dotc_nonneg hc h2, h4, fun _ => ⟨h1, h2, h3⟩⟩
  · rw [hlp.infeasible m h]
    refine ⟨by norm_num [maxSize], fun x hx hn => (h ⟨x, hx, hn⟩).elim, fun hle => ?_⟩
    norm_num [maxSize, maxAllowed] at hle

theorem AValid.retrust (hlp : LpOk cost trans Sol lp) (hc : ∀ t, 0 ≤ cost t)
    {a : ATup S T} (ha : AValid sem cost trans Sol lp ini a) :
    AValid sem cost trans Sol lp ini (a.retrust (lp a.m).1 (lp a.m).2) := by
  obtain ⟨h1, h2, h3⟩ := lp_valid (lp := lp) hlp hc a.m
  have hf : FromLp lp (lp a.m).2 := ⟨a.m, fun _ => 0, fun t => by simp⟩
  cases a with
  | root h m x => exact ⟨ha.path, ha.gcost, h1, h2, fun _ => h3, hf⟩
  | child g h m p t x b => exact ⟨ha.path, ha.gcost, h1, h2, fun _ => h3, hf⟩

theorem retrust_m (a : ATup S T) (h : Rat) (x : T → Rat) : (a.retrust h x).m = a.m := by cases a <;> rfl
theorem retrust_g (a : ATup S T) (h : Rat) (x : T → Rat) : (a.retrust h x).g = a.g := by cases a <;> rfl

/-- replace the open tuples by others that cover the same states -/
theorem AInv.mono {o o' : List (ATup S T)} {c : List S} {K : List (S × Int)} (h : AInv sem cost trans Sol lp ini fin o c K)
    (hv : ∀ a ∈ o', AValid sem cost trans Sol lp ini a)
    (hcov : ∀ y ∈ o, (∃ y' ∈ o', y'.m = y.m ∧ y'.g = y.g)) : AInv sem cost trans Sol lp ini fin o' c K := by
  refine ⟨h.fst, hv, h.reach, h.notFin, h.opt, ?_, ?_⟩
  · intro k hk t ht
    rcases h.succ k hk t ht with h1 | ⟨y, hy, h1, h2⟩ | h1
    · exact .inl h1
    · obtain ⟨y', hy', e1, e2⟩ := hcov y hy
      exact .inr (.inl ⟨y', hy', by rw [e1]; exact h1, by rw [e2]; exact h2⟩)
    · exact .inr (.inr h1)
  · rcases h.start with h1 | ⟨y, hy, h1, h2⟩ | h1
    · exact .inl h1
    · obtain ⟨y', hy', e1, e2⟩ := hcov y hy
      exact .inr (.inl ⟨y', hy', by rw [e1]; exact h1, by rw [e2]; exact h2⟩)
    · exact .inr (.inr h1)

/-- drop a tuple whose state is closed or dead -/
theorem AInv.drop (hl : Lawful sem ini) (hq : MarkingEq sem ini fin trans Sol) {o : List (ATup S T)} {a : ATup S T} {c : List S}
    {K : List (S × Int)} (h : AInv sem cost trans Sol lp ini fin (a :: o) c K)
    (hd : (c.any fun c => sem.eqv c a.m) = true ∨ Dead cost trans Sol a.m) : AInv sem cost trans Sol lp ini fin o c K := by
  have key : ∀ m, Reachable sem ini m → sem.eqv a.m m = true → (∃ k' ∈ K, sem.eqv k'.1 m = true) ∨ Dead cost trans Sol m := by
    intro m hm he
    rcases hd with hd | hd
    · left
      rw [← h.fst, List.any_map, List.any_eq_true] at hd
      obtain ⟨k, hk, h1⟩ := hd
      exact ⟨k, hk, hl.trans _ _ _ h1 he⟩
    · right
      intro x hx hn
      exact hd x (hq.congr _ _ _ hm (h.valid a List.mem_cons_self).path.reachable (hl.symm _ _ he) hx) hn
  refine ⟨h.fst, fun b hb => h.valid b (List.mem_cons_of_mem _ hb), h.reach, h.notFin, h.opt, ?_, ?_⟩
  · intro k hk t ht
    rcases h.succ k hk t ht with h1 | ⟨y, hy, h1, h2⟩ | h1
    · exact .inl h1
    · rcases List.mem_cons.1 hy with rfl | hy
      · rcases key _ (.step (h.reach k hk) ⟨ht, rfl⟩) h1 with h3 | h3
        · exact .inl h3
        · exact .inr (.inr h3)
      · exact .inr (.inl ⟨y, hy, h1, h2⟩)
    · exact .inr (.inr h1)
  · rcases h.start with h1 | ⟨y, hy, h1, h2⟩ | h1
    · exact .inl h1
    · rcases List.mem_cons.1 hy with rfl | hy
      · rcases key _ .refl h1 with h3 | h3
        · exact .inl h3
        · exact .inr (.inr h3)
      · exact .inr (.inl ⟨y, hy, h1, h2⟩)
    · exact .inr (.inr h1)

theorem AInv.perm {o o' : List (ATup S T)} {c : List S} {K : List (S × Int)} (h : AInv sem cost trans Sol lp ini fin o c K)
    (hp : o.Perm o') : AInv sem cost trans Sol lp ini fin o' c K :=
  h.mono (fun a ha => h.valid a (hp.mem_iff.2 ha)) fun y hy => ⟨y, hp.mem_iff.1 hy, rfl, rfl⟩

/-- expansion of a trusted tuple with the least `f` -/
theorem AInv.expand (hl : Lawful sem ini) (hq : MarkingEq sem ini fin trans Sol) (hlp : LpOk cost trans Sol lp)
    (hc : ∀ t, 0 ≤ cost t) {o : List (ATup S T)} {a : ATup S T} {c : List S} {K : List (S × Int)}
    (h : AInv sem cost trans Sol lp ini fin (a :: o) c K) (hmin : ∀ y ∈ o, a.f ≤ y.f) (htr : a.trust = true)
    (hmax : a.h ≤ maxAllowed) (hncl : ¬ (c.any fun c => sem.eqv c a.m) = true)
    (hnf : ¬ (decide (a.h < (1/100 : Rat)) && sem.eqv a.m fin) = true) (l : List T) (hll : l.Perm (sem.enabled a.m)) :
    AInv sem cost trans Sol lp ini fin (pushAll sem cost trans (c ++ [a.m]) a l o) (c ++ [a.m]) (K ++ [(a.m, a.g)]) := by
  have hv := h.valid a List.mem_cons_self
  obtain ⟨e1, e2, e3⟩ := hv.exact htr hmax
  have hclK : ∀ k ∈ K, ∀ m, sem.eqv k.1 m = true → sem.eqv a.m m = true → False := by
    intro k hk m h1 h2
    apply hncl
    rw [← h.fst, List.any_map, List.any_eq_true]
    exact ⟨k, hk, hl.trans _ _ _ h1 (hl.symm _ _ h2)⟩
  refine ⟨by simp [h.fst], ?_, ?_, ?_, ?_, ?_, ?_⟩
  · intro x hx
    rcases (mem_pushAll _ _ _ _ _).1 hx with hx | ⟨t, ht, _, rfl⟩
    · exact h.valid x (List.mem_cons_of_mem _ hx)
    · exact AValid.child hq hlp hc hv htr hmax (hll.mem_iff.1 ht)
  · intro k hk
    rcases List.mem_append.1 hk with hk | hk
    · exact h.reach k hk
    · rw [List.mem_singleton.1 hk]; exact hv.path.reachable
  · intro k hk
    rcases List.mem_append.1 hk with hk | hk
    · exact h.notFin k hk
    · rw [List.mem_singleton.1 hk]
      rw [← Bool.not_eq_true]
      intro hf
      apply hnf
      rw [Bool.and_eq_true, decide_eq_true_eq]
      refine ⟨?_, hf⟩
      have := hv.lb _ (hq.final _ hv.path.reachable hf) (fun _ _ => le_refl _)
      have h0 : dotc cost trans (fun _ => (0 : Rat)) = 0 := by
        unfold dotc
        have : (trans.map fun t => (cost t : Rat) * (0 : Rat)) = trans.map fun _ => 0 := by
          apply List.map_congr_left; intros; ring
        rw [this]; simp
      rw [h0] at this
      linarith
  · intro k hk ts m x hp he hx hn hle
    rcases List.mem_append.1 hk with hk | hk
    · exact h.opt k hk ts m x hp he hx hn hle
    · rw [List.mem_singleton.1 hk] at he ⊢
      rcases acover hl hq hc h hp x hx hn hle with ⟨k', hk', h1, _⟩ | ⟨y, hy, h1⟩
      · exact (hclK k' hk' m h1 he).elim
      · have h2 := h1 _ (hq.congr _ _ _ hv.path.reachable hp.reachable he e1) e2
        rw [← e3] at h2
        have h3 : a.f ≤ y.f := by
          rcases List.mem_cons.1 hy with rfl | hy
          · exact le_refl _
          · exact hmin y hy
        unfold ATup.f at h2 h3
        have : (a.g : Rat) ≤ totalCost cost ts := by linarith
        exact_mod_cast this
  · intro k hk t ht
    rcases List.mem_append.1 hk with hk | hk
    · rcases h.succ k hk t ht with ⟨k', hk', h1⟩ | ⟨y, hy, h1, h2⟩ | h1
      · exact .inl ⟨k', List.mem_append_left _ hk', h1⟩
      · rcases List.mem_cons.1 hy with rfl | hy
        · exact .inl ⟨(y.m, y.g), by simp, h1⟩
        · exact .inr (.inl ⟨y, (mem_pushAll _ _ _ _ _).2 (.inl hy), h1, h2⟩)
      · exact .inr (.inr h1)
    · have hk := List.mem_singleton.1 hk
      subst hk
      by_cases hcl : ((c ++ [a.m]).any fun c => sem.eqv c (sem.exec t a.m)) = true
      · left
        rw [List.any_append, Bool.or_eq_true] at hcl
        rcases hcl with hcl | hcl
        · rw [← h.fst, List.any_map, List.any_eq_true] at hcl
          obtain ⟨k0, hk0, he0⟩ := hcl
          exact ⟨k0, List.mem_append_left _ hk0, he0⟩
        · exact ⟨(a.m, a.g), by simp, by simpa using hcl⟩
      · right; left
        exact ⟨_, (mem_pushAll _ _ _ _ _).2 (.inr ⟨t, hll.mem_iff.2 ht, by simpa using hcl, rfl⟩),
          hl.refl _, Int.le_refl _⟩
  · rcases h.start with ⟨k', hk', h1⟩ | ⟨y, hy, h1, h2⟩ | h1
    · exact .inl ⟨k', List.mem_append_left _ hk', h1⟩
    · rcases List.mem_cons.1 hy with rfl | hy
      · exact .inl ⟨(y.m, y.g), by simp, h1⟩
      · exact .inr (.inl ⟨y, (mem_pushAll _ _ _ _ _).2 (.inl hy), h1, h2⟩)
    · exact .inr (.inr h1)

/-! ### The search -/

variable (sem cost trans Sol lp ini fin) in
/-- invariant of the state of the search -/
def ASInv : ASt S T → Prop
  | .running o c none => ∃ K, AInv sem cost trans Sol lp ini fin o c K
  | .running o c (some a) => (∃ K, AInv sem cost trans Sol lp ini fin (a :: o) c K) ∧ ∀ y ∈ o, a.f ≤ y.f
  | .found x => Path sem ini x.alignment x.m ∧ x.g = totalCost cost x.alignment ∧ sem.eqv x.m fin = true ∧
      ∀ ts m, Path sem ini ts m → sem.eqv m fin = true → (totalCost cost ts : Rat) ≤ maxAllowed → x.g ≤ totalCost cost ts
  | .exhausted => ∀ ts m, Path sem ini ts m → sem.eqv m fin = true → maxAllowed < (totalCost cost ts : Rat)
  | .indexError => ∀ ts m, Path sem ini ts m → sem.eqv m fin = true → maxAllowed < (totalCost cost ts : Rat)

theorem none_of_empty (hl : Lawful sem ini) (hq : MarkingEq sem ini fin trans Sol) (hc : ∀ t, 0 ≤ cost t) {c : List S}
    {K : List (S × Int)} (h : AInv sem cost trans Sol lp ini fin [] c K) :
    ∀ ts m, Path sem ini ts m → sem.eqv m fin = true → maxAllowed < (totalCost cost ts : Rat) := by
  intro ts m hp hf
  by_contra hn
  obtain ⟨y, hy, _⟩ := acover_fin hl hq hc h hp hf (not_lt.1 hn)
  cases hy

theorem pop_inv (hl : Lawful sem ini) (hq : MarkingEq sem ini fin trans Sol) (hc : ∀ t, 0 ≤ cost t) (sch : ASched S T)
    (hs : sch.Ok) (n : Nat) {o : List (ATup S T)} {c : List S} (h : ∃ K, AInv sem cost trans Sol lp ini fin o c K)
    (e : ASt S T) (he : e = .exhausted ∨ e = .indexError) :
    ASInv sem cost trans Sol lp ini fin (match sch.pop n o with
      | none => e
      | some (curr, rest) => .running rest c (some curr)) := by
  obtain ⟨K, h⟩ := h
  cases o with
  | nil =>
    rw [hs.pop_nil]
    rcases he with rfl | rfl <;> exact none_of_empty hl hq hc h
  | cons z o' =>
    obtain ⟨curr, rest, hpop, hperm, hmin⟩ := hs.pop_cons n (z :: o') (by simp)
    rw [hpop]
    exact ⟨⟨K, h.perm hperm⟩, hmin⟩

theorem astep_inv (hl : Lawful sem ini) (hq : MarkingEq sem ini fin trans Sol) (hlp : LpOk cost trans Sol lp)
    (hc : ∀ t, 0 ≤ cost t) (sch : ASched S T) (hs : sch.Ok) (n : Nat) (st : ASt S T)
    (h : ASInv sem cost trans Sol lp ini fin st) :
    ASInv sem cost trans Sol lp ini fin (astarStep sem cost trans lp fin sch n st) := by
  match st, h with
  | .found x, h => exact h
  | .exhausted, h => exact h
  | .indexError, h => exact h
  | .running o c none, h => exact pop_inv hl hq hc sch hs n h _ (.inl rfl)
  | .running o c (some a), h =>
    obtain ⟨⟨K, h⟩, hmin⟩ := h
    simp only [astarStep]
    split
    · split
      · rename_i hcl
        exact pop_inv hl hq hc sch hs n ⟨K, h.drop hl hq (.inl hcl)⟩ _ (.inr rfl)
      · refine pop_inv hl hq hc sch hs n ⟨K, h.mono ?_ ?_⟩ _ (.inr rfl)
        · intro b hb
          rcases List.mem_append.1 hb with hb | hb
          · exact h.valid b (List.mem_cons_of_mem _ hb)
          · rw [List.mem_singleton.1 hb]; exact (h.valid a List.mem_cons_self).retrust hlp hc
        · intro y hy
          rcases List.mem_cons.1 hy with rfl | hy
          · exact ⟨_, List.mem_append_right _ (List.mem_singleton.2 rfl), retrust_m _ _ _, retrust_g _ _ _⟩
          · exact ⟨y, List.mem_append_left _ hy, rfl, rfl⟩
    · rename_i htr
      have htr : a.trust = true := by simpa using htr
      have hv := h.valid a List.mem_cons_self
      split
      · rename_i hbig
        refine ⟨K, h.drop hl hq (.inr ?_)⟩
        intro x hx hn
        exact lt_of_lt_of_le hbig (hv.lb x hx hn)
      · rename_i hbig
        have hmax := not_lt.1 hbig
        split
        · rename_i hcl
          exact ⟨K, h.drop hl hq (.inl hcl)⟩
        · rename_i hncl
          split
          · rename_i hf
            rw [Bool.and_eq_true] at hf
            refine ⟨hv.path, hv.gcost, hf.2, fun ts m hp he hle => ?_⟩
            obtain ⟨y, hy, h1⟩ := acover_fin hl hq hc h hp he hle
            have h2 : a.f ≤ y.f := by
              rcases List.mem_cons.1 hy with rfl | hy
              · exact le_refl _
              · exact hmin y hy
            have h3 := hv.nonneg
            have : (a.g : Rat) ≤ totalCost cost ts := by unfold ATup.f at h1 h2; linarith
            exact_mod_cast this
          · rename_i hnf
            exact ⟨_, AInv.expand hl hq hlp hc h hmin htr hmax hncl hnf _ (hs.ord_perm n _)⟩

theorem astar_inv (hl : Lawful sem ini) (hq : MarkingEq sem ini fin trans Sol) (hlp : LpOk cost trans Sol lp)
    (hc : ∀ t, 0 ≤ cost t) (sch : ASched S T) (hs : sch.Ok) (n : Nat) :
    ASInv sem cost trans Sol lp ini fin (astar sem cost trans lp ini fin sch n) := by
  induction n with
  | zero =>
    obtain ⟨h1, h2, h3⟩ := lp_valid (lp := lp) hlp hc ini
    refine ⟨[], rfl, ?_, by simp, by simp, by simp, by simp, .inr (.inl ⟨_, List.mem_singleton.2 rfl, hl.refl _, Int.le_refl _⟩)⟩
    intro x hx; rw [List.mem_singleton.1 hx]
    exact ⟨.nil, by simp [ATup.g, ATup.alignment, totalCost], h1, h2, fun _ => h3, ini, fun _ => 0, fun t => by simp [ATup.x]⟩
  | succ n ih => exact astep_inv hl hq hlp hc sch hs n _ ih

end
end Align
end Verif
