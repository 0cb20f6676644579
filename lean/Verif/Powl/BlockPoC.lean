import Verif.Powl.BlockPo
/-
Composition of blocks along a partial order (C48): every word of the specification can be replayed; the composition is a block.
-/
set_option linter.unusedSectionVars false
namespace Verif.Sys
open Verif Lang
variable {α : Type}
variable {K : Nat → PKid α} {n : Nat} {C : List Ctl} {i o lo hi : Nat} {rk : Nat → Nat} {M M' : Mk} {st : Nat → Ph} {N : Nat → Mk} {k : Nat}
  {rem : Nat → List α}

theorem transGen_head {R : Nat → Nat → Prop} {a b c : Nat} (h : R a b) (h' : Relation.TransGen R b c) : Relation.TransGen R a c := by
  induction h' with
  | single h1 => exact .tail (.single h) h1
  | tail _ h1 ih => exact .tail ih h1

/-- child `k` still has to do the word `rem k` -/
structure Todo (K : Nat → PKid α) (n : Nat) (C : List Ctl) (M : Mk) (st : Nat → Ph) (N : Nat → Mk) (rem : Nat → List α) : Prop where
  cfg : Cfg K n C M st N
  w : ∀ k < n, st k = .w → (K k).L (rem k)
  a : ∀ k < n, st k = .a → Run (K k).T (N k) (rem k) (toks [(K k).fp])
  d : ∀ k < n, st k = .d → rem k = []

theorem Todo.congr {rem' : Nat → List α} (h : Todo K n C M st N rem) (e : ∀ k < n, rem k = rem' k) : Todo K n C M st N rem' :=
  ⟨h.cfg, fun k hk hs => e k hk ▸ h.w k hk hs, fun k hk hs => e k hk ▸ h.a k hk hs, fun k hk hs => e k hk ▸ h.d k hk hs⟩

/-- all direct predecessors of `k` are done -/
def PredsDone (C : List Ctl) (st : Nat → Ph) (k : Nat) : Prop := ∀ c ∈ C, c.dst = some k → ∀ j, c.src = some j → st j = .d

theorem Todo.begin (P : PoSys K n C i o lo hi rk) (h : Todo K n C M st N rem) (hk : k < n) (h0 : st k = .w) (hp : PredsDone C st k) :
    ∃ M', (iTr K C k).fires M M' ∧ Todo K n C M' (upd st k .a) (upd N k (toks [(K k).ip])) rem := by
  obtain ⟨M', f, c⟩ := h.cfg.start P hk h0 hp
  refine ⟨M', f, c, ?_, ?_, ?_⟩
  · intro l hl hs
    by_cases e : l = k
    · subst e; simp at hs
    · rw [upd_ne _ _ e] at hs; exact h.w l hl hs
  · intro l hl hs
    by_cases e : l = k
    · subst e; rw [upd_same]; exact ((P.block l hl).lang _).1 (h.w l hl h0)
    · rw [upd_ne _ _ e] at hs ⊢; exact h.a l hl hs
  · intro l hl hs
    by_cases e : l = k
    · subst e; simp at hs
    · rw [upd_ne _ _ e] at hs; exact h.d l hl hs

/-- an active child does the first part of what it has to do -/
theorem Todo.part (P : PoSys K n C i o lo hi rk) (h : Todo K n C M st N rem) (hk : k < n) (h0 : st k = .a) {u v : List α}
    (hu : rem k = u ++ v) :
    ∃ M' N', Run (poTr K n C i o) M u M' ∧ Todo K n C M' st (upd N k N') (upd rem k v) := by
  have hr := h.a k hk h0
  rw [hu] at hr
  obtain ⟨N', r1, r2⟩ := hr.split u v rfl
  obtain ⟨M', r, c⟩ := h.cfg.innerRun P hk h0 r1
  refine ⟨M', N', r, c, ?_, ?_, ?_⟩
  · intro l hl hs
    have e : l ≠ k := by rintro rfl; rw [h0] at hs; cases hs
    rw [upd_ne _ _ e]; exact h.w l hl hs
  · intro l hl hs
    by_cases e : l = k
    · subst e; rw [upd_same, upd_same]; exact r2
    · rw [upd_ne _ _ e, upd_ne _ _ e]; exact h.a l hl hs
  · intro l hl hs
    have e : l ≠ k := by rintro rfl; rw [h0] at hs; cases hs
    rw [upd_ne _ _ e]; exact h.d l hl hs

/-- an active child runs to its end: the marking before `fT` -/
theorem Todo.toEnd (P : PoSys K n C i o lo hi rk) (h : Todo K n C M st N rem) (hk : k < n) (h0 : st k = .a) :
    ∃ M' M'', Run (poTr K n C i o) M (rem k) M' ∧ (fTr K C k).fires M' M'' ∧
      Todo K n C M'' (upd st k .d) (upd N k (toks [(K k).fp])) (upd rem k []) := by
  obtain ⟨M', r, c⟩ := h.cfg.innerRun P hk h0 (h.a k hk h0)
  obtain ⟨M'', f, c'⟩ := c.finish P hk h0 (by rw [upd_same])
  refine ⟨M', M'', r, f, c', ?_, ?_, ?_⟩
  · intro l hl hs
    by_cases e : l = k
    · subst e; simp at hs
    · rw [upd_ne _ _ e] at hs ⊢; exact h.w l hl hs
  · intro l hl hs
    by_cases e : l = k
    · subst e; simp at hs
    · rw [upd_ne _ _ e] at hs ⊢; rw [upd_ne _ _ e]; exact h.a l hl hs
  · intro l hl hs
    by_cases e : l = k
    · subst e; simp
    · rw [upd_ne _ _ e] at hs ⊢; exact h.d l hl hs

theorem Todo.finishKid (P : PoSys K n C i o lo hi rk) (h : Todo K n C M st N rem) (hk : k < n) (hs : st k ≠ .d) (hp : PredsDone C st k) :
    ∃ M' N', Run (poTr K n C i o) M (rem k) M' ∧ Todo K n C M' (upd st k .d) N' (upd rem k []) := by
  cases h0 : st k with
  | d => exact absurd h0 hs
  | a =>
    obtain ⟨M1, M2, r, f, t⟩ := h.toEnd P hk h0
    exact ⟨M2, _, (Run.snoc r (fTr_mem hk) f).cast (by simp [fTr]), t⟩
  | w =>
    obtain ⟨M0, f0, t0⟩ := h.begin P hk h0 hp
    obtain ⟨M1, M2, r, f, t⟩ := t0.toEnd P hk (by simp)
    have : upd (upd st k .a) k .d = upd st k .d := by funext j; unfold upd; split <;> rfl
    rw [this] at t
    exact ⟨M2, _, ((Run.step (iTr_mem hk) f0).trans (Run.snoc r (fTr_mem hk) f)).cast (by simp [fTr, iTr]), t⟩

/-- among the children with a property there is one all of whose direct predecessors do not have it -/
theorem exists_min (rk : Nat → Nat) (Q : Nat → Prop) : ∀ r k, rk k ≤ r → Q k → ∃ k', Q k' ∧ ∀ j, rk j < rk k' → ¬ Q j := by
  intro r
  induction r with
  | zero => intro k hk hq; exact ⟨k, hq, fun j hj => by omega⟩
  | succ r ih =>
    intro k hk hq
    by_cases h : ∃ j, rk j < rk k ∧ Q j
    · obtain ⟨j, h1, h2⟩ := h; exact ih j (by omega) h2
    · exact ⟨k, hq, fun j h1 h2 => h ⟨j, h1, h2⟩⟩

/-- finish all children of a set that is closed under predecessors -/
theorem Todo.close (P : PoSys K n C i o lo hi rk) (D : Nat → Prop) (hD : ∀ c ∈ C, ∀ j l, c.src = some j → c.dst = some l → D l → D j) :
    ∀ m (M : Mk) (st : Nat → Ph) (N : Nat → Mk) (rem : Nat → List α),
      (open Classical in (List.range n).countP fun k => decide (D k ∧ st k ≠ .d)) ≤ m → Todo K n C M st N rem →
      ∃ w M' st' N' rem', Run (poTr K n C i o) M w M' ∧ Todo K n C M' st' N' rem' ∧ (∀ k < n, D k → st' k = .d) ∧
        (∀ k, ¬ D k → st' k = st k ∧ rem' k = rem k) ∧ ((∀ k < n, D k → rem k = []) → w = []) := by
  classical
  intro m
  induction m with
  | zero =>
    intro M st N rem hm h
    refine ⟨[], M, st, N, rem, .nil, h, ?_, fun k _ => ⟨rfl, rfl⟩, fun _ => rfl⟩
    intro k hk hd
    refine Classical.byContradiction fun hn => ?_
    have := List.countP_eq_zero.1 (Nat.le_zero.1 hm) k (List.mem_range.2 hk)
    simp only [decide_eq_true_eq] at this
    exact this ⟨hd, hn⟩
  | succ m ih =>
    intro M st N rem hm h
    by_cases hex : ∃ k, k < n ∧ D k ∧ st k ≠ .d
    · obtain ⟨k0, hk0⟩ := hex
      obtain ⟨k, ⟨hk, hdk, hsk⟩, hmin⟩ := exists_min rk (fun k => k < n ∧ D k ∧ st k ≠ .d) (rk k0) k0 (Nat.le_refl _) hk0
      have hp : PredsDone C st k := by
        intro c hc hd j hj
        refine Classical.byContradiction fun hn => ?_
        exact hmin j (P.rank c hc j k hj hd) ⟨P.src c hc j hj, hD c hc j k hj hd hdk, hn⟩
      obtain ⟨M1, N1, r1, t1⟩ := h.finishKid P hk hsk hp
      have hlt : ((List.range n).countP fun k' => decide (D k' ∧ upd st k .d k' ≠ .d)) <
          (List.range n).countP fun k => decide (D k ∧ st k ≠ .d) := by
        refine BinRel.countP_lt _ _ _ ?_ k (List.mem_range.2 hk) (by simpa using ⟨hdk, hsk⟩) (by simp)
        intro x _ hx
        simp only [decide_eq_true_eq] at hx ⊢
        refine ⟨hx.1, fun hs => hx.2 ?_⟩
        unfold upd; split <;> simp_all
      obtain ⟨w, M', st', N', rem', r, t, h1, h2, h3⟩ := ih M1 _ N1 _ (by omega) t1
      refine ⟨rem k ++ w, M', st', N', rem', r1.trans r, t, h1, ?_, ?_⟩
      · intro j hj
        have e : j ≠ k := fun e => hj (e ▸ hdk)
        have := h2 j hj
        rw [upd_ne _ _ e, upd_ne _ _ e] at this; exact this
      · intro hr
        rw [hr k hk hdk, h3, List.nil_append]
        intro j hj hd
        by_cases e : j = k
        · subst e; simp
        · rw [upd_ne _ _ e]; exact hr j hj hd
    · refine ⟨[], M, st, N, rem, .nil, h, ?_, fun k _ => ⟨rfl, rfl⟩, fun _ => rfl⟩
      intro k hk hd
      exact Classical.byContradiction fun hn => hex ⟨k, hk, hd, hn⟩

/-- finish everything -/
theorem Todo.all (P : PoSys K n C i o lo hi rk) (h : Todo K n C M st N rem) :
    ∃ w M', Run (poTr K n C i o) M w M' ∧ (joinTr C o : Tr α).fires M' (toks [o]) ∧ ((∀ k < n, rem k = []) → w = []) := by
  obtain ⟨w, M', st', N', rem', r, t, h1, _, h3⟩ := Todo.close P (fun _ => True) (by simp) _ M st N rem (Nat.le_refl _) h
  exact ⟨w, M', r, t.cfg.join P fun k hk => h1 k hk trivial, fun hr => h3 fun k hk _ => hr k hk⟩

theorem joinTr_mem : (joinTr C o : Tr α) ∈ poTr K n C i o := mem_poTr.2 (.inr (.inl rfl))
theorem splitTr_mem : (splitTr C i : Tr α) ∈ poTr K n C i o := mem_poTr.2 (.inl rfl)

/-- finish the predecessors of `k` -/
theorem Todo.preds (P : PoSys K n C i o lo hi rk) (h : Todo K n C M st N rem) (k : Nat) :
    ∃ w M' st' N' rem', Run (poTr K n C i o) M w M' ∧ Todo K n C M' st' N' rem' ∧ PredsDone C st' k ∧
      (∀ j < n, ¬ Relation.TransGen (Edge C) j k → st' j = st j ∧ rem' j = rem j) ∧
      (∀ j < n, Relation.TransGen (Edge C) j k → st' j = .d) ∧
      ((∀ j < n, Relation.TransGen (Edge C) j k → rem j = []) → w = []) := by
  obtain ⟨w, M', st', N', rem', r, t, h1, h2, h3⟩ := Todo.close P (fun j => Relation.TransGen (Edge C) j k)
    (fun c hc j l hj hl h => transGen_head ⟨c, hc, hj, hl⟩ h) _ M st N rem (Nat.le_refl _) h
  refine ⟨w, M', st', N', rem', r, t, ?_, fun j _ hj => h2 j hj, h1, h3⟩
  intro c hc hd j hj
  exact h1 j (P.src c hc j hj) (.single ⟨c, hc, hj, hd⟩)

theorem PoSys.acyclic (P : PoSys K n C i o lo hi rk) : ¬ Relation.TransGen (Edge C) k k := fun h => by
  have := P.rankT h; omega

/-- replay a word of the specification -/
theorem Todo.replay (P : PoSys K n C i o lo hi rk) : ∀ (es : List (Nat × α)) (M : Mk) (st : Nat → Ph) (N : Nat → Mk),
    Todo K n C M st N (fun k => proj k es) → (∀ e ∈ es, e.1 < n) →
    (∀ i j, Relation.TransGen (Edge C) i j → es.Pairwise fun e f => ¬ (e.1 = j ∧ f.1 = i)) →
    Run (poTr K n C i o) M (es.map Prod.snd) (toks [o]) := by
  intro es
  induction es with
  | nil =>
    intro M st N h _ _
    obtain ⟨w, M', r, f, hw⟩ := h.all P
    have := hw fun k _ => rfl
    subst this
    exact (Run.snoc r joinTr_mem f).cast (by simp [joinTr])
  | cons e es ih =>
    intro M st N h hm ho
    obtain ⟨k, a⟩ := e
    have hk : k < n := hm (k, a) (by simp)
    have hnil : ∀ j, Relation.TransGen (Edge C) j k → proj j ((k, a) :: es) = [] := by
      intro j hj
      refine proj_nil fun f hf e => ?_
      rcases List.mem_cons.1 hf with rfl | hf
      · simp only at e; subst e; exact P.acyclic hj
      · exact (List.pairwise_cons.1 (ho j k hj)).1 f hf ⟨rfl, e⟩
    obtain ⟨w, M1, st1, N1, rem1, r1, t1, hp, hsame, hdone, hw⟩ := h.preds P k
    have := hw fun j _ hj => hnil j hj
    subst this
    have hrem : ∀ j < n, rem1 j = proj j ((k, a) :: es) := by
      intro j hj
      by_cases hR : Relation.TransGen (Edge C) j k
      · rw [hnil j hR]; exact t1.d j hj (hdone j hj hR)
      · exact (hsame j hj hR).2
    have t1' := t1.congr hrem
    have hpk : proj k ((k, a) :: es) = [a] ++ proj k es := by simp [proj]
    have act : ∃ M2 st2 N2, Run (poTr K n C i o) M1 [] M2 ∧ Todo K n C M2 st2 N2 (fun j => proj j ((k, a) :: es)) ∧ st2 k = .a := by
      cases h0 : st1 k with
      | d => have := t1'.d k hk h0; simp [hpk] at this
      | a => exact ⟨M1, st1, N1, .nil, t1', h0⟩
      | w =>
        obtain ⟨M2, f2, t2⟩ := t1'.begin P hk h0 hp
        exact ⟨M2, _, _, (Run.step (iTr_mem hk) f2).cast (by simp [iTr]), t2, by simp⟩
    obtain ⟨M2, st2, N2, r2, t2, h2⟩ := act
    obtain ⟨M3, N3, r3, t3⟩ := t2.part P hk h2 hpk
    have t3' : Todo K n C M3 st2 (upd N2 k N3) (fun j => proj j es) := t3.congr fun j hj => by
      by_cases e : j = k
      · subst e; rw [upd_same]
      · rw [upd_ne _ _ e]; simp [proj, Ne.symm e]
    have r4 := ih M3 st2 _ t3' (fun f hf => hm f (by simp [hf])) fun a b hab => (List.pairwise_cons.1 (ho a b hab)).2
    exact (r1.trans (r2.trans (r3.trans r4))).cast (by simp)

/-- at the beginning -/
theorem PoSys.todo (P : PoSys K n C i o lo hi rk) (hr : ∀ k < n, (K k).L (rem k)) :
    ∃ M, Run (poTr K n C i o) (toks [i]) [] M ∧ Todo K n C M (fun _ => Ph.w) (fun _ => toks []) rem := by
  obtain ⟨M, f, c⟩ := cfg_split (K := K) P
  exact ⟨M, (Run.step splitTr_mem f).cast (by simp [splitTr]), c _, fun k hk _ => hr k hk, by intro k _ h; (cases h), by intro k _ h; (cases h)⟩

theorem PoSys.words (P : PoSys K n C i o lo hi rk) : ∃ rem : Nat → List α, ∀ k < n, (K k).L (rem k) := by
  have : ∀ k, ∃ w : List α, k < n → (K k).L w := by
    intro k
    by_cases hk : k < n
    · obtain ⟨w, hw⟩ := (P.block k hk).nonempty; exact ⟨w, fun _ => hw⟩
    · exact ⟨[], fun h => absurd h hk⟩
  exact Classical.axiomOfChoice this

/-- from what is known during a run, what remains to be done -/
theorem Hist.todo (P : PoSys K n C i o lo hi rk) {es : List (Nat × α)} (H : Hist K n C M st N es) : ∃ rem, Todo K n C M st N rem := by
  have : ∀ k, ∃ w : List α, k < n → (st k = .w → (K k).L w) ∧ (st k = .a → Run (K k).T (N k) w (toks [(K k).fp])) ∧ (st k = .d → w = []) := by
    intro k
    by_cases hk : k < n
    · cases h : st k with
      | w => obtain ⟨w, hw⟩ := (P.block k hk).nonempty; exact ⟨w, fun _ => ⟨fun _ => hw, by simp, by simp⟩⟩
      | a => obtain ⟨w, hw⟩ := (P.block k hk).complete _ _ (H.act k hk h); exact ⟨w, fun _ => ⟨by simp, fun _ => hw, by simp⟩⟩
      | d => exact ⟨[], fun _ => ⟨by simp, by simp, fun _ => rfl⟩⟩
    · exact ⟨[], fun h => absurd h hk⟩
  obtain ⟨rem, hrem⟩ := Classical.axiomOfChoice this
  exact ⟨rem, H.cfg, fun k hk => (hrem k hk).1, fun k hk => (hrem k hk).2.1, fun k hk => (hrem k hk).2.2⟩

theorem Cfg.safe (P : PoSys K n C i o lo hi rk) {es : List (Nat × α)} (H : Hist K n C M st N es) (p : Nat) : M p ≤ 1 := by
  have h := H.cfg
  by_cases hc : ∃ c ∈ C, c.p = p
  · obtain ⟨c, hc, rfl⟩ := hc
    by_cases hl : Live st c
    · rw [h.ctl1 c hc hl]; omega
    · rw [h.ctl0 c hc hl]; omega
  · by_cases hr : ∃ k, k < n ∧ (K k).Rng p
    · obtain ⟨k, hk, hr⟩ := hr
      by_cases hs : st k = .a
      · rw [h.rngA k hk hs p hr]; exact (P.block k hk).safe _ _ (H.act k hk hs) p
      · rw [h.rng0 k hk hs p hr]; omega
    · rw [h.zero p (fun c h1 h2 => hc ⟨c, h1, h2⟩) fun k hk hr' => hr ⟨k, hk, hr'⟩]; omega

theorem Cfg.out (P : PoSys K n C i o lo hi rk) (h : Cfg K n C M st N) : M o = 0 := by
  refine h.zero o ?_ ?_
  · rintro c hc rfl
    have := (P.ctlp c hc).1; have := P.olo; unfold Inner at *; omega
  · intro k hk hr
    have := P.rng k hk o hr; have := P.olo; unfold Inner at *; omega

/-- what is reached during a run: the state before the split, a state in between, the final state -/
theorem block_po_spec (P : PoSys K n C i o lo hi rk) : Block (poTr K n C i o) i o lo hi (PoSpec K n C) := by
  have key := fun {w : List α} {M : Mk} (hr : Run (poTr K n C i o) (toks [i]) w M) => po_run P hr
  have ctlPre : ∀ d, ∀ p ∈ ctlIn C d, Inner lo hi p := by
    intro d p hp
    obtain ⟨c, hc, rfl⟩ := List.mem_map.1 hp
    exact (P.ctlp c (List.mem_filter.1 hc).1).1
  have ctlPost : ∀ s, ∀ p ∈ ctlOut C s, Inner lo hi p := by
    intro d p hp
    obtain ⟨c, hc, rfl⟩ := List.mem_map.1 hp
    exact (P.ctlp c (List.mem_filter.1 hc).1).1
  have mIn : ∀ c ∈ C, c.p ∈ ctlIn C c.dst := fun c hc => List.mem_map.2 ⟨c, List.mem_filter.2 ⟨hc, by simp⟩, rfl⟩
  have mOut : ∀ c ∈ C, c.p ∈ ctlOut C c.src := fun c hc => List.mem_map.2 ⟨c, List.mem_filter.2 ⟨hc, by simp⟩, rfl⟩
  obtain ⟨rem0, hrem0⟩ := P.words
  obtain ⟨M0, r0, t0⟩ := P.todo hrem0
  refine ⟨P.ilo, P.olo, P.le, P.ne, ?_, ?_, ?_, ?_, ?_, ?_, ?_, ?_⟩
  · intro t ht
    rcases mem_poTr.1 ht with rfl | rfl | ⟨k, hk, rfl | rfl | ht⟩
    · exact ⟨by simp [splitTr], fun p hp => .inl (by simpa [splitTr] using hp)⟩
    · obtain ⟨c, hc, hd⟩ := P.join
      refine ⟨List.ne_nil_of_mem (hd ▸ mIn c hc : c.p ∈ ctlIn C none), fun p hp => .inr (ctlPre _ p hp)⟩
    · obtain ⟨c, hc, hd⟩ := P.hasIn k hk
      refine ⟨List.ne_nil_of_mem (hd ▸ mIn c hc : c.p ∈ ctlIn C (some k)), fun p hp => .inr (ctlPre _ p hp)⟩
    · refine ⟨by simp [fTr], fun p hp => .inr ?_⟩
      have : p = (K k).fp := by simpa [fTr] using hp
      subst this; exact P.rng k hk _ (.inr (.inl rfl))
    · exact ⟨((P.block k hk).pre t ht).1, fun p hp => .inr (P.rng k hk p ((P.kid_rng hk ht).1 p hp))⟩
  · intro t ht p hp
    rcases mem_poTr.1 ht with rfl | rfl | ⟨k, hk, rfl | rfl | ht⟩
    · exact .inr (ctlPost _ p hp)
    · left; simpa [joinTr] using hp
    · right
      have : p = (K k).ip := by simpa [iTr] using hp
      subst this; exact P.rng k hk _ (.inl rfl)
    · exact .inr (ctlPost _ p hp)
    · exact .inr (P.rng k hk p ((P.kid_rng hk ht).2 p hp))
  · intro w M hr hM
    rcases key hr with ⟨_, rfl⟩ | ⟨st, N, es, H, _⟩ | ⟨rfl, _⟩
    · rw [toks_single, if_neg (Ne.symm P.ne)] at hM; omega
    · rw [H.cfg.out P] at hM; omega
    · rfl
  · intro w M hr p
    rcases key hr with ⟨_, rfl⟩ | ⟨st, N, es, H, _⟩ | ⟨rfl, _⟩
    · rw [toks_single]; split <;> omega
    · exact Cfg.safe P H p
    · rw [toks_single]; split <;> omega
  · intro w M hr
    rcases key hr with ⟨_, rfl⟩ | ⟨st, N, es, H, _⟩ | ⟨rfl, _⟩
    · obtain ⟨v, M', r, f, _⟩ := t0.all P
      exact ⟨_, r0.trans (.snoc r joinTr_mem f)⟩
    · obtain ⟨rem, t⟩ := H.todo P
      obtain ⟨v, M', r, f, _⟩ := t.all P
      exact ⟨_, .snoc r joinTr_mem f⟩
    · exact ⟨[], .nil⟩
  · intro t ht
    have start : ∀ k < n, ∃ w M1 st1 N1 rem1, Run (poTr K n C i o) (toks [i]) w M1 ∧ Todo K n C M1 st1 N1 rem1 ∧ st1 k = .w ∧ PredsDone C st1 k := by
      intro k hk
      obtain ⟨w, M1, st1, N1, rem1, r1, t1, hp, hsame, _, _⟩ := t0.preds P k
      exact ⟨w, M1, st1, N1, rem1, (r0.trans r1).cast (by simp), t1, (hsame k hk P.acyclic).1, hp⟩
    rcases mem_poTr.1 ht with rfl | rfl | ⟨k, hk, ht⟩
    · exact ⟨_, _, _, .nil, fires_self _⟩
    · obtain ⟨v, M', r, f, _⟩ := t0.all P
      exact ⟨_, _, _, r0.trans r, f⟩
    · obtain ⟨w, M1, st1, N1, rem1, r1, t1, hs, hp⟩ := start k hk
      obtain ⟨M2, f2, t2⟩ := t1.begin P hk hs hp
      have r2 := Run.snoc r1 (iTr_mem hk) f2
      rcases ht with rfl | rfl | ht
      · exact ⟨_, _, _, r1, f2⟩
      · obtain ⟨M3, M4, r3, f3, _⟩ := t2.toEnd P hk (by simp)
        exact ⟨_, _, _, r2.trans r3, f3⟩
      · obtain ⟨w', N', N'', hw, hf⟩ := (P.block k hk).live t ht
        have hw' : Run (K k).T (upd N1 k (toks [(K k).ip]) k) w' N' := by rw [upd_same]; exact hw
        obtain ⟨M3, r3, c3⟩ := t2.cfg.innerRun P hk (by simp) hw'
        have hf' : t.fires (upd (upd N1 k (toks [(K k).ip])) k N' k) N'' := by rw [upd_same]; exact hf
        obtain ⟨M4, f4, _⟩ := c3.inner P hk (by simp) ht hf'
        exact ⟨_, _, _, r2.trans r3, f4⟩
  · intro p hp
    rcases P.cover p hp with ⟨c, hc, rfl⟩ | ⟨k, hk, hr⟩
    · constructor
      · have := mIn c hc
        cases hd : c.dst with
        | none => rw [hd] at this; exact ⟨_, joinTr_mem, this⟩
        | some k => rw [hd] at this; exact ⟨_, iTr_mem (P.dst c hc k hd), this⟩
      · have := mOut c hc
        cases hd : c.src with
        | none => rw [hd] at this; exact ⟨_, splitTr_mem, this⟩
        | some k => rw [hd] at this; exact ⟨_, fTr_mem (P.src c hc k hd), this⟩
    · have b := P.block k hk
      rcases hr with rfl | rfl | hr
      · obtain ⟨t, ht, h⟩ := b.uses_i
        exact ⟨⟨t, kTr_mem hk ht, h⟩, ⟨_, iTr_mem hk, by simp [iTr]⟩⟩
      · obtain ⟨t, ht, h⟩ := b.uses_o
        exact ⟨⟨_, fTr_mem hk, by simp [fTr]⟩, ⟨t, kTr_mem hk ht, h⟩⟩
      · obtain ⟨⟨t, ht, h1⟩, ⟨t', ht', h2⟩⟩ := b.used p hr
        exact ⟨⟨t, kTr_mem hk ht, h1⟩, ⟨t', kTr_mem hk ht', h2⟩⟩
  · intro w
    constructor
    · rintro ⟨es, rfl, h1, h2, h3⟩
      obtain ⟨M, r, t⟩ := P.todo (rem := fun k => proj k es) h2
      exact (r.trans (t.replay P es _ _ _ h1 h3)).cast (by simp)
    · intro hr
      rcases key hr with ⟨_, e⟩ | ⟨st, N, es, H, _⟩ | ⟨_, h⟩
      · exact absurd e (toks_ne P.ne)
      · have := H.cfg.out P
        rw [toks_single, if_pos rfl] at this; omega
      · exact h

end Verif.Sys
