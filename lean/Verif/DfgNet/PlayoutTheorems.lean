import Verif.DfgNet.PlayoutProofs
set_option linter.unusedSectionVars false
/-
C44: theorems on the playout of directly-follows graphs.
-/
namespace Verif.DfgNet
variable {α : Type} [DecidableEq α]

theorem mem_shares (g : Graph α) (a : α) (o : Option α) (r : Rat) :
    (o, r) ∈ (shares g a).getD [] ↔ ∃ n, (o, n) ∈ targets g a ∧ r = (n : Rat) / outFlow g a := by
  by_cases h : targets g a = []
  · have : shares g a = none := by unfold shares; rw [h]
    rw [this, h]; simp
  · rw [shares_some g a h, Option.getD_some, List.mem_map, weight_targets]
    constructor
    · rintro ⟨⟨o', n⟩, hn, he⟩
      simp only [Prod.mk.injEq] at he
      obtain ⟨rfl, rfl⟩ := he
      exact ⟨n, hn, rfl⟩
    · rintro ⟨n, hn, rfl⟩
      exact ⟨_, hn, rfl⟩

theorem mem_children (g : Graph α) (maxOcc : Nat) (p : Rat) (w : List α) (a : α) (ha : w.getLast? = some a) (y : Rat × List α) :
    y ∈ children g maxOcc (p, w) ↔ ∃ b n, ((a, b), n) ∈ g.arcs ∧ w.count b < maxOcc ∧ y = (p * ((n : Rat) / outFlow g a), w ++ [b]) := by
  unfold children
  simp only [ha, List.mem_filterMap]
  constructor
  · rintro ⟨⟨o, r⟩, h, hy⟩
    obtain ⟨n, hn, rfl⟩ := (mem_shares g a o r).1 h
    cases o with
    | none => simp at hy
    | some b =>
      simp only at hy
      split at hy
      · rename_i hlt
        exact ⟨b, n, (mem_targets_some g a b n).1 hn, hlt, (Option.some.inj hy).symm⟩
      · cases hy
  · rintro ⟨b, n, h1, h2, rfl⟩
    exact ⟨(some b, (n : Rat) / outFlow g a), (mem_shares g a _ _).2 ⟨n, (mem_targets_some g a b n).2 h1, rfl⟩, by simp [h2]⟩

theorem mem_yields (g : Graph α) (maxOcc : Nat) (hm : 1 ≤ maxOcc) (p : Rat) (w : List α) (a : α) (ha : w.getLast? = some a) (v : List α) (q : Rat) :
    (v, q) ∈ yields g maxOcc (p, w) ↔ ∃ n, g.ends.get? a = some n ∧ v = w ∧ q = p * ((n : Rat) / outFlow g a) := by
  unfold yields
  simp only [ha, List.mem_filterMap]
  constructor
  · rintro ⟨⟨o, r⟩, h, hy⟩
    obtain ⟨n, hn, rfl⟩ := (mem_shares g a o r).1 h
    cases o with
    | none =>
      have : 0 < maxOcc := hm
      simp only [this, if_true, Option.some.injEq, Prod.mk.injEq] at hy
      exact ⟨n, (mem_targets_none g a n).1 hn, hy.1.symm, hy.2.symm⟩
    | some b => simp at hy
  · rintro ⟨n, h1, rfl, rfl⟩
    have : 0 < maxOcc := hm
    exact ⟨(none, (n : Rat) / outFlow g a), (mem_shares g a _ _).2 ⟨n, (mem_targets_none g a n).2 h1, rfl⟩, by simp [this]⟩

theorem count_arcs (g : Graph α) (hc : Complete g) (e : α × α) (n : Int) (h : (e, n) ∈ g.arcs) : g.arcs.count e = n := by
  unfold Dict.count
  rw [Dict.get?_of_mem_nodup hc.keys.1 h]; rfl

theorem mem_enum (g : Graph α) (hc : Complete g) (maxOcc : Nat) (hm : 1 ≤ maxOcc) (n : Nat) (p : Rat) (w : List α) (a : α)
    (ha : w.getLast? = some a) (hocc : ∀ c, w.count c ≤ maxOcc) (v : List α) (q : Rat) :
    (v, q) ∈ enum g maxOcc n (p, w) ↔ ∃ u, v = w ++ u ∧ u.length < n ∧ Tail g.E g.F a u ∧ (∀ c, v.count c ≤ maxOcc) ∧
      q = p * walkProb g (a :: u) := by
  induction n generalizing p w a with
  | zero => simp [enum]
  | succ n ih =>
    rw [enum, List.mem_append, mem_yields g maxOcc hm p w a ha, List.mem_flatMap]
    constructor
    · rintro (⟨m, h1, rfl, rfl⟩ | ⟨y, hy, hv⟩)
      · refine ⟨[], by simp, by simp, ?_, hocc, ?_⟩
        · exact List.mem_map.2 ⟨_, Dict.mem_of_get? h1, rfl⟩
        · have : g.ends.count a = m := by unfold Dict.count; rw [h1]; rfl
          rw [walkProb, this]
      · obtain ⟨b, m, h1, h2, rfl⟩ := (mem_children g maxOcc p w a ha y).1 hy
        have hocc' : ∀ c, (w ++ [b]).count c ≤ maxOcc := by
          intro c
          rw [List.count_append]
          by_cases hcb : b = c
          · subst hcb; simp; omega
          · have := hocc c
            simp [List.count_singleton, hcb]; omega
        obtain ⟨u, rfl, hl, ht, ho, hq⟩ := (ih _ (w ++ [b]) b (by simp) hocc').1 hv
        refine ⟨b :: u, by simp, by simp; omega, ⟨List.mem_map.2 ⟨_, h1, rfl⟩, ht⟩, ho, ?_⟩
        rw [hq, walkProb, count_arcs g hc _ _ h1]; ring
    · rintro ⟨u, rfl, hl, ht, ho, rfl⟩
      cases u with
      | nil =>
        left
        have hF : a ∈ g.F := ht
        have hsome := (Dict.mem_keys_iff g.ends a).1 hF
        cases hg : g.ends.get? a with
        | none => rw [hg] at hsome; cases hsome
        | some m =>
          have : g.ends.count a = m := by unfold Dict.count; rw [hg]; rfl
          exact ⟨m, rfl, by simp, by rw [walkProb, this]⟩
      | cons b u =>
        right
        obtain ⟨hE, ht⟩ : (a, b) ∈ g.E ∧ Tail g.E g.F b u := ht
        obtain ⟨⟨e, m⟩, hem, he⟩ := List.mem_map.1 hE
        simp only at he
        subst he
        have hob := ho b
        rw [List.count_append, List.count_cons_self] at hob
        refine ⟨_, (mem_children g maxOcc p w a ha _).2 ⟨b, m, hem, by omega, rfl⟩, ?_⟩
        have hocc' : ∀ c, (w ++ [b]).count c ≤ maxOcc := by
          intro c
          have := ho c
          rw [List.count_append, List.count_cons] at this
          rw [List.count_append, List.count_singleton]
          omega
        refine (ih _ (w ++ [b]) b (by simp) hocc').2 ⟨u, by simp, by simp at hl; omega, ht, ho, ?_⟩
        rw [walkProb, count_arcs g hc _ _ hem]; ring

theorem enum_prefix (g : Graph α) (maxOcc : Nat) (n : Nat) (x : Rat × List α) (v : List α × Rat) (h : v ∈ enum g maxOcc n x) :
    x.2 <+: v.1 := by
  induction n generalizing x with
  | zero => simp [enum] at h
  | succ n ih =>
    rw [enum, List.mem_append, List.mem_flatMap] at h
    rcases h with h | ⟨y, hy, h⟩
    · unfold yields at h
      cases hl : x.2.getLast? with
      | none => rw [hl] at h; simp at h
      | some a =>
        simp only [hl, List.mem_filterMap] at h
        obtain ⟨⟨o, r⟩, _, hv⟩ := h
        cases o with
        | none =>
          simp only at hv
          split at hv
          · cases hv; exact List.prefix_refl _
          · cases hv
        | some b => simp at hv
    · cases hl : x.2.getLast? with
      | none => unfold children at hy; rw [hl] at hy; simp at hy
      | some a =>
        obtain ⟨b, m, _, _, rfl⟩ := (mem_children g maxOcc x.1 x.2 a hl y).1 hy
        exact (List.prefix_append _ _).trans (ih _ h)

theorem enum_nodup (g : Graph α) (hc : Complete g) (maxOcc : Nat) (n : Nat) (x : Rat × List α) :
    ((enum g maxOcc n x).map Prod.fst).Nodup := by
  induction n generalizing x with
  | zero => simp [enum]
  | succ n ih =>
    rw [enum, List.map_append, List.nodup_append]
    cases hl : x.2.getLast? with
    | none => simp [yields, children, hl]
    | some a =>
      have hch : ((children g maxOcc x).map Prod.snd).Nodup := by
        unfold children
        simp only [hl]
        have h1 : (((shares g a).getD []).map Prod.fst).Nodup := by
          by_cases h : targets g a = []
          · have : shares g a = none := by unfold shares; rw [h]
            rw [this]; simp
          · rw [shares_some g a h, Option.getD_some, List.map_map]
            exact targets_nodup g hc a
        rw [List.Nodup, List.pairwise_map] at h1 ⊢
        rw [List.pairwise_filterMap]
        apply h1.imp
        rintro ⟨o, r⟩ ⟨o', r'⟩ hne b hb b' hb' he
        cases o with
        | none => simp at hb
        | some c =>
          cases o' with
          | none => simp at hb'
          | some c' =>
            simp only at hb hb'
            split at hb
            · split at hb'
              · simp only [Option.some.injEq] at hb hb'
                subst hb; subst hb'
                simp only at he
                have := List.append_cancel_left he
                simp at this
                exact hne (by simp [this])
              · cases hb'
            · cases hb
      have hy : ∀ v ∈ yields g maxOcc x, v.1 = x.2 := by
        intro v hv
        unfold yields at hv
        simp only [hl, List.mem_filterMap] at hv
        obtain ⟨⟨o, r⟩, _, hv⟩ := hv
        cases o with
        | none =>
          simp only at hv
          split at hv
          · cases hv; rfl
          · cases hv
        | some b => simp at hv
      refine ⟨?_, ?_, ?_⟩
      · unfold yields
        simp only [hl]
        have h1 : (((shares g a).getD []).map Prod.fst).Nodup := by
          by_cases h : targets g a = []
          · have : shares g a = none := by unfold shares; rw [h]
            rw [this]; simp
          · rw [shares_some g a h, Option.getD_some, List.map_map]
            exact targets_nodup g hc a
        rw [List.Nodup, List.pairwise_map] at h1 ⊢
        rw [List.pairwise_filterMap]
        apply h1.imp
        rintro ⟨o, r⟩ ⟨o', r'⟩ hne b hb b' hb' he
        cases o with
        | some c => simp at hb
        | none =>
          cases o' with
          | some c' => simp at hb'
          | none => exact hne rfl
      · rw [List.map_flatMap, List.nodup_flatMap]
        refine ⟨fun y _ => ih y, ?_⟩
        rw [List.Nodup, List.pairwise_map] at hch
        apply hch.imp_of_mem
        intro y z hy hz hne
        rw [Function.onFun, List.disjoint_left]
        intro v hv hv'
        obtain ⟨v1, h1, rfl⟩ := List.mem_map.1 hv
        obtain ⟨v2, h2, h3⟩ := List.mem_map.1 hv'
        have p1 := enum_prefix g maxOcc n y v1 h1
        have p2 := enum_prefix g maxOcc n z v2 h2
        rw [h3] at p2
        obtain ⟨b, m, _, _, rfl⟩ := (mem_children g maxOcc x.1 x.2 a hl y).1 hy
        obtain ⟨b', m', _, _, rfl⟩ := (mem_children g maxOcc x.1 x.2 a hl z).1 hz
        exact hne (List.prefix_of_prefix_length_le p1 p2 (by simp) |>.eq_of_length (by simp))
      · intro v hv v' hv' he
        subst he
        obtain ⟨v1, h1, rfl⟩ := List.mem_map.1 hv
        obtain ⟨v2, h2, h3⟩ := List.mem_map.1 hv'
        rw [hy v1 h1] at h3
        obtain ⟨y, hy1, h2⟩ := List.mem_flatMap.1 h2
        have p2 := enum_prefix g maxOcc n y v2 h2
        rw [h3] at p2
        obtain ⟨b, m, _, _, rfl⟩ := (mem_children g maxOcc x.1 x.2 a hl y).1 hy1
        have := p2.length_le
        simp at this

theorem startFlow_cast (g : Graph α) : (g.starts.map fun x => (x.2 : Rat)).sum = startFlow g := by
  unfold startFlow
  induction g.starts with
  | nil => simp
  | cons x l ih => simp only [List.map_cons, List.sum_cons]; push_cast; rw [ih]

/-- **C44.** Playout of a complete directly-follows graph ends, whatever entry the heap returns in each round, without an
exception, and yields each trace of the graph with at most `maxOcc` occurrences of each activity exactly once, with its
probability. -/
theorem _root_.Verif.C44_playout (g : Graph α) (hc : Complete g) (maxOcc : Nat) (hm : 1 ≤ maxOcc)
    (pick : List (Rat × List α) → Option ((Rat × List α) × List (Rat × List α))) (hp : Picks pick) :
    ∃ n st, prun g maxOcc pick n = some st ∧ st.partials = [] ∧ (st.yielded.map Prod.fst).Nodup ∧
      ∀ w p, (w, p) ∈ st.yielded ↔ DfgTrace (g.arcs.map Prod.fst) (g.starts.map Prod.fst) (g.ends.map Prod.fst) w ∧
        (∀ a, w.count a ≤ maxOcc) ∧ p = Prob g w := by
  obtain ⟨n, st, h1, h2, h3⟩ := prun_ends g hc maxOcc hm hp
  refine ⟨n, st, h1, h2, ?_, ?_⟩
  · refine (h3.map _).nodup_iff.2 ?_
    rw [List.map_flatMap, List.nodup_flatMap]
    refine ⟨fun y _ => enum_nodup g hc maxOcc _ y, ?_⟩
    unfold startShares
    rw [List.map_map, List.pairwise_map]
    have := hc.keys.2.1
    rw [List.Nodup, List.pairwise_map] at this
    apply this.imp
    intro x y hne
    rw [Function.onFun, List.disjoint_left]
    intro v hv hv'
    obtain ⟨v1, h1, rfl⟩ := List.mem_map.1 hv
    obtain ⟨v2, h2, h3⟩ := List.mem_map.1 hv'
    have p1 := enum_prefix g maxOcc _ _ v1 h1
    have p2 := enum_prefix g maxOcc _ _ v2 h2
    rw [h3] at p2
    have := (List.prefix_of_prefix_length_le p1 p2 (by simp)).eq_of_length (by simp)
    simp at this
    exact hne this
  · intro w p
    rw [h3.mem_iff, List.mem_flatMap, dfgTrace_iff]
    constructor
    · rintro ⟨x, hx, hw⟩
      have hv := valid_init g maxOcc hm x hx
      simp only [startShares, List.map_map, List.mem_map, Function.comp] at hx
      obtain ⟨y, hy, rfl⟩ := hx
      obtain ⟨u, rfl, hl, ht, ho, hq⟩ := (mem_enum g hc maxOcc hm _ _ [y.1] y.1 rfl hv.occ w p).1 hw
      refine ⟨⟨y.1, List.mem_map.2 ⟨y, hy, rfl⟩, u, rfl, ht⟩, ho, ?_⟩
      have : g.starts.count y.1 = y.2 := by
        unfold Dict.count
        rw [Dict.get?_of_mem_nodup hc.keys.2.1 (v := y.2) hy]; rfl
      show p = (g.starts.count y.1 : Rat) / startFlow g * walkProb g (y.1 :: u)
      rw [hq, startFlow_cast, this]
    · rintro ⟨⟨a, ha, u, rfl, ht⟩, ho, rfl⟩
      obtain ⟨y, hy, rfl⟩ := List.mem_map.1 ha
      have hx : ((y.2 : Rat) / (g.starts.map fun x => (x.2 : Rat)).sum, [y.1]) ∈ (startShares g).map fun x => (x.2, [x.1]) := by
        simp only [startShares, List.map_map, List.mem_map, Function.comp]
        exact ⟨y, hy, rfl⟩
      have hv := valid_init g maxOcc hm _ hx
      refine ⟨_, hx, (mem_enum g hc maxOcc hm _ _ [y.1] y.1 rfl hv.occ _ _).2 ⟨u, rfl, ?_, ht, ho, ?_⟩⟩
      · have hva : Valid g maxOcc (y.1 :: u) := by
          obtain ⟨_, ht2⟩ := (tail_iff g.E g.F y.1 u).1 ht
          exact ⟨⟨y.1, ha, rfl⟩, ht2, ho⟩
        have := valid_length g maxOcc _ hva
        simp at this ⊢
        omega
      · have : g.starts.count y.1 = y.2 := by
          unfold Dict.count
          rw [Dict.get?_of_mem_nodup hc.keys.2.1 (v := y.2) hy]; rfl
        show (g.starts.count y.1 : Rat) / startFlow g * walkProb g (y.1 :: u) = _
        rw [startFlow_cast, this]

theorem sum_filterMap_le (p : Rat) (hp : 0 ≤ p) (l : List (Option α × Rat)) (hl : ∀ x ∈ l, 0 ≤ x.2) (maxOcc : Nat) (w : List α) :
    ((l.filterMap fun y => match y.1 with
        | none => (none : Option (Rat × List α))
        | some b => if w.count b < maxOcc then some (p * y.2, w ++ [b]) else none).map Prod.fst).sum +
    ((l.filterMap fun y => match y.1 with
        | none => if 0 < maxOcc then some (w, p * y.2) else none
        | some _ => none).map Prod.snd).sum ≤ p * (l.map Prod.snd).sum := by
  induction l with
  | nil => simp
  | cons y l ih =>
    have h1 := ih fun x hx => hl x (by simp [hx])
    have h2 : 0 ≤ p * y.2 := mul_nonneg hp (hl y (by simp))
    obtain ⟨o, r⟩ := y
    rw [List.filterMap_cons, List.filterMap_cons, List.map_cons, List.sum_cons, mul_add]
    cases o with
    | none =>
      by_cases h : 0 < maxOcc
      · simp only [h, if_true, List.map_cons, List.sum_cons] at h1 h2 ⊢; linarith
      · simp only [h, if_false] at h1 h2 ⊢; linarith
    | some b =>
      by_cases h : w.count b < maxOcc
      · simp only [h, if_true, List.map_cons, List.sum_cons] at h1 h2 ⊢; linarith
      · simp only [h, if_false] at h1 h2 ⊢; linarith

theorem shares_sum (g : Graph α) (hc : Complete g) (a : α) (l : List (Option α × Rat)) (h : shares g a = some l) :
    (∀ x ∈ l, 0 ≤ x.2) ∧ (l.map Prod.snd).sum = 1 := by
  by_cases hne : targets g a = []
  · unfold shares at h; rw [hne] at h; cases h
  · rw [shares_some g a hne] at h
    cases h
    have hpos := weight_pos (targets g a) (pos_targets g hc a) hne
    constructor
    · intro x hx
      obtain ⟨y, hy, rfl⟩ := List.mem_map.1 hx
      have : (0 : Rat) < y.2 := by exact_mod_cast pos_targets g hc a y hy
      exact div_nonneg this.le hpos.le
    · rw [List.map_map]
      have key : ∀ (L : List (Option α × Int)) (c : Rat), (L.map (Prod.snd ∘ fun x => (x.1, (x.2 : Rat) / c))).sum = weight L / c := by
        intro L c
        unfold weight
        induction L with
        | nil => simp
        | cons x L ih => simp only [List.map_cons, List.sum_cons, Function.comp, add_div] at ih ⊢; rw [ih]
      rw [key, div_self hpos.ne']

theorem children_nonneg (g : Graph α) (hc : Complete g) (maxOcc : Nat) (x : Rat × List α) (hx : 0 ≤ x.1) :
    ∀ y ∈ children g maxOcc x, 0 ≤ y.1 := by
  intro y hy
  unfold children at hy
  cases hl : x.2.getLast? with
  | none => rw [hl] at hy; simp at hy
  | some a =>
    simp only [hl, List.mem_filterMap] at hy
    obtain ⟨⟨o, r⟩, h, hv⟩ := hy
    have hr : 0 ≤ r := by
      cases hs : shares g a with
      | none => rw [hs] at h; simp at h
      | some l => rw [hs] at h; exact (shares_sum g hc a l hs).1 _ h
    cases o with
    | none => simp at hv
    | some b =>
      simp only at hv
      split at hv
      · cases hv; exact mul_nonneg hx hr
      · cases hv

theorem mass_step (g : Graph α) (hc : Complete g) (maxOcc : Nat) (x : Rat × List α) (hx : 0 ≤ x.1) :
    ((children g maxOcc x).map Prod.fst).sum + ((yields g maxOcc x).map Prod.snd).sum ≤ x.1 := by
  cases hl : x.2.getLast? with
  | none => simp [children, yields, hl, hx]
  | some a =>
    cases hs : shares g a with
    | none => simp [children, yields, hl, hs, hx]
    | some l =>
      unfold children yields
      simp only [hl, hs, Option.getD_some]
      obtain ⟨h1, h2⟩ := shares_sum g hc a l hs
      have := sum_filterMap_le x.1 hx l h1 maxOcc x.2
      rw [h2, mul_one] at this
      exact this

/-- **C44.** At any time the probabilities yielded so far add up to at most 1. -/
theorem _root_.Verif.C44_playout_mass (g : Graph α) (hc : Complete g) (maxOcc : Nat) (hm : 1 ≤ maxOcc)
    (pick : List (Rat × List α) → Option ((Rat × List α) × List (Rat × List α))) (hp : Picks pick) (n : Nat) (st : PState α)
    (h : prun g maxOcc pick n = some st) : (st.yielded.map Prod.snd).sum ≤ 1 := by
  suffices (∀ x ∈ st.partials, 0 ≤ x.1 ∧ Valid g maxOcc x.2) ∧
      (st.partials.map Prod.fst).sum + (st.yielded.map Prod.snd).sum ≤ 1 by
    have h0 : ∀ l : List (Rat × List α), (∀ x ∈ l, 0 ≤ x.1) → 0 ≤ (l.map Prod.fst).sum := by
      intro l
      induction l with
      | nil => simp
      | cons x l ih =>
        intro hl
        have := ih fun y hy => hl y (by simp [hy])
        have := hl x (by simp)
        simp only [List.map_cons, List.sum_cons]; linarith
    have := h0 st.partials fun x hx => (this.1 x hx).1
    linarith
  induction n generalizing st with
  | zero =>
    cases h
    constructor
    · intro x hx
      refine ⟨?_, valid_init g maxOcc hm x hx⟩
      simp only [startShares, List.map_map, List.mem_map, Function.comp] at hx
      obtain ⟨y, hy, rfl⟩ := hx
      have h0 : ∀ l : Dict α Int, (∀ e ∈ l, 0 < e.2) → 0 ≤ (l.map fun x => (x.2 : Rat)).sum := by
        intro l
        induction l with
        | nil => simp
        | cons x l ih =>
          intro hl
          have := ih fun y hy => hl y (by simp [hy])
          have : (0 : Rat) < x.2 := by exact_mod_cast hl x (by simp)
          simp only [List.map_cons, List.sum_cons]; linarith
      have : (0 : Rat) < y.2 := by exact_mod_cast hc.pos.2.1 y hy
      exact div_nonneg this.le (h0 g.starts hc.pos.2.1)
    · simp only [List.map_nil, List.sum_nil, add_zero, startShares, List.map_map]
      have key : ∀ (L : Dict α Int) (c : Rat), (L.map (Prod.fst ∘ (fun x : α × Rat => (x.2, [x.1])) ∘ fun x => (x.1, (x.2 : Rat) / c))).sum =
          (L.map fun x => (x.2 : Rat)).sum / c := by
        intro L c
        induction L with
        | nil => simp
        | cons x L ih => simp only [List.map_cons, List.sum_cons, Function.comp, add_div] at ih ⊢; rw [ih]
      rw [key]
      exact div_self_le_one _
  | succ n ih =>
    obtain ⟨st', h1, hi⟩ := prun_inv g hc maxOcc hm hp n
    obtain ⟨ih1, ih2⟩ := ih st' h1
    have h : (prun g maxOcc pick n).bind (pstep g maxOcc pick) = some st := h
    rw [h1] at h
    have h : pstep g maxOcc pick st' = some st := h
    by_cases hne : st'.partials = []
    · have hpk : pick st'.partials = none := by
        cases hpk : pick st'.partials with
        | none => rfl
        | some y => have := hp.1 _ _ _ hpk; rw [hne] at this; exact absurd this.symm.eq_nil (by simp)
      unfold pstep at h
      rw [hpk] at h
      cases h
      exact ⟨ih1, ih2⟩
    · obtain ⟨x, rest, hperm, hst⟩ := pstep_eq g hc maxOcc hp st' hi.valid hne
      rw [hst] at h
      cases h
      have hx := ih1 x (hperm.mem_iff.2 (by simp))
      constructor
      · intro y hy
        rcases List.mem_append.1 hy with hy | hy
        · exact ih1 y (hperm.mem_iff.2 (by simp [hy]))
        · exact ⟨children_nonneg g hc maxOcc x hx.1 y hy, (valid_child g hc maxOcc x y hx.2 hy).1⟩
      · have h4 : (st'.partials.map Prod.fst).sum = ((x :: rest).map Prod.fst).sum := (hperm.map _).sum_eq
        rw [h4, List.map_cons, List.sum_cons] at ih2
        have := mass_step g hc maxOcc x hx.1
        simp only [List.map_append, List.sum_append]
        linarith

theorem walkProb_probFrom (g : Graph α) (hc : Complete g) (w : List α) :
    walkProb g w = (probFrom g w).getD 0 := by
  induction w with
  | nil => rfl
  | cons a w ih =>
    have hfind : ∀ l, shares g a = some l → ∀ o : Option α,
        (match l.find? fun x => decide (x.1 = o) with | some x => x.2 | none => 0) =
          (match o with | none => (g.ends.count a : Rat) / outFlow g a | some b => (g.arcs.count (a, b) : Rat) / outFlow g a) := by
      intro l hl o
      have hl' : (shares g a).getD [] = l := by rw [hl]; rfl
      cases hf : l.find? fun x => decide (x.1 = o) with
      | some x =>
        have h1 := List.mem_of_find?_eq_some hf
        have h2 := List.find?_some hf
        simp at h2
        rw [← hl'] at h1
        obtain ⟨n, hn, hr⟩ := (mem_shares g a x.1 x.2).1 h1
        rw [h2] at hn
        cases o with
        | none =>
          rw [mem_targets_none] at hn
          simp [hr, Dict.count, hn]
        | some b =>
          rw [mem_targets_some] at hn
          simp [hr, count_arcs g hc _ _ hn]
      | none =>
        rw [List.find?_eq_none] at hf
        have hno : ∀ n, (o, n) ∉ targets g a := by
          intro n hn
          have := (mem_shares g a o ((n : Rat) / outFlow g a)).2 ⟨n, hn, rfl⟩
          rw [hl'] at this
          exact hf _ this (by simp)
        cases o with
        | none =>
          have : g.ends.get? a = none := by
            cases hh : g.ends.get? a with
            | none => rfl
            | some n => exact absurd ((mem_targets_none g a n).2 hh) (hno n)
          simp [Dict.count, this]
        | some b =>
          have : g.arcs.get? (a, b) = none := by
            cases hh : g.arcs.get? (a, b) with
            | none => rfl
            | some n => exact absurd ((mem_targets_some g a b n).2 (Dict.mem_of_get? hh)) (hno n)
          simp [Dict.count, this]
    have hnone : shares g a = none → outFlow g a = 0 ∧ targets g a = [] := by
      intro h
      by_cases ht : targets g a = []
      · refine ⟨?_, ht⟩
        have := weight_targets g a
        rw [ht] at this
        simp [weight] at this
        exact_mod_cast this.symm
      · rw [shares_some g a ht] at h; cases h
    unfold probFrom
    cases w with
    | nil =>
      rw [walkProb]
      cases hs : shares g a with
      | none => simp [(hnone hs).1]
      | some l =>
        have h2 := hfind l hs ([] : List α).head?
        have h3 : walkProb g [a] = (g.ends.count a : Rat) / outFlow g a := rfl
        rw [← h3]
        show _ = Option.getD (match l.find? fun x => decide (x.1 = ([] : List α).head?) with
          | none => none
          | some x => match probFrom g [] with
            | none => none
            | some q => some (x.2 * q)) 0
        cases hf : l.find? fun x => decide (x.1 = ([] : List α).head?) with
        | none => rw [hf] at h2; rw [h3]; exact h2.symm
        | some x => rw [hf] at h2; rw [h3]; simp only [probFrom, mul_one]; exact h2.symm
    | cons b w =>
      rw [walkProb, ih]
      cases hs : shares g a with
      | none => simp [(hnone hs).1]
      | some l =>
        have h2 := hfind l hs (b :: w).head?
        show _ = Option.getD (match l.find? fun x => decide (x.1 = (b :: w).head?) with
          | none => none
          | some x => match probFrom g (b :: w) with
            | none => none
            | some q => some (x.2 * q)) 0
        cases hf : l.find? fun x => decide (x.1 = (b :: w).head?) with
        | none =>
          rw [hf] at h2
          have h2 : 0 = (g.arcs.count (a, b) : Rat) / outFlow g a := h2
          rw [← h2]; simp
        | some x =>
          rw [hf] at h2
          have h2 : x.2 = (g.arcs.count (a, b) : Rat) / outFlow g a := h2
          rw [← h2]
          cases hq : probFrom g (b :: w) <;> simp

theorem walkProb_pos (g : Graph α) (hc : Complete g) (a : α) (w : List α) :
    0 ≤ walkProb g (a :: w) ∧ (0 < walkProb g (a :: w) ↔ Tail g.E g.F a w) := by
  have hE : ∀ a b, (a, b) ∈ g.E → 0 < g.arcs.count (a, b) ∧ (0 : Rat) < outFlow g a := by
    intro a b h
    obtain ⟨⟨e, n⟩, he, hh⟩ := List.mem_map.1 h
    simp only at hh
    subst hh
    refine ⟨by rw [count_arcs g hc _ _ he]; exact hc.pos.1 _ he, ?_⟩
    rw [← weight_targets]
    have := (mem_targets_some g a b n).2 he
    exact weight_pos _ (pos_targets g hc a) (by intro h0; rw [h0] at this; simp at this)
  have hE' : ∀ a b, (a, b) ∉ g.E → g.arcs.count (a, b) = 0 := by
    intro a b h
    unfold Dict.count
    cases hh : g.arcs.get? (a, b) with
    | none => rfl
    | some n => exact absurd (List.mem_map.2 ⟨_, Dict.mem_of_get? hh, rfl⟩) h
  have hF : ∀ a, a ∈ g.F → 0 < g.ends.count a ∧ (0 : Rat) < outFlow g a := by
    intro a h
    have hsome := (Dict.mem_keys_iff g.ends a).1 h
    cases hg : g.ends.get? a with
    | none => rw [hg] at hsome; cases hsome
    | some n =>
      refine ⟨by unfold Dict.count; rw [hg]; exact hc.pos.2.2 _ (Dict.mem_of_get? hg), ?_⟩
      rw [← weight_targets]
      have := (mem_targets_none g a n).2 hg
      exact weight_pos _ (pos_targets g hc a) (by intro h0; rw [h0] at this; simp at this)
  have hF' : ∀ a, a ∉ g.F → g.ends.count a = 0 := by
    intro a h
    unfold Dict.count
    cases hh : g.ends.get? a with
    | none => rfl
    | some n => exact absurd (List.mem_map.2 ⟨_, Dict.mem_of_get? hh, rfl⟩) h
  induction w generalizing a with
  | nil =>
    rw [walkProb]
    by_cases h : a ∈ g.F
    · obtain ⟨h1, h2⟩ := hF a h
      have h1 : (0 : Rat) < g.ends.count a := by exact_mod_cast h1
      have := div_pos h1 h2
      exact ⟨this.le, fun _ => h, fun _ => this⟩
    · rw [hF' a h]
      simp
      exact h
  | cons b w ih =>
    rw [walkProb]
    by_cases h : (a, b) ∈ g.E
    · obtain ⟨h1, h2⟩ := hE a b h
      have h1 : (0 : Rat) < g.arcs.count (a, b) := by exact_mod_cast h1
      have hp := div_pos h1 h2
      obtain ⟨i1, i2⟩ := ih b
      refine ⟨mul_nonneg hp.le i1, ?_⟩
      show _ ↔ (a, b) ∈ g.E ∧ Tail g.E g.F b w
      rw [mul_pos_iff_of_pos_left hp, i2]
      simp [h]
    · rw [hE' a b h]
      simp
      intro h'; exact h h'.1

/-- **C44.** `get_trace_probability` is the probability of the trace: the product of the relative frequencies, positive
exactly for the traces of the graph and 0 for all others. -/
theorem _root_.Verif.C44_trace_probability (g : Graph α) (hc : Complete g) (w : List α) :
    traceProb g w = Prob g w ∧
    (DfgTrace (g.arcs.map Prod.fst) (g.starts.map Prod.fst) (g.ends.map Prod.fst) w → 0 < traceProb g w) ∧
    (¬ DfgTrace (g.arcs.map Prod.fst) (g.starts.map Prod.fst) (g.ends.map Prod.fst) w → traceProb g w = 0) := by
  have h1 : traceProb g w = Prob g w := by
    unfold traceProb Prob
    cases w with
    | nil => rfl
    | cons a v =>
      simp only
      rw [walkProb_probFrom g hc]
      cases hf : (startShares g).find? fun x => decide (x.1 = a) with
      | none =>
        have : g.starts.get? a = none := by
          cases hh : g.starts.get? a with
          | none => rfl
          | some n =>
            rw [List.find?_eq_none] at hf
            exact absurd (by simp) (hf (a, (n : Rat) / (g.starts.map fun x => (x.2 : Rat)).sum)
              (List.mem_map.2 ⟨(a, n), Dict.mem_of_get? hh, rfl⟩))
        simp [Dict.count, this]
      | some x =>
        have h1 := List.mem_of_find?_eq_some hf
        have h2 := List.find?_some hf
        simp at h2
        obtain ⟨y, hy, rfl⟩ := List.mem_map.1 h1
        simp only at h2
        subst h2
        have : g.starts.count y.1 = y.2 := by
          unfold Dict.count
          rw [Dict.get?_of_mem_nodup hc.keys.2.1 (v := y.2) hy]; rfl
        simp only [this, startFlow_cast]
        cases probFrom g (y.1 :: v) <;> simp
  refine ⟨h1, ?_, ?_⟩
  · intro h
    rw [h1]
    obtain ⟨a, ha, v, rfl, ht⟩ := (dfgTrace_iff _ _ _ _).1 h
    have hw := (walkProb_pos g hc a v).2.2 ht
    obtain ⟨y, hy, rfl⟩ := List.mem_map.1 ha
    have hcount : g.starts.count y.1 = y.2 := by
      unfold Dict.count
      rw [Dict.get?_of_mem_nodup hc.keys.2.1 (v := y.2) hy]; rfl
    show 0 < (g.starts.count y.1 : Rat) / startFlow g * walkProb g (y.1 :: v)
    have hy2 : (0 : Rat) < y.2 := by exact_mod_cast hc.pos.2.1 y hy
    have hs : (0 : Rat) < startFlow g := by
      rw [← startFlow_cast]
      have := weight_pos (g.starts.map fun x => (some x.1, x.2)) (by
        intro x hx
        obtain ⟨z, hz, rfl⟩ := List.mem_map.1 hx
        exact hc.pos.2.1 z hz) (by intro h0; rw [List.map_eq_nil_iff] at h0; rw [h0] at hy; simp at hy)
      unfold weight at this
      rw [List.map_map] at this
      exact this
    rw [hcount]
    exact mul_pos (div_pos hy2 hs) hw
  · intro h
    rw [h1]
    cases w with
    | nil => rfl
    | cons a v =>
      show (g.starts.count a : Rat) / startFlow g * walkProb g (a :: v) = 0
      by_cases ha : a ∈ g.starts.map Prod.fst
      · have hn : ¬ Tail g.E g.F a v := fun ht => h ((dfgTrace_iff _ _ _ _).2 ⟨a, ha, v, rfl, ht⟩)
        obtain ⟨i1, i2⟩ := walkProb_pos g hc a v
        have : walkProb g (a :: v) = 0 := by
          rcases i1.lt_or_eq with h | h
          · exact absurd (i2.1 h) hn
          · exact h.symm
        rw [this, mul_zero]
      · have : g.starts.count a = 0 := by
          unfold Dict.count
          cases hh : g.starts.get? a with
          | none => rfl
          | some n => exact absurd (List.mem_map.2 ⟨_, Dict.mem_of_get? hh, rfl⟩) ha
        rw [this]; simp

end Verif.DfgNet
