import Verif.TreePlayout.ExtLoop
set_option linter.unusedSectionVars false
/-
C47: the extensive playout of process trees is exact.
-/
namespace Verif.TreePlayout
open Lang
variable {α : Type}

theorem blangs_eq (K : Nat) (cs : List (PT α)) : blangs K cs = cs.map (blang K) := by
  induction cs with
  | nil => rfl
  | cons c cs ih => rw [blangs, ih]; rfl

theorem maxLens_eq (big : Int) (cs : List (PT α)) : maxLens big cs = cs.map (maxLen big) := by
  induction cs with
  | nil => rfl
  | cons c cs ih => rw [maxLens, ih]; rfl

theorem minLens_eq (cs : List (PT α)) : minLens cs = cs.map minLen := by
  induction cs with
  | nil => rfl
  | cons c cs ih => rw [minLens, ih]; rfl

theorem seqL_iff (cs : List (PT α)) (f : PT α → Lang α) (w : List α) :
    seqL (cs.map f) w ↔ ∃ ws, List.Forall₂ (fun u c => f c u) ws cs ∧ w = ws.flatten := by
  induction cs generalizing w with
  | nil =>
    constructor
    · intro h; exact ⟨[], .nil, h⟩
    · rintro ⟨ws, h, rfl⟩; cases h; rfl
  | cons c cs ih =>
    constructor
    · rintro ⟨u, v, hu, hv, rfl⟩
      obtain ⟨ws, h, rfl⟩ := (ih v).1 hv
      exact ⟨u :: ws, .cons hu h, by simp⟩
    · rintro ⟨ws, h, rfl⟩
      cases h with
      | cons hu h => exact ⟨_, _, hu, (ih _).2 ⟨_, h, rfl⟩, by simp⟩

theorem parL_iff (cs : List (PT α)) (f : PT α → Lang α) (w : List α) :
    parL (cs.map f) w ↔ ∃ ws, List.Forall₂ (fun u c => f c u) ws cs ∧ Sh ws w := by
  induction cs generalizing w with
  | nil =>
    constructor
    · intro h; exact ⟨[], .nil, h⟩
    · rintro ⟨ws, h, hs⟩; cases h; exact hs
  | cons c cs ih =>
    constructor
    · rintro ⟨u, v, hu, hv, hsh⟩
      obtain ⟨ws, h, hs⟩ := (ih v).1 hv
      exact ⟨u :: ws, .cons hu h, v, hs, hsh⟩
    · rintro ⟨ws, h, hs⟩
      cases h with
      | cons hu h =>
        obtain ⟨v, hs, hsh⟩ := hs
        exact ⟨_, v, hu, (ih _).2 ⟨_, h, hs⟩, hsh⟩

theorem sh_length {ws : List (List α)} {w : List α} (h : Sh ws w) : w.length = tot ws := by
  induction ws generalizing w with
  | nil => simp [Sh] at h; subst h; rfl
  | cons u ws ih =>
    obtain ⟨v, hv, hs⟩ := h
    rw [hs.length, ih hv]
    simp [tot]

theorem foldl_max_ge (l : List Int) (b : Int) : b ≤ l.foldl max b ∧ ∀ x ∈ l, x ≤ l.foldl max b := by
  induction l generalizing b with
  | nil => simp
  | cons a l ih =>
    have := ih (max b a)
    rw [List.foldl_cons]
    refine ⟨by omega, ?_⟩
    intro x hx
    rcases List.mem_cons.1 hx with rfl | hx
    · omega
    · exact this.2 x hx

theorem foldl_min_le (l : List Int) (b : Int) : l.foldl min b ≤ b ∧ ∀ x ∈ l, l.foldl min b ≤ x := by
  induction l generalizing b with
  | nil => simp
  | cons a l ih =>
    have := ih (min b a)
    rw [List.foldl_cons]
    refine ⟨by omega, ?_⟩
    intro x hx
    rcases List.mem_cons.1 hx with rfl | hx
    · omega
    · exact this.2 x hx

theorem foldl_max_nonneg (l : List Int) (b : Int) (hb : 0 ≤ b) : 0 ≤ l.foldl max b := by
  have := (foldl_max_ge l b).1; omega

theorem foldl_min_nonneg (l : List Int) (b : Int) (hb : 0 ≤ b) (h : ∀ x ∈ l, 0 ≤ x) : 0 ≤ l.foldl min b := by
  induction l generalizing b with
  | nil => simpa using hb
  | cons a l ih =>
    rw [List.foldl_cons]
    exact ih _ (by have := h a (by simp); omega) (fun x hx => h x (by simp [hx]))

theorem sum_nonneg {l : List Int} (h : ∀ x ∈ l, 0 ≤ x) : 0 ≤ l.sum := by
  induction l with
  | nil => simp
  | cons a l ih =>
    have := ih (fun x hx => h x (by simp [hx]))
    have := h a (by simp)
    simp; omega

theorem headD_nonneg {l : List Int} (h : ∀ x ∈ l, 0 ≤ x) : 0 ≤ l.headD 0 := by
  cases l with
  | nil => simp
  | cons a l => exact h a (by simp)

theorem minLen_nonneg (t : PT α) : 0 ≤ minLen t := by
  induction t using PT.induct with
  | leaf l => cases l <;> simp [minLen]
  | node op cs ih =>
    have h : ∀ x ∈ cs.map minLen, 0 ≤ x := by
      intro x hx
      obtain ⟨c, hc, rfl⟩ := List.mem_map.1 hx
      exact ih c hc
    rw [minLen, minLens_eq]
    cases op
    · exact sum_nonneg h
    · exact foldl_min_nonneg _ _ (headD_nonneg h) h
    · exact sum_nonneg h
    · exact headD_nonneg h
    · exact sum_nonneg h
    · exact Int.le_refl 0

theorem maxLen_nonneg {big : Int} (hb : 0 ≤ big) (t : PT α) : 0 ≤ maxLen big t := by
  induction t using PT.induct with
  | leaf l => cases l <;> simp [maxLen]
  | node op cs ih =>
    have h : ∀ x ∈ cs.map (maxLen big), 0 ≤ x := by
      intro x hx
      obtain ⟨c, hc, rfl⟩ := List.mem_map.1 hx
      exact ih c hc
    rw [maxLen, maxLens_eq]
    cases op
    · exact sum_nonneg h
    · exact foldl_max_nonneg _ _ (headD_nonneg h)
    · exact sum_nonneg h
    · have := sum_nonneg h
      simp only [maxOp]; omega
    · exact sum_nonneg h
    · exact Int.le_refl 0

theorem forall₂_len {big : Int} (K : Nat) {ws : List (List α)} {cs : List (PT α)}
    (h : List.Forall₂ (fun u c => blang K c u) ws cs)
    (hl : ∀ c ∈ cs, ∀ w, blang K c w → minLen c ≤ w.length ∧ ((w.length : Int) ≤ big → (w.length : Int) ≤ maxLen big c)) :
    (cs.map minLen).sum ≤ tot ws ∧ ((tot ws : Int) ≤ big → (tot ws : Int) ≤ (cs.map (maxLen big)).sum) := by
  induction h with
  | nil => simp [tot]
  | @cons u c ws cs hu _ ih =>
    obtain ⟨h1, h2⟩ := ih (fun c hc => hl c (by simp [hc]))
    obtain ⟨h3, h4⟩ := hl c (by simp) u hu
    simp [tot] at h1 h2 ⊢
    omega

theorem bloop_len {D R : Lang α} {K : Nat} {w : List α} (h : BLoop D R K w) :
    ∃ d, D d ∧ d.length ≤ w.length := by
  cases h with
  | exit hd => exact ⟨_, hd, Nat.le_refl _⟩
  | again hd _ _ => exact ⟨_, hd, by simp⟩

/-- The lengths of the traces of a tree. -/
theorem blang_len {big : Int} (hb : 0 ≤ big) (K : Nat) {t : PT α} (ht : Supported t) :
    ∀ w, blang K t w → minLen t ≤ w.length ∧ ((w.length : Int) ≤ big → (w.length : Int) ≤ maxLen big t) := by
  induction ht with
  | leaf l =>
    intro w hw
    cases l with
    | none => simp [blang, eps] at hw; subst hw; simp [minLen, maxLen]
    | some a => simp [blang] at hw; subst hw; simp [minLen, maxLen]
  | @xor cs hne hc ih =>
    intro w hw
    rw [blang, blangs_eq] at hw
    obtain ⟨L, hL, hw⟩ := hw
    obtain ⟨c, hc', rfl⟩ := List.mem_map.1 hL
    obtain ⟨h1, h2⟩ := ih c hc' w hw
    rw [minLen, maxLen, minLens_eq, maxLens_eq]
    have h3 := (foldl_min_le (cs.map minLen) ((cs.map minLen).headD 0)).2 _ (List.mem_map.2 ⟨c, hc', rfl⟩)
    have h4 := (foldl_max_ge (cs.map (maxLen big)) ((cs.map (maxLen big)).headD 0)).2 _ (List.mem_map.2 ⟨c, hc', rfl⟩)
    simp only [minOp', maxOp]
    omega
  | @seq cs h2 hc ih =>
    intro w hw
    rw [blang, blangs_eq] at hw
    obtain ⟨ws, h, rfl⟩ := (seqL_iff _ _ _).1 hw
    rw [tot_flatten, minLen, maxLen, minLens_eq, maxLens_eq]
    exact forall₂_len K h ih
  | @par cs h2 hc ih =>
    intro w hw
    rw [blang, blangs_eq] at hw
    obtain ⟨ws, h, hs⟩ := (parL_iff _ _ _).1 hw
    rw [sh_length hs, minLen, maxLen, minLens_eq, maxLens_eq]
    exact forall₂_len K h ih
  | @loop d r hd hr ihd ihr =>
    intro w hw
    rw [blang, blangs_eq] at hw
    obtain ⟨u, hu, hl⟩ := bloop_len (show BLoop _ _ K w from hw)
    have := (ihd u hu).1
    have h1 := maxLen_nonneg hb d
    have h2 := maxLen_nonneg hb r
    rw [minLen, maxLen, minLens_eq, maxLens_eq]
    simp [minOp', maxOp]
    omega

variable [DecidableEq α]

/-- What is stored for a node: only traces of the node, and all that can be part of a trace of allowed length. -/
structure Good (c : Cfg α) (big mn mx : Int) (t : PT α) (L : List (List α)) : Prop where
  sound : ∀ w ∈ L, blang c.loops t w
  complete : ∀ w, blang c.loops t w → (w.length : Int) ≤ big → (w.length : Int) + (mn - minLen t) ≤ c.hi →
    c.lo ≤ (w.length : Int) + (mx - maxLen big t) → w ∈ L

/-- length bounds for nodes that are not choices -/
def Bounded (c : Cfg α) (big mn mx : Int) (t : PT α) (L : List (List α)) : Prop :=
  ∀ w ∈ L, c.lo - (mx - maxLen big t) ≤ w.length ∧ (w.length : Int) ≤ c.hi - (mn - minLen t)

/-- `t` is a sequence, a parallel composition, a loop or a visible leaf -/
def NotChoice : PT α → Prop
  | .leaf none => False
  | .leaf (some _) => True
  | .node op _ => op = .seq ∨ op = .par ∨ op = .loop

theorem mem_ordByLen {c : Cfg α} (ho : ∀ l, (c.ord l).Perm l) {T : List (List α)} {w : List α} :
    w ∈ byLen (c.ord T) ↔ w ∈ T := mem_byLen.trans (ho T).mem_iff

theorem xorUnion_sound (limit : Nat) : ∀ (Ts : List (List (List α))) (acc : List (List α)),
    ∀ w ∈ xorUnion limit Ts acc, w ∈ acc ∨ ∃ T ∈ Ts, w ∈ T := by
  intro Ts
  induction Ts with
  | nil => intro acc w h; exact .inl h
  | cons T Ts ih =>
    intro acc w h
    have key : w ∈ acc ++ (dedup T).filter (fun x => !decide (x ∈ acc)) → w ∈ acc ∨ ∃ T' ∈ T :: Ts, w ∈ T' := by
      intro h
      rcases List.mem_append.1 h with h | h
      · exact .inl h
      · exact .inr ⟨T, by simp, (mem_dedup _ _).1 (List.mem_filter.1 h).1⟩
    rw [xorUnion] at h
    split at h
    · exact key h
    · rcases ih _ w h with h | ⟨T', hT', h⟩
      · exact key h
      · exact .inr ⟨T', by simp [hT'], h⟩

theorem xorUnion_complete : ∀ (Ts : List (List (List α))) (acc : List (List α)),
    ∃ N L, (∀ limit, N ≤ limit → xorUnion limit Ts acc = L) ∧ (∀ w ∈ acc, w ∈ L) ∧ ∀ T ∈ Ts, ∀ w ∈ T, w ∈ L := by
  intro Ts
  induction Ts with
  | nil => intro acc; exact ⟨0, acc, fun _ _ => rfl, fun w h => h, by simp⟩
  | cons T Ts ih =>
    intro acc
    obtain ⟨N, L, h1, h2, h3⟩ := ih (acc ++ (dedup T).filter fun x => !decide (x ∈ acc))
    refine ⟨N + (acc ++ (dedup T).filter fun x => !decide (x ∈ acc)).length, L, ?_, fun w hw => h2 w (by simp [hw]), ?_⟩
    · intro limit hl
      rw [xorUnion]
      rw [if_neg (by omega)]
      exact h1 limit (by omega)
    · intro T' hT' w hw
      rcases List.mem_cons.1 hT' with rfl | hT'
      · apply h2
        by_cases h : w ∈ acc
        · simp [h]
        · simp [h, hw]
      · exact h3 T' hT' w hw

theorem forall₂_byLen {c : Cfg α} (ho : ∀ l, (c.ord l).Perm l) {ws : List (List α)} {Ts : List (List (List α))} :
    List.Forall₂ (fun y t => y ∈ t) ws (Ts.map fun t => byLen (c.ord t)) ↔ List.Forall₂ (fun y t => y ∈ t) ws Ts := by
  rw [List.forall₂_map_right_iff]
  simp only [mem_ordByLen ho]

theorem forall₂_sound {K : Nat} {cs : List (PT α)} {Ts : List (List (List α))}
    (h : List.Forall₂ (fun t L => ∀ w ∈ L, blang K t w) cs Ts) {ws : List (List α)} (hw : List.Forall₂ (fun y t => y ∈ t) ws Ts) :
    List.Forall₂ (fun u c => blang K c u) ws cs := by
  induction h generalizing ws with
  | nil => cases hw; exact .nil
  | cons h1 _ ih =>
    cases hw with
    | cons h3 h4 => exact .cons (h1 _ h3) (ih h4)

/-- Soundness of the operators. -/
theorem opPlayout_sound {c : Cfg α} (ho : ∀ l, (c.ord l).Perm l) {fuel : Nat} {mr mar : Int} {op : Op} {cs : List (PT α)}
    {Ts : List (List (List α))} {L : List (List α)} (hs : Supported (.node op cs))
    (h : List.Forall₂ (fun t L => ∀ w ∈ L, blang c.loops t w) cs Ts) (hL : opPlayout c fuel mr mar op Ts = some L) :
    ∀ w ∈ L, blang c.loops (.node op cs) w ∧ (op ≠ .xor → c.lo - mar ≤ w.length ∧ (w.length : Int) ≤ c.hi - mr) := by
  intro w hw
  rw [blang, blangs_eq]
  cases hs with
  | xor hne hc =>
    simp only [opPlayout, Option.some.injEq] at hL
    subst hL
    refine ⟨?_, by simp⟩
    replace hw := xorUnion_sound _ _ _ w hw
    rcases hw with h' | ⟨T, hT, hw⟩
    · simp at h'
    · clear hne hc
      induction h with
      | nil => simp at hT
      | @cons a b l1 l2 h1 _ ih =>
        rcases List.mem_cons.1 hT with rfl | hT
        · exact ⟨blang c.loops a, by simp, h1 w hw⟩
        · obtain ⟨M, hM, hw⟩ := ih hT
          exact ⟨M, List.mem_cons_of_mem _ hM, hw⟩
  | seq h2 hc =>
    simp only [opPlayout, Option.map_eq_some_iff] at hL
    obtain ⟨X, hX, rfl⟩ := hL
    obtain ⟨ws, hws, rfl⟩ := List.mem_map.1 ((mem_dedup _ _).1 hw)
    obtain ⟨h3, h4, h5⟩ := compositions_sound hX hws
    refine ⟨(seqL_iff _ _ _).2 ⟨ws, forall₂_sound h ((forall₂_byLen ho).1 h3), rfl⟩, fun _ => ?_⟩
    rw [tot_flatten]
    exact ⟨h4, h5⟩
  | par h2 hc =>
    simp only [opPlayout, Option.bind_eq_some_iff, Option.map_eq_some_iff] at hL
    obtain ⟨X, hX, Y, hY, rfl⟩ := hL
    rcases interleaveAll_sound _ _ _ hY w ((mem_dedup _ _).1 hw) with h' | ⟨ws, hws, hsh⟩
    · simp at h'
    · obtain ⟨h3, h4, h5⟩ := compositions_sound hX hws
      refine ⟨(parL_iff _ _ _).2 ⟨ws, forall₂_sound h ((forall₂_byLen ho).1 h3), hsh⟩, fun _ => ?_⟩
      rw [sh_length hsh]
      exact ⟨h4, h5⟩
  | @loop d r hd hr =>
    match Ts, h with
    | [D, R], .cons h1 (.cons h2 .nil) =>
      simp only [opPlayout, Option.map_eq_some_iff] at hL
      obtain ⟨S, hS, rfl⟩ := hL
      have := (lrun_sound c _ _ _ _ _ fuel _ S ⟨?_, ?_⟩ hS).2 w hw
      · refine ⟨?_, fun _ => this.2⟩
        have h3 := this.1
        show BLoop (blang c.loops d) (blang c.loops r) c.loops w
        have hD : ∀ v, inL (byLen (c.ord D)) v → blang c.loops d v := fun v hv => h1 v ((mem_ordByLen ho).1 hv)
        have hR : ∀ v, inL (byLen (c.ord R)) v → blang c.loops r v := fun v hv => h2 v ((mem_ordByLen ho).1 hv)
        clear this hw hS
        generalize c.loops = K at *
        have gen : ∀ n v, BLoop (inL (byLen (c.ord D))) (inL (byLen (c.ord R))) n v → BLoop (blang K d) (blang K r) n v := by
          intro n v hv
          induction hv with
          | exit h => exact .exit (hD _ h)
          | again h h' _ ih => exact .again (hD _ h) (hR _ h') ih
        exact gen _ _ h3
      · intro e he
        obtain ⟨x, hx, rfl⟩ := List.mem_map.1 he
        exact ⟨by omega, .zero hx⟩
      · simp

/-- Soundness of the playout of a node, for every limit and number of rounds. -/
theorem playout_sound {c : Cfg α} (ho : ∀ l, (c.ord l).Perm l) (fuel : Nat) (big mn mx : Int) {t : PT α} (ht : Supported t) :
    ∀ L, playout c fuel big mn mx t = some L → (∀ w ∈ L, blang c.loops t w) ∧ (NotChoice t → Bounded c big mn mx t L) := by
  have children : ∀ cs : List (PT α), (∀ t ∈ cs, ∀ L, playout c fuel big mn mx t = some L → (∀ w ∈ L, blang c.loops t w) ∧
      (NotChoice t → Bounded c big mn mx t L)) → ∀ Ts, playouts c fuel big mn mx cs = some Ts →
      List.Forall₂ (fun t L => ∀ w ∈ L, blang c.loops t w) cs Ts := by
    intro cs
    induction cs with
    | nil => intro _ Ts h; simp [playouts] at h; subst h; exact .nil
    | cons t cs ih =>
      intro hc Ts h
      rw [playouts, Option.bind_eq_some_iff] at h
      obtain ⟨a, ha, h⟩ := h
      rw [Option.map_eq_some_iff] at h
      obtain ⟨b, hb, rfl⟩ := h
      exact .cons (hc t (by simp) a ha).1 (ih (fun t ht => hc t (by simp [ht])) b hb)
  have node : ∀ op cs, Supported (.node op cs) → (∀ t ∈ cs, ∀ L, playout c fuel big mn mx t = some L →
      (∀ w ∈ L, blang c.loops t w) ∧ (NotChoice t → Bounded c big mn mx t L)) → ∀ L, playout c fuel big mn mx (.node op cs) = some L →
      (∀ w ∈ L, blang c.loops (.node op cs) w) ∧ (NotChoice (.node op cs) → Bounded c big mn mx (.node op cs) L) := by
    intro op cs hs ih L h
    rw [playout, Option.bind_eq_some_iff] at h
    obtain ⟨Ts, hT, hL⟩ := h
    have := opPlayout_sound ho hs (children cs ih Ts hT) hL
    refine ⟨fun w hw => (this w hw).1, fun hn w hw => (this w hw).2 ?_⟩
    rcases hn with rfl | rfl | rfl <;> simp
  induction ht with
  | leaf l =>
    intro L h
    rw [playout, Option.some.injEq] at h
    subst h
    cases l with
    | none =>
      refine ⟨?_, fun h => h.elim⟩
      intro w hw
      simp [leafPlayout] at hw
      subst hw
      simp [blang, eps]
    | some a =>
      have key : ∀ w ∈ leafPlayout c (mn - minLen (.leaf (some a) : PT α)) (mx - maxLen big (.leaf (some a) : PT α)) (some a), w = [a] ∧
          (mx - maxLen big (.leaf (some a) : PT α)) + 1 ≥ c.lo ∧ c.hi - (mn - minLen (.leaf (some a) : PT α)) ≥ 1 := by
        intro w hw
        rw [leafPlayout] at hw
        split at hw
        · simp at hw
          exact ⟨hw, by assumption⟩
        · simp at hw
      refine ⟨fun w hw => ?_, fun _ w hw => ?_⟩
      · rw [(key w hw).1]; simp [blang]
      · obtain ⟨rfl, h1, h2⟩ := key w hw
        simp only [List.length_singleton]
        omega
  | xor h1 h2 ih => exact node _ _ (.xor h1 h2) ih
  | seq h1 h2 ih => exact node _ _ (.seq h1 h2) ih
  | par h1 h2 ih => exact node _ _ (.par h1 h2) ih
  | loop h1 h2 ihd ihr =>
    refine node _ _ (.loop h1 h2) ?_
    intro t ht
    simp at ht
    rcases ht with rfl | rfl
    · exact ihd
    · exact ihr

/-- Termination of the operators, for every limit. -/
theorem opPlayout_term (c : Cfg α) (mr mar : Int) {op : Op} {cs : List (PT α)} (hs : Supported (.node op cs))
    (Ts : List (List (List α))) (hl : Ts.length = cs.length) : ∃ F L, ∀ fuel, F ≤ fuel → opPlayout c fuel mr mar op Ts = some L := by
  have comp : 2 ≤ cs.length → ∃ X, compositions (c.hi - mr) (c.lo - mar) (Ts.map fun t => byLen (c.ord t)) = some X := by
    intro h2
    obtain ⟨X, hX, _⟩ := compositions_some (c.hi - mr) (c.lo - mar) (Ts.map fun t => byLen (c.ord t)) (by simp; omega) (by
      intro t ht
      obtain ⟨T, _, rfl⟩ := List.mem_map.1 ht
      exact byLen_sorted _)
    exact ⟨X, hX⟩
  cases hs with
  | xor hne hc => exact ⟨0, _, fun fuel _ => rfl⟩
  | seq h2 hc =>
    obtain ⟨X, hX⟩ := comp h2
    exact ⟨0, _, fun fuel _ => by rw [opPlayout, hX]; rfl⟩
  | par h2 hc =>
    obtain ⟨X, hX⟩ := comp h2
    obtain ⟨F, L, hL⟩ := interleaveAll_term c.limit X []
    exact ⟨F, dedup L, fun fuel hf => by rw [opPlayout, hX, Option.bind_some, hL fuel hf]; rfl⟩
  | loop hd hr =>
    match Ts, hl with
    | [D, R], _ =>
      obtain ⟨S, hS⟩ := lrun_term c (byLen (c.ord D)) (byLen (c.ord R)) (c.hi - mr)
        (c.hi - firstLen (byLen (c.ord D)) - mr) (c.lo - mar) _
        { queue := (byLen (c.ord D)).map fun x => (x, false, 0), closed := [], final := [] } (Nat.le_refl _)
      refine ⟨qw c.loops (byLen (c.ord D)).length (byLen (c.ord R)).length ((byLen (c.ord D)).map fun x => (x, false, 0)), S.final,
        fun fuel hf => ?_⟩
      simp only [opPlayout]
      rw [hS fuel hf]; rfl

theorem playout_term (c : Cfg α) (big mn mx : Int) {t : PT α} (ht : Supported t) :
    ∃ F L, ∀ fuel, F ≤ fuel → playout c fuel big mn mx t = some L := by
  have children : ∀ cs : List (PT α), (∀ t ∈ cs, ∃ F L, ∀ fuel, F ≤ fuel → playout c fuel big mn mx t = some L) →
      ∃ F Ts, Ts.length = cs.length ∧ ∀ fuel, F ≤ fuel → playouts c fuel big mn mx cs = some Ts := by
    intro cs
    induction cs with
    | nil => intro _; exact ⟨0, [], rfl, fun _ _ => rfl⟩
    | cons t cs ih =>
      intro h
      obtain ⟨F1, L, h1⟩ := h t (by simp)
      obtain ⟨F2, Ts, hl, h2⟩ := ih (fun t ht => h t (by simp [ht]))
      refine ⟨F1 + F2, L :: Ts, by simp [hl], fun fuel hf => ?_⟩
      rw [playouts, h1 fuel (by omega), Option.bind_some, h2 fuel (by omega)]; rfl
  have node : ∀ op cs, Supported (.node op cs) → (∀ t ∈ cs, ∃ F L, ∀ fuel, F ≤ fuel → playout c fuel big mn mx t = some L) →
      ∃ F L, ∀ fuel, F ≤ fuel → playout c fuel big mn mx (.node op cs) = some L := by
    intro op cs hs ih
    obtain ⟨F1, Ts, hl, h1⟩ := children cs ih
    obtain ⟨F2, L, h2⟩ := opPlayout_term c (mn - minLen (.node op cs)) (mx - maxLen big (.node op cs)) hs Ts hl
    refine ⟨F1 + F2, L, fun fuel hf => ?_⟩
    rw [playout, h1 fuel (by omega), Option.bind_some, h2 fuel (by omega)]
  induction ht with
  | leaf l => exact ⟨0, _, fun fuel _ => by rw [playout]⟩
  | xor h1 h2 ih => exact node _ _ (.xor h1 h2) ih
  | seq h1 h2 ih => exact node _ _ (.seq h1 h2) ih
  | par h1 h2 ih => exact node _ _ (.par h1 h2) ih
  | loop h1 h2 ihd ihr =>
    refine node _ _ (.loop h1 h2) ?_
    intro t ht
    simp at ht
    rcases ht with rfl | rfl
    · exact ihd
    · exact ihr

/-- with another limit -/
def withLimit (c : Cfg α) (n : Nat) : Cfg α := { c with limit := n }

theorem comp_mem {c : Cfg α} {big mn mx : Int} (hb : 0 ≤ big) {cs : List (PT α)} {Ts : List (List (List α))}
    (hg : List.Forall₂ (Good c big mn mx) cs Ts) (hs : ∀ t ∈ cs, Supported t) {ws : List (List α)}
    (hw : List.Forall₂ (fun u t => blang c.loops t u) ws cs) (hbig : (tot ws : Int) ≤ big) (S U : Int)
    (hS : (tot ws : Int) - (cs.map minLen).sum ≤ S) (hU : (cs.map (maxLen big)).sum - (tot ws : Int) ≤ U)
    (h1 : S + mn ≤ c.hi) (h2 : c.lo ≤ mx - U) : List.Forall₂ (fun y t => y ∈ t) ws Ts := by
  induction hg generalizing ws with
  | nil => cases hw; exact .nil
  | @cons t T cs Ts hg _ ih =>
    cases hw with
    | @cons u _ ws _ hu hw =>
      have hlu := blang_len hb c.loops (hs t (by simp)) u hu
      have hlw := forall₂_len (big := big) c.loops hw (fun t ht => blang_len hb c.loops (hs t (by simp [ht])))
      simp only [tot, List.map_cons, List.sum_cons] at hbig hS hU hlw
      refine .cons (hg.complete u hu ?_ ?_ ?_) (ih (fun t ht => hs t (by simp [ht])) hw ?_ ?_ ?_)
      all_goals (try simp only [tot]); omega

/-- Completeness of the operators. -/
theorem opPlayout_complete (c : Cfg α) (ho : ∀ l, (c.ord l).Perm l) {big mn mx : Int} (hb : 0 ≤ big) {op : Op} {cs : List (PT α)}
    (hs : Supported (.node op cs)) {Ts : List (List (List α))} (hg : List.Forall₂ (Good c big mn mx) cs Ts) :
    ∃ N L, (∀ limit fuel, N ≤ limit → N ≤ fuel → opPlayout (withLimit c limit) fuel (mn - minLen (.node op cs))
      (mx - maxLen big (.node op cs)) op Ts = some L) ∧
      ∀ w, blang c.loops (.node op cs) w → (w.length : Int) ≤ big → (w.length : Int) + (mn - minLen (.node op cs)) ≤ c.hi →
        c.lo ≤ (w.length : Int) + (mx - maxLen big (.node op cs)) → w ∈ L := by
  generalize hmr : mn - minLen (.node op cs) = mr
  generalize hmar : mx - maxLen big (.node op cs) = mar
  rw [minLen, minLens_eq] at hmr
  rw [maxLen, maxLens_eq] at hmar
  rw [blang, blangs_eq]
  have sorted : ∀ t ∈ Ts.map fun t => byLen (c.ord t), t.Pairwise fun a b => a.length ≤ b.length := by
    intro t ht
    obtain ⟨T, _, rfl⟩ := List.mem_map.1 ht
    exact byLen_sorted _
  have hlen := hg.length_eq
  cases hs with
  | xor hne hc =>
    obtain ⟨N, L, h1, _, h2⟩ := xorUnion_complete Ts []
    refine ⟨N, L, fun limit fuel hl _ => by rw [opPlayout]; exact congrArg some (h1 limit hl), ?_⟩
    intro w hw hbig h3 h4
    obtain ⟨M, hM, hw⟩ := hw
    obtain ⟨t, ht, rfl⟩ := List.mem_map.1 hM
    have h5 := (foldl_min_le (cs.map minLen) ((cs.map minLen).headD 0)).2 _ (List.mem_map.2 ⟨t, ht, rfl⟩)
    have h6 := (foldl_max_ge (cs.map (maxLen big)) ((cs.map (maxLen big)).headD 0)).2 _ (List.mem_map.2 ⟨t, ht, rfl⟩)
    simp only [minOp', maxOp] at hmr hmar
    have : ∃ T ∈ Ts, Good c big mn mx t T := by
      clear h1 h2 hmr hmar h5 h6 hne hc sorted hlen hM
      induction hg with
      | nil => simp at ht
      | cons h _ ih =>
        rcases List.mem_cons.1 ht with rfl | ht
        · exact ⟨_, by simp, h⟩
        · obtain ⟨T, hT, h⟩ := ih ht
          exact ⟨T, by simp [hT], h⟩
    obtain ⟨T, hT, hgt⟩ := this
    exact h2 T hT w (hgt.complete w hw hbig (by omega) (by omega))
  | seq h2 hc =>
    obtain ⟨X, hX, hcomp⟩ := compositions_some (c.hi - mr) (c.lo - mar) (Ts.map fun t => byLen (c.ord t)) (by simp; omega) sorted
    refine ⟨0, dedup (X.map List.flatten), fun limit fuel _ _ => ?_, ?_⟩
    · rw [opPlayout]
      simp only [withLimit]
      rw [hX]; rfl
    · intro w hw hbig h3 h4
      obtain ⟨ws, hws, rfl⟩ := (seqL_iff _ _ _).1 hw
      rw [tot_flatten] at hbig h3 h4
      simp only [minOp', maxOp] at hmr hmar
      refine (mem_dedup _ _).2 (List.mem_map.2 ⟨ws, hcomp ws ((forall₂_byLen ho).2 ?_) (by omega) (by omega), rfl⟩)
      exact comp_mem hb hg hc hws hbig _ _ (Int.le_refl _) (Int.le_refl _) (by omega) (by omega)
  | par h2 hc =>
    obtain ⟨X, hX, hcomp⟩ := compositions_some (c.hi - mr) (c.lo - mar) (Ts.map fun t => byLen (c.ord t)) (by simp; omega) sorted
    obtain ⟨N, L, hL, _, hall⟩ := interleaveAll_complete X []
    refine ⟨N, dedup L, fun limit fuel h5 h6 => ?_, ?_⟩
    · rw [opPlayout]
      simp only [withLimit]
      rw [hX, Option.bind_some, hL fuel limit h6 h5]; rfl
    · intro w hw hbig h3 h4
      obtain ⟨ws, hws, hsh⟩ := (parL_iff _ _ _).1 hw
      rw [sh_length hsh] at hbig h3 h4
      simp only [minOp', maxOp] at hmr hmar
      refine (mem_dedup _ _).2 (hall ws (hcomp ws ((forall₂_byLen ho).2 ?_) (by omega) (by omega)) w hsh)
      exact comp_mem hb hg hc hws hbig _ _ (Int.le_refl _) (Int.le_refl _) (by omega) (by omega)
  | @loop d r hd hr =>
    match Ts, hg with
    | [D, R], .cons hD (.cons hR .nil) =>
      simp only [minOp', maxOp, List.map_cons, List.map_nil, List.headD_cons, List.sum_cons, List.sum_nil] at hmr hmar
      obtain ⟨S, ck, hS, hI, hE⟩ := lrun_complete c (byLen (c.ord D)) (byLen (c.ord R)) (c.hi - mr)
        (c.hi - firstLen (byLen (c.ord D)) - mr) (c.lo - mar) (byLen_sorted _) (byLen_sorted _) _
        { queue := (byLen (c.ord D)).map fun x => (x, false, 0), closed := [], final := [] } [] (Nat.le_refl _) (linv_init ..)
      refine ⟨qw c.loops (byLen (c.ord D)).length (byLen (c.ord R)).length ((byLen (c.ord D)).map fun x => (x, false, 0)), S.final,
        fun limit fuel h5 h6 => ?_, ?_⟩
      · simp only [opPlayout, withLimit]
        rw [hS fuel limit h6 (by simpa using h5)]; rfl
      · intro w hw hbig h3 h4
        have hw : BLoop (blang c.loops d) (blang c.loops r) c.loops w := hw
        obtain ⟨k, hk, hw⟩ := bloop_iff.1 hw
        have hmd := maxLen_nonneg hb d
        have hmr' := maxLen_nonneg hb r
        have hW : LReach (inL (byLen (c.ord D))) (inL (byLen (c.ord R))) k w := by
          have gen : ∀ k v, LReach (blang c.loops d) (blang c.loops r) k v → v.length ≤ w.length →
              LReach (inL (byLen (c.ord D))) (inL (byLen (c.ord R))) k v := by
            intro k v hv
            induction hv with
            | @zero v hv =>
              intro hl
              exact .zero ((mem_ordByLen ho).2 (hD.complete v hv (by omega) (by omega) (by omega)))
            | @succ k u y v hu hy hv ih =>
              intro hl
              simp only [List.length_append] at hl
              have : minLen d ≤ u.length := by
                have := bloop_iff.2 ⟨k, Nat.le_refl k, hu⟩
                obtain ⟨x, hx, hlx⟩ := bloop_len this
                have := (blang_len hb c.loops hd x hx).1
                omega
              have hmy := (blang_len hb c.loops hr y hy).1
              have hmin := minLen_nonneg r
              refine .succ (ih (by omega)) ((mem_ordByLen ho).2 (hR.complete y hy (by omega) (by omega) (by omega)))
                ((mem_ordByLen ho).2 (hD.complete v hv (by omega) (by omega) (by omega)))
          exact gen k w hw (Nat.le_refl _)
        obtain ⟨k', _, hck⟩ := linv_done hI hE (by
          intro x hx
          have := firstLen_le (byLen_sorted (c.ord D)) hx
          omega) hW hk (by omega)
        exact hI.final w ((hI.closed w).2 ⟨k', hck⟩) (by omega) (by omega)

theorem playout_complete (c : Cfg α) (ho : ∀ l, (c.ord l).Perm l) {big mn mx : Int} (hb : 0 ≤ big) {t : PT α} (ht : Supported t) :
    ∃ N L, (∀ limit fuel, N ≤ limit → N ≤ fuel → playout (withLimit c limit) fuel big mn mx t = some L) ∧ Good c big mn mx t L := by
  have children : ∀ cs : List (PT α), (∀ t ∈ cs, ∃ N L, (∀ limit fuel, N ≤ limit → N ≤ fuel →
      playout (withLimit c limit) fuel big mn mx t = some L) ∧ Good c big mn mx t L) →
      ∃ N Ts, (∀ limit fuel, N ≤ limit → N ≤ fuel → playouts (withLimit c limit) fuel big mn mx cs = some Ts) ∧
        List.Forall₂ (Good c big mn mx) cs Ts := by
    intro cs
    induction cs with
    | nil => intro _; exact ⟨0, [], fun _ _ _ _ => rfl, .nil⟩
    | cons t cs ih =>
      intro h
      obtain ⟨F1, L, h1, hg⟩ := h t (by simp)
      obtain ⟨F2, Ts, h2, hgs⟩ := ih (fun t ht => h t (by simp [ht]))
      refine ⟨F1 + F2, L :: Ts, fun limit fuel hl hf => ?_, .cons hg hgs⟩
      rw [playouts, h1 limit fuel (by omega) (by omega), Option.bind_some, h2 limit fuel (by omega) (by omega)]; rfl
  have node : ∀ op cs, Supported (.node op cs) → (∀ t ∈ cs, ∃ N L, (∀ limit fuel, N ≤ limit → N ≤ fuel →
      playout (withLimit c limit) fuel big mn mx t = some L) ∧ Good c big mn mx t L) →
      ∃ N L, (∀ limit fuel, N ≤ limit → N ≤ fuel → playout (withLimit c limit) fuel big mn mx (.node op cs) = some L) ∧
        Good c big mn mx (.node op cs) L := by
    intro op cs hs ih
    obtain ⟨F1, Ts, h1, hg⟩ := children cs ih
    obtain ⟨F2, L, h2, hc⟩ := opPlayout_complete c ho hb hs hg
    have hrun : ∀ limit fuel, F1 + F2 ≤ limit → F1 + F2 ≤ fuel → playout (withLimit c limit) fuel big mn mx (.node op cs) = some L := by
      intro limit fuel hl hf
      rw [playout, h1 limit fuel (by omega) (by omega), Option.bind_some, h2 limit fuel (by omega) (by omega)]
    exact ⟨F1 + F2, L, hrun, (playout_sound (c := withLimit c (F1 + F2)) ho (F1 + F2) big mn mx hs L
      (hrun _ _ (Nat.le_refl _) (Nat.le_refl _))).1, hc⟩
  induction ht with
  | leaf l =>
    have hrun : ∀ limit fuel, playout (withLimit c limit) fuel big mn mx (.leaf l) =
      some (leafPlayout c (mn - minLen (.leaf l : PT α)) (mx - maxLen big (.leaf l : PT α)) l) := fun limit fuel => by
        rw [playout]; cases l <;> rfl
    refine ⟨0, _, fun limit fuel _ _ => hrun limit fuel, (playout_sound (c := withLimit c 0) ho 0 big mn mx (.leaf l) _ (hrun _ _)).1, ?_⟩
    intro w hw hbig h1 h2
    cases l with
    | none => simp [blang, eps] at hw; subst hw; simp [leafPlayout]
    | some a =>
      simp [blang] at hw
      subst hw
      simp only [List.length_singleton] at h1 h2
      rw [leafPlayout, if_pos (by omega)]
      simp
  | xor h1 h2 ih => exact node _ _ (.xor h1 h2) ih
  | seq h1 h2 ih => exact node _ _ (.seq h1 h2) ih
  | par h1 h2 ih => exact node _ _ (.par h1 h2) ih
  | loop h1 h2 ihd ihr =>
    refine node _ _ (.loop h1 h2) ?_
    intro t ht
    simp at ht
    rcases ht with rfl | rfl
    · exact ihd
    · exact ihr

end Verif.TreePlayout
