import Verif.Align.Model
/-
Runs of the synchronous product (C05).
-/
namespace Verif
open Dict

namespace Align
variable {P P1 P2 T T1 T2 A : Type}

/-! ### Specification -/

/-- `ts` is a firing sequence of the net from `im` that ends in the marking `fm`. -/
def CompleteRun [DecidableEq P] [DecidableEq T] (net : Net P T) (im fm : Marking P) (ts : List T) : Prop :=
  ∃ m, ts.foldlM (fun m t => net.execute t m) im = some m ∧ SameTokens m fm

/-- all arcs have weight 1 -/
def UnitWeights (net : Net P T) : Prop := ∀ t ∈ net.transitions, (∀ a ∈ net.inArcs t, a.2 = 1) ∧ ∀ a ∈ net.outArcs t, a.2 = 1

/-- the part of a move that concerns the first net -/
def Move.fst? : Move T1 T2 → Option T1
  | .left t1 => some t1
  | .right _ => none
  | .sync t1 _ => some t1

/-- the part of a move that concerns the second net -/
def Move.snd? : Move T1 T2 → Option T2
  | .left _ => none
  | .right t2 => some t2
  | .sync _ t2 => some t2

/-- a synchronous move pairs transitions with the same label -/
def Move.Agree (n1 : LNet P1 T1 A) (n2 : LNet P2 T2 A) : Move T1 T2 → Prop
  | .sync t1 t2 => n1.label t1 = n2.label t2
  | _ => True

/-! ### Runs on token counts -/

section
variable [DecidableEq P]

/-- runs on token counts -/
def CRun (net : Net P T) : (P → Int) → List T → (P → Int) → Prop
  | f, [], g => f = g
  | f, t :: ts, g => t ∈ net.transitions ∧ (∀ p, arcWeight (net.inArcs t) p ≤ f p) ∧
      CRun net (fun p => f p - arcWeight (net.inArcs t) p + arcWeight (net.outArcs t) p) ts g

variable [DecidableEq T]

theorem run_to_crun (net : Net P T) (hs : net.Simple) (ts : List T) (m m' : Marking P) (hm : Pos m)
    (h : ts.foldlM (fun m t => net.execute t m) m = some m') : CRun net (count m) ts (count m') := by
  induction ts generalizing m with
  | nil => simp at h; subst h; rfl
  | cons t ts ih =>
    simp only [List.foldlM_cons, Option.bind_eq_bind, Option.bind_eq_some_iff] at h
    obtain ⟨m1, h1, h2⟩ := h
    have he := (Net.isEnabled_iff_enabled net hs t m hm).1 ((Net.execute_some_iff _ _ _ _).1 h1).1
    refine ⟨he.1, he.2, ?_⟩
    have := ih m1 (Net.execute_pos hs hm h1) h2
    rwa [funext (Net.execute_fires h1)] at this

theorem crun_to_run (net : Net P T) (hs : net.Simple) (ts : List T) (m : Marking P) (g : P → Int) (hm : Pos m)
    (h : CRun net (count m) ts g) : ∃ m', ts.foldlM (fun m t => net.execute t m) m = some m' ∧ count m' = g := by
  induction ts generalizing m with
  | nil => exact ⟨m, rfl, h⟩
  | cons t ts ih =>
    obtain ⟨h1, h2, h3⟩ := h
    have he := (Net.isEnabled_iff_enabled net hs t m hm).2 ⟨h1, h2⟩
    obtain ⟨m1, hm1⟩ : ∃ m1, net.execute t m = some m1 := by
      unfold Net.execute; rw [he]; exact ⟨_, rfl⟩
    rw [← funext (Net.execute_fires hm1)] at h3
    obtain ⟨m', h4, h5⟩ := ih m1 (Net.execute_pos hs hm hm1) h3
    refine ⟨m', ?_, h5⟩
    simp [List.foldlM_cons, hm1, h4]

theorem completeRun_iff (net : Net P T) (hs : net.Simple) (ts : List T) (im fm : Marking P) (hi : Pos im) :
    CompleteRun net im fm ts ↔ CRun net (count im) ts (count fm) := by
  constructor
  · rintro ⟨m, h1, h2⟩
    have := run_to_crun net hs ts im m hi h1
    rwa [funext h2] at this
  · intro h
    obtain ⟨m, h1, h2⟩ := crun_to_run net hs ts im _ hi h
    exact ⟨m, h1, fun p => congrFun h2 p⟩
end

/-! ### The product -/

section
variable [DecidableEq P1] [DecidableEq P2] [DecidableEq A]

theorem arcWeight_copy_inl (as : List (P1 × Int)) (h : ∀ a ∈ as, a.2 = 1) (p : P1) :
    arcWeight (copyArcs (Sum.inl : P1 → P1 ⊕ P2) as) (.inl p) = arcWeight as p := by
  induction as with
  | nil => rfl
  | cons a as ih =>
    simp only [copyArcs, List.map_cons, List.mem_cons, forall_eq_or_imp] at ih h ⊢
    rw [arcWeight_cons, arcWeight_cons, ih h.2, h.1]
    simp

theorem arcWeight_copy_inr (as : List (P2 × Int)) (h : ∀ a ∈ as, a.2 = 1) (p : P2) :
    arcWeight (copyArcs (Sum.inr : P2 → P1 ⊕ P2) as) (.inr p) = arcWeight as p := by
  induction as with
  | nil => rfl
  | cons a as ih =>
    simp only [copyArcs, List.map_cons, List.mem_cons, forall_eq_or_imp] at ih h ⊢
    rw [arcWeight_cons, arcWeight_cons, ih h.2, h.1]
    simp

theorem arcWeight_copy_inl_inr (as : List (P1 × Int)) (p : P2) :
    arcWeight (copyArcs (Sum.inl : P1 → P1 ⊕ P2) as) (.inr p) = 0 := by
  apply arcWeight_eq_zero; simp [copyArcs]

theorem arcWeight_copy_inr_inl (as : List (P2 × Int)) (p : P1) :
    arcWeight (copyArcs (Sum.inr : P2 → P1 ⊕ P2) as) (.inl p) = 0 := by
  apply arcWeight_eq_zero; simp [copyArcs]

theorem mem_product_left (n1 : LNet P1 T1 A) (n2 : LNet P2 T2 A) (t : T1) :
    Move.left t ∈ (product n1 n2).transitions ↔ t ∈ n1.transitions := by simp [product]
theorem mem_product_right (n1 : LNet P1 T1 A) (n2 : LNet P2 T2 A) (t : T2) :
    Move.right t ∈ (product n1 n2).transitions ↔ t ∈ n2.transitions := by simp [product]
theorem mem_product_sync (n1 : LNet P1 T1 A) (n2 : LNet P2 T2 A) (t1 : T1) (t2 : T2) :
    Move.sync t1 t2 ∈ (product n1 n2).transitions ↔ t1 ∈ n1.transitions ∧ t2 ∈ n2.transitions ∧ n1.label t1 = n2.label t2 := by
  simp [product]

/-- the two halves of a token count -/
theorem sum_fun_ext {f g : P1 ⊕ P2 → Int} (h1 : ∀ p, f (.inl p) = g (.inl p)) (h2 : ∀ p, f (.inr p) = g (.inr p)) : f = g := by
  funext p; cases p <;> simp [h1, h2]

/-- tokens consumed by the part of a move that concerns the first net -/
def inW1 (n1 : LNet P1 T1 A) (o : Option T1) (p : P1) : Int := match o with | some t => arcWeight (n1.inArcs t) p | none => 0
/-- tokens produced by the part of a move that concerns the first net -/
def outW1 (n1 : LNet P1 T1 A) (o : Option T1) (p : P1) : Int := match o with | some t => arcWeight (n1.outArcs t) p | none => 0

theorem product_weights (n1 : LNet P1 T1 A) (n2 : LNet P2 T2 A) (u1 : UnitWeights n1.toNet) (u2 : UnitWeights n2.toNet)
    (mv : Move T1 T2) (hm : mv ∈ (product n1 n2).transitions) :
    (∀ p, arcWeight ((product n1 n2).inArcs mv) (.inl p) = inW1 n1 mv.fst? p) ∧
    (∀ p, arcWeight ((product n1 n2).inArcs mv) (.inr p) = inW1 n2 mv.snd? p) ∧
    (∀ p, arcWeight ((product n1 n2).outArcs mv) (.inl p) = outW1 n1 mv.fst? p) ∧
    (∀ p, arcWeight ((product n1 n2).outArcs mv) (.inr p) = outW1 n2 mv.snd? p) := by
  cases mv with
  | left t =>
    rw [mem_product_left] at hm
    refine ⟨fun p => ?_, fun p => ?_, fun p => ?_, fun p => ?_⟩ <;> simp only [product, inW1, outW1, Move.fst?, Move.snd?]
    · exact arcWeight_copy_inl _ (u1 t hm).1 p
    · exact arcWeight_copy_inl_inr _ p
    · exact arcWeight_copy_inl _ (u1 t hm).2 p
    · exact arcWeight_copy_inl_inr _ p
  | right t =>
    rw [mem_product_right] at hm
    refine ⟨fun p => ?_, fun p => ?_, fun p => ?_, fun p => ?_⟩ <;> simp only [product, inW1, outW1, Move.fst?, Move.snd?]
    · exact arcWeight_copy_inr_inl _ p
    · exact arcWeight_copy_inr _ (u2 t hm).1 p
    · exact arcWeight_copy_inr_inl _ p
    · exact arcWeight_copy_inr _ (u2 t hm).2 p
  | sync t1 t2 =>
    rw [mem_product_sync] at hm
    refine ⟨fun p => ?_, fun p => ?_, fun p => ?_, fun p => ?_⟩ <;>
      simp only [product, inW1, outW1, Move.fst?, Move.snd?, arcWeight_append]
    · rw [arcWeight_copy_inl _ (u1 t1 hm.1).1, arcWeight_copy_inr_inl, Int.add_zero]
    · rw [arcWeight_copy_inl_inr, arcWeight_copy_inr _ (u2 t2 hm.2.1).1, Int.zero_add]
    · rw [arcWeight_copy_inl _ (u1 t1 hm.1).2, arcWeight_copy_inr_inl, Int.add_zero]
    · rw [arcWeight_copy_inl_inr, arcWeight_copy_inr _ (u2 t2 hm.2.1).2, Int.zero_add]

/-- a run that starts with an optional step -/
theorem crun_toList (n : LNet P1 T1 A) (o : Option T1) (ts : List T1) (f g : P1 → Int) (hf : ∀ p, 0 ≤ f p) :
    CRun n.toNet f (o.toList ++ ts) g ↔ (∀ t ∈ o, t ∈ n.transitions) ∧ (∀ p, inW1 n o p ≤ f p) ∧
      CRun n.toNet (fun p => f p - inW1 n o p + outW1 n o p) ts g := by
  cases o with
  | none => simp [inW1, outW1, hf]
  | some t => simp [inW1, outW1, CRun]

theorem mem_product_iff (n1 : LNet P1 T1 A) (n2 : LNet P2 T2 A) (mv : Move T1 T2) :
    mv ∈ (product n1 n2).transitions ↔
      mv.Agree n1 n2 ∧ (∀ t ∈ mv.fst?, t ∈ n1.transitions) ∧ ∀ t ∈ mv.snd?, t ∈ n2.transitions := by
  cases mv with
  | left t => simp [mem_product_left, Move.Agree, Move.fst?, Move.snd?]
  | right t => simp [mem_product_right, Move.Agree, Move.fst?, Move.snd?]
  | sync t1 t2 => simp [mem_product_sync, Move.Agree, Move.fst?, Move.snd?]; grind

theorem outW1_nonneg (n : LNet P1 T1 A) (u : UnitWeights n.toNet) (o : Option T1) (ho : ∀ t ∈ o, t ∈ n.transitions) (p : P1) :
    0 ≤ outW1 n o p := by
  cases o with
  | none => simp [outW1]
  | some t =>
    refine arcWeight_nonneg (fun a ha => ?_) p
    have := (u t (ho t rfl)).2 a ha
    omega

theorem filterMap_cons_toList {X Y : Type} (f : X → Option Y) (x : X) (l : List X) :
    (x :: l).filterMap f = (f x).toList ++ l.filterMap f := by
  rw [List.filterMap_cons]; cases f x <;> rfl

theorem crun_product (n1 : LNet P1 T1 A) (n2 : LNet P2 T2 A) (u1 : UnitWeights n1.toNet) (u2 : UnitWeights n2.toNet)
    (s : List (Move T1 T2)) (f g : P1 ⊕ P2 → Int) (hf : ∀ p, 0 ≤ f p) :
    CRun (product n1 n2).toNet f s g ↔
      (∀ mv ∈ s, mv.Agree n1 n2) ∧
      CRun n1.toNet (fun p => f (.inl p)) (s.filterMap Move.fst?) (fun p => g (.inl p)) ∧
      CRun n2.toNet (fun p => f (.inr p)) (s.filterMap Move.snd?) (fun p => g (.inr p)) := by
  induction s generalizing f with
  | nil =>
    simp only [CRun, List.filterMap_nil, List.not_mem_nil, false_implies, implies_true, true_and]
    constructor
    · rintro rfl; exact ⟨rfl, rfl⟩
    · rintro ⟨h1, h2⟩; exact sum_fun_ext (congrFun h1) (congrFun h2)
  | cons mv s ih =>
    rw [filterMap_cons_toList, filterMap_cons_toList, crun_toList n1 _ _ _ _ (fun p => hf _),
      crun_toList n2 _ _ _ _ (fun p => hf _)]
    simp only [CRun, List.mem_cons, forall_eq_or_imp]
    rw [mem_product_iff]
    have step : ∀ (hm : mv ∈ (product n1 n2).transitions),
        (∀ p, arcWeight ((product n1 n2).inArcs mv) p ≤ f p) → ∀ p,
        0 ≤ f p - arcWeight ((product n1 n2).inArcs mv) p + arcWeight ((product n1 n2).outArcs mv) p := by
      intro hm h p
      have w := product_weights n1 n2 u1 u2 mv hm
      have hm' := (mem_product_iff n1 n2 mv).1 hm
      have h1 := h p
      cases p with
      | inl p => have := outW1_nonneg n1 u1 mv.fst? hm'.2.1 p; rw [w.2.2.1 p]; omega
      | inr p => have := outW1_nonneg n2 u2 mv.snd? hm'.2.2 p; rw [w.2.2.2 p]; omega
    constructor
    · rintro ⟨hm, he, hr⟩
      have hmem := (mem_product_iff n1 n2 mv).2 hm
      have w := product_weights n1 n2 u1 u2 mv hmem
      rw [ih _ (step hmem he)] at hr
      simp only [w.1, w.2.1, w.2.2.1, w.2.2.2] at hr
      refine ⟨⟨hm.1, hr.1⟩, ⟨hm.2.1, fun p => ?_, hr.2.1⟩, hm.2.2, fun p => ?_, hr.2.2⟩
      · rw [← w.1]; exact he _
      · rw [← w.2.1]; exact he _
    · rintro ⟨⟨ha, hs⟩, ⟨h1, h2, h3⟩, h4, h5, h6⟩
      have hm := And.intro ha (And.intro h1 h4)
      have hmem := (mem_product_iff n1 n2 mv).2 hm
      have w := product_weights n1 n2 u1 u2 mv hmem
      have he : ∀ p, arcWeight ((product n1 n2).inArcs mv) p ≤ f p := by
        rintro (p | p)
        · rw [w.1]; exact h2 p
        · rw [w.2.1]; exact h5 p
      refine ⟨hm, he, ?_⟩
      rw [ih _ (step hmem he)]
      simp only [w.1, w.2.1, w.2.2.1, w.2.2.2]
      exact ⟨hs, h3, h6⟩

/-! ### Markings of the product -/

theorem count_fold_inl (m1 : Marking P1) (acc : Marking (P1 ⊕ P2)) (h : (keys m1).Nodup) (p : P1 ⊕ P2) :
    get? (m1.foldl (fun m e => Dict.set m (Sum.inl e.1) e.2) acc) p =
      match p with | .inl q => (get? m1 q).or (get? acc p) | .inr _ => get? acc p := by
  induction m1 generalizing acc with
  | nil => cases p <;> simp
  | cons e m1 ih =>
    obtain ⟨k, v⟩ := e
    simp only [keys, List.map_cons, List.nodup_cons] at h
    rw [List.foldl_cons, ih _ h.2]
    cases p with
    | inr q => simp [get?_set]
    | inl q =>
      simp only [get?_set, get?_cons, Sum.inl.injEq]
      by_cases hk : k = q
      · subst hk
        have : get? m1 k = none := by
          have := mem_keys_iff m1 k
          rw [Option.eq_none_iff_forall_ne_some]; intro v' hv'
          exact h.1 (this.2 (by simp [hv']))
        simp [this]
      · simp [hk]

theorem count_fold_inr (m2 : Marking P2) (acc : Marking (P1 ⊕ P2)) (h : (keys m2).Nodup) (p : P1 ⊕ P2) :
    get? (m2.foldl (fun m e => Dict.set m (Sum.inr e.1) e.2) acc) p =
      match p with | .inr q => (get? m2 q).or (get? acc p) | .inl _ => get? acc p := by
  induction m2 generalizing acc with
  | nil => cases p <;> simp
  | cons e m2 ih =>
    obtain ⟨k, v⟩ := e
    simp only [keys, List.map_cons, List.nodup_cons] at h
    rw [List.foldl_cons, ih _ h.2]
    cases p with
    | inl q => simp [get?_set]
    | inr q =>
      simp only [get?_set, get?_cons, Sum.inr.injEq]
      by_cases hk : k = q
      · subst hk
        have : get? m2 k = none := by
          have := mem_keys_iff m2 k
          rw [Option.eq_none_iff_forall_ne_some]; intro v' hv'
          exact h.1 (this.2 (by simp [hv']))
        simp [this]
      · simp [hk]

theorem get?_productMarking (m1 : Marking P1) (m2 : Marking P2) (h1 : (keys m1).Nodup) (h2 : (keys m2).Nodup) (p : P1 ⊕ P2) :
    get? (productMarking m1 m2) p = match p with | .inl q => get? m1 q | .inr q => get? m2 q := by
  unfold productMarking
  rw [count_fold_inr _ _ h2]
  cases p with
  | inl q => simp [count_fold_inl _ _ h1]
  | inr q => simp [count_fold_inl _ _ h1]

theorem productMarking_pos (m1 : Marking P1) (m2 : Marking P2) (h1 : (keys m1).Nodup) (h2 : (keys m2).Nodup)
    (p1 : Pos m1) (p2 : Pos m2) : Pos (productMarking m1 m2) := by
  intro k v hk
  rw [get?_productMarking _ _ h1 h2] at hk
  cases k with
  | inl q => exact p1 q v hk
  | inr q => exact p2 q v hk

theorem productMarking_nodup (m1 : Marking P1) (m2 : Marking P2) : (keys (productMarking m1 m2)).Nodup := by
  unfold productMarking
  have : ∀ (l : Marking P2) (acc : Marking (P1 ⊕ P2)), (keys acc).Nodup →
      (keys (l.foldl (fun m e => Dict.set m (Sum.inr e.1) e.2) acc)).Nodup := by
    intro l; induction l with
    | nil => intro acc h; exact h
    | cons e l ih => intro acc h; exact ih _ (nodup_set h _ _)
  apply this
  have : ∀ (l : Marking P1) (acc : Marking (P1 ⊕ P2)), (keys acc).Nodup →
      (keys (l.foldl (fun m e => Dict.set m (Sum.inl e.1) e.2) acc)).Nodup := by
    intro l; induction l with
    | nil => intro acc h; exact h
    | cons e l ih => intro acc h; exact ih _ (nodup_set h _ _)
  exact this _ _ (by simp)

theorem copyArcs_fst {Q Q' : Type} (f : Q → Q') (as : List (Q × Int)) : (copyArcs f as).map Prod.fst = (as.map Prod.fst).map f := by
  simp [copyArcs, Function.comp_def]

/-- every input place of a product transition is used once, all weights are 1 -/
theorem product_simple (n1 : LNet P1 T1 A) (n2 : LNet P2 T2 A) (s1 : n1.toNet.Simple) (s2 : n2.toNet.Simple) :
    (product n1 n2).toNet.Simple where
  noParallel := by
    intro mv hm
    have i1 : ∀ t ∈ n1.transitions, ((copyArcs (Sum.inl : P1 → P1 ⊕ P2) (n1.inArcs t)).map Prod.fst).Nodup := by
      intro t ht; rw [copyArcs_fst]; exact (s1.noParallel t ht).map _ (by simp)
    have i2 : ∀ t ∈ n2.transitions, ((copyArcs (Sum.inr : P2 → P1 ⊕ P2) (n2.inArcs t)).map Prod.fst).Nodup := by
      intro t ht; rw [copyArcs_fst]; exact (s2.noParallel t ht).map _ (by simp)
    cases mv with
    | left t => rw [mem_product_left] at hm; exact i1 t hm
    | right t => rw [mem_product_right] at hm; exact i2 t hm
    | sync t1 t2 =>
      rw [mem_product_sync] at hm
      simp only [product, List.map_append]
      rw [List.nodup_append]
      refine ⟨i1 _ hm.1, i2 _ hm.2.1, ?_⟩
      intro a ha b hb
      rw [copyArcs_fst] at ha hb
      simp only [List.mem_map] at ha hb
      obtain ⟨x, _, rfl⟩ := ha
      obtain ⟨y, _, rfl⟩ := hb
      simp
  inPos := by
    intro mv hm a ha
    cases mv <;> simp [product, copyArcs] at ha <;> grind
  outPos := by
    intro mv hm a ha
    cases mv <;> simp [product, copyArcs] at ha <;> grind
end

/-! ### The trace net -/

section
theorem traceNet_unit (tr : List A) : UnitWeights (traceNet tr).toNet := by
  intro t _; simp [traceNet]

theorem traceNet_simple (tr : List A) : (traceNet tr).toNet.Simple where
  noParallel := by intro t _; simp [traceNet]
  inPos := by intro t _ a ha; simp [traceNet] at ha; subst ha; simp
  outPos := by intro t _ a ha; simp [traceNet] at ha; subst ha; simp

/-- one token in place `i` -/
def one (i : Nat) : Nat → Int := fun p => if i = p then 1 else 0

theorem one_inj {i j : Nat} (h : one i = one j) : i = j := by
  have := congrFun h i
  simp only [one, if_true] at this
  split at this
  · omega
  · omega

theorem arcWeight_one (i p : Nat) : arcWeight [((i : Nat), (1 : Int))] p = one i p := by
  simp only [arcWeight, one, List.filter_cons, List.filter_nil]
  by_cases h : i = p <;> simp [h]

theorem crun_trace (tr : List A) (ts : List Nat) (i : Nat) (g : Nat → Int) :
    CRun (traceNet tr).toNet (one i) ts g ↔
      ts = List.range' i ts.length ∧ (ts = [] ∨ i + ts.length ≤ tr.length) ∧ g = one (i + ts.length) := by
  induction ts generalizing i with
  | nil => simp [CRun, eq_comm]
  | cons t ts ih =>
    simp only [CRun, List.length_cons, List.range'_succ, List.cons.injEq]
    constructor
    · rintro ⟨h1, h2, h3⟩
      have ht : t = i := by
        have := h2 t
        simp only [traceNet] at this
        rw [arcWeight_one] at this
        simp only [one, if_true] at this
        split at this
        · omega
        · omega
      subst ht
      have : (fun p => one t p - arcWeight ((traceNet tr).inArcs t) p + arcWeight ((traceNet tr).outArcs t) p) = one (t + 1) := by
        funext p; simp only [traceNet, arcWeight_one]; omega
      rw [this, ih] at h3
      have h1' : t < tr.length := by simpa [traceNet] using h1
      refine ⟨⟨rfl, h3.1⟩, .inr ?_, by rw [h3.2.2]; congr 1; omega⟩
      rcases h3.2.1 with rfl | h
      · simp; omega
      · omega
    · rintro ⟨⟨rfl, h1⟩, h2, h3⟩
      simp only [List.cons_ne_nil, false_or] at h2
      refine ⟨by simp [traceNet]; omega, ?_, ?_⟩
      · intro p; simp [traceNet, arcWeight_one]
      · have : (fun p => one t p - arcWeight ((traceNet tr).inArcs t) p + arcWeight ((traceNet tr).outArcs t) p) = one (t + 1) := by
          funext p; simp only [traceNet, arcWeight_one]; omega
        rw [this, ih]
        exact ⟨h1, .inr (by omega), by rw [h3]; congr 1; omega⟩

theorem count_traceIm : count traceIm = one 0 := by
  funext p; simp [traceIm, count, get?, one]; split <;> rfl
theorem count_traceFm (tr : List A) : count (traceFm tr) = one tr.length := by
  funext p; simp [traceFm, count, get?, one]; split <;> rfl

theorem crun_trace_complete (tr : List A) (ts : List Nat) :
    CRun (traceNet tr).toNet (count traceIm) ts (count (traceFm tr)) ↔ ts = List.range tr.length := by
  rw [count_traceIm, count_traceFm, crun_trace]
  constructor
  · rintro ⟨h1, _, h3⟩
    have := one_inj h3
    rw [h1, this, List.range_eq_range']; simp
  · rintro rfl
    refine ⟨by simp [List.range_eq_range'], .inr (by simp), by simp⟩
end

theorem pos_single {Q : Type} [DecidableEq Q] (q : Q) : Pos ([(q, 1)] : Marking Q) := by
  intro k v hk
  simp only [get?] at hk
  split at hk <;> simp at hk; omega

end Align

open Align

section
variable {P P1 P2 T T1 T2 A : Type} [DecidableEq P] [DecidableEq P1] [DecidableEq P2] [DecidableEq T] [DecidableEq T1]
  [DecidableEq T2] [DecidableEq A]

/-- C05 for two arbitrary nets: a sequence of moves is a complete run of the product iff its first components are a
complete run of the first net, its second components are a complete run of the second net, and synchronous moves pair
equal labels. -/
theorem C05_product_runs (n1 : LNet P1 T1 A) (n2 : LNet P2 T2 A) (s1 : n1.toNet.Simple) (s2 : n2.toNet.Simple)
    (u1 : UnitWeights n1.toNet) (u2 : UnitWeights n2.toNet) (im1 fm1 : Marking P1) (im2 fm2 : Marking P2)
    (hi1 : (keys im1).Nodup) (hf1 : (keys fm1).Nodup) (hi2 : (keys im2).Nodup) (hf2 : (keys fm2).Nodup)
    (p1 : Pos im1) (p2 : Pos im2) (s : List (Move T1 T2)) :
    CompleteRun (product n1 n2).toNet (productMarking im1 im2) (productMarking fm1 fm2) s ↔
      (∀ t1 t2, Move.sync t1 t2 ∈ s → n1.label t1 = n2.label t2) ∧
      CompleteRun n1.toNet im1 fm1 (s.filterMap Move.fst?) ∧
      CompleteRun n2.toNet im2 fm2 (s.filterMap Move.snd?) := by
  have hp := productMarking_pos im1 im2 hi1 hi2 p1 p2
  rw [completeRun_iff _ (product_simple n1 n2 s1 s2) _ _ _ hp, completeRun_iff _ s1 _ _ _ p1, completeRun_iff _ s2 _ _ _ p2,
    crun_product n1 n2 u1 u2 s _ _ (fun p => hp.count_nonneg p)]
  have e1 : ∀ (m1 : Marking P1) (m2 : Marking P2), (keys m1).Nodup → (keys m2).Nodup →
      (fun p => count (productMarking m1 m2) (.inl p)) = count m1 := by
    intro m1 m2 h1 h2; funext p; simp [count, get?_productMarking _ _ h1 h2]
  have e2 : ∀ (m1 : Marking P1) (m2 : Marking P2), (keys m1).Nodup → (keys m2).Nodup →
      (fun p => count (productMarking m1 m2) (.inr p)) = count m2 := by
    intro m1 m2 h1 h2; funext p; simp [count, get?_productMarking _ _ h1 h2]
  rw [e1 _ _ hi1 hi2, e1 _ _ hf1 hf2, e2 _ _ hi1 hi2, e2 _ _ hf1 hf2]
  constructor
  · rintro ⟨h, h'⟩; exact ⟨fun t1 t2 ht => h _ ht, h'⟩
  · rintro ⟨h, h'⟩
    refine ⟨fun mv hmv => ?_, h'⟩
    cases mv with
    | sync t1 t2 => exact h t1 t2 hmv
    | left => trivial
    | right => trivial

/-- Specification: `s` aligns the trace `tr` with the net: in order, the events of the trace are each used exactly once,
the transitions form a complete run of the net, and a synchronous move pairs an event with a transition that carries its
activity. -/
structure IsAlignment (tr : List A) (net : LNet P T A) (im fm : Marking P) (s : List (Move Nat T)) : Prop where
  events : s.filterMap Move.fst? = List.range tr.length
  run : CompleteRun net.toNet im fm (s.filterMap Move.snd?)
  sync : ∀ i t, Move.sync i t ∈ s → ∃ a, tr[i]? = some a ∧ net.label t = some a

/-- C05: the complete runs of the synchronous product of a trace net and a net are exactly the alignments. -/
theorem C05_runs_are_alignments (tr : List A) (net : LNet P T A) (hs : net.toNet.Simple) (hu : UnitWeights net.toNet)
    (im fm : Marking P) (hi : (keys im).Nodup) (hf : (keys fm).Nodup) (hp : Pos im) (s : List (Move Nat T)) :
    CompleteRun (product (traceNet tr) net).toNet (productMarking traceIm im) (productMarking (traceFm tr) fm) s ↔
      IsAlignment tr net im fm s := by
  rw [C05_product_runs (traceNet tr) net (traceNet_simple tr) hs (traceNet_unit tr) hu traceIm (traceFm tr) im fm
    (by simp [traceIm, keys]) (by simp [traceFm, keys]) hi hf (pos_single 0) hp,
    completeRun_iff _ (traceNet_simple tr) _ traceIm _ (pos_single 0), crun_trace_complete]
  constructor
  · rintro ⟨h1, h2, h3⟩
    refine ⟨h2, h3, fun i t hit => ?_⟩
    have hlt : i ∈ List.range tr.length := by
      rw [← h2]; exact List.mem_filterMap.2 ⟨_, hit, rfl⟩
    have hlt := List.mem_range.1 hlt
    have h := h1 i t hit
    simp only [traceNet] at h
    exact ⟨tr[i], by simp [hlt], by rw [← h]; simp [hlt]⟩
  · rintro ⟨h1, h2, h3⟩
    refine ⟨fun i t hit => ?_, h1, h2⟩
    obtain ⟨a, h4, h5⟩ := h3 i t hit
    simp [traceNet, h4, h5]

/-- Labels reported for a sequence of moves of the product. -/
def labelsOf (n1 : LNet P1 T1 A) (n2 : LNet P2 T2 A) (s : List (Move T1 T2)) : List (Cell A × Cell A) :=
  s.filterMap (product n1 n2).label

/-- Specification: drop the `>>` symbols. -/
def dropSkip (l : List (Cell A)) : List (Option A) :=
  l.filterMap fun c => match c with | .skip => none | .lab a => some a

omit [DecidableEq P1] [DecidableEq P2] [DecidableEq T1] [DecidableEq T2] in
theorem labels_proj (n1 : LNet P1 T1 A) (n2 : LNet P2 T2 A) (s : List (Move T1 T2)) :
    dropSkip ((labelsOf n1 n2 s).map Prod.fst) = (s.filterMap Move.fst?).map n1.label ∧
    dropSkip ((labelsOf n1 n2 s).map Prod.snd) = (s.filterMap Move.snd?).map n2.label := by
  induction s with
  | nil => exact ⟨rfl, rfl⟩
  | cons mv s ih =>
    obtain ⟨h1, h2⟩ := ih
    unfold labelsOf dropSkip at h1 h2 ⊢
    cases mv with
    | left t => simp [List.filterMap_cons, product, Move.fst?, Move.snd?] at h1 h2 ⊢; exact ⟨h1, h2⟩
    | right t => simp [List.filterMap_cons, product, Move.fst?, Move.snd?] at h1 h2 ⊢; exact ⟨h1, h2⟩
    | sync t1 t2 => simp [List.filterMap_cons, product, Move.fst?, Move.snd?] at h1 h2 ⊢; exact ⟨h1, h2⟩

/-- C05: in the reported labels of a complete run of the product, the first components without `>>` spell the trace and
the second components without `>>` are the labels (with `None` for silent transitions) of a complete run of the net;
there is one pair per move, no pair is `(>>, >>)`, and a pair without `>>` has two equal activities. -/
theorem C05_labels (tr : List A) (net : LNet P T A) (hs : net.toNet.Simple) (hu : UnitWeights net.toNet)
    (im fm : Marking P) (hi : (keys im).Nodup) (hf : (keys fm).Nodup) (hp : Pos im) (s : List (Move Nat T))
    (h : CompleteRun (product (traceNet tr) net).toNet (productMarking traceIm im) (productMarking (traceFm tr) fm) s) :
    (labelsOf (traceNet tr) net s).length = s.length ∧
    dropSkip ((labelsOf (traceNet tr) net s).map Prod.fst) = tr.map some ∧
    (∃ ts, CompleteRun net.toNet im fm ts ∧ dropSkip ((labelsOf (traceNet tr) net s).map Prod.snd) = ts.map net.label) ∧
    (∀ l ∈ labelsOf (traceNet tr) net s, l ≠ (.skip, .skip)) ∧
    (∀ x y, (Cell.lab x, Cell.lab y) ∈ labelsOf (traceNet tr) net s → ∃ a, x = some a ∧ y = some a) := by
  have ha := (C05_runs_are_alignments tr net hs hu im fm hi hf hp s).1 h
  obtain ⟨e1, e2⟩ := labels_proj (traceNet tr) net s
  refine ⟨?_, ?_, ⟨_, ha.run, e2⟩, ?_, ?_⟩
  · unfold labelsOf
    clear h ha e1 e2
    induction s with
    | nil => rfl
    | cons mv s ih => cases mv <;> simp [List.filterMap_cons, product] at ih ⊢ <;> exact ih
  · rw [e1, ha.events]
    apply List.ext_getElem
    · simp
    · intro i h1 h2; simp at h1; simp [traceNet, h1]
  · intro l hl
    obtain ⟨mv, _, hm⟩ := List.mem_filterMap.1 hl
    cases mv <;> simp [product] at hm <;> subst hm <;> simp
  · intro x y hl
    obtain ⟨mv, hmv, hm⟩ := List.mem_filterMap.1 hl
    cases mv with
    | left => simp [product] at hm
    | right => simp [product] at hm
    | sync i t =>
      simp only [product, traceNet, Option.some.injEq, Prod.mk.injEq, Cell.lab.injEq] at hm
      obtain ⟨a, h1, h2⟩ := ha.sync i t hmv
      exact ⟨a, by rw [← hm.1, h1], by rw [← hm.2, h2]⟩

/-- C05: an alignment exists as soon as the net has a complete run. -/
theorem C05_alignment_exists (tr : List A) (net : LNet P T A) (im fm : Marking P) (ts : List T)
    (h : CompleteRun net.toNet im fm ts) : ∃ s, IsAlignment tr net im fm s := by
  refine ⟨(List.range tr.length).map Move.left ++ ts.map Move.right, ?_, ?_, ?_⟩
  · simp [List.filterMap_append, List.filterMap_map, Function.comp_def, Move.fst?]
  · have : (List.range tr.length).filterMap (fun _ => (none : Option T)) = [] := by simp [List.filterMap_eq_nil_iff]
    simpa [List.filterMap_append, List.filterMap_map, Function.comp_def, Move.snd?, this] using h
  · intro i t hit; simp at hit

/-- A net used as example: `a` then a silent step, or `b`, from place 0 to place 2. -/
def exAlign : LNet Nat Nat String where
  places := [0, 1, 2]
  transitions := [0, 1, 2]
  inArcs t := if t = 1 then [(1, 1)] else [(0, 1)]
  outArcs t := if t = 0 then [(1, 1)] else [(2, 1)]
  label t := if t = 0 then some "a" else if t = 1 then none else some "b"

theorem exAlign_simple : exAlign.toNet.Simple where
  noParallel := by intro t _; by_cases h : t = 1 <;> simp [exAlign, h]
  inPos := by intro t _ a ha; by_cases h : t = 1 <;> simp [exAlign, h] at ha <;> subst ha <;> decide
  outPos := by intro t _ a ha; by_cases h : t = 0 <;> simp [exAlign, h] at ha <;> subst ha <;> decide

theorem exAlign_unit : UnitWeights exAlign.toNet := by
  intro t _; by_cases h : t = 1 <;> by_cases h' : t = 0 <;> simp [exAlign, h, h']

/-- the hypotheses of the C05 theorems are met by `exAlign`, `[(0, 1)]`, `[(2, 1)]`, trace `⟨a, c⟩` and this run -/
example : CompleteRun (product (traceNet ["a", "c"]) exAlign).toNet (productMarking traceIm [(0, 1)])
    (productMarking (traceFm ["a", "c"]) [(2, 1)]) [.sync 0 0, .left 1, .right 1] :=
  ⟨[(.inl 2, 1), (.inr 2, 1)], by decide, by
    intro p; rcases p with p | p <;> simp [count, get?, productMarking, traceFm, Dict.set]⟩

/-- Without the hypothesis on weights C05 fails: the product forgets the weight 2 of an input arc, so it has a complete
run although the net has none. -/
theorem C05_weights_refuted : ∃ (net : LNet Nat Nat String) (im fm : Marking Nat) (s : List (Move Nat Nat)),
    net.toNet.Simple ∧ Pos im ∧ Pos fm ∧
    CompleteRun (product (traceNet ["a"]) net).toNet (productMarking traceIm im) (productMarking (traceFm ["a"]) fm) s ∧
    ∀ ts, ¬ CompleteRun net.toNet im fm ts := by
  refine ⟨⟨⟨[0, 1], [0], fun _ => [(0, 2)], fun _ => [(1, 1)]⟩, fun _ => some "a"⟩, [(0, 1)], [(1, 1)], [.sync 0 0],
    ⟨by simp, by simp, by simp⟩, pos_single 0, pos_single 1, ⟨[(.inl 1, 1), (.inr 1, 1)], by decide, ?_⟩, ?_⟩
  · intro p; rcases p with p | p <;> simp [count, get?, productMarking, traceFm, Dict.set]
  · rintro ts ⟨m, h1, h2⟩
    cases ts with
    | nil =>
      simp at h1; subst h1
      have := h2 0; simp [count, get?] at this
    | cons t ts =>
      simp only [List.foldlM_cons, Option.bind_eq_bind, Option.bind_eq_some_iff] at h1
      obtain ⟨m1, h1, _⟩ := h1
      have := ((Net.isEnabled_iff _ _ _).1 ((Net.execute_some_iff _ _ _ _).1 h1).1).2
      simp [count, get?] at this
end
end Verif
