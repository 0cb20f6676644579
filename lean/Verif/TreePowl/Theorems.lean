import Verif.TreePowl.Model
import Verif.PTree.Spec
set_option linter.unusedSectionVars false
/-
Property theorems C55: conversion of process trees to POWL models.
-/
namespace Verif
namespace TreePowl
open Lang
variable {α : Type}

/-! ### The chain -/

theorem chain_iff (n i j : Nat) : chain n i j = true ↔ j = i + 1 ∧ j < n := by
  have key : ∀ (l : List Nat) (E : BinRel.Edges), (l.foldl (fun E i => BinRel.Edges.put E i (i + 1) true) E) i j = true ↔
      (i ∈ l ∧ j = i + 1) ∨ E i j = true := by
    intro l
    induction l with
    | nil => intro E; simp
    | cons x l ih =>
      intro E
      rw [List.foldl_cons, ih]
      simp only [BinRel.Edges.put, List.mem_cons]
      by_cases h : i = x ∧ j = x + 1
      · rw [if_pos h]; obtain ⟨rfl, rfl⟩ := h; simp
      · rw [if_neg h]
        constructor
        · rintro (⟨h1, h2⟩ | h1)
          · exact .inl ⟨.inr h1, h2⟩
          · exact .inr h1
        · rintro (⟨h1 | h1, h2⟩ | h1)
          · exact absurd ⟨h1, h1 ▸ h2⟩ h
          · exact .inl ⟨h1, h2⟩
          · exact .inr h1
  unfold chain
  rw [key]
  simp only [List.mem_range, Bool.false_eq_true, or_false]
  omega

theorem before_chain (n i j : Nat) : Powl.Before n (chain n) i j ↔ i < j ∧ j < n := by
  constructor
  · intro h
    induction h with
    | single h => have := (chain_iff n _ _).1 h.2.2; omega
    | tail _ h ih => have := (chain_iff n _ _).1 h.2.2; omega
  · rintro ⟨h1, h2⟩
    have : ∀ d, i + d + 1 < n → Powl.Before n (chain n) i (i + d + 1) := by
      intro d
      induction d with
      | zero => intro h; exact .single ⟨by omega, by omega, (chain_iff n _ _).2 ⟨rfl, by omega⟩⟩
      | succ d ih =>
        intro h
        exact .tail (ih (by omega)) ⟨by omega, by omega, (chain_iff n _ _).2 ⟨by omega, by omega⟩⟩
    have := this (j - i - 1) (by omega)
    rwa [show i + (j - i - 1) + 1 = j by omega] at this

theorem before_empty (n i j : Nat) : ¬ Powl.Before n (fun _ _ => false) i j := by
  intro h
  cases h with
  | single h => exact absurd h.2.2 (by simp)
  | tail _ h => exact absurd h.2.2 (by simp)

/-! ### Partial orders and sequences -/

/-- events of the children from the second on, renumbered -/
def tailEs (es : List (Nat × α)) : List (Nat × α) := (es.filter fun e => !(e.1 == 0)).map fun e => (e.1 - 1, e.2)

theorem tail_proj (es : List (Nat × α)) (k : Nat) : proj k (tailEs es) = proj (k + 1) es := by
  induction es with
  | nil => rfl
  | cons e es ih =>
    unfold proj tailEs at ih ⊢
    by_cases h0 : e.1 = 0
    · simp only [List.filter_cons, h0, beq_self_eq_true, Bool.not_true, Bool.false_eq_true, if_false]
      rw [if_neg (by simp)]
      exact ih
    · have hb : (e.1 == 0) = false := by simpa using h0
      simp only [List.filter_cons, hb, Bool.not_false, if_true, List.map_cons]
      by_cases hk : e.1 = k + 1
      · rw [if_pos (by simpa using by omega), if_pos (by simpa using hk)]
        simp only [List.map_cons]; rw [ih]
      · rw [if_neg (by simp only [beq_iff_eq]; omega), if_neg (by simpa using hk)]
        exact ih

theorem tail_bound {es : List (Nat × α)} {n : Nat} (h : ∀ e ∈ es, e.1 < n + 1) : ∀ e ∈ tailEs es, e.1 < n := by
  intro e he
  obtain ⟨f, hf, rfl⟩ := List.mem_map.1 he
  obtain ⟨hf, h0⟩ := List.mem_filter.1 hf
  have := h f hf
  simp at h0
  show f.1 - 1 < n
  omega

theorem shuffle_tail (es : List (Nat × α)) : Shuffle (proj 0 es) ((tailEs es).map Prod.snd) (es.map Prod.snd) := by
  induction es with
  | nil => exact .nil
  | cons e es ih =>
    unfold proj tailEs at ih ⊢
    by_cases h0 : e.1 = 0
    · simp only [List.filter_cons, h0, beq_self_eq_true, Bool.not_true, Bool.false_eq_true, if_false, if_true, List.map_cons]
      exact .left ih
    · have hb : (e.1 == 0) = false := by simpa using h0
      simp only [List.filter_cons, hb, Bool.not_false, Bool.false_eq_true, if_true, if_false, List.map_cons]
      exact .right ih

theorem parL_of_es (Ls : List (Lang α)) (es : List (Nat × α)) (h1 : ∀ e ∈ es, e.1 < Ls.length)
    (h2 : ∀ (k : Nat) (L : Lang α), Ls[k]? = some L → L (proj k es)) : parL Ls (es.map Prod.snd) := by
  induction Ls generalizing es with
  | nil =>
    cases es with
    | nil => rfl
    | cons e es => exact absurd (h1 e List.mem_cons_self) (by simp)
  | cons L Ls ih =>
    refine ⟨_, _, h2 0 L rfl, ih (tailEs es) (tail_bound h1) (fun k M hM => ?_), shuffle_tail es⟩
    rw [tail_proj]; exact h2 (k + 1) M hM

theorem sorted_split (es : List (Nat × α)) (h : es.Pairwise fun e f => e.1 ≤ f.1) :
    es.map Prod.snd = proj 0 es ++ (tailEs es).map Prod.snd := by
  induction es with
  | nil => rfl
  | cons e es ih =>
    rw [List.pairwise_cons] at h
    unfold proj tailEs at ih ⊢
    by_cases h0 : e.1 = 0
    · simp only [List.filter_cons, h0, beq_self_eq_true, Bool.not_true, Bool.false_eq_true, if_false, if_true, List.map_cons, List.cons_append]
      rw [ih h.2]
    · have hb : (e.1 == 0) = false := by simpa using h0
      have hnil : es.filter (fun e => e.1 == 0) = [] := by
        rw [List.filter_eq_nil_iff]
        intro f hf
        have := h.1 f hf
        simp; omega
      have hih := ih h.2
      rw [hnil] at hih
      simp only [List.filter_cons, hb, Bool.not_false, Bool.false_eq_true, if_true, if_false, List.map_cons, hnil, List.map_nil, List.nil_append]
      rw [hih]; simp

theorem tail_sorted {es : List (Nat × α)} (h : es.Pairwise fun e f => e.1 ≤ f.1) : (tailEs es).Pairwise fun e f => e.1 ≤ f.1 := by
  unfold tailEs
  rw [List.pairwise_map]
  refine (h.filter _).imp ?_
  intro a b hab
  show a.1 - 1 ≤ b.1 - 1
  omega

theorem seqL_of_es (Ls : List (Lang α)) (es : List (Nat × α)) (h1 : ∀ e ∈ es, e.1 < Ls.length)
    (h2 : ∀ (k : Nat) (L : Lang α), Ls[k]? = some L → L (proj k es)) (h3 : es.Pairwise fun e f => e.1 ≤ f.1) : seqL Ls (es.map Prod.snd) := by
  induction Ls generalizing es with
  | nil =>
    cases es with
    | nil => rfl
    | cons e es => exact absurd (h1 e List.mem_cons_self) (by simp)
  | cons L Ls ih =>
    refine ⟨_, _, h2 0 L rfl, ih (tailEs es) (tail_bound h1) (fun k M hM => ?_) (tail_sorted h3), sorted_split es h3⟩
    rw [tail_proj]; exact h2 (k + 1) M hM

/-- events of the tail, numbered from one on -/
def up (es : List (Nat × α)) : List (Nat × α) := es.map fun e => (e.1 + 1, e.2)

theorem proj_up (es : List (Nat × α)) (k : Nat) : proj (k + 1) (up es) = proj k es ∧ proj 0 (up es) = [] := by
  induction es with
  | nil => exact ⟨rfl, rfl⟩
  | cons e es ih =>
    unfold proj up at ih ⊢
    refine ⟨?_, ?_⟩
    · rw [List.map_cons, List.filter_cons, List.filter_cons]
      by_cases h : e.1 = k
      · rw [if_pos (by simpa using h), if_pos (by simpa using h)]
        simp only [List.map_cons]; rw [ih.1]
      · rw [if_neg (by simpa using h), if_neg (by simpa using h)]
        exact ih.1
    · rw [List.map_cons, List.filter_cons, if_neg (by simp)]
      exact ih.2

theorem es_of_parL (Ls : List (Lang α)) (w : List α) (h : parL Ls w) : ∃ es : List (Nat × α), es.map Prod.snd = w ∧ (∀ e ∈ es, e.1 < Ls.length) ∧
    ∀ (k : Nat) (L : Lang α), Ls[k]? = some L → L (proj k es) := by
  induction Ls generalizing w with
  | nil => exact ⟨[], by simpa [parL, eps, eq_comm] using h, by simp, by simp⟩
  | cons L Ls ih =>
    obtain ⟨u, v, hu, hv, hs⟩ := h
    obtain ⟨es, rfl, h1, h2⟩ := ih v hv
    -- merge
    have key : ∀ {u v w : List α}, Shuffle u v w → ∀ es : List (Nat × α), es.map Prod.snd = v →
        ∃ fs : List (Nat × α), fs.map Prod.snd = w ∧ proj 0 fs = u ∧ (∀ k, proj (k + 1) fs = proj k es) ∧
          ∀ e ∈ fs, e.1 = 0 ∨ ∃ f ∈ es, e.1 = f.1 + 1 := by
      intro u v w h
      induction h with
      | nil => intro es hes; exact ⟨[], rfl, rfl, fun k => by cases es <;> simp_all [proj], by simp⟩
      | @left a u v w _ ih =>
        intro es hes
        obtain ⟨fs, h1, h2, h3, h4⟩ := ih es hes
        refine ⟨(0, a) :: fs, by simp [h1], ?_, fun k => ?_, ?_⟩
        · unfold proj at h2 ⊢; simp [List.filter_cons, h2]
        · have := h3 k; unfold proj at this ⊢; simp [List.filter_cons, this]
        · intro e he
          rcases List.mem_cons.1 he with rfl | he
          · exact .inl rfl
          · exact h4 e he
      | @right a u v w _ ih =>
        intro es hes
        cases es with
        | nil => simp at hes
        | cons e es =>
          simp only [List.map_cons, List.cons.injEq] at hes
          obtain ⟨rfl, hes⟩ := hes
          obtain ⟨fs, h1, h2, h3, h4⟩ := ih es hes
          refine ⟨(e.1 + 1, e.2) :: fs, by simp [h1], ?_, fun k => ?_, ?_⟩
          · unfold proj at h2 ⊢; simp [List.filter_cons, h2]
          · have := h3 k
            unfold proj at this ⊢
            by_cases hk : e.1 = k
            · simp [List.filter_cons, hk, this]
            · simp [List.filter_cons, hk, this]
          · intro f hf
            rcases List.mem_cons.1 hf with rfl | hf
            · exact .inr ⟨e, List.mem_cons_self, rfl⟩
            · rcases h4 f hf with h | ⟨g, hg, h⟩
              · exact .inl h
              · exact .inr ⟨g, List.mem_cons_of_mem _ hg, h⟩
    obtain ⟨fs, g1, g2, g3, g4⟩ := key hs es rfl
    refine ⟨fs, g1, ?_, ?_⟩
    · intro e he
      rcases g4 e he with h | ⟨f, hf, h⟩
      · rw [h]; simp
      · have := h1 f hf; rw [h]; simp; exact this
    · intro k M hM
      cases k with
      | zero => simp at hM; subst hM; rw [g2]; exact hu
      | succ k => rw [g3]; exact h2 k M hM

theorem es_of_seqL (Ls : List (Lang α)) (w : List α) (h : seqL Ls w) : ∃ es : List (Nat × α), es.map Prod.snd = w ∧ (∀ e ∈ es, e.1 < Ls.length) ∧
    (∀ (k : Nat) (L : Lang α), Ls[k]? = some L → L (proj k es)) ∧ es.Pairwise fun e f => e.1 ≤ f.1 := by
  induction Ls generalizing w with
  | nil => exact ⟨[], by simpa [seqL, eps, eq_comm] using h, by simp, by simp, by simp⟩
  | cons L Ls ih =>
    obtain ⟨u, v, hu, hv, rfl⟩ := h
    obtain ⟨es, rfl, h1, h2, h3⟩ := ih v hv
    have hp0 : proj 0 (u.map fun a => (0, a)) = u := by
      unfold proj; rw [List.filter_eq_self.2 (by simp), List.map_map]; exact List.map_id' u
    have hpk : ∀ k, proj (k + 1) (u.map fun a => (0, a)) = [] := by
      intro k; unfold proj; rw [List.filter_eq_nil_iff.2 (by simp)]; rfl
    have happ : ∀ k (a b : List (Nat × α)), proj k (a ++ b) = proj k a ++ proj k b := by
      intro k a b; unfold proj; simp
    refine ⟨u.map (fun a => (0, a)) ++ up es, ?_, ?_, ?_, ?_⟩
    · simp [up, Function.comp_def]
    · intro e he
      rcases List.mem_append.1 he with he | he
      · obtain ⟨a, _, rfl⟩ := List.mem_map.1 he; simp
      · obtain ⟨f, hf, rfl⟩ := List.mem_map.1 he
        have := h1 f hf; simpa using this
    · intro k M hM
      rw [happ]
      cases k with
      | zero => simp at hM; subst hM; rw [hp0, (proj_up es 0).2, List.append_nil]; exact hu
      | succ k => rw [hpk, (proj_up es k).1, List.nil_append]; exact h2 k M hM
    · rw [List.pairwise_append]
      refine ⟨?_, ?_, ?_⟩
      · rw [List.pairwise_map]; exact List.pairwise_iff_getElem.2 fun _ _ _ _ _ => Nat.le_refl _
      · unfold up; rw [List.pairwise_map]; exact h3.imp fun h => by simpa using h
      · intro e he f hf
        obtain ⟨a, _, rfl⟩ := List.mem_map.1 he; simp

theorem po_par (cs : List (Powl α)) (w : List α) : (Powl.po cs fun _ _ => false).lang w ↔ parL (cs.map Powl.lang) w := by
  rw [Powl.lang, Powl.langs_eq_map]
  constructor
  · rintro ⟨es, rfl, h1, h2, _⟩; exact parL_of_es _ es h1 h2
  · intro h
    obtain ⟨es, h1, h2, h3⟩ := es_of_parL _ w h
    exact ⟨es, h1, h2, h3, fun i j h => absurd h (before_empty _ i j)⟩

theorem po_seq (cs : List (Powl α)) (w : List α) : (Powl.po cs (chain cs.length)).lang w ↔ seqL (cs.map Powl.lang) w := by
  rw [Powl.lang, Powl.langs_eq_map]
  constructor
  · rintro ⟨es, rfl, h1, h2, h3⟩
    refine seqL_of_es _ es h1 h2 ?_
    rw [List.pairwise_iff_getElem]
    intro a b ha hb hab
    refine Classical.byContradiction fun hc => ?_
    have hlt := h1 es[a] (List.getElem_mem ha)
    rw [List.length_map] at hlt
    have := List.pairwise_iff_getElem.1 (h3 es[b].1 es[a].1 ((before_chain _ _ _).2 ⟨by omega, hlt⟩)) a b ha hb hab
    exact this ⟨rfl, rfl⟩
  · intro h
    obtain ⟨es, h1, h2, h3, h4⟩ := es_of_seqL _ w h
    refine ⟨es, h1, h2, h3, fun i j hij => h4.imp fun {e f} hef => ?_⟩
    have := (before_chain _ _ _).1 hij
    omega

/-! ### The conversion -/

/-- the conversion of a list of children -/
theorem applyL_spec {cs : List (PT α)} {ps : List (Powl α)} (h : applyL cs = some ps) :
    cs.length = ps.length ∧ ∀ (k : Nat) c, cs[k]? = some c → ∃ p, ps[k]? = some p ∧ apply c = some p := by
  induction cs generalizing ps with
  | nil => rw [applyL, Option.some.injEq] at h; subst h; exact ⟨rfl, by simp⟩
  | cons c cs ih =>
    rw [applyL] at h
    simp only [Option.bind_eq_bind, Option.bind_eq_some_iff] at h
    obtain ⟨p, hp, qs, hqs, h⟩ := h
    simp only [pure, Option.some.injEq] at h; subst h
    obtain ⟨h1, h2⟩ := ih hqs
    refine ⟨by simp [h1], fun k d hd => ?_⟩
    cases k with
    | zero => simp at hd; subst hd; exact ⟨p, rfl, hp⟩
    | succ k => exact h2 k d hd

/-- no node of the tree has the interleaving operator -/
inductive NoInter : PT α → Prop
  | leaf (l : Option α) : NoInter (.leaf l)
  | node (op : Op) (cs : List (PT α)) : op ≠ .inter → (∀ c ∈ cs, NoInter c) → NoInter (.node op cs)

/-- trees that the conversion accepts: no OR, choices with two children or more, loops with exactly two -/
inductive Convertible : PT α → Prop
  | leaf (l : Option α) : Convertible (.leaf l)
  | node (op : Op) (cs : List (PT α)) : op ≠ .or → (op = .xor → 2 ≤ cs.length) → (op = .loop → cs.length = 2) →
      (∀ c ∈ cs, Convertible c) → Convertible (.node op cs)

theorem applyL_some {cs : List (PT α)} (h : ∀ c ∈ cs, ∃ p, apply c = some p) : ∃ ps, applyL cs = some ps := by
  induction cs with
  | nil => exact ⟨[], by simp [applyL]⟩
  | cons c cs ih =>
    obtain ⟨p, hp⟩ := h c List.mem_cons_self
    obtain ⟨ps, hps⟩ := ih fun d hd => h d (List.mem_cons_of_mem _ hd)
    exact ⟨p :: ps, by simp [applyL, hp, hps]⟩

theorem apply_iff (t : PT α) : (∃ p, apply t = some p) ↔ Convertible t := by
  induction t using PT.induct with
  | leaf l => exact ⟨fun _ => .leaf l, fun _ => ⟨_, by rw [apply]⟩⟩
  | node op cs ih =>
    constructor
    · rintro ⟨p, hp⟩
      rw [apply] at hp
      simp only [Option.bind_eq_bind, Option.bind_eq_some_iff] at hp
      obtain ⟨ps, hps, hp⟩ := hp
      obtain ⟨h1, h2⟩ := applyL_spec hps
      refine .node op cs ?_ ?_ ?_ ?_
      · rintro rfl; simp [mkNode] at hp
      · rintro rfl
        simp only [mkNode, mkXor] at hp
        split at hp
        · cases hp
        · omega
      · rintro rfl
        simp only [mkNode] at hp
        match ps, hp with
        | [a, b], _ => simpa using h1
      · intro c hc
        obtain ⟨k, hk⟩ := List.getElem?_of_mem hc
        obtain ⟨p, _, hp⟩ := h2 k c hk
        exact (ih c hc).1 ⟨p, hp⟩
    · intro h
      cases h with
      | node _ _ hor hx hl hcs =>
      obtain ⟨ps, hps⟩ := applyL_some fun c hc => (ih c hc).2 (hcs c hc)
      obtain ⟨h1, _⟩ := applyL_spec hps
      rw [apply]
      simp only [Option.bind_eq_bind, hps, Option.bind_some]
      cases op with
      | or => exact absurd rfl hor
      | xor => have := hx rfl; exact ⟨_, by rw [mkNode, mkXor, if_neg (by omega)]⟩
      | loop =>
        rw [hl rfl] at h1
        match ps, h1 with
        | [a, b], _ => exact ⟨_, rfl⟩
      | seq => exact ⟨_, rfl⟩
      | par => exact ⟨_, rfl⟩
      | inter => exact ⟨_, rfl⟩

theorem map_lang {cs : List (PT α)} {ps : List (Powl α)} (h : applyL cs = some ps)
    (ih : ∀ c ∈ cs, ∀ p, apply c = some p → ∀ w, p.lang w ↔ c.lang w) : ps.map Powl.lang = cs.map PT.lang := by
  obtain ⟨h1, h2⟩ := applyL_spec h
  refine List.ext_getElem? fun k => ?_
  rw [List.getElem?_map, List.getElem?_map]
  cases hc : cs[k]? with
  | none =>
    have := List.getElem?_eq_none_iff.1 hc
    rw [List.getElem?_eq_none (by omega)]; rfl
  | some c =>
    obtain ⟨p, hp, hap⟩ := h2 k c hc
    rw [hp, Option.map_some, Option.map_some]
    congr 1
    exact Lang.ext fun w => ih c (List.mem_of_getElem? hc) p hap w

theorem apply_lang (t : PT α) (ht : NoInter t) (p : Powl α) (h : apply t = some p) (w : List α) : p.lang w ↔ t.lang w := by
  induction t using PT.induct generalizing p w with
  | leaf l =>
    rw [apply, Option.some.injEq] at h; subst h
    cases l <;> simp [Powl.lang]
  | node op cs ih =>
    cases ht with
    | node _ _ hop hcs =>
    rw [apply] at h
    simp only [Option.bind_eq_bind, Option.bind_eq_some_iff] at h
    obtain ⟨ps, hps, h⟩ := h
    have hm := map_lang hps fun c hc p hp w => ih c hc (hcs c hc) p hp w
    rw [PT.lang_node, ← hm]
    cases op with
    | or => simp [mkNode] at h
    | inter => exact absurd rfl hop
    | xor =>
      simp only [mkNode, mkXor] at h
      split at h
      · cases h
      · cases h; rw [Powl.lang, Powl.langs_eq_map]; rfl
    | loop =>
      simp only [mkNode] at h
      match ps, h with
      | [a, b], h => simp only [mkLoop, Option.some.injEq] at h; subst h; rw [Powl.lang]; rfl
    | seq => simp only [mkNode, Option.some.injEq] at h; subst h; exact po_seq ps w
    | par => simp only [mkNode, Option.some.injEq] at h; subst h; exact po_par ps w

theorem apply_valid (t : PT α) (ht : t.WF) (p : Powl α) (h : apply t = some p) : p.Valid := by
  induction t using PT.induct generalizing p with
  | leaf l => rw [apply, Option.some.injEq] at h; subst h; exact .leaf l
  | node op cs ih =>
    cases ht with
    | node _ _ hne hcs =>
    rw [apply] at h
    simp only [Option.bind_eq_bind, Option.bind_eq_some_iff] at h
    obtain ⟨ps, hps, h⟩ := h
    obtain ⟨h1, h2⟩ := applyL_spec hps
    have hps' : ps ≠ [] := by rintro rfl; exact hne (List.eq_nil_of_length_eq_zero h1)
    have hv : ∀ p ∈ ps, p.Valid := by
      intro p hp
      obtain ⟨k, hk⟩ := List.getElem?_of_mem hp
      obtain ⟨hlt, _⟩ := List.getElem?_eq_some_iff.1 hk
      obtain ⟨q, hq, hap⟩ := h2 k cs[k] (List.getElem?_eq_getElem (by omega))
      rw [hk, Option.some.injEq] at hq; subst hq
      exact ih _ (List.getElem_mem _) (hcs _ (List.getElem_mem _)) p hap
    have hempty : (Powl.po ps fun _ _ => false).Valid := .po ps _ hps' (fun i => before_empty _ i i) hv
    cases op with
    | or => simp [mkNode] at h
    | inter => simp only [mkNode, Option.some.injEq] at h; subst h; exact hempty
    | par => simp only [mkNode, Option.some.injEq] at h; subst h; exact hempty
    | xor =>
      simp only [mkNode, mkXor] at h
      split at h
      · cases h
      · cases h; exact .xor ps (by omega) hv
    | loop =>
      simp only [mkNode] at h
      match ps, h with
      | [a, b], h => simp only [mkLoop, Option.some.injEq] at h; subst h; exact .loop a b (hv a (by simp)) (hv b (by simp))
    | seq =>
      simp only [mkNode, Option.some.injEq] at h; subst h
      exact .po ps _ hps' (fun i hi => by have := (before_chain _ _ _).1 hi; omega) hv

end TreePowl
open TreePowl Conv Sys PowlNet
variable {α : Type}

/-- C55: the conversion of a process tree to a POWL model raises exactly for trees with an OR node, a choice with fewer than two
children or a loop without exactly two. -/
theorem C55_raises_iff (t : PT α) : TreePowl.apply t = none ↔ ¬ Convertible t := by
  rw [← apply_iff]
  cases TreePowl.apply t <;> simp

/-- C55: for trees without interleaving, the POWL model has exactly the traces of the tree; its relations are acyclic. -/
theorem C55_language (t : PT α) (ht : NoInter t) (p : Powl α) (h : TreePowl.apply t = some p) (w : List α) : p.lang w ↔ t.lang w :=
  apply_lang t ht p h w

theorem C55_valid (t : PT α) (ht : t.WF) (p : Powl α) (h : TreePowl.apply t = some p) : p.Valid := apply_valid t ht p h

/-- C55: the Petri net of the POWL model accepts exactly the traces of the tree. -/
theorem C55_net {ord : Gr α → List (Nat × Option α)} (hord : IterOrder ord) (ordP : List Nat → List Nat) (t : PT α) (hwf : t.WF)
    (ht : NoInter t) (p : Powl α) (h : TreePowl.apply t = some p) (w : List α) :
    Accepts (PowlNet.apply ord ordP p) initialMarking finalMarking w ↔ t.lang w := by
  rw [C48_language hord ordP p (apply_valid t hwf p h), apply_lang t ht p h]

/-- C55 fails for interleaving: `<>( ->( 'a', 'b' ), 'c' )` becomes a partial order with the trace a c b. -/
theorem C55_interleaving_refuted : ∃ (t : PT Nat) (p : Powl Nat) (w : List Nat), t.WF ∧ TreePowl.apply t = some p ∧ p.lang w ∧ ¬ t.lang w := by
  refine ⟨.node .inter [.node .seq [.leaf (some 1), .leaf (some 2)], .leaf (some 3)],
    .po [.po [.leaf (some 1), .leaf (some 2)] (chain 2), .leaf (some 3)] fun _ _ => false, [1, 3, 2], ?_, ?_, ?_, ?_⟩
  · refine .node _ _ (by simp) ?_
    simp only [List.mem_cons, List.not_mem_nil, or_false, forall_eq_or_imp, forall_eq]
    refine ⟨.node _ _ (by simp) ?_, .leaf _⟩
    simp only [List.mem_cons, List.not_mem_nil, or_false, forall_eq_or_imp, forall_eq]
    exact ⟨.leaf _, .leaf _⟩
  · rfl
  · rw [po_par]
    refine ⟨[1, 2], [3], ?_, ⟨[3], [], by simp [Powl.lang], rfl, Lang.Shuffle.left .nil⟩, Lang.Shuffle.left (.right (.left .nil))⟩
    show (Powl.po [.leaf (some 1), .leaf (some 2)] (chain 2)).lang [1, 2]
    refine (po_seq [.leaf (some 1), .leaf (some 2)] [1, 2]).2 ?_
    exact ⟨[1], [2], by simp [Powl.lang], ⟨[2], [], by simp [Powl.lang], rfl, rfl⟩, rfl⟩
  · rintro h
    simp only [PT.lang, PT.opLang, PT.langs] at h
    obtain ⟨Ms, hp, hs⟩ := h
    have hlen : Ms.length = 2 := by rw [hp.length_eq]; rfl
    have hmem := fun X hX => hp.mem_iff (a := X) |>.1 hX
    match Ms, hlen with
    | [X, Y], _ =>
    have hX := hmem X (by simp)
    have hY := hmem Y (by simp)
    simp only [List.mem_cons, List.not_mem_nil, or_false] at hX hY
    obtain ⟨u, v, hu, ⟨v1, v2, hv1, hv2, rfl⟩, he⟩ := hs
    simp only [Lang.eps, Lang.seqL] at hv2; subst hv2
    have hA : ∀ w, Lang.seqL [fun w => w = [1], fun w => w = [2]] w → w = [1, 2] := by
      rintro w ⟨u1, u2, h1, ⟨u3, u4, h3, h4, rfl⟩, rfl⟩
      simp only [Lang.eps, Lang.seqL] at h1 h3 h4; subst h1 h3 h4; rfl
    rcases hX with rfl | rfl <;> rcases hY with rfl | rfl
    · rw [hA _ hu, hA _ hv1] at he; simp at he
    · rw [hA _ hu, show v1 = [3] from hv1] at he; simp at he
    · rw [hA _ hv1, show u = [3] from hu] at he; simp at he
    · rw [show u = [3] from hu, show v1 = [3] from hv1] at he; simp at he

/-- a case that meets the conditions: `->( 1, X( 2, tau ), +( 3, *( 4, 5 ) ) )` -/
example : ∃ (t : PT Nat) (p : Powl Nat), NoInter t ∧ t.WF ∧ TreePowl.apply t = some p := by
  have hwf : ∀ (op : Op) (cs : List (PT Nat)), cs ≠ [] → (∀ c ∈ cs, c.WF) → (PT.node op cs).WF := fun op cs h1 h2 => .node op cs h1 h2
  refine ⟨.node .seq [.leaf (some 1), .node .xor [.leaf (some 2), .leaf none], .node .par [.leaf (some 3), .node .loop [.leaf (some 4), .leaf (some 5)]]],
    _, ?_, ?_, rfl⟩
  · refine .node _ _ (by simp) ?_
    simp only [List.mem_cons, List.not_mem_nil, or_false, forall_eq_or_imp, forall_eq]
    refine ⟨.leaf _, .node _ _ (by simp) ?_, .node _ _ (by simp) ?_⟩
    · simp only [List.mem_cons, List.not_mem_nil, or_false, forall_eq_or_imp, forall_eq]
      exact ⟨.leaf _, .leaf _⟩
    · simp only [List.mem_cons, List.not_mem_nil, or_false, forall_eq_or_imp, forall_eq]
      refine ⟨.leaf _, .node _ _ (by simp) ?_⟩
      simp only [List.mem_cons, List.not_mem_nil, or_false, forall_eq_or_imp, forall_eq]
      exact ⟨.leaf _, .leaf _⟩
  · refine .node _ _ (by simp) ?_
    simp only [List.mem_cons, List.not_mem_nil, or_false, forall_eq_or_imp, forall_eq]
    refine ⟨.leaf _, .node _ _ (by simp) ?_, .node _ _ (by simp) ?_⟩
    · simp only [List.mem_cons, List.not_mem_nil, or_false, forall_eq_or_imp, forall_eq]
      exact ⟨.leaf _, .leaf _⟩
    · simp only [List.mem_cons, List.not_mem_nil, or_false, forall_eq_or_imp, forall_eq]
      refine ⟨.leaf _, .node _ _ (by simp) ?_⟩
      simp only [List.mem_cons, List.not_mem_nil, or_false, forall_eq_or_imp, forall_eq]
      exact ⟨.leaf _, .leaf _⟩

end Verif
