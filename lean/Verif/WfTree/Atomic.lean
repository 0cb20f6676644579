import Verif.WfTree.Loops
import Verif.DfgNet.Spec
import Verif.Petri.Theorems
/-
C53: for a net whose transitions execute at most one activity, it does not matter whether transitions take time.
-/
set_option linter.unusedSectionVars false
namespace Verif.WfTree
open Classical Dict
variable {α : Type}

theorem sum_upd {l : List Nat} (hn : l.Nodup) {t : Nat} (ht : t ∈ l) {f g : Nat → Nat} (h : ∀ x, x ≠ t → g x = f x) :
    (l.map g).sum + f t = (l.map f).sum + g t := by
  induction l with
  | nil => cases ht
  | cons a l ih =>
    obtain ⟨h1, h2⟩ := List.nodup_cons.1 hn
    simp only [List.map_cons, List.sum_cons]
    by_cases e : a = t
    · subst e
      have : l.map g = l.map f := List.map_congr_left fun x hx => h x fun e => h1 (e ▸ hx)
      rw [this]; omega
    · have := ih h2 (by simpa [Ne.symm e] using ht)
      rw [h a e]; omega

/-- firing sequences of markings given as functions -/
inductive FS (A : ANet α) : (Nat → Nat) → List Nat → (Nat → Nat) → Prop
  | nil (M : Nat → Nat) : FS A M [] M
  | cons {M M' : Nat → Nat} {t : Nat} {ts : List Nat} : A.T t → (∀ p, A.pre t p → 0 < M p) → FS A (A.put t (A.take t M)) ts M' → FS A M (t :: ts) M'

/-- the tokens that a transition that runs holds back -/
noncomputable def contrib (A : ANet α) (R : Nat → Option (List α)) (p t : Nat) : Nat :=
  match R t with
  | none => 0
  | some [] => if A.post t p then 1 else 0
  | some (_ :: _) => if A.pre t p then 1 else 0

section
variable {A : ANet α} {word : Nat → List α} (hL : ∀ t, A.T t → ∀ w, A.L t w ↔ w = word t) (hlen : ∀ t, (word t).length ≤ 1)
include hL hlen

/-- a run fires the transitions one after the other -/
theorem fs_of_run {ids : List Nat} (hn : ids.Nodup) (hT : ∀ t, A.T t → t ∈ ids) {c d : Cfg α} {w : List α} (hr : Run (StepU A) c w d) :
    (∀ t u, c.R t = some u → A.T t ∧ (u = [] ∨ u = word t)) → (∀ t, d.R t = none) →
    ∃ ts, FS A (fun p => c.M p + (ids.map (contrib A c.R p)).sum) ts d.M ∧ ts.flatMap word = w := by
  induction hr with
  | nil c =>
    intro _ hd
    refine ⟨[], ?_, rfl⟩
    have : (fun p => c.M p + (ids.map (contrib A c.R p)).sum) = c.M := by
      funext p
      have : ids.map (contrib A c.R p) = ids.map fun _ => 0 := List.map_congr_left fun t _ => by simp [contrib, hd t]
      rw [this]; simp
    rw [this]; exact .nil _
  | @tau c c1 d w s _ ih =>
    intro hc hd
    cases s with
    | start t u hTt hnone hp hLu =>
      have hu := (hL t hTt u).1 hLu
      obtain ⟨ts, hfs, hw⟩ := ih (by
        intro x v hv
        by_cases e : x = t
        · subst e; simp at hv; subst hv; exact ⟨hTt, .inr hu⟩
        · simp [setR, e] at hv; exact hc x v hv) hd
      have up : ∀ p, (ids.map (contrib A (setR c.R t (some u)) p)).sum =
          (ids.map (contrib A c.R p)).sum + contrib A (setR c.R t (some u)) p t := by
        intro p
        have := sum_upd hn (hT t hTt) (f := contrib A c.R p) (g := contrib A (setR c.R t (some u)) p) fun x hx => by simp [contrib, setR, hx]
        have h0 : contrib A c.R p t = 0 := by simp [contrib, hnone]
        omega
      cases u with
      | nil =>
        refine ⟨t :: ts, .cons hTt (fun p hpp => ?_) ?_, ?_⟩
        · have := hp p hpp; omega
        · have e : A.put t (A.take t fun p => c.M p + (ids.map (contrib A c.R p)).sum) =
              fun p => A.take t c.M p + (ids.map (contrib A (setR c.R t (some [])) p)).sum := by
            funext p
            rw [up p]
            simp only [ANet.put, ANet.take, contrib, setR_self]
            by_cases h1 : A.pre t p
            · have := hp p h1
              by_cases h2 : A.post t p <;> simp only [h1, h2, if_true, if_false] <;> omega
            · by_cases h2 : A.post t p <;> simp only [h1, h2, if_true, if_false] <;> omega
          rw [e]; exact hfs
        · simp [← hu, hw]
      | cons a u =>
        refine ⟨ts, ?_, hw⟩
        have e : (fun p => c.M p + (ids.map (contrib A c.R p)).sum) =
            fun p => A.take t c.M p + (ids.map (contrib A (setR c.R t (some (a :: u))) p)).sum := by
          funext p
          rw [up p]
          simp only [ANet.take, contrib, setR_self]
          by_cases h1 : A.pre t p
          · have := hp p h1
            simp only [h1, if_true]; omega
          · simp only [h1, if_false]; omega
        rw [e]; exact hfs
    | stop t hr =>
      obtain ⟨hTt, _⟩ := hc t [] hr
      obtain ⟨ts, hfs, hw⟩ := ih (by
        intro x v hv
        by_cases e : x = t
        · subst e; simp at hv
        · simp [setR, e] at hv; exact hc x v hv) hd
      refine ⟨ts, ?_, hw⟩
      have e : (fun p => c.M p + (ids.map (contrib A c.R p)).sum) =
          fun p => A.put t c.M p + (ids.map (contrib A (setR c.R t none) p)).sum := by
        funext p
        have := sum_upd hn (hT t hTt) (f := contrib A c.R p) (g := contrib A (setR c.R t none) p) fun x hx => by simp [contrib, setR, hx]
        have h0 : contrib A (setR c.R t none) p t = 0 := by simp [contrib]
        have h1 : contrib A c.R p t = if A.post t p then 1 else 0 := by simp [contrib, hr]
        rw [h0, h1] at this
        simp only [ANet.put]
        by_cases h2 : A.post t p <;> simp only [h2, if_true, if_false] at this ⊢ <;> omega
      rw [e]; exact hfs
  | @vis c c1 d w a s _ ih =>
    intro hc hd
    cases s with
    | emit t _ u hr =>
      obtain ⟨hTt, h⟩ := hc t _ hr
      have hw' : a :: u = word t := by rcases h with h | h; cases h; exact h
      have hu : u = [] := by
        have := hlen t
        rw [← hw'] at this
        simp at this; exact this
      subst hu
      obtain ⟨ts, hfs, hw⟩ := ih (by
        intro x v hv
        by_cases e : x = t
        · subst e; simp at hv; exact ⟨hTt, .inl hv⟩
        · simp [setR, e] at hv; exact hc x v hv) hd
      have ge : ∀ p, contrib A c.R p t ≤ (ids.map (contrib A c.R p)).sum := by
        intro p
        have := sum_upd hn (hT t hTt) (f := contrib A c.R p) (g := contrib A (setR c.R t none) p) fun x hx => by simp [contrib, setR, hx]
        have h0 : contrib A (setR c.R t none) p t = 0 := by simp [contrib]
        omega
      have h1 : ∀ p, contrib A c.R p t = if A.pre t p then 1 else 0 := by intro p; simp [contrib, hr]
      refine ⟨t :: ts, .cons hTt (fun p hpp => ?_) ?_, by simp [← hw', hw]⟩
      · have := ge p
        rw [h1 p, if_pos hpp] at this; omega
      · have e : A.put t (A.take t fun p => c.M p + (ids.map (contrib A c.R p)).sum) =
            fun p => c.M p + (ids.map (contrib A (setR c.R t (some [])) p)).sum := by
          funext p
          have := sum_upd hn (hT t hTt) (f := contrib A c.R p) (g := contrib A (setR c.R t (some [])) p) fun x hx => by simp [contrib, setR, hx]
          have h2 : contrib A (setR c.R t (some [])) p t = if A.post t p then 1 else 0 := by simp [contrib]
          have h3 := ge p
          rw [h1 p, h2] at this
          rw [h1 p] at h3
          simp only [ANet.put, ANet.take]
          by_cases e1 : A.pre t p <;> by_cases e2 : A.post t p <;> simp only [e1, e2, if_true, if_false] at this h3 ⊢ <;> omega
        rw [e]; exact hfs

/-- a firing sequence is a run -/
theorem run_of_fs {M M' : Nat → Nat} {ts : List Nat} (h : FS A M ts M') :
    Run (StepH A) ⟨M, fun _ => none⟩ (ts.flatMap word) ⟨M', fun _ => none⟩ := by
  induction h with
  | nil M => exact .nil _
  | @cons M M' t ts hT hp _ ih =>
    have s1 : StepH A ⟨M, fun _ => none⟩ none ⟨A.take t M, setR (fun _ => none) t (some [])⟩ := .start _ t hT rfl hp
    have e : ∀ v, setR (setR (fun _ => none) t v) t none = fun _ => (none : Option (List α)) := by
      intro v; funext x; simp only [setR]; split <;> rfl
    rw [List.flatMap_cons]
    have hl := hlen t
    match hw : word t, hl with
    | [], _ =>
      have s2 := StepH.stop (A := A) ⟨A.take t M, setR (fun _ => none) t (some [])⟩ t [] (by simp) ((hL t hT []).2 hw.symm)
      rw [e] at s2
      exact .tau s1 (.tau s2 ih)
    | [a], _ =>
      have s2 := StepH.emit (A := A) ⟨A.take t M, setR (fun _ => none) t (some [])⟩ t a [] (by simp)
      have s3 := StepH.stop (A := A) ⟨A.take t M, setR (setR (fun _ => none) t (some [])) t (some ([] ++ [a]))⟩ t [a] (by simp) ((hL t hT [a]).2 hw.symm)
      have e2 : setR (setR (setR (fun _ => none) t (some [])) t (some ([] ++ [a]))) t none = fun _ => (none : Option (List α)) := by
        funext x; simp only [setR]; split <;> rfl
      rw [e2] at s3
      exact .tau s1 (.vis s2 (.tau s3 ih))

theorem lang_fs {ids : List Nat} (hn : ids.Nodup) (hT : ∀ t, A.T t → t ∈ ids) (i o : Nat) (w : List α) :
    LangH A i o w ↔ ∃ ts, FS A (fun p => if p = i then 1 else 0) ts (fun p => if p = o then 1 else 0) ∧ ts.flatMap word = w := by
  constructor
  · intro h
    rw [← langU_iff] at h
    obtain ⟨d, r, f1, f2⟩ := h
    obtain ⟨ts, h1, h2⟩ := fs_of_run hL hlen hn hT r (by simp [init]) f2
    refine ⟨ts, ?_, h2⟩
    have e1 : (fun p => (init i : Cfg α).M p + (ids.map (contrib A (init i : Cfg α).R p)).sum) = fun p => if p = i then 1 else 0 := by
      funext p
      have : ids.map (contrib A (init i : Cfg α).R p) = ids.map fun _ => 0 := List.map_congr_left fun t _ => by simp [contrib, init]
      rw [this]; simp [init]
    have e2 : d.M = fun p => if p = o then 1 else 0 := funext f1
    rw [e1, e2] at h1
    exact h1
  · rintro ⟨ts, h1, rfl⟩
    exact ⟨_, run_of_fs hL hlen h1, fun _ => rfl, fun _ => rfl⟩
end

/-! ### The Petri net of the code -/

/-- a net the conversion is meant for: no object occurs twice, no two arcs between the same objects, arcs touch places of the net, all
weights are 1 -/
structure Plain (net : Net Nat Nat) : Prop where
  nodupT : net.transitions.Nodup
  nodupP : net.places.Nodup
  inN : ∀ t ∈ net.transitions, ((net.inArcs t).map Prod.fst).Nodup
  outN : ∀ t ∈ net.transitions, ((net.outArcs t).map Prod.fst).Nodup
  inP : ∀ t ∈ net.transitions, ∀ a ∈ net.inArcs t, a.1 ∈ net.places ∧ a.2 = 1
  outP : ∀ t ∈ net.transitions, ∀ a ∈ net.outArcs t, a.1 ∈ net.places ∧ a.2 = 1

theorem Plain.simple {net : Net Nat Nat} (W : Plain net) : net.Simple :=
  ⟨W.inN, fun t ht a ha => by rw [(W.inP t ht a ha).2]; omega, fun t ht a ha => by rw [(W.outP t ht a ha).2]; omega⟩

theorem weight_one {l : List (Nat × Int)} (hn : (l.map Prod.fst).Nodup) (h1 : ∀ a ∈ l, a.2 = 1) (p : Nat) :
    arcWeight l p = if p ∈ l.map Prod.fst then 1 else 0 := by
  by_cases h : p ∈ l.map Prod.fst
  · rw [if_pos h]
    obtain ⟨a, ha, rfl⟩ := List.mem_map.1 h
    rw [arcWeight_of_mem_nodup hn ha, h1 a ha]
  · rw [if_neg h, arcWeight_eq_zero h]

section
variable {net : Net Nat Nat} (W : Plain net) (lab : Nat → Option α)
include W

theorem ofNet_ids : (ofNet net lab).trs.map (·.id) = net.transitions := by simp [ofNet, Function.comp_def]

theorem ofNet_mem {t : WT α} : t ∈ (ofNet net lab).trs ↔ ∃ x ∈ net.transitions, t = ⟨x, (net.inArcs x).map Prod.fst, (net.outArcs x).map Prod.fst, .leaf (lab x), false⟩ := by
  simp [ofNet, eq_comm]

theorem ofNet_T (t : Nat) : (toA (ofNet net lab)).T t ↔ t ∈ net.transitions := by
  constructor
  · rintro ⟨x, hx, rfl⟩
    obtain ⟨y, hy, rfl⟩ := (ofNet_mem W lab).1 hx
    exact hy
  · intro h
    exact ⟨_, (ofNet_mem W lab).2 ⟨t, h, rfl⟩, rfl⟩

theorem ofNet_pre {t : Nat} (ht : t ∈ net.transitions) (p : Nat) : (toA (ofNet net lab)).pre t p ↔ p ∈ (net.inArcs t).map Prod.fst := by
  constructor
  · rintro ⟨x, hx, rfl, h⟩
    obtain ⟨y, hy, rfl⟩ := (ofNet_mem W lab).1 hx
    exact h
  · intro h
    exact ⟨_, (ofNet_mem W lab).2 ⟨t, ht, rfl⟩, rfl, h⟩

theorem ofNet_post {t : Nat} (ht : t ∈ net.transitions) (p : Nat) : (toA (ofNet net lab)).post t p ↔ p ∈ (net.outArcs t).map Prod.fst := by
  constructor
  · rintro ⟨x, hx, rfl, h⟩
    obtain ⟨y, hy, rfl⟩ := (ofNet_mem W lab).1 hx
    exact h
  · intro h
    exact ⟨_, (ofNet_mem W lab).2 ⟨t, ht, rfl⟩, rfl, h⟩

theorem ofNet_L {t : Nat} (ht : t ∈ net.transitions) (w : List α) : (toA (ofNet net lab)).L t w ↔ w = (lab t).toList := by
  have h : (toA (ofNet net lab)).L t w ↔ (PT.leaf (lab t) : PT α).lang w := by
    constructor
    · rintro ⟨x, hx, rfl, h⟩
      obtain ⟨y, hy, rfl⟩ := (ofNet_mem W lab).1 hx
      exact h
    · intro h
      exact ⟨_, (ofNet_mem W lab).2 ⟨t, ht, rfl⟩, rfl, h⟩
  rw [h]
  cases lab t <;> simp [Lang.eps]

/-- one step of the net of the code -/
theorem exec_iff {t : Nat} {m m' : Marking Nat} {M : Nat → Nat} (hm : ∀ p, count m p = (M p : Int)) (h : net.execute t m = some m') :
    t ∈ net.transitions ∧ (∀ p, (toA (ofNet net lab)).pre t p → 0 < M p) ∧
      ∀ p, count m' p = ((toA (ofNet net lab)).put t ((toA (ofNet net lab)).take t M) p : Nat) := by
  have hf := Net.execute_fires h
  rw [Net.execute_some_iff, Net.isEnabled_iff] at h
  obtain ⟨⟨ht, he⟩, _⟩ := h
  have hpos : ∀ p, (toA (ofNet net lab)).pre t p → 0 < M p := by
    intro p hp
    rw [ofNet_pre W lab ht] at hp
    obtain ⟨a, ha, rfl⟩ := List.mem_map.1 hp
    have := he a ha
    rw [hm, (W.inP t ht a ha).2] at this
    omega
  refine ⟨ht, hpos, fun p => ?_⟩
  rw [hf p, hm p, weight_one (W.inN t ht) (fun a ha => (W.inP t ht a ha).2), weight_one (W.outN t ht) (fun a ha => (W.outP t ht a ha).2)]
  have h1 := hpos p
  simp only [ANet.put, ANet.take]
  rw [ofNet_pre W lab ht] at h1 ⊢
  rw [ofNet_post W lab ht]
  by_cases e1 : p ∈ (net.inArcs t).map Prod.fst <;> by_cases e2 : p ∈ (net.outArcs t).map Prod.fst
  · have := h1 e1; simp only [e1, e2, if_true]; omega
  · have := h1 e1; simp only [e1, e2, if_true, if_false]; omega
  · simp only [e1, e2, if_true, if_false]; omega
  · simp only [e1, e2, if_false]; omega

theorem exec_of {t : Nat} {m : Marking Nat} {M : Nat → Nat} (hm : ∀ p, count m p = (M p : Int)) (ht : t ∈ net.transitions)
    (hp : ∀ p, (toA (ofNet net lab)).pre t p → 0 < M p) : ∃ m', net.execute t m = some m' := by
  refine ⟨_, (Net.execute_some_iff _ _ _ _).2 ⟨(Net.isEnabled_iff _ _ _).2 ⟨ht, fun a ha => ?_⟩, rfl⟩⟩
  have := hp a.1 ((ofNet_pre W lab ht a.1).2 (List.mem_map_of_mem ha))
  rw [hm, (W.inP t ht a ha).2]
  omega

theorem fs_seq {ts : List Nat} : ∀ {m m' : Marking Nat} {M : Nat → Nat}, (∀ p, count m p = (M p : Int)) → Pos m → net.FiringSequence m ts m' →
    ∃ M', FS (toA (ofNet net lab)) M ts M' ∧ (∀ p, count m' p = (M' p : Int)) ∧ Pos m' := by
  induction ts with
  | nil =>
    intro m m' M hm hpos h
    simp only [Net.FiringSequence, List.foldlM_nil, Option.pure_def, Option.some.injEq] at h
    subst h
    exact ⟨M, .nil _, hm, hpos⟩
  | cons t ts ih =>
    intro m m' M hm hpos h
    simp only [Net.FiringSequence, List.foldlM_cons, Option.bind_eq_bind, Option.bind_eq_some_iff] at h
    obtain ⟨m1, h1, h2⟩ := h
    obtain ⟨ht, hp, hc⟩ := exec_iff W lab hm h1
    obtain ⟨M', a, b⟩ := ih hc (Net.execute_pos W.simple hpos h1) h2
    exact ⟨M', .cons ((ofNet_T W lab t).2 ht) hp a, b⟩

theorem seq_fs {ts : List Nat} {M M' : Nat → Nat} (h : FS (toA (ofNet net lab)) M ts M') : ∀ {m : Marking Nat}, (∀ p, count m p = (M p : Int)) → Pos m →
    ∃ m', net.FiringSequence m ts m' ∧ (∀ p, count m' p = (M' p : Int)) ∧ Pos m' := by
  induction h with
  | nil M => intro m hm hpos; exact ⟨m, rfl, hm, hpos⟩
  | @cons M M' t ts hT hp _ ih =>
    intro m hm hpos
    have ht := (ofNet_T W lab t).1 hT
    obtain ⟨m1, h1⟩ := exec_of W lab hm ht hp
    obtain ⟨_, _, hc⟩ := exec_iff W lab hm h1
    obtain ⟨m', a, b⟩ := ih hc (Net.execute_pos W.simple hpos h1)
    refine ⟨m', ?_, b⟩
    simp only [Net.FiringSequence, List.foldlM_cons, Option.bind_eq_bind, Option.bind_eq_some_iff]
    exact ⟨m1, h1, a⟩

theorem pos_one (i : Nat) : Pos ([(i, 1)] : Marking Nat) := by
  intro k v h
  simp only [Dict.get?] at h
  split at h <;> simp_all; omega

theorem count_one (i p : Nat) : count ([(i, 1)] : Marking Nat) p = ((if p = i then 1 else 0 : Nat) : Int) := by
  simp only [count, Dict.get?]
  by_cases e : i = p
  · subst e; simp
  · simp [e, Ne.symm e]

/-- the language of the net is the language with transitions that take time -/
theorem accepts_iff (i o : Nat) (w : List α) : net.Accepts lab [(i, 1)] [(o, 1)] w ↔ LangH (toA (ofNet net lab)) i o w := by
  have hword : ∀ ts : List Nat, ts.flatMap (fun t => (lab t).toList) = ts.filterMap lab := by
    intro ts
    induction ts with
    | nil => rfl
    | cons t ts ih => rw [List.flatMap_cons, List.filterMap_cons, ih]; cases lab t <;> rfl
  rw [lang_fs (word := fun t => (lab t).toList) (fun t ht w => ofNet_L W lab ((ofNet_T W lab t).1 ht) w) (fun t => by cases lab t <;> simp)
    W.nodupT (fun t ht => (ofNet_T W lab t).1 ht)]
  constructor
  · rintro ⟨ts, m, h1, h2, h3⟩
    obtain ⟨M', a, b, c⟩ := fs_seq W lab (count_one W i) (pos_one W i) h1
    rw [C02_eq m _ c (pos_one W o)] at h2
    refine ⟨ts, ?_, by rw [hword]; exact h3⟩
    have : M' = fun p => if p = o then 1 else 0 := by
      funext p
      have := h2 p
      rw [b p, count_one W o p] at this
      exact Int.ofNat.inj this
    rw [← this]; exact a
  · rintro ⟨ts, h1, h2⟩
    obtain ⟨m', a, b, c⟩ := seq_fs W lab h1 (count_one W i) (pos_one W i)
    refine ⟨ts, m', a, ?_, by rw [← hword]; exact h2⟩
    rw [C02_eq m' _ c (pos_one W o)]
    intro p
    rw [b p, count_one W o p]
end
end Verif.WfTree
