/-
C40: what the DFG filters on activities, paths and dependency keep.
-/
import Verif.Dfg.FilteringProofs
import Mathlib.Tactic.Linarith
import Mathlib.Tactic.NormNum
import Mathlib.Data.List.Perm.Subperm
import Mathlib.Algebra.Order.Field.Basic
set_option linter.unusedSectionVars false
namespace Verif
namespace Dfg

variable {A : Type} [DecidableEq A]

/-! ### specification -/

/-- `keep` consists of `k` entries of `l` (all of them if there are fewer) with the highest values -/
structure TopK {K : Type} (l : List (K × Int)) (k : Nat) (keep : List K) : Prop where
  len : keep.length = min k l.length
  nodup : keep.Nodup
  mem : ∀ a ∈ keep, a ∈ Dict.keys l
  top : ∀ x ∈ l, ∀ y ∈ l, x.1 ∈ keep → y.1 ∉ keep → y.2 ≤ x.2

/-- without the activity `a`, one of the activities `keep` is not on a run any more or there is no edge -/
def NeededAct (d : D A) (keep : List A) (a : A) : Prop :=
  (∃ b ∈ keep, ¬ OnRun (restrict d fun x => decide (x ≠ a)) b) ∨ (restrict d fun x => decide (x ≠ a)).dfg = []

/-- the DFG without one edge, start activity or end activity -/
def without (d : D A) : GEdge A → D A
  | (.act a, .act b) => { d with dfg := d.dfg.filter fun e => decide (e.1 ≠ (a, b)) }
  | (.start, .act b) => { d with sa := d.sa.filter fun e => decide (e.1 ≠ b) }
  | (.act a, .fin) => { d with ea := d.ea.filter fun e => decide (e.1 ≠ a) }
  | _ => d

/-- without the edge `e`, one of the activities `keep` is not on a run any more, or there is only one edge left -/
def NeededEdge (d : D A) (keep : List A) (e : GEdge A) : Prop :=
  (∃ b ∈ keep, ¬ OnRun (without d e) b) ∨ d.dfg.length ≤ 1

/-! ### lemmas -/

theorem topK_sort {K : Type} [DecidableEq K] (gt : K → K → Bool) (l : List (K × Int)) (hn : (Dict.keys l).Nodup) (k : Nat) :
    TopK l k (((sortDesc (fun a b : Int => decide (a > b)) gt l).take k).map Prod.fst) := by
  have hp := sortDesc_perm (fun a b : Int => decide (a > b)) gt l
  have hs := sortDesc_sorted gt l
  generalize hS : sortDesc (fun a b : Int => decide (a > b)) gt l = S at hp hs
  have hnS : (S.map Prod.fst).Nodup := (hp.map Prod.fst).nodup_iff.2 hn
  have hsplit : S = S.take k ++ S.drop k := (List.take_append_drop k S).symm
  constructor
  · rw [List.length_map, List.length_take, hp.length_eq]
  · exact ((List.take_sublist k S).map Prod.fst).nodup hnS
  · intro a ha
    obtain ⟨x, hx, rfl⟩ := List.mem_map.1 ha
    exact List.mem_map.2 ⟨x, hp.mem_iff.1 (List.mem_of_mem_take hx), rfl⟩
  · intro x hx y hy hxk hyk
    have hx' : x ∈ S.take k := by
      have hxS := hp.mem_iff.2 hx
      rw [hsplit, List.mem_append] at hxS
      rcases hxS with h | h
      · exact h
      · exfalso
        rw [hsplit, List.map_append, List.nodup_append] at hnS
        exact hnS.2.2 _ hxk _ (List.mem_map.2 ⟨x, h, rfl⟩) rfl
    have hy' : y ∈ S.drop k := by
      have hyS := hp.mem_iff.2 hy
      rw [hsplit, List.mem_append] at hyS
      rcases hyS with h | h
      · exact absurd (List.mem_map.2 ⟨y, h, rfl⟩) hyk
      · exact h
    rw [hsplit, List.pairwise_append] at hs
    exact hs.2.2 x hx' y hy'

theorem neededAct_mono {d' d : D A} (h : Sub d' d) {keep : List A} {a : A} (hn : NeededAct d keep a) :
    NeededAct d' keep a := by
  have hs : Sub (restrict d' fun x => decide (x ≠ a)) (restrict d fun x => decide (x ≠ a)) := sub_removeAct_mono h a
  rcases hn with ⟨b, hb, hn⟩ | hn
  · exact .inl ⟨b, hb, fun h' => hn (h'.mono hs)⟩
  · right
    have := hs.dfg
    rw [hn] at this
    exact List.sublist_nil.1 this

theorem actLoop (keep l : List A) (s : D A × List (GEdge A)) (hg : s.2 = graphOf s.1) :
    (l.foldl (actStep keep) s).2 = graphOf (l.foldl (actStep keep) s).1 ∧
    (∃ R : A → Bool, (l.foldl (actStep keep) s).1 = restrict s.1 R ∧ ∀ a, a ∉ l → R a = true) ∧
    ((∀ a ∈ keep, OnRun s.1 a) → ∀ a ∈ keep, OnRun (l.foldl (actStep keep) s).1 a) ∧
    ∀ a ∈ l, a ∈ (l.foldl (actStep keep) s).1.cnt.keys → NeededAct (l.foldl (actStep keep) s).1 keep a := by
  induction l generalizing s with
  | nil =>
    refine ⟨hg, ⟨fun _ => true, ?_, fun _ _ => rfl⟩, fun h => h, by simp⟩
    have h1 {α : Type} (l : List α) : l.filter (fun _ => true) = l := List.filter_eq_self.2 fun _ _ => rfl
    simp [restrict, h1]
  | cons x l ih =>
    rw [List.foldl_cons]
    have hstep : (actStep keep s x = s ∧ NeededAct s.1 keep x) ∨
        (actStep keep s x = (removeAct s.1 x, graphOf (removeAct s.1 x)) ∧ ∀ a ∈ keep, OnRun (removeAct s.1 x) a) := by
      unfold actStep
      simp only [hg, ← graphOf_restrict]
      by_cases hk : keepOk (graphOf (removeAct s.1 x)) keep = true
      · rw [if_pos hk]
        by_cases he : (removeAct s.1 x).dfg.isEmpty = true
        · rw [if_pos he]
          exact .inl ⟨rfl, .inr (List.isEmpty_iff.1 he)⟩
        · rw [if_neg he]
          exact .inr ⟨rfl, (keepOk_iff _ _).1 hk⟩
      · rw [if_neg hk]
        refine .inl ⟨rfl, .inl ?_⟩
        rw [keepOk_iff] at hk
        simp only [not_forall] at hk
        obtain ⟨b, hb, h⟩ := hk
        exact ⟨b, hb, h⟩
    rcases hstep with ⟨h1, h2⟩ | ⟨h1, h2⟩
    · rw [h1]
      obtain ⟨i1, ⟨R, i2, i2'⟩, i3, i4⟩ := ih s hg
      refine ⟨i1, ⟨R, i2, fun a ha => i2' a (fun h => ha (by simp [h]))⟩, i3, ?_⟩
      intro a ha hc
      rcases List.mem_cons.1 ha with rfl | ha
      · exact neededAct_mono (i2 ▸ sub_restrict _ _) h2
      · exact i4 a ha hc
    · rw [h1]
      obtain ⟨i1, ⟨R, i2, i2'⟩, i3, i4⟩ := ih (removeAct s.1 x, graphOf (removeAct s.1 x)) rfl
      refine ⟨i1, ⟨fun a => R a && decide (a ≠ x), ?_, ?_⟩, fun _ => i3 h2, ?_⟩
      · rw [i2]; exact restrict_restrict s.1 (fun y => decide (y ≠ x)) R
      · intro a ha
        rw [List.mem_cons, not_or] at ha
        simp [i2' a ha.2, ha.1]
      · intro a ha hc
        rcases List.mem_cons.1 ha with rfl | ha
        · exfalso
          rw [i2] at hc
          change a ∈ (restrict (restrict s.1 fun x => decide (x ≠ a)) R).cnt.keys at hc
          rw [restrict_restrict, keys_restrict_cnt, List.mem_filter] at hc
          simp at hc
        · exact i4 a ha hc

theorem activitiesCore_spec (gt : A → A → Bool) (d : D A) (hw : WF d) (k : Nat) :
    ∃ keep, TopK d.cnt k keep ∧
      (∃ R, activitiesCore gt d k = restrict d R) ∧
      Connected (activitiesCore gt d k) ∧
      (∀ a ∈ (activitiesCore gt d k).cnt.keys, a ∉ keep → NeededAct (activitiesCore gt d k) keep a) ∧
      (Connected d → ∀ a ∈ keep, a ∈ (activitiesCore gt d k).cnt.keys) := by
  refine ⟨_, topK_sort gt d.cnt hw.cntNodup k, ?_⟩
  unfold activitiesCore
  have hp := sortDesc_perm (fun a b : Int => decide (a > b)) gt d.cnt
  have htop := topK_sort gt d.cnt hw.cntNodup k
  generalize hS : sortDesc (fun a b : Int => decide (a > b)) gt d.cnt = S at hp htop
  simp only []
  generalize hK : (S.take k).map Prod.fst = keep at htop
  generalize hL : ((S.drop k).map Prod.fst).reverse = l
  have hkl : ∀ a ∈ d.cnt.keys, a ∉ keep → a ∈ l := by
    intro a ha hk
    obtain ⟨x, hx, rfl⟩ := List.mem_map.1 ha
    have hxS := hp.mem_iff.2 hx
    rw [← List.take_append_drop k S, List.mem_append] at hxS
    rcases hxS with h | h
    · exact absurd (hK ▸ List.mem_map.2 ⟨x, h, rfl⟩) hk
    · rw [← hL, List.mem_reverse]; exact List.mem_map.2 ⟨x, h, rfl⟩
  have hnk : ∀ a ∈ keep, a ∉ l := by
    intro a ha hl
    have hnS : (S.map Prod.fst).Nodup := (hp.map Prod.fst).nodup_iff.2 hw.cntNodup
    rw [← List.take_append_drop k S, List.map_append, List.nodup_append] at hnS
    rw [← hK] at ha
    rw [← hL, List.mem_reverse] at hl
    exact hnS.2.2 _ ha _ hl rfl
  obtain ⟨i1, ⟨R, i2, i2'⟩, i3, i4⟩ := actLoop keep l (d, graphOf d) rfl
  generalize hr : l.foldl (actStep keep) (d, graphOf d) = r at i1 i2 i3 i4
  have hr2 : r = (r.1, graphOf r.1) := by rw [← i1]
  have hwr : WF r.1 := by rw [i2]; exact hw.restrict R
  rw [hr2, dropUnreachable_eq hwr]
  refine ⟨⟨_, by rw [i2]; exact restrict_restrict _ _ _⟩, connected_restrict _, ?_, ?_⟩
  · intro a ha hk
    rw [keys_restrict_cnt, List.mem_filter] at ha
    have had : a ∈ d.cnt.keys := by
      have := ha.1
      rw [i2, keys_restrict_cnt, List.mem_filter] at this
      exact this.1
    exact neededAct_mono (sub_restrict _ _) (i4 a (hkl a had hk) ha.1)
  · intro hc a ha
    have hrun := i3 (fun b hb => hc b (htop.mem b hb)) a ha
    rw [keys_restrict_cnt, List.mem_filter]
    refine ⟨?_, (onRunB_iff _ _).2 hrun⟩
    rw [i2, keys_restrict_cnt, List.mem_filter]
    exact ⟨htop.mem a ha, i2' a (hnk a ha)⟩

/-! ### edges -/

theorem sub_deleteEdge (d : D A) (e : GEdge A) : Sub (deleteEdge d e) d := by
  unfold deleteEdge
  split
  · exact ⟨List.filter_sublist, .refl _, .refl _, .refl _⟩
  · exact ⟨.refl _, List.filter_sublist, .refl _, .refl _⟩
  · exact ⟨.refl _, .refl _, List.filter_sublist, .refl _⟩
  · exact Sub.refl d

theorem without_eq (d : D A) (e : GEdge A) : without d e = deleteEdge d e := by
  rcases e with ⟨u, v⟩
  cases u <;> cases v <;> rfl

theorem sub_without_mono {d' d : D A} (h : Sub d' d) (e : GEdge A) : Sub (without d' e) (without d e) := by
  rcases h with ⟨h1, h2, h3, h4⟩
  unfold without
  split
  · exact ⟨h1.filter _, h2, h3, h4⟩
  · exact ⟨h1, h2.filter _, h3, h4⟩
  · exact ⟨h1, h2, h3.filter _, h4⟩
  · exact ⟨h1, h2, h3, h4⟩

theorem neededEdge_mono {d' d : D A} (h : Sub d' d) {keep : List A} {e : GEdge A} (hn : NeededEdge d keep e) :
    NeededEdge d' keep e := by
  rcases hn with ⟨b, hb, hn⟩ | hn
  · exact .inl ⟨b, hb, fun h' => hn (h'.mono (sub_without_mono h e))⟩
  · exact .inr (Nat.le_trans h.dfg.length_le hn)

theorem WF.sub {d' d : D A} (h : Sub d' d) (hc : d'.cnt = d.cnt) (hw : WF d) : WF d' where
  dfgNodup := (h.dfg.map Prod.fst).nodup hw.dfgNodup
  saNodup := (h.sa.map Prod.fst).nodup hw.saNodup
  eaNodup := (h.ea.map Prod.fst).nodup hw.eaNodup
  cntNodup := (h.cnt.map Prod.fst).nodup hw.cntNodup
  dfgL e he := hc ▸ hw.dfgL e ((h.dfg.map Prod.fst).subset he)
  dfgR e he := hc ▸ hw.dfgR e ((h.dfg.map Prod.fst).subset he)
  saIn e he := hc ▸ hw.saIn e ((h.sa.map Prod.fst).subset he)
  eaIn e he := hc ▸ hw.eaIn e ((h.ea.map Prod.fst).subset he)

theorem cnt_deleteEdge (d : D A) (e : GEdge A) : (deleteEdge d e).cnt = d.cnt := by
  unfold deleteEdge; split <;> rfl

theorem edgeLoop (keep : List A) (l : List (GEdge A)) (s : D A × List (GEdge A)) (hg : s.2 = graphOf s.1)
    (hl : l.Nodup) (hlg : ∀ e ∈ l, e ∈ s.2) :
    (l.foldl (edgeStep keep) s).2 = graphOf (l.foldl (edgeStep keep) s).1 ∧
    Sub (l.foldl (edgeStep keep) s).1 s.1 ∧ (l.foldl (edgeStep keep) s).1.cnt = s.1.cnt ∧
    (∀ e, e ∉ l → e ∈ s.2 → e ∈ (l.foldl (edgeStep keep) s).2) ∧
    ((∀ a ∈ keep, OnRun s.1 a) → ∀ a ∈ keep, OnRun (l.foldl (edgeStep keep) s).1 a) ∧
    ∀ e ∈ l, e ∈ (l.foldl (edgeStep keep) s).2 → NeededEdge (l.foldl (edgeStep keep) s).1 keep e := by
  induction l generalizing s with
  | nil => exact ⟨hg, Sub.refl _, rfl, fun _ _ h => h, fun h => h, by simp⟩
  | cons x l ih =>
    rw [List.foldl_cons]
    rw [List.nodup_cons] at hl
    have hxg : x ∈ graphOf s.1 := hg ▸ hlg x (by simp)
    have hstep : (edgeStep keep s x = s ∧ NeededEdge s.1 keep x) ∨
        (edgeStep keep s x = (deleteEdge s.1 x, graphOf (deleteEdge s.1 x)) ∧ ∀ a ∈ keep, OnRun (deleteEdge s.1 x) a) := by
      unfold edgeStep
      simp only [hg, ← graphOf_deleteEdge s.1 x hxg]
      by_cases hlen : s.1.dfg.length > 1
      · rw [if_pos hlen]
        by_cases hk : keepOk (graphOf (deleteEdge s.1 x)) keep = true
        · rw [if_pos hk]
          exact .inr ⟨rfl, (keepOk_iff _ _).1 hk⟩
        · rw [if_neg hk]
          refine .inl ⟨rfl, .inl ?_⟩
          rw [keepOk_iff] at hk
          simp only [not_forall] at hk
          obtain ⟨b, hb, h⟩ := hk
          exact ⟨b, hb, by rw [without_eq]; exact h⟩
      · rw [if_neg hlen]
        exact .inl ⟨rfl, .inr (by omega)⟩
    rcases hstep with ⟨h1, h2⟩ | ⟨h1, h2⟩
    · rw [h1]
      obtain ⟨i1, i2, i3, i4, i5, i6⟩ := ih s hg hl.2 (fun e he => hlg e (by simp [he]))
      refine ⟨i1, i2, i3, ?_, i5, ?_⟩
      · intro e he; rw [List.mem_cons, not_or] at he; exact i4 e he.2
      · intro e he hc
        rcases List.mem_cons.1 he with rfl | he
        · exact neededEdge_mono i2 h2
        · exact i6 e he hc
    · rw [h1]
      obtain ⟨i1, i2, i3, i4, i5, i6⟩ := ih (deleteEdge s.1 x, graphOf (deleteEdge s.1 x)) rfl hl.2 (by
        intro e he
        rw [graphOf_deleteEdge s.1 x hxg]
        unfold removeEdge
        rw [List.mem_filter]
        refine ⟨hg ▸ hlg e (by simp [he]), ?_⟩
        rw [decide_eq_true_iff]
        rintro rfl; exact hl.1 he)
      refine ⟨i1, i2.trans (sub_deleteEdge _ _), i3.trans (cnt_deleteEdge _ _), ?_, fun _ => i5 h2, ?_⟩
      · intro e he hes
        rw [List.mem_cons, not_or] at he
        apply i4 e he.2
        rw [graphOf_deleteEdge s.1 x hxg]
        unfold removeEdge
        rw [List.mem_filter]
        exact ⟨hg ▸ hes, by simpa using he.1⟩
      · intro e he hc
        rcases List.mem_cons.1 he with rfl | he
        · exfalso
          rw [i1] at hc
          have hsub : ∀ y ∈ graphOf (l.foldl (edgeStep keep) (deleteEdge s.1 e, graphOf (deleteEdge s.1 e))).1,
              y ∈ graphOf (deleteEdge s.1 e) := by
            intro y hy
            rw [mem_graphOf] at hy ⊢
            rcases hy with ⟨a, b, h, rfl⟩ | ⟨a, h, rfl⟩ | ⟨a, h, rfl⟩
            · exact .inl ⟨a, b, (i2.dfg.map Prod.fst).subset h, rfl⟩
            · exact .inr (.inl ⟨a, (i2.sa.map Prod.fst).subset h, rfl⟩)
            · exact .inr (.inr ⟨a, (i2.ea.map Prod.fst).subset h, rfl⟩)
          have := hsub e hc
          rw [graphOf_deleteEdge s.1 e hxg] at this
          unfold removeEdge at this
          simp [List.mem_filter] at this
        · exact i6 e he hc

theorem mem_graphOf_restrict (d : D A) (K : A → Bool) (e : GEdge A) (h : e ∈ graphOf d)
    (h1 : ∀ a, e.1 = .act a → K a = true) (h2 : ∀ a, e.2 = .act a → K a = true) : e ∈ graphOf (restrict d K) := by
  rw [mem_graphOf] at h ⊢
  rcases h with ⟨a, b, h, rfl⟩ | ⟨a, h, rfl⟩ | ⟨a, h, rfl⟩
  · refine .inl ⟨a, b, ?_, rfl⟩
    rw [keys_restrict_dfg, List.mem_filter]; exact ⟨h, by simp [h1 a rfl, h2 b rfl]⟩
  · refine .inr (.inl ⟨a, ?_, rfl⟩)
    rw [keys_restrict_sa, List.mem_filter]; exact ⟨h, h2 a rfl⟩
  · refine .inr (.inr ⟨a, ?_, rfl⟩)
    rw [keys_restrict_ea, List.mem_filter]; exact ⟨h, h1 a rfl⟩

theorem filterSpecifiedPaths_spec (d : D A) (hw : WF d) (l : List (GEdge A)) (keep : List A) (hl : l.Nodup)
    (hlg : ∀ e ∈ l, e ∈ graphOf d) (r : D A) (hr : filterSpecifiedPaths d (graphOf d) l keep = r) :
    WF r ∧ Sub r d ∧ Connected r ∧
    (∀ e ∈ l, e ∈ graphOf r → NeededEdge r keep e) ∧
    ((∀ a ∈ keep, OnRun d a) → (∀ a ∈ keep, a ∈ d.cnt.keys → a ∈ r.cnt.keys) ∧
      ∀ e ∈ graphOf d, e ∉ l → (∀ a, e.1 = .act a → a ∈ keep) → (∀ a, e.2 = .act a → a ∈ keep) → e ∈ graphOf r) := by
  subst hr
  unfold filterSpecifiedPaths
  obtain ⟨i1, i2, i3, i4, i5, i6⟩ := edgeLoop keep l (d, graphOf d) rfl hl hlg
  simp only []
  generalize hq : l.foldl (edgeStep keep) (d, graphOf d) = q at i1 i2 i3 i4 i5 i6
  have hq2 : q = (q.1, graphOf q.1) := by rw [← i1]
  have hwq : WF q.1 := WF.sub i2 i3 hw
  rw [hq2, dropUnreachable_eq hwq]
  have hsame : ({ restrict q.1 (onRunB q.1) with
      dfg := (restrict q.1 (onRunB q.1)).dfg.filter fun e =>
        (restrict q.1 (onRunB q.1)).cnt.has e.1.1 && (restrict q.1 (onRunB q.1)).cnt.has e.1.2 } : D A)
      = restrict q.1 (onRunB q.1) := by
    have hwr := hwq.restrict (onRunB q.1)
    generalize restrict q.1 (onRunB q.1) = t at hwr
    have : (t.dfg.filter fun e => t.cnt.has e.1.1 && t.cnt.has e.1.2) = t.dfg := by
      apply List.filter_eq_self.2
      intro e he
      have hk : e.1 ∈ t.dfg.keys := List.mem_map.2 ⟨e, he, rfl⟩
      rw [Bool.and_eq_true, Dict.has_iff, Dict.has_iff]
      exact ⟨hwr.dfgL _ hk, hwr.dfgR _ hk⟩
    rw [this]
  rw [hsame]
  refine ⟨hwq.restrict _, (sub_restrict _ _).trans i2, connected_restrict _, ?_, ?_⟩
  · intro e he hr
    apply neededEdge_mono (sub_restrict _ _)
    apply i6 e he
    rw [i1]
    rw [mem_graphOf] at hr ⊢
    have hs := sub_restrict q.1 (onRunB q.1)
    rcases hr with ⟨a, b, h, rfl⟩ | ⟨a, h, rfl⟩ | ⟨a, h, rfl⟩
    · exact .inl ⟨a, b, (hs.dfg.map Prod.fst).subset h, rfl⟩
    · exact .inr (.inl ⟨a, (hs.sa.map Prod.fst).subset h, rfl⟩)
    · exact .inr (.inr ⟨a, (hs.ea.map Prod.fst).subset h, rfl⟩)
  · intro hrun
    have hrun' := i5 hrun
    refine ⟨?_, ?_⟩
    · intro a ha hc
      rw [keys_restrict_cnt, List.mem_filter, i3]
      exact ⟨hc, (onRunB_iff _ _).2 (hrun' a ha)⟩
    · intro e he hel h1 h2
      apply mem_graphOf_restrict
      · rw [← i1]; exact i4 e hel he
      · intro a ha; exact (onRunB_iff _ _).2 (hrun' a (h1 a ha))
      · intro a ha; exact (onRunB_iff _ _).2 (hrun' a (h2 a ha))

theorem allEdges_keys (d : D A) : (allEdges d).map Prod.fst = graphOf d := by
  unfold allEdges graphOf
  simp [List.map_map, Function.comp_def]

theorem dependencyEdges_keys (d : D A) : (dependencyEdges d).map Prod.fst = graphOf d := by
  unfold dependencyEdges graphOf
  simp [List.map_map, Function.comp_def]

theorem graphOf_nodup {d : D A} (hw : WF d) : (graphOf d).Nodup := by
  unfold graphOf
  have h1 : (d.dfg.map fun e => ((Node.act e.1.1, Node.act e.1.2) : GEdge A)).Nodup := by
    have : (d.dfg.map fun e => ((Node.act e.1.1, Node.act e.1.2) : GEdge A))
        = d.dfg.keys.map fun e => (Node.act e.1, Node.act e.2) := by simp [Dict.keys, Function.comp_def]
    rw [this]
    exact hw.dfgNodup.map _ (fun a b hab h => hab (by simp only [Prod.mk.injEq, Node.act.injEq] at h; exact Prod.ext h.1 h.2))
  have h2 : (d.sa.map fun e => ((Node.start, Node.act e.1) : GEdge A)).Nodup := by
    have : (d.sa.map fun e => ((Node.start, Node.act e.1) : GEdge A))
        = d.sa.keys.map fun e => (Node.start, Node.act e) := by simp [Dict.keys, Function.comp_def]
    rw [this]
    exact hw.saNodup.map _ (by simp)
  have h3 : (d.ea.map fun e => ((Node.act e.1, Node.fin) : GEdge A)).Nodup := by
    have : (d.ea.map fun e => ((Node.act e.1, Node.fin) : GEdge A))
        = d.ea.keys.map fun e => (Node.act e, Node.fin) := by simp [Dict.keys, Function.comp_def]
    rw [this]
    exact hw.eaNodup.map _ (by simp)
  rw [List.nodup_append, List.nodup_append]
  refine ⟨⟨h1, h2, ?_⟩, h3, ?_⟩
  · simp only [List.mem_map]
    rintro _ ⟨x, _, rfl⟩ _ ⟨y, _, rfl⟩
    simp
  · simp only [List.mem_append, List.mem_map]
    rintro _ (⟨x, _, rfl⟩ | ⟨x, _, rfl⟩) _ ⟨y, _, rfl⟩
    · simp
    · simp

theorem mem_endpoints (es : List (GEdge A)) (a : A) :
    a ∈ endpoints es ↔ ∃ e ∈ es, e.1 = .act a ∨ e.2 = .act a := by
  have hact : ∀ n : Node A, a ∈ n.activity ↔ n = .act a := by
    intro n; cases n <;> simp [Node.activity, eq_comm]
  unfold endpoints
  simp only [List.mem_append, List.mem_flatMap, hact]
  constructor
  · rintro (⟨e, he, h⟩ | ⟨e, he, h⟩)
    · exact ⟨e, he, .inl h⟩
    · exact ⟨e, he, .inr h⟩
  · rintro ⟨e, he, h | h⟩
    · exact .inl ⟨e, he, h⟩
    · exact .inr ⟨e, he, h⟩

theorem endpoint_cnt {d : D A} (hw : WF d) {e : GEdge A} (he : e ∈ graphOf d) {a : A}
    (h : e.1 = .act a ∨ e.2 = .act a) : a ∈ d.cnt.keys := by
  rw [mem_graphOf] at he
  rcases he with ⟨u, v, huv, rfl⟩ | ⟨u, hu, rfl⟩ | ⟨u, hu, rfl⟩
  · simp only [Node.act.injEq] at h
    rcases h with rfl | rfl
    · exact hw.dfgL _ huv
    · exact hw.dfgR _ huv
  · simp only [reduceCtorEq, Node.act.injEq, false_or] at h
    exact h ▸ hw.saIn _ hu
  · simp only [reduceCtorEq, Node.act.injEq, or_false] at h
    exact h ▸ hw.eaIn _ hu

theorem mem_allActivities {d : D A} (hw : WF d) (a : A) : a ∈ allActivities d ↔ a ∈ d.cnt.keys := by
  unfold allActivities
  simp only [List.mem_append, List.mem_map]
  constructor
  · rintro ((((⟨x, hx, rfl⟩ | ⟨x, hx, rfl⟩) | h) | h) | h)
    · exact hw.dfgL _ (List.mem_map.2 ⟨x, hx, rfl⟩)
    · exact hw.dfgR _ (List.mem_map.2 ⟨x, hx, rfl⟩)
    · exact hw.saIn _ h
    · exact hw.eaIn _ h
    · exact h
  · exact .inr

/-- common part of the filters on paths and on the dependency: `S` is the sorted list of the edges, `K` the edges that
are not discardable, `L` the discardable ones -/
theorem paths_common (d : D A) (hw : WF d) (K L : List (GEdge A)) (hp : (K ++ L).Perm (graphOf d)) (keepAll : Bool)
    (r : D A) (hr : filterSpecifiedPaths d (graphOf d) L.reverse (if keepAll then allActivities d else endpoints K) = r) :
    WF r ∧ Sub r d ∧ Connected r ∧
    (∀ e ∈ graphOf r, e ∉ K → NeededEdge r (if keepAll then d.cnt.keys else endpoints K) e) ∧
    (Connected d → (∀ e ∈ K, e ∈ graphOf r) ∧ (keepAll = true → ∀ a ∈ d.cnt.keys, a ∈ r.cnt.keys)) := by
  have hnd : (K ++ L).Nodup := hp.nodup_iff.2 (graphOf_nodup hw)
  have hmemL : ∀ e ∈ L.reverse, e ∈ graphOf d := fun e he => hp.mem_iff.1 (by simp at he; simp [he])
  have hndL : L.reverse.Nodup := (List.reverse_perm L).nodup_iff.2 (List.nodup_append.1 hnd).2.1
  obtain ⟨h0, h1, h2, h3, h4⟩ := filterSpecifiedPaths_spec d hw L.reverse _ hndL hmemL r hr
  have hsubg : ∀ e ∈ graphOf r, e ∈ graphOf d := by
    intro e he
    rw [mem_graphOf] at he ⊢
    rcases he with ⟨a, b, h, rfl⟩ | ⟨a, h, rfl⟩ | ⟨a, h, rfl⟩
    · exact .inl ⟨a, b, (h1.dfg.map Prod.fst).subset h, rfl⟩
    · exact .inr (.inl ⟨a, (h1.sa.map Prod.fst).subset h, rfl⟩)
    · exact .inr (.inr ⟨a, (h1.ea.map Prod.fst).subset h, rfl⟩)
  refine ⟨h0, h1, h2, ?_, ?_⟩
  · intro e he hK
    have heL : e ∈ L.reverse := by
      have := hp.mem_iff.2 (hsubg e he)
      rw [List.mem_append] at this
      simpa using this.resolve_left hK
    rcases h3 e heL he with ⟨b, hb, hn⟩ | hn
    · refine .inl ⟨b, ?_, hn⟩
      cases keepAll
      · simpa using hb
      · simpa [mem_allActivities hw] using hb
    · exact .inr hn
  · intro hc
    have hin : ∀ a ∈ (if keepAll then allActivities d else endpoints K), a ∈ d.cnt.keys := by
      intro a ha
      cases keepAll
      · simp only [Bool.false_eq_true, if_false, mem_endpoints] at ha
        obtain ⟨e, he, h⟩ := ha
        exact endpoint_cnt hw (hp.mem_iff.1 (by simp [he])) h
      · simpa [mem_allActivities hw] using ha
    have hpt : ∀ e ∈ K, ∀ a, e.1 = .act a ∨ e.2 = .act a → a ∈ (if keepAll then allActivities d else endpoints K) := by
      intro e he a h
      cases keepAll
      · simp only [Bool.false_eq_true, if_false, mem_endpoints]; exact ⟨e, he, h⟩
      · simp only [if_true, mem_allActivities hw]
        exact endpoint_cnt hw (hp.mem_iff.1 (by simp [he])) h
    obtain ⟨h5, h6⟩ := h4 fun a ha => hc a (hin a ha)
    refine ⟨?_, ?_⟩
    · intro e he
      apply h6 e (hp.mem_iff.1 (by simp [he]))
      · intro hL
        rw [List.mem_reverse] at hL
        exact (List.nodup_append.1 hnd).2.2 e he e hL rfl
      · exact fun a ha => hpt e he a (.inl ha)
      · exact fun a ha => hpt e he a (.inr ha)
    · rintro rfl a ha
      exact h5 a (by simpa [mem_allActivities hw] using ha) ha

/-! ### the properties -/

/-- **C40.** Filtering a DFG on a percentage of the activities: the result is the part of the DFG over the remaining
activities (same frequencies), every remaining activity lies on a path from a remaining start activity to a remaining
end activity, and there are `⌈(n-1)·p⌉+1` most frequent activities which are all kept if the input is connected, while
every other remaining activity is needed: without it one of those would be disconnected or no edge would be left. -/
theorem _root_.Verif.C40_activities (gt : A → A → Bool) (d : D A) (hw : WF d) (p : Rat)
    (hguard : d.cnt.length > 1 ∧ d.dfg.length > 1) (r : D A) (hr : filterActivities gt d p = r) :
    WF r ∧ r = restrict d (fun a => decide (a ∈ r.cnt.keys)) ∧ Connected r ∧
    ∃ keep, TopK d.cnt (keepCount d.cnt.length p) keep ∧
      (Connected d → ∀ a ∈ keep, a ∈ r.cnt.keys) ∧
      (∀ a ∈ r.cnt.keys, a ∉ keep → NeededAct r keep a) := by
  unfold filterActivities at hr
  rw [if_pos hguard] at hr
  obtain ⟨keep, h1, ⟨R, h2⟩, h3, h4, h5⟩ := activitiesCore_spec gt d hw (keepCount d.cnt.length p)
  rw [hr] at h2 h3 h4 h5
  refine ⟨h2 ▸ hw.restrict R, ?_, h3, keep, h1, h5, h4⟩
  conv => lhs; rw [h2, restrict_self hw R, ← h2]
  congr 1
  funext a
  rw [Bool.eq_iff_iff, Dict.has_iff, decide_eq_true_iff]

/-- **C40.** DFGs with at most one activity or at most one edge are returned unchanged by the three filters. -/
theorem _root_.Verif.C40_small_unchanged (gt : A → A → Bool) (gte : GEdge A → GEdge A → Bool) (d : D A) (p : Rat)
    (keepAll : Bool) (h : d.cnt.length ≤ 1 ∨ d.dfg.length ≤ 1) :
    filterActivities gt d p = d ∧ filterPaths gte d p keepAll = d ∧ filterKeepConnected gte d p keepAll = d := by
  have : ¬ (d.cnt.length > 1 ∧ d.dfg.length > 1) := by omega
  unfold filterActivities filterPaths filterKeepConnected
  simp [this]

/-- **C40.** Filtering a DFG on a percentage of the paths: only entries of the input remain (same frequencies), every
remaining activity lies on a path from a remaining start activity to a remaining end activity, and there are
`⌈(m-1)·p⌉+1` most frequent edges (counting start and end edges) which are all kept if the input is connected, while
every other remaining edge is needed: without it one of the activities to keep (the endpoints of the frequent edges, or
all the activities) would be disconnected, or there is only one edge left. With `keep_all_activities` no activity of a
connected DFG is lost. -/
theorem _root_.Verif.C40_paths (gt : GEdge A → GEdge A → Bool) (d : D A) (hw : WF d) (p : Rat) (keepAll : Bool)
    (hguard : d.cnt.length > 1 ∧ d.dfg.length > 1) (r : D A) (hr : filterPaths gt d p keepAll = r) :
    WF r ∧ Sub r d ∧ Connected r ∧
    ∃ keep, TopK (allEdges d) (keepCount (allEdges d).length p) keep ∧
      (Connected d → ∀ e ∈ keep, e ∈ graphOf r) ∧
      (∀ e ∈ graphOf r, e ∉ keep → NeededEdge r (if keepAll then d.cnt.keys else endpoints keep) e) ∧
      (Connected d → keepAll = true → ∀ a ∈ d.cnt.keys, a ∈ r.cnt.keys) := by
  unfold filterPaths at hr
  rw [if_pos hguard] at hr
  unfold pathsCore at hr
  simp only [] at hr
  have hkeys : (Dict.keys (allEdges d)).Nodup := by
    have : Dict.keys (allEdges d) = graphOf d := allEdges_keys d
    rw [this]; exact graphOf_nodup hw
  have htop := topK_sort gt (allEdges d) hkeys (keepCount (allEdges d).length p)
  have hp := sortDesc_perm (fun a b : Int => decide (a > b)) gt (allEdges d)
  obtain ⟨h0, h1, h2, h3, h4⟩ := paths_common d hw _ _ (by
    rw [← List.map_append, List.take_append_drop, ← allEdges_keys]
    exact hp.map Prod.fst) keepAll r hr
  exact ⟨h0, h1, h2, _, htop, fun hc => (h4 hc).1, h3, fun hc => (h4 hc).2⟩

/-- the dependency value of an edge of the graph: start and end edges have the value 1 -/
def edgeValue (d : D A) : GEdge A → Rat
  | (.act a, .act b) =>
    let v : Rat := ((d.dfg.get? (a, b)).getD 0 : Int)
    match d.dfg.get? (b, a) with
    | some w => (v - w) / (v + w + 1)
    | none => v / (v + 1)
  | _ => 1

theorem dependencyEdges_value {d : D A} (hw : WF d) {x : GEdge A × Rat} (hx : x ∈ dependencyEdges d) :
    x.2 = edgeValue d x.1 := by
  unfold dependencyEdges at hx
  simp only [List.mem_append, List.mem_map] at hx
  rcases hx with (⟨y, hy, rfl⟩ | ⟨y, hy, rfl⟩) | ⟨y, hy, rfl⟩
  · simp only [edgeValue, dependency]
    have : d.dfg.get? (y.1.1, y.1.2) = some y.2 := Dict.get?_of_mem_nodup hw.dfgNodup hy
    rw [this]
    cases d.dfg.get? (y.1.2, y.1.1) <;> simp
  · rfl
  · rfl

/-- **C40.** Filtering a DFG on the dependency: only entries of the input remain (same frequencies), every remaining
activity lies on a path from a remaining start activity to a remaining end activity, every edge whose dependency value
reaches the threshold is kept if the input is connected, and every remaining edge below the threshold is needed. With
`keep_all_activities` no activity of a connected DFG is lost. -/
theorem _root_.Verif.C40_keep_connected (gt : GEdge A → GEdge A → Bool) (d : D A) (hw : WF d) (threshold : Rat)
    (keepAll : Bool) (hguard : d.cnt.length > 1 ∧ d.dfg.length > 1) (r : D A)
    (hr : filterKeepConnected gt d threshold keepAll = r) :
    WF r ∧ Sub r d ∧ Connected r ∧
    (Connected d → ∀ e ∈ graphOf d, threshold ≤ edgeValue d e → e ∈ graphOf r) ∧
    (∀ e ∈ graphOf r, edgeValue d e < threshold →
      (∃ b, (if keepAll then b ∈ d.cnt.keys else ∃ f ∈ graphOf d, threshold ≤ edgeValue d f ∧ (f.1 = .act b ∨ f.2 = .act b)) ∧
        ¬ OnRun (without r e) b) ∨ r.dfg.length ≤ 1) ∧
    (Connected d → keepAll = true → ∀ a ∈ d.cnt.keys, a ∈ r.cnt.keys) := by
  unfold filterKeepConnected at hr
  rw [if_pos hguard] at hr
  simp only [] at hr
  have hp := sortDesc_perm (fun a b : Rat => decide (a > b)) gt (dependencyEdges d)
  generalize hS : sortDesc (fun a b : Rat => decide (a > b)) gt (dependencyEdges d) = S at hp hr
  have hperm : ((S.filter fun x => decide (x.2 ≥ threshold)).map Prod.fst ++
      (S.filter fun x => decide (x.2 < threshold)).map Prod.fst).Perm (graphOf d) := by
    rw [← List.map_append, ← dependencyEdges_keys]
    refine List.Perm.map _ (List.Perm.trans ?_ hp)
    have : (fun x : GEdge A × Rat => decide (x.2 < threshold)) = fun x => !decide (x.2 ≥ threshold) := by
      funext x
      rw [Bool.eq_iff_iff]
      simp
    rw [this]
    exact List.filter_append_perm _ _
  have hK : ∀ e, e ∈ (S.filter fun x => decide (x.2 ≥ threshold)).map Prod.fst ↔
      e ∈ graphOf d ∧ threshold ≤ edgeValue d e := by
    intro e
    rw [List.mem_map]
    constructor
    · rintro ⟨x, hx, rfl⟩
      rw [List.mem_filter, decide_eq_true_iff] at hx
      have hx' := hp.mem_iff.1 hx.1
      exact ⟨dependencyEdges_keys d ▸ List.mem_map.2 ⟨x, hx', rfl⟩, dependencyEdges_value hw hx' ▸ hx.2⟩
    · rintro ⟨h1, h2⟩
      rw [← dependencyEdges_keys, List.mem_map] at h1
      obtain ⟨x, hx, rfl⟩ := h1
      exact ⟨x, List.mem_filter.2 ⟨hp.mem_iff.2 hx, by rw [decide_eq_true_iff, dependencyEdges_value hw hx]; exact h2⟩, rfl⟩
  obtain ⟨h0, h1, h2, h3, h4⟩ := paths_common d hw _ _ hperm keepAll r hr
  refine ⟨h0, h1, h2, ?_, ?_, fun hc => (h4 hc).2⟩
  · intro hc e he hv
    exact (h4 hc).1 e ((hK e).2 ⟨he, hv⟩)
  · intro e he hv
    have heK : e ∉ (S.filter fun x => decide (x.2 ≥ threshold)).map Prod.fst := by
      rw [hK]
      rintro ⟨_, h⟩
      exact absurd hv (not_lt.2 h)
    rcases h3 e he heK with ⟨b, hb, hn⟩ | hn
    · refine .inl ⟨b, ?_, hn⟩
      cases keepAll
      · simp only [Bool.false_eq_true, if_false, mem_endpoints] at hb ⊢
        obtain ⟨f, hf, hfb⟩ := hb
        exact ⟨f, ((hK f).1 hf).1, ((hK f).1 hf).2, hfb⟩
      · simpa using hb
    · exact .inr hn

/-- **C40.** The number of activities / edges that are kept in any case is `(n-1)·p` rounded up, plus one. -/
theorem _root_.Verif.C40_keep_count (n : Nat) (p : Rat) (hn : 1 ≤ n) (hp : 0 ≤ p) :
    ((n : Rat) - 1) * p ≤ (keepCount n p : Rat) - 1 ∧ (keepCount n p : Rat) - 1 < ((n : Rat) - 1) * p + 1 := by
  have hn' : (0 : Rat) ≤ (n : Rat) - 1 := by
    have : (1 : Rat) ≤ (n : Rat) := by exact_mod_cast hn
    linarith
  have hx : (0 : Rat) ≤ ((n : Rat) - 1) * p := mul_nonneg hn' hp
  unfold keepCount
  generalize ((n : Rat) - 1) * p = x at hx
  have h1 : x ≤ (x.ceil : Rat) := Rat.le_ceil
  have h2 : (x.ceil : Rat) < x + 1 := Rat.ceil_lt
  have h3 : 0 ≤ x.ceil := by
    have : (0 : Rat) ≤ (x.ceil : Rat) := le_trans hx h1
    exact_mod_cast this
  have h4 : ((x.ceil.toNat : Nat) : Rat) = (x.ceil : Rat) := by
    have : ((x.ceil.toNat : Int) : Rat) = (x.ceil : Rat) := by rw [Int.toNat_of_nonneg h3]
    exact_mod_cast this
  push_cast
  rw [h4]
  constructor <;> linarith

theorem keepCount_one (n : Nat) (p : Rat) (hn : 1 ≤ n) (hp : 1 ≤ p) : n ≤ keepCount n p := by
  have h := (Verif.C40_keep_count n p hn (by linarith)).1
  have hn' : (0 : Rat) ≤ (n : Rat) - 1 := by
    have : (1 : Rat) ≤ (n : Rat) := by exact_mod_cast hn
    linarith
  have h2 : (n : Rat) - 1 ≤ ((n : Rat) - 1) * p := le_mul_of_one_le_right hn' hp
  have : (n : Rat) ≤ (keepCount n p : Rat) := by linarith
  exact_mod_cast this

theorem TopK.all {K : Type} {l : List (K × Int)} {k : Nat} {keep : List K} (h : TopK l k keep)
    (hk : l.length ≤ k) : ∀ a ∈ Dict.keys l, a ∈ keep := by
  have hlen : keep.length = l.length := by rw [h.len]; omega
  have hsp : keep.Subperm (Dict.keys l) := List.subperm_of_subset h.nodup (fun a ha => h.mem a ha)
  have := hsp.perm_of_length_le (by rw [hlen]; simp [Dict.keys])
  exact fun a ha => this.mem_iff.2 ha

theorem sublist_eq_of_keys {κ ν : Type} {l m : Dict κ ν} (h : l.Sublist m) (hn : (Dict.keys m).Nodup)
    (hk : ∀ a ∈ Dict.keys m, a ∈ Dict.keys l) : l = m := by
  apply h.eq_of_length_le
  have hsp : (Dict.keys m).Subperm (Dict.keys l) := List.subperm_of_subset hn hk
  simpa [Dict.keys] using hsp.length_le

/-- **C40.** With percentage 1 the filter on the activities and the filter on the paths leave a connected DFG
unchanged, and so does the filter on the dependency with a threshold not above any dependency value. -/
theorem _root_.Verif.C40_percentage_one (gt : A → A → Bool) (gte : GEdge A → GEdge A → Bool) (d : D A) (hw : WF d)
    (hc : Connected d) (keepAll : Bool) :
    (∀ p, 1 ≤ p → filterActivities gt d p = d) ∧ (∀ p, 1 ≤ p → filterPaths gte d p keepAll = d) ∧
    ∀ t, (∀ e ∈ graphOf d, t ≤ edgeValue d e) → filterKeepConnected gte d t keepAll = d := by
  by_cases hguard : d.cnt.length > 1 ∧ d.dfg.length > 1
  · have hedges : ∀ r : D A, WF r → Sub r d → (∀ e ∈ graphOf d, e ∈ graphOf r) → r = d := by
      intro r hwr hs hg
      have h1 : r.dfg = d.dfg := by
        apply sublist_eq_of_keys hs.dfg hw.dfgNodup
        intro a ha
        have := hg (.act a.1, .act a.2) ((mem_graphOf _ _).2 (.inl ⟨a.1, a.2, ha, rfl⟩))
        rw [mem_graphOf] at this
        simpa using this
      have h2 : r.sa = d.sa := by
        apply sublist_eq_of_keys hs.sa hw.saNodup
        intro a ha
        have := hg (.start, .act a) ((mem_graphOf _ _).2 (.inr (.inl ⟨a, ha, rfl⟩)))
        rw [mem_graphOf] at this
        simpa using this
      have h3 : r.ea = d.ea := by
        apply sublist_eq_of_keys hs.ea hw.eaNodup
        intro a ha
        have := hg (.act a, .fin) ((mem_graphOf _ _).2 (.inr (.inr ⟨a, ha, rfl⟩)))
        rw [mem_graphOf] at this
        simpa using this
      have h4 : r.cnt = d.cnt := by
        apply sublist_eq_of_keys hs.cnt hw.cntNodup
        intro a ha
        obtain ⟨⟨s, hs', hp⟩, _⟩ := hc a ha
        cases hp with
        | refl => exact hwr.saIn a (h2 ▸ hs')
        | step _ h => exact hwr.dfgR _ (h1 ▸ h)
      rcases r with ⟨a, b, c, e⟩
      rcases d with ⟨a', b', c', e'⟩
      simp only at h1 h2 h3 h4
      rw [h1, h2, h3, h4]
    refine ⟨?_, ?_, ?_⟩
    · intro p hp
      obtain ⟨_, h1, _, keep, h2, h3, _⟩ := Verif.C40_activities gt d hw p hguard _ rfl
      have hall := h2.all (keepCount_one _ _ (by omega) hp)
      rw [h1]
      have : restrict d (fun a => decide (a ∈ (filterActivities gt d p).cnt.keys)) = restrict d fun _ => true := by
        apply restrict_congr hw
        intro a ha
        rw [decide_eq_true_iff]
        exact h3 hc a (hall a ha)
      rw [this]
      have h1 {α : Type} (l : List α) : l.filter (fun _ => true) = l := List.filter_eq_self.2 fun _ _ => rfl
      simp [restrict, h1]
    · intro p hp
      obtain ⟨h0, h1, _, keep, h2, h3, _⟩ := Verif.C40_paths gte d hw p keepAll hguard _ rfl
      have hpos : 1 ≤ (allEdges d).length := by unfold allEdges; simp; omega
      have hall := h2.all (keepCount_one _ _ hpos hp)
      refine hedges _ h0 h1 fun e he => h3 hc e (hall e ?_)
      have : Dict.keys (allEdges d) = graphOf d := allEdges_keys d
      rw [this]; exact he
    · intro t ht
      obtain ⟨h0, h1, _, h3, _⟩ := Verif.C40_keep_connected gte d hw t keepAll hguard _ rfl
      exact hedges _ h0 h1 fun e he => h3 hc e he (ht e he)
  · obtain h : d.cnt.length ≤ 1 ∨ d.dfg.length ≤ 1 := by omega
    exact ⟨fun p _ => (Verif.C40_small_unchanged gt gte d p keepAll h).1,
      fun p _ => (Verif.C40_small_unchanged gt gte d p keepAll h).2.1,
      fun t _ => (Verif.C40_small_unchanged gt gte d t keepAll h).2.2⟩

end Dfg
end Verif
