import Verif.DiagReduce.Model
import Verif.NetBpmn.Props
set_option linter.unusedSectionVars false
/-
C86: the reduction of exclusive gateways keeps the complete runs.
-/
namespace Verif
namespace DiagReduce
open NetBpmn

variable {ν φ : Type} [DecidableEq ν] [DecidableEq φ]

/-- no flow twice; start and end are events -/
structure DiagWF (D : Diagram ν φ) : Prop where
  flows : D.flows.Nodup
  start : D.kind D.start = .event
  stop : D.kind D.stop = .event

/-- the situation of a step -/
structure Sit (D : Diagram ν φ) (x : ν) (a b n : φ) : Prop where
  wf : DiagWF D
  hx : x ∈ D.nodes
  kx : D.kind x = .exclusive
  hin : ins D x = [a]
  hout : outs D x = [b]
  hab : a ≠ b
  hn : n ∉ D.flows

variable {D : Diagram ν φ} {x : ν} {a b n : φ}

theorem mem_ins' {D : Diagram ν φ} {y : ν} {f : φ} : f ∈ ins D y ↔ f ∈ D.flows ∧ D.tgt f = y := by
  unfold ins; rw [List.mem_filter, decide_eq_true_eq]
theorem mem_outs' {D : Diagram ν φ} {y : ν} {f : φ} : f ∈ outs D y ↔ f ∈ D.flows ∧ D.src f = y := by
  unfold outs; rw [List.mem_filter, decide_eq_true_eq]

namespace Sit
variable (s : Sit D x a b n)
include s

theorem ha : a ∈ D.flows ∧ D.tgt a = x := mem_ins'.1 (by rw [s.hin]; simp)
theorem hb : b ∈ D.flows ∧ D.src b = x := mem_outs'.1 (by rw [s.hout]; simp)
theorem na : n ≠ a := fun e => s.hn (e ▸ s.ha.1)
theorem nb : n ≠ b := fun e => s.hn (e ▸ s.hb.1)
theorem tgt_b : D.tgt b ≠ x := fun e => s.hab (by
  have : b ∈ ins D x := mem_ins'.2 ⟨s.hb.1, e⟩
  rw [s.hin, List.mem_singleton] at this; exact this.symm)
theorem src_a : D.src a ≠ x := fun e => s.hab (by
  have : a ∈ outs D x := mem_outs'.2 ⟨s.ha.1, e⟩
  rw [s.hout, List.mem_singleton] at this; exact this)
theorem x_start : x ≠ D.start := fun e => by have := s.kx; rw [e, s.wf.start] at this; cases this
theorem x_stop : x ≠ D.stop := fun e => by have := s.kx; rw [e, s.wf.stop] at this; cases this

theorem mem_flows' {f : φ} : f ∈ (reduceAt D x a b n).flows ↔ (f ∈ D.flows ∧ f ≠ a ∧ f ≠ b) ∨ f = n := by
  unfold reduceAt; simp

theorem nodup' : (reduceAt D x a b n).flows.Nodup := by
  unfold reduceAt
  refine List.Nodup.append (s.wf.flows.filter _) (List.nodup_singleton n) ?_
  intro f hf hg
  rw [List.mem_singleton] at hg
  subst hg
  exact s.hn (List.mem_filter.1 hf).1

/-- the flows of the new diagram as flows of the old one -/
theorem ins_perm {y : ν} (hy : y ≠ x) : (ins D y).Perm ((ins (reduceAt D x a b n) y).map fun f => if f = n then b else f) := by
  have hnd : (ins (reduceAt D x a b n) y).Nodup := s.nodup'.filter _
  refine (List.perm_ext_iff_of_nodup (s.wf.flows.filter _) ?_).2 fun f => ?_
  · refine List.Nodup.map_on ?_ hnd
    intro f hf g hg e
    have hf1 := s.mem_flows'.1 (mem_ins'.1 hf).1
    have hg1 := s.mem_flows'.1 (mem_ins'.1 hg).1
    by_cases h1 : f = n <;> by_cases h2 : g = n
    · rw [h1, h2]
    · rw [if_pos h1, if_neg h2] at e
      exact absurd e.symm (hg1.resolve_right h2).2.2
    · rw [if_neg h1, if_pos h2] at e
      exact absurd e (hf1.resolve_right h1).2.2
    · rwa [if_neg h1, if_neg h2] at e
  · change f ∈ ins D y ↔ _
    rw [mem_ins', List.mem_map]
    constructor
    · rintro ⟨h1, h2⟩
      by_cases hfb : f = b
      · refine ⟨n, mem_ins'.2 ⟨s.mem_flows'.2 (.inr rfl), ?_⟩, by rw [if_pos rfl, hfb]⟩
        simp only [reduceAt, if_pos]; rw [← hfb]; exact h2
      · have hfn : f ≠ n := fun e => s.hn (e ▸ h1)
        have hfa : f ≠ a := fun e => hy (by rw [← h2, e, s.ha.2])
        refine ⟨f, mem_ins'.2 ⟨s.mem_flows'.2 (.inl ⟨h1, hfa, hfb⟩), ?_⟩, by rw [if_neg hfn]⟩
        simp only [reduceAt, if_neg hfn]; exact h2
    · rintro ⟨g, hg, rfl⟩
      obtain ⟨h1, h2⟩ := mem_ins'.1 hg
      by_cases hgn : g = n
      · rw [if_pos hgn]
        refine ⟨s.hb.1, ?_⟩
        simp only [reduceAt, if_pos hgn] at h2; exact h2
      · rw [if_neg hgn]
        refine ⟨((s.mem_flows'.1 h1).resolve_right hgn).1, ?_⟩
        simp only [reduceAt, if_neg hgn] at h2; exact h2

theorem outs_perm {y : ν} (hy : y ≠ x) : (outs D y).Perm ((outs (reduceAt D x a b n) y).map fun f => if f = n then a else f) := by
  have hnd : (outs (reduceAt D x a b n) y).Nodup := s.nodup'.filter _
  refine (List.perm_ext_iff_of_nodup (s.wf.flows.filter _) ?_).2 fun f => ?_
  · refine List.Nodup.map_on ?_ hnd
    intro f hf g hg e
    have hf1 := s.mem_flows'.1 (mem_outs'.1 hf).1
    have hg1 := s.mem_flows'.1 (mem_outs'.1 hg).1
    by_cases h1 : f = n <;> by_cases h2 : g = n
    · rw [h1, h2]
    · rw [if_pos h1, if_neg h2] at e
      exact absurd e.symm (hg1.resolve_right h2).2.1
    · rw [if_neg h1, if_pos h2] at e
      exact absurd e (hf1.resolve_right h1).2.1
    · rwa [if_neg h1, if_neg h2] at e
  · change f ∈ outs D y ↔ _
    rw [mem_outs', List.mem_map]
    constructor
    · rintro ⟨h1, h2⟩
      by_cases hfa : f = a
      · refine ⟨n, mem_outs'.2 ⟨s.mem_flows'.2 (.inr rfl), ?_⟩, by rw [if_pos rfl, hfa]⟩
        simp only [reduceAt, if_pos]; rw [← hfa]; exact h2
      · have hfn : f ≠ n := fun e => s.hn (e ▸ h1)
        have hfb : f ≠ b := fun e => hy (by rw [← h2, e, s.hb.2])
        refine ⟨f, mem_outs'.2 ⟨s.mem_flows'.2 (.inl ⟨h1, hfa, hfb⟩), ?_⟩, by rw [if_neg hfn]⟩
        simp only [reduceAt, if_neg hfn]; exact h2
    · rintro ⟨g, hg, rfl⟩
      obtain ⟨h1, h2⟩ := mem_outs'.1 hg
      by_cases hgn : g = n
      · rw [if_pos hgn]
        refine ⟨s.ha.1, ?_⟩
        simp only [reduceAt, if_pos hgn] at h2; exact h2
      · rw [if_neg hgn]
        refine ⟨((s.mem_flows'.1 h1).resolve_right hgn).1, ?_⟩
        simp only [reduceAt, if_neg hgn] at h2; exact h2

end Sit

/-! ### Tokens -/

/-- tokens of the old diagram, in the new one -/
def H (a b n : φ) (M : φ → Nat) : φ → Nat := fun f => if f = n then M a + M b else if f = a ∨ f = b then 0 else M f

theorem count_map (f0 g : φ) (c : List φ) (hg : g ∉ c) (f : φ) : (c.map fun z => if z = f0 then g else z).count f =
    if f = g then c.count f0 else if f = f0 then 0 else c.count f := by
  induction c with
  | nil => simp
  | cons z c ih =>
    have hgz : g ≠ z := fun e => hg (by rw [e]; simp)
    have ih := ih fun e => hg (List.mem_cons_of_mem _ e)
    rw [List.map_cons, List.count_cons, ih, List.count_cons, List.count_cons]
    by_cases h1 : z = f0
    · subst h1
      by_cases h2 : f = g
      · subst h2; simp
      · have h3 : g ≠ f := fun e => h2 e.symm
        by_cases h4 : f = z
        · subst h4; simp [h2, h3]
        · have h5 : z ≠ f := fun e => h4 e.symm
          simp [h2, h3, h4, h5]
    · by_cases h2 : f = g
      · subst h2
        have h3 : z ≠ f := fun e => hgz e.symm
        simp [h1, h3]
      · by_cases h4 : f = f0
        · subst h4; simp [h1, h2]
        · simp [h1, h2, h4]

theorem mem_fires {D : Diagram ν φ} {y : ν} {c d : List φ} (h : Fires D y c d) : (∀ f ∈ c, f ∈ ins D y) ∧ ∀ f ∈ d, f ∈ outs D y := by
  unfold Fires at h
  split at h
  · obtain ⟨u, hu, v, hv, rfl, rfl⟩ := h
    exact ⟨by simpa using hu, by simpa using hv⟩
  · obtain ⟨rfl, rfl⟩ := h; exact ⟨fun _ h => h, fun _ h => h⟩
  · obtain ⟨u, hu, rfl, rfl⟩ := h
    exact ⟨by simpa using hu, fun _ h => h⟩
  · exact h.elim

/-- firing in the new diagram is firing in the old one -/
theorem Sit.fires_old (s : Sit D x a b n) {y : ν} (hy : y ≠ x) {c d : List φ} (h : Fires (reduceAt D x a b n) y c d) :
    ∃ c' d', Fires D y c' d' ∧ c'.Perm (c.map fun f => if f = n then b else f) ∧ d'.Perm (d.map fun f => if f = n then a else f) := by
  have hi := s.ins_perm hy
  have ho := s.outs_perm hy
  have hk : (reduceAt D x a b n).kind y = D.kind y := rfl
  unfold Fires at h ⊢
  rw [hk] at h
  cases hky : D.kind y with
  | exclusive =>
    rw [hky] at h
    obtain ⟨u, hu, v, hv, rfl, rfl⟩ := h
    exact ⟨_, _, ⟨_, hi.mem_iff.2 (List.mem_map.2 ⟨u, hu, rfl⟩), _, ho.mem_iff.2 (List.mem_map.2 ⟨v, hv, rfl⟩), rfl, rfl⟩, by simp, by simp⟩
  | parallel =>
    rw [hky] at h
    obtain ⟨rfl, rfl⟩ := h
    exact ⟨_, _, ⟨rfl, rfl⟩, hi, ho⟩
  | activity l =>
    rw [hky] at h
    obtain ⟨u, hu, rfl, rfl⟩ := h
    exact ⟨_, _, ⟨_, hi.mem_iff.2 (List.mem_map.2 ⟨u, hu, rfl⟩), rfl, rfl⟩, by simp, ho⟩
  | event => rw [hky] at h; exact h.elim

/-- firing in the old diagram is firing in the new one -/
theorem Sit.fires_new (s : Sit D x a b n) {y : ν} (hy : y ≠ x) {c d : List φ} (h : Fires D y c d) :
    ∃ c' d', Fires (reduceAt D x a b n) y c' d' ∧ c.Perm (c'.map fun f => if f = n then b else f) ∧ d.Perm (d'.map fun f => if f = n then a else f) := by
  have hi := s.ins_perm hy
  have ho := s.outs_perm hy
  have hk : (reduceAt D x a b n).kind y = D.kind y := rfl
  unfold Fires at h ⊢
  rw [hk]
  cases hky : D.kind y with
  | exclusive =>
    rw [hky] at h
    obtain ⟨u, hu, v, hv, rfl, rfl⟩ := h
    obtain ⟨u', hu', rfl⟩ := List.mem_map.1 (hi.mem_iff.1 hu)
    obtain ⟨v', hv', rfl⟩ := List.mem_map.1 (ho.mem_iff.1 hv)
    exact ⟨_, _, ⟨u', hu', v', hv', rfl, rfl⟩, by simp, by simp⟩
  | parallel =>
    rw [hky] at h
    obtain ⟨rfl, rfl⟩ := h
    exact ⟨_, _, ⟨rfl, rfl⟩, hi, ho⟩
  | activity l =>
    rw [hky] at h
    obtain ⟨u, hu, rfl, rfl⟩ := h
    obtain ⟨u', hu', rfl⟩ := List.mem_map.1 (hi.mem_iff.1 hu)
    exact ⟨_, _, ⟨u', hu', rfl, rfl⟩, by simp, ho⟩
  | event => rw [hky] at h; exact h.elim

/-- the numbers of tokens taken and put, in terms of the old diagram -/
theorem Sit.counts (s : Sit D x a b n) {y : ν} (hy : y ≠ x) {c' d' : List φ} (h : Fires (reduceAt D x a b n) y c' d') {c d : List φ}
    (hc : c.Perm (c'.map fun f => if f = n then b else f)) (hd : d.Perm (d'.map fun f => if f = n then a else f)) :
    (∀ f, c.count f = if f = b then c'.count n else if f = n then 0 else c'.count f) ∧ c'.count a = 0 ∧ c'.count b = 0 ∧
    (∀ f, d.count f = if f = a then d'.count n else if f = n then 0 else d'.count f) ∧ d'.count a = 0 ∧ d'.count b = 0 := by
  have hm := mem_fires h
  have key : ∀ f, (f ∈ c' ∨ f ∈ d') → f ≠ a ∧ f ≠ b := by
    intro f hf
    have hfl : f ∈ (reduceAt D x a b n).flows := by
      rcases hf with hf | hf
      · exact (mem_ins'.1 (hm.1 f hf)).1
      · exact (mem_outs'.1 (hm.2 f hf)).1
    rcases s.mem_flows'.1 hfl with h1 | rfl
    · exact h1.2
    · exact ⟨s.na, s.nb⟩
  have hbc : b ∉ c' := fun e => (key b (.inl e)).2 rfl
  have hac : a ∉ c' := fun e => (key a (.inl e)).1 rfl
  have hbd : b ∉ d' := fun e => (key b (.inr e)).2 rfl
  have had : a ∉ d' := fun e => (key a (.inr e)).1 rfl
  exact ⟨fun f => by rw [hc.count_eq, count_map n b c' hbc], List.count_eq_zero.2 hac, List.count_eq_zero.2 hbc,
    fun f => by rw [hd.count_eq, count_map n a d' had], List.count_eq_zero.2 had, List.count_eq_zero.2 hbd⟩

/-- tokens of the new diagram, in the old one: before the removed gateway there are none -/
def K (a b n : φ) (M : φ → Nat) : φ → Nat := fun f => if f = b then M n else if f = a then 0 else if f = n then 0 else M f

theorem Sit.step_new (s : Sit D x a b n) {M M' : φ → Nat} {l : Option String} (h : bpmnStep D M l M') :
    (H a b n M' = H a b n M ∧ l = none) ∨ bpmnStep (reduceAt D x a b n) (H a b n M) l (H a b n M') := by
  obtain ⟨y, hy, c, d, hf, hM, rfl, rfl⟩ := h
  by_cases hyx : y = x
  · left
    subst hyx
    have hf' := hf
    unfold Fires at hf
    rw [s.kx] at hf
    obtain ⟨u, hu, v, hv, rfl, rfl⟩ := hf
    rw [s.hin, List.mem_singleton] at hu
    rw [s.hout, List.mem_singleton] at hv
    subst hu; subst hv
    refine ⟨?_, by rw [s.kx]; rfl⟩
    have h1 := hM u
    rw [List.count_singleton_self] at h1
    have huv := s.hab
    have hvu : v ≠ u := fun e => s.hab e.symm
    have e1 : [u].count v = 0 := List.count_eq_zero.2 (by simp [hvu])
    have e2 : [v].count u = 0 := List.count_eq_zero.2 (by simp [huv])
    funext f
    unfold H
    by_cases hfn : f = n
    · simp only [if_pos hfn, e1, e2, List.count_singleton_self]; omega
    · by_cases hfab : f = u ∨ f = v
      · simp only [if_neg hfn, if_pos hfab]
      · have e3 : [u].count f = 0 := List.count_eq_zero.2 (by simp; exact fun e => hfab (.inl e))
        have e4 : [v].count f = 0 := List.count_eq_zero.2 (by simp; exact fun e => hfab (.inr e))
        simp only [if_neg hfn, if_neg hfab, e3, e4]; omega
  · right
    obtain ⟨c', d', hf', hc, hd⟩ := s.fires_new hyx hf
    obtain ⟨k1, k2, k3, k4, k5, k6⟩ := s.counts hyx hf' hc hd
    have hna := s.na
    have hnb := s.nb
    have hab := s.hab
    have hba : b ≠ a := fun e => s.hab e.symm
    have ca : c.count a = 0 := by rw [k1 a, if_neg hab, if_neg (Ne.symm hna), k2]
    have cb : c.count b = c'.count n := by rw [k1 b, if_pos rfl]
    have da : d.count a = d'.count n := by rw [k4 a, if_pos rfl]
    have db : d.count b = 0 := by rw [k4 b, if_neg hba, if_neg (Ne.symm hnb), k6]
    refine ⟨y, ?_, c', d', hf', ?_, ?_, rfl⟩
    · exact List.mem_filter.2 ⟨hy, by simpa using hyx⟩
    · intro f
      unfold H
      by_cases hfn : f = n
      · rw [if_pos hfn, hfn, ← cb]
        have := hM b; omega
      · rw [if_neg hfn]
        by_cases hfa : f = a
        · rw [hfa, k2]; omega
        · by_cases hfb : f = b
          · rw [hfb, k3]; omega
          · rw [if_neg (by tauto)]
            have h1 := hM f
            rw [k1 f, if_neg hfb, if_neg hfn] at h1
            exact h1
    · funext f
      unfold H
      by_cases hfn : f = n
      · simp only [hfn, if_true, ca, cb, da, db]
        have := hM b
        rw [cb] at this
        omega
      · simp only [if_neg hfn]
        by_cases hfa : f = a
        · simp only [hfa, true_or, if_true, k2, k5]
        · by_cases hfb : f = b
          · simp only [hfb, or_true, if_true, k3, k6]
          · rw [if_neg (by tauto), if_neg (by tauto), k1 f, if_neg hfb, if_neg hfn, k4 f, if_neg hfa, if_neg hfn]

/-- the tokens before the removed gateway pass through it -/
theorem Sit.drain (s : Sit D x a b n) : ∀ (j : Nat) (M : φ → Nat), M a = j → Run (bpmnStep D) M [] (fun f => if f = a then 0 else if f = b then M b + j else M f) := by
  intro j
  have hba : b ≠ a := fun e => s.hab e.symm
  induction j with
  | zero =>
    intro M hM
    have : (fun f => if f = a then 0 else if f = b then M b + 0 else M f) = M := by
      funext f
      by_cases h1 : f = a
      · rw [if_pos h1, h1, hM]
      · rw [if_neg h1]
        by_cases h2 : f = b
        · rw [if_pos h2, h2]; omega
        · rw [if_neg h2]
    rw [this]; exact .nil _
  | succ j ih =>
    intro M hM
    have e1 : [a].count b = 0 := List.count_eq_zero.2 (by simp [hba])
    have e2 : [b].count a = 0 := List.count_eq_zero.2 (by simp [s.hab])
    have hs : bpmnStep D M none (fun f => M f - [a].count f + [b].count f) := by
      refine ⟨x, s.hx, [a], [b], ?_, ?_, rfl, by rw [s.kx]; rfl⟩
      · unfold Fires
        rw [s.kx]
        exact ⟨a, by rw [s.hin]; simp, b, by rw [s.hout]; simp, rfl, rfl⟩
      · intro f
        by_cases hf : f = a
        · subst hf; rw [List.count_singleton_self]; omega
        · rw [List.count_eq_zero.2 (by simpa using hf)]; omega
    have := ih (fun f => M f - [a].count f + [b].count f) (by simp only [e2, List.count_singleton_self]; omega)
    have r := (Run.snoc (.nil M) hs).append this
    simp only [Option.toList_none, List.append_nil] at r
    have e : (fun f => if f = a then 0 else if f = b then (M b - [a].count b + [b].count b) + j else M f - [a].count f + [b].count f) =
        (fun f => if f = a then 0 else if f = b then M b + (j + 1) else M f) := by
      funext f
      by_cases h1 : f = a
      · rw [if_pos h1, if_pos h1]
      · by_cases h2 : f = b
        · rw [if_neg h1, if_neg h1, if_pos h2, if_pos h2, e1, List.count_singleton_self]; omega
        · rw [if_neg h1, if_neg h1, if_neg h2, if_neg h2, List.count_eq_zero.2 (by simpa using h1), List.count_eq_zero.2 (by simpa using h2)]; omega
    rw [e] at r
    exact r

theorem Sit.step_old (s : Sit D x a b n) {M M' : φ → Nat} {l : Option String} (h : bpmnStep (reduceAt D x a b n) M l M') :
    Run (bpmnStep D) (K a b n M) l.toList (K a b n M') := by
  obtain ⟨y, hy, c', d', hf', hM, rfl, rfl⟩ := h
  obtain ⟨hyn, hyx⟩ := List.mem_filter.1 hy
  have hyx : y ≠ x := by simpa using hyx
  obtain ⟨c, d, hf, hc, hd⟩ := s.fires_old hyx hf'
  obtain ⟨k1, k2, k3, k4, k5, k6⟩ := s.counts hyx hf' hc hd
  have hna := s.na
  have hnb := s.nb
  have hab := s.hab
  have hba : b ≠ a := fun e => s.hab e.symm
  have hst : bpmnStep D (K a b n M) (labelOf (D.kind y)) (fun f => K a b n M f - c.count f + d.count f) := by
    refine ⟨y, hyn, c, d, hf, ?_, rfl, rfl⟩
    intro f
    rw [k1 f]
    unfold K
    by_cases hfb : f = b
    · rw [if_pos hfb, if_pos hfb]; exact hM n
    · rw [if_neg hfb, if_neg hfb]
      by_cases hfn : f = n
      · rw [if_pos hfn]; omega
      · rw [if_neg hfn]
        by_cases hfa : f = a
        · rw [hfa, k2]; omega
        · rw [if_neg hfa, if_neg hfn]; exact hM f
  have r := (Run.snoc (.nil _) hst).append (s.drain _ _ rfl)
  rw [List.append_nil, List.nil_append] at r
  have hl : labelOf ((reduceAt D x a b n).kind y) = labelOf (D.kind y) := rfl
  rw [hl]
  convert r using 1
  funext f
  have Ka : K a b n M a = 0 := by unfold K; rw [if_neg hab, if_pos rfl]
  have Kb : K a b n M b = M n := by unfold K; rw [if_pos rfl]
  have ca : c.count a = 0 := by rw [k1 a, if_neg hab, if_neg (Ne.symm hna), k2]
  have cb : c.count b = c'.count n := by rw [k1 b, if_pos rfl]
  have da : d.count a = d'.count n := by rw [k4 a, if_pos rfl]
  have db : d.count b = 0 := by rw [k4 b, if_neg hba, if_neg (Ne.symm hnb), k6]
  by_cases hfa : f = a
  · rw [if_pos hfa]; unfold K; rw [hfa, if_neg hab, if_pos rfl]
  · rw [if_neg hfa]
    by_cases hfb : f = b
    · rw [if_pos hfb, Kb, Ka, ca, cb, da, db]
      unfold K
      simp only [if_pos hfb]
      have := hM n
      omega
    · rw [if_neg hfb, k1 f, if_neg hfb, k4 f, if_neg hfa]
      unfold K
      rw [if_neg hfb, if_neg hfa, if_neg hfb, if_neg hfa]
      by_cases hfn : f = n
      · simp only [if_pos hfn]
      · simp only [if_neg hfn]

theorem Sit.run_new (s : Sit D x a b n) {M M' : φ → Nat} {w : List String} (h : Run (bpmnStep D) M w M') :
    Run (bpmnStep (reduceAt D x a b n)) (H a b n M) w (H a b n M') := by
  induction h with
  | nil => exact .nil _
  | snoc _ hs ih =>
    rcases s.step_new hs with ⟨h1, h2⟩ | h1
    · rw [h1, h2]; simpa using ih
    · exact ih.snoc h1

theorem Sit.run_old (s : Sit D x a b n) {M M' : φ → Nat} {w : List String} (h : Run (bpmnStep (reduceAt D x a b n)) M w M') :
    Run (bpmnStep D) (K a b n M) w (K a b n M') := by
  induction h with
  | nil => exact .nil _
  | snoc _ hs ih => exact ih.append (s.step_old hs)

theorem Sit.accepts (s : Sit D x a b n) (w : List String) : BpmnAccepts (reduceAt D x a b n) w ↔ BpmnAccepts D w := by
  have hna := s.na
  have hnb := s.nb
  have hab := s.hab
  have hba : b ≠ a := fun e => s.hab e.symm
  have hsb : D.src b ≠ D.start := by rw [s.hb.2]; exact s.x_start
  have hta : D.tgt a ≠ D.stop := by rw [s.ha.2]; exact s.x_stop
  have fn : n ∈ (reduceAt D x a b n).flows := s.mem_flows'.2 (.inr rfl)
  have fa : a ∉ (reduceAt D x a b n).flows := fun h => by
    rcases s.mem_flows'.1 h with h | h
    · exact h.2.1 rfl
    · exact hna h.symm
  have fb : b ∉ (reduceAt D x a b n).flows := fun h => by
    rcases s.mem_flows'.1 h with h | h
    · exact h.2.2 rfl
    · exact hnb h.symm
  have fo : ∀ f, f ≠ n → f ≠ a → f ≠ b → (f ∈ (reduceAt D x a b n).flows ↔ f ∈ D.flows) := fun f h1 h2 h3 => by
    rw [s.mem_flows']
    exact ⟨fun h => (h.resolve_right h1).1, fun h => .inl ⟨h, h2, h3⟩⟩
  have sn : (reduceAt D x a b n).src n = D.src a := by simp [reduceAt]
  have tn : (reduceAt D x a b n).tgt n = D.tgt b := by simp [reduceAt]
  have so : ∀ f, f ≠ n → (reduceAt D x a b n).src f = D.src f := fun f h => by simp [reduceAt, h]
  have tO : ∀ f, f ≠ n → (reduceAt D x a b n).tgt f = D.tgt f := fun f h => by simp [reduceAt, h]
  have e1 : (reduceAt D x a b n).start = D.start := rfl
  have e2 : (reduceAt D x a b n).stop = D.stop := rfl
  unfold BpmnAccepts
  constructor
  · intro h
    have r := s.run_old h
    have d := s.drain _ (fun f => if f ∈ D.flows ∧ D.src f = D.start then 1 else 0) rfl
    have i : (fun f => if f = a then 0 else if f = b then (if b ∈ D.flows ∧ D.src b = D.start then 1 else 0) + (if a ∈ D.flows ∧ D.src a = D.start then 1 else 0)
        else if f ∈ D.flows ∧ D.src f = D.start then 1 else 0) =
        K a b n (fun f => if f ∈ (reduceAt D x a b n).flows ∧ (reduceAt D x a b n).src f = (reduceAt D x a b n).start then 1 else 0) := by
      funext f
      unfold K
      beta_reduce
      by_cases hfa : f = a
      · rw [if_pos hfa, if_neg (by rw [hfa]; exact hab), if_pos hfa]
      · rw [if_neg hfa]
        by_cases hfb : f = b
        · rw [if_pos hfb, if_pos hfb, e1, sn]
          have hsb' : ¬ (b ∈ D.flows ∧ D.src b = D.start) := fun e => hsb e.2
          rw [if_neg hsb', Nat.zero_add]
          by_cases hs : D.src a = D.start
          · rw [if_pos ⟨s.ha.1, hs⟩, if_pos ⟨fn, hs⟩]
          · rw [if_neg fun e => hs e.2, if_neg fun e => hs e.2]
        · rw [if_neg hfb, if_neg hfb, if_neg hfa]
          by_cases hfn : f = n
          · rw [if_pos hfn, if_neg (by rw [hfn]; exact fun e => s.hn e.1)]
          · rw [if_neg hfn, so f hfn, e1]
            by_cases hq : f ∈ D.flows ∧ D.src f = D.start
            · rw [if_pos hq, if_pos ⟨(fo f hfn hfa hfb).2 hq.1, hq.2⟩]
            · rw [if_neg hq, if_neg fun e => hq ⟨(fo f hfn hfa hfb).1 e.1, e.2⟩]
    have o : K a b n (fun f => if f ∈ (reduceAt D x a b n).flows ∧ (reduceAt D x a b n).tgt f = (reduceAt D x a b n).stop then 1 else 0) =
        fun f => if f ∈ D.flows ∧ D.tgt f = D.stop then 1 else 0 := by
      funext f
      unfold K
      beta_reduce
      by_cases hfb : f = b
      · rw [if_pos hfb, hfb, tn, e2]
        by_cases hs : D.tgt b = D.stop
        · rw [if_pos ⟨fn, hs⟩, if_pos ⟨s.hb.1, hs⟩]
        · rw [if_neg fun e => hs e.2, if_neg fun e => hs e.2]
      · rw [if_neg hfb]
        by_cases hfa : f = a
        · rw [if_pos hfa, hfa, if_neg fun e => hta e.2]
        · rw [if_neg hfa]
          by_cases hfn : f = n
          · rw [if_pos hfn, if_neg (by rw [hfn]; exact fun e => s.hn e.1)]
          · rw [if_neg hfn, tO f hfn, e2]
            by_cases hq : f ∈ D.flows ∧ D.tgt f = D.stop
            · rw [if_pos hq, if_pos ⟨(fo f hfn hfa hfb).2 hq.1, hq.2⟩]
            · rw [if_neg hq, if_neg fun e => hq ⟨(fo f hfn hfa hfb).1 e.1, e.2⟩]
    rw [i] at d
    rw [o] at r
    exact d.append r
  · intro h
    have r := s.run_new h
    have i : H a b n (fun f => if f ∈ D.flows ∧ D.src f = D.start then 1 else 0) =
        fun f => if f ∈ (reduceAt D x a b n).flows ∧ (reduceAt D x a b n).src f = (reduceAt D x a b n).start then 1 else 0 := by
      funext f
      unfold H
      beta_reduce
      by_cases hfn : f = n
      · rw [if_pos hfn, hfn, sn, e1]
        have hsb' : ¬ (b ∈ D.flows ∧ D.src b = D.start) := fun e => hsb e.2
        rw [if_neg hsb', Nat.add_zero]
        by_cases hs : D.src a = D.start
        · rw [if_pos ⟨s.ha.1, hs⟩, if_pos ⟨fn, hs⟩]
        · rw [if_neg fun e => hs e.2, if_neg fun e => hs e.2]
      · rw [if_neg hfn]
        by_cases hfa : f = a
        · rw [if_pos (.inl hfa), hfa, if_neg fun e => fa e.1]
        · by_cases hfb : f = b
          · rw [if_pos (.inr hfb), hfb, if_neg fun e => fb e.1]
          · rw [if_neg (by tauto), so f hfn, e1]
            by_cases hq : f ∈ D.flows ∧ D.src f = D.start
            · rw [if_pos hq, if_pos ⟨(fo f hfn hfa hfb).2 hq.1, hq.2⟩]
            · rw [if_neg hq, if_neg fun e => hq ⟨(fo f hfn hfa hfb).1 e.1, e.2⟩]
    have o : H a b n (fun f => if f ∈ D.flows ∧ D.tgt f = D.stop then 1 else 0) =
        fun f => if f ∈ (reduceAt D x a b n).flows ∧ (reduceAt D x a b n).tgt f = (reduceAt D x a b n).stop then 1 else 0 := by
      funext f
      unfold H
      beta_reduce
      by_cases hfn : f = n
      · rw [if_pos hfn, hfn, tn, e2]
        have hta' : ¬ (a ∈ D.flows ∧ D.tgt a = D.stop) := fun e => hta e.2
        rw [if_neg hta', Nat.zero_add]
        by_cases hs : D.tgt b = D.stop
        · rw [if_pos ⟨s.hb.1, hs⟩, if_pos ⟨fn, hs⟩]
        · rw [if_neg fun e => hs e.2, if_neg fun e => hs e.2]
      · rw [if_neg hfn]
        by_cases hfa : f = a
        · rw [if_pos (.inl hfa), hfa, if_neg fun e => fa e.1]
        · by_cases hfb : f = b
          · rw [if_pos (.inr hfb), hfb, if_neg fun e => fb e.1]
          · rw [if_neg (by tauto), tO f hfn, e2]
            by_cases hq : f ∈ D.flows ∧ D.tgt f = D.stop
            · rw [if_pos hq, if_pos ⟨(fo f hfn hfa hfb).2 hq.1, hq.2⟩]
            · rw [if_neg hq, if_neg fun e => hq ⟨(fo f hfn hfa hfb).1 e.1, e.2⟩]
    rw [i, o] at r
    exact r

theorem step_wf {D D' : Diagram ν φ} (hw : DiagWF D) (h : Step D D') : DiagWF D' ∧ ∀ w, BpmnAccepts D' w ↔ BpmnAccepts D w := by
  obtain ⟨x, hx, hk, a, b, n, h1, h2, h3, h4, rfl⟩ := h
  have s : Sit D x a b n := ⟨hw, hx, hk, h1, h2, h3, h4⟩
  exact ⟨⟨s.nodup', hw.start, hw.stop⟩, s.accepts⟩

end DiagReduce

open DiagReduce NetBpmn

/-- C86: removing useless exclusive gateways, in any order and any number, does not change the complete runs of a diagram. -/
theorem C86_language {ν φ : Type} [DecidableEq ν] [DecidableEq φ] (D D' : Diagram ν φ) (hw : DiagWF D) (h : Relation.ReflTransGen Step D D')
    (w : List String) : BpmnAccepts D' w ↔ BpmnAccepts D w := by
  have : DiagWF D' ∧ (BpmnAccepts D' w ↔ BpmnAccepts D w) := by
    induction h with
    | refl => exact ⟨hw, Iff.rfl⟩
    | tail _ hs ih =>
      obtain ⟨h1, h2⟩ := step_wf ih.1 hs
      exact ⟨h1, (h2 w).trans ih.2⟩
  exact this.2

/-- C86: the BPMN diagram returned for a Petri net (conversion and reduction) has the complete runs of the net. -/
theorem C86_convert (N : Net) (h : NetWF N) (D : Diagram Node Flow) (hD : Relation.ReflTransGen Step (toBpmn N) D) (w : List String) :
    BpmnAccepts D w ↔ NetAccepts N w :=
  (C86_language _ _ ⟨nodup_flows h, rfl, rfl⟩ hD w).trans (C85_language N h w)

/-- a sequence of two transitions; the gateways of the three places are useless -/
def DiagReduce.seqNet : Net := ⟨[1, 2, 3], [10, 11], fun t => if t = 10 then some "a" else some "b", fun t => if t = 10 then [1] else [2], fun t => if t = 10 then [2] else [3], [1], [3]⟩

example : NetWF seqNet :=
  ⟨by decide, by decide, fun t _ => ⟨by by_cases h : t = 10 <;> simp [seqNet, h], by by_cases h : t = 10 <;> simp [seqNet, h], by by_cases h : t = 10 <;> simp [seqNet, h]⟩,
    fun t _ => ⟨by by_cases h : t = 10 <;> simp [seqNet, h], by by_cases h : t = 10 <;> simp [seqNet, h], by by_cases h : t = 10 <;> simp [seqNet, h]⟩,
    ⟨by decide, by decide⟩, ⟨by decide, by decide⟩⟩

/-- two rounds of the reduction: the gateways of the places 2 and 1 go -/
example : ∃ D, Relation.ReflTransGen Step (toBpmn seqNet) D ∧ Node.place 1 ∉ D.nodes ∧ Node.place 2 ∉ D.nodes ∧ Node.place 3 ∈ D.nodes :=
  ⟨reduceAt (reduceAt (toBpmn seqNet) (.place 2) (.arcOut 10 2) (.arcIn 2 11) (.arcIn 77 77)) (.place 1) (.init 1) (.arcIn 1 10) (.arcIn 78 78),
    (Relation.ReflTransGen.single ⟨.place 2, by decide, by decide, _, _, _, by decide, by decide, by decide, by decide, rfl⟩).tail
      ⟨.place 1, by decide, by decide, _, _, _, by decide, by decide, by decide, by decide, rfl⟩, by decide, by decide, by decide⟩

/-- the sequence has a complete run -/
example : NetAccepts seqNet ["a", "b"] := by
  have s1 : netStep seqNet (fun p => if p ∈ seqNet.im then 1 else 0) (some "a") (fun p => if p = 2 then 1 else 0) := by
    refine ⟨10, by decide, fun p => ?_, by decide, ?_⟩
    · by_cases h : p = 1 <;> simp [seqNet, h]
    · funext p
      by_cases h : p = 1 <;> by_cases h' : p = 2 <;> simp_all [seqNet]
  have s2 : netStep seqNet (fun p => if p = 2 then 1 else 0) (some "b") (fun p => if p ∈ seqNet.fm then 1 else 0) := by
    refine ⟨11, by decide, fun p => ?_, by decide, ?_⟩
    · by_cases h : p = 2 <;> simp [seqNet, h]
    · funext p
      by_cases h : p = 2 <;> by_cases h' : p = 3 <;> simp_all [seqNet]
  exact ((Run.nil _).snoc s1).snoc s2

end Verif
