import Verif.NetBpmn.Sim
set_option linter.unusedSectionVars false
/-
C85: conversion of accepting Petri nets to BPMN.
-/
namespace Verif
namespace NetBpmn

variable {N : Net}

/-! ### Runs of the diagram for the firing of a transition -/

theorem Run.append {S : Type} {step : S → Option String → S → Prop} {s s' s'' : S} {v w : List String} (h : Run step s v s') (h' : Run step s' w s'') :
    Run step s (v ++ w) s'' := by
  induction h' with
  | nil => simpa using h
  | snoc _ hs ih => rw [← List.append_assoc]; exact ih.snoc hs

/-- flows that do not lead to the gateway of a place -/
def inner (N : Net) (f : Flow) : Prop := ∀ p, tgtOf N f ≠ .place p

/-- on these flows lie exactly the tokens `l` -/
def Inner (N : Net) (M : Flow → Nat) (l : List Flow) : Prop := ∀ f, inner N f → M f = l.count f

/-- no tokens where there is no flow -/
def Supp (N : Net) (M : Flow → Nat) : Prop := ∀ f, f ∉ (toBpmn N).flows → M f = 0

theorem supp_step {M M' : Flow → Nat} {l : Option String} (hs : Supp N M) (h : bpmnStep (toBpmn N) M l M') : Supp N M' := by
  obtain ⟨y, _, c, d, hf, _, rfl, _⟩ := h
  intro f hf'
  have : d.count f = 0 := List.count_eq_zero.2 fun hd => hf' ((fires_sub hf).2 f hd)
  simp only [hs f hf', this]; omega

theorem supp_run {M M' : Flow → Nat} {w : List String} (hs : Supp N M) (h : Run (bpmnStep (toBpmn N)) M w M') : Supp N M' := by
  induction h with
  | nil => exact hs
  | snoc _ h ih => exact supp_step ih h

/-- tokens move through the gateways of the places `ps` -/
theorem gather (h : NetWF N) (e : Nat → Flow) (he : ∀ p, inner N (e p)) (hsrc : ∀ p, srcOf N (e p) = .place p) :
    ∀ (ps : List Nat) (M : Flow → Nat) (l : List Flow), ps.Nodup → (∀ p ∈ ps, p ∈ N.places ∧ IsFlow N (e p)) → Inner N M l →
      (∀ p ∈ ps, ∃ f ∈ (toBpmn N).flows, tgtOf N f = .place p ∧ 1 ≤ M f) →
      ∃ M', Run (bpmnStep (toBpmn N)) M [] M' ∧ abs N M' = abs N M ∧ Inner N M' (ps.map e ++ l) := by
  intro ps
  induction ps with
  | nil => intro M l _ _ hM _; exact ⟨M, .nil _, rfl, hM⟩
  | cons p ps ih =>
    intro M l hnd hps hM htok
    have hn := List.nodup_cons.1 hnd
    obtain ⟨f, hf, hft, hf1⟩ := htok p List.mem_cons_self
    obtain ⟨hpp, hpe⟩ := hps p List.mem_cons_self
    have hfires : Fires (toBpmn N) (.place p) [f] [e p] :=
      ⟨f, (mem_ins _ _).2 ⟨(mem_flows _).1 hf, hft⟩, e p, (mem_outs _ _).2 ⟨hpe, hsrc p⟩, rfl, rfl⟩
    have hcnt : ∀ x, [f].count x ≤ M x := by
      intro x
      rw [List.count_singleton]
      by_cases hx : f = x
      · subst hx; simpa using hf1
      · simp [hx]
    have hstep : bpmnStep (toBpmn N) M none (fun x => M x - [f].count x + [e p].count x) :=
      ⟨.place p, (mem_nodes _).2 hpp, [f], [e p], hfires, hcnt, rfl, rfl⟩
    obtain ⟨M', h1, h2, h3⟩ := ih (fun x => M x - [f].count x + [e p].count x) (e p :: l) hn.2 (fun q hq => hps q (List.mem_cons_of_mem _ hq))
      (by
        intro x hx
        have hxf : f ≠ x := by rintro rfl; exact hx p hft
        rw [List.count_cons]
        simp only [hM x hx, List.count_singleton, beq_iff_eq, hxf, if_false]
        omega)
      (by
        intro q hq
        obtain ⟨g, hg, hgt, hg1⟩ := htok q (List.mem_cons_of_mem _ hq)
        refine ⟨g, hg, hgt, ?_⟩
        have hfg : f ≠ g := by
          rintro rfl
          rw [hft] at hgt
          have := Node.place.inj hgt
          subst this
          exact hn.1 hq
        simp only [List.count_singleton, beq_iff_eq, hfg, if_false]
        omega)
    refine ⟨M', ?_, ?_, ?_⟩
    · have := (Run.snoc (.nil M) hstep).append h1
      simpa using this
    · rw [h2]; exact abs_place h hfires hcnt
    · intro x hx
      rw [h3 x hx]
      simp only [List.map_cons, List.count_append, List.count_cons, List.cons_append]
      omega

/-- a node takes the inner tokens and puts its tokens -/
theorem fire_inner {y : Node} (hy : y ∈ (toBpmn N).nodes) {c d l l' : List Flow} (hf : Fires (toBpmn N) y c d) {M : Flow → Nat} (hM : Inner N M l)
    (hc : ∀ f ∈ c, inner N f) (hcl : ∀ f, c.count f = l.count f) (hd : ∀ f, inner N f → d.count f = l'.count f) :
    bpmnStep (toBpmn N) M (labelOf ((toBpmn N).kind y)) (fun f => M f - c.count f + d.count f) ∧ (∀ f, c.count f ≤ M f) ∧
    Inner N (fun f => M f - c.count f + d.count f) l' := by
  have hle : ∀ f, c.count f ≤ M f := by
    intro f
    by_cases hfc : f ∈ c
    · rw [hM f (hc f hfc), hcl f]
    · rw [List.count_eq_zero.2 hfc]; omega
  refine ⟨⟨y, hy, c, d, hf, hle, rfl, rfl⟩, hle, ?_⟩
  intro f hfi
  simp only [hM f hfi, hcl f, hd f hfi]; omega

theorem inner_arcIn (p t : Nat) : inner N (.arcIn p t) := fun q => entering_ne_place t q

theorem not_inner_post (h : NetWF N) (t : Nat) (ht : t ∈ N.trans) (f : Flow) (hf : inner N f) : (outs (toBpmn N) (exiting N t)).count f = ([] : List Flow).count f := by
  rw [List.count_nil]
  refine List.count_eq_zero.2 fun hm => ?_
  obtain ⟨p, _, rfl⟩ := List.mem_map.1 ((outs_exiting h t ht).mem_iff.1 hm)
  exact hf p rfl

/-- what is needed to continue: the tokens lie before the gateways of the places -/
def Canon (N : Net) (M : Flow → Nat) (m : Nat → Nat) : Prop := Inner N M [] ∧ Supp N M ∧ abs N M = m

theorem token_at {M : Flow → Nat} {m : Nat → Nat} (hc : Canon N M m) {p : Nat} (hp : 1 ≤ m p) : ∃ f ∈ (toBpmn N).flows, tgtOf N f = .place p ∧ 1 ≤ M f := by
  obtain ⟨h1, _, h3⟩ := hc
  rw [← h3] at hp
  obtain ⟨f, hf, hw, hM⟩ := wsum_pos _ _ _ hp
  refine ⟨f, hf, ?_, hM⟩
  by_contra hn
  by_cases hi : inner N f
  · have := h1 f hi; rw [List.count_nil] at this; omega
  · unfold inner at hi
    push Not at hi
    obtain ⟨q, hq⟩ := hi
    rw [weight_place_in hq] at hw
    by_cases hqp : q = p
    · rw [hqp] at hq; exact hn hq
    · rw [if_neg hqp] at hw; omega

theorem net_to_bpmn (h : NetWF N) {M : Flow → Nat} {m m' : Nat → Nat} {l : Option String} (hc : Canon N M m) (hs : netStep N m l m') :
    ∃ M', Run (bpmnStep (toBpmn N)) M l.toList M' ∧ Canon N M' m' := by
  obtain ⟨t, ht, hen, rfl, rfl⟩ := hs
  obtain ⟨M1, r1, a1, i1⟩ := gather h (fun p => .arcIn p t) (fun p => inner_arcIn p t) (fun _ => rfl) (N.pre t) M [] (h.pre t ht).1
    (fun p hp => ⟨(h.pre t ht).2.2 p hp, ht, hp⟩) hc.1 (fun p hp => token_at hc (hen p hp))
  rw [List.append_nil] at i1
  have hpre : ∀ f ∈ ins (toBpmn N) (entering N t), inner N f := by
    intro f hf
    obtain ⟨p, _, rfl⟩ := List.mem_map.1 ((ins_entering h t ht).mem_iff.1 hf)
    exact inner_arcIn p t
  have hpreC : ∀ f, (ins (toBpmn N) (entering N t)).count f = ((N.pre t).map fun p => Flow.arcIn p t).count f := fun f => (ins_entering h t ht).count_eq f
  have hb : ∀ p, (if p ∈ N.pre t then 1 else 0) ≤ abs N M p := by
    intro p
    rw [hc.2.2]
    by_cases hp : p ∈ N.pre t
    · rw [if_pos hp]; exact hen p hp
    · rw [if_neg hp]; omega
  by_cases hl : N.label t = none
  · have hts : t ∈ silents N := (mem_silents t).2 ⟨ht, hl⟩
    have ei : entering N t = .silent t := by unfold entering; rw [if_pos hl]
    have eo : exiting N t = .silent t := by unfold exiting; rw [if_pos hl]
    rw [ei] at hpre hpreC
    have hfire := (fires_silent h t hts _ _).2 ⟨rfl, rfl⟩
    obtain ⟨s2, c2, i2⟩ := fire_inner (l' := []) ((mem_nodes _).2 hts) hfire i1 hpre hpreC
      (fun f hf => by have := not_inner_post h t ht f hf; rw [eo] at this; exact this)
    have hlab : labelOf ((toBpmn N).kind (.silent t)) = none := by
      have hk : (toBpmn N).kind (.silent t) = if (N.pre t).length > 1 then .parallel else if (N.post t).length > 1 then .parallel else .exclusive := rfl
      rw [hk]; split; · rfl
      split <;> rfl
    have r := r1.snoc s2
    rw [hlab] at r
    refine ⟨_, by rw [hl]; exact r, i2, supp_run hc.2.1 r, ?_⟩
    funext p
    have e1 := abs_step h hfire c2 p
    have wi := weight_pre h t ht p
    have wo := weight_post h t ht p
    rw [ei] at wi
    rw [eo] at wo
    rw [wi, wo, a1] at e1
    have := hb p
    rw [← hc.2.2]
    omega
  · have hv : t ∈ visible N := (mem_visible t).2 ⟨ht, hl⟩
    have ei : entering N t = .enter t := by unfold entering; rw [if_neg hl]
    have eo : exiting N t = .leave t := by unfold exiting; rw [if_neg hl]
    rw [ei] at hpre hpreC
    have f2 := (fires_enter h t hv _ _).2 ⟨rfl, rfl⟩
    obtain ⟨s2, c2, i2⟩ := fire_inner (l' := [.toTask t]) ((mem_nodes _).2 hv) f2 i1 hpre hpreC (fun f _ => by rw [outs_enter h t hv])
    have f3 := (fires_task h t hv _ _).2 ⟨rfl, rfl⟩
    obtain ⟨s3, c3, i3⟩ := fire_inner (l' := [.fromTask t]) ((mem_nodes _).2 hv) f3 i2
      (by rw [ins_task h t hv]; intro f hf; rw [List.mem_singleton.1 hf]; intro p e; cases e) (fun f => by rw [ins_task h t hv]) (fun f _ => by rw [outs_task h t hv])
    have f4 := (fires_leave h t hv _ _).2 ⟨rfl, rfl⟩
    obtain ⟨s4, c4, i4⟩ := fire_inner (l' := []) ((mem_nodes _).2 hv) f4 i3
      (by rw [ins_leave h t hv]; intro f hf; rw [List.mem_singleton.1 hf]; intro p e; cases e) (fun f => by rw [ins_leave h t hv])
      (fun f hf => by have := not_inner_post h t ht f hf; rw [eo] at this; exact this)
    have hl2 : labelOf ((toBpmn N).kind (.enter t)) = none := by
      have hk : (toBpmn N).kind (.enter t) = if (N.pre t).length > 1 then .parallel else .exclusive := rfl
      rw [hk]; split <;> rfl
    have hl4 : labelOf ((toBpmn N).kind (.leave t)) = none := by
      have hk : (toBpmn N).kind (.leave t) = if (N.post t).length > 1 then .parallel else .exclusive := rfl
      rw [hk]; split <;> rfl
    have hl3 : labelOf ((toBpmn N).kind (.task t)) = N.label t := by
      have hk : (toBpmn N).kind (.task t) = .activity ((N.label t).getD "") := rfl
      rw [hk]
      cases hx : N.label t with
      | none => exact absurd hx hl
      | some a => rfl
    have r := ((r1.snoc s2).snoc s3).snoc s4
    rw [hl2, hl3, hl4] at r
    simp only [Option.toList_none, List.append_nil, List.nil_append] at r
    refine ⟨_, r, i4, supp_run hc.2.1 r, ?_⟩
    funext p
    have e2 := abs_step h f2 c2 p
    have e3 := abs_step h f3 c3 p
    have e4 := abs_step h f4 c4 p
    have wi := weight_pre h t ht p
    have wo := weight_post h t ht p
    rw [ei] at wi
    rw [eo] at wo
    rw [wi, a1, outs_enter h t hv] at e2
    rw [ins_task h t hv, outs_task h t hv] at e3
    rw [wo, ins_leave h t hv] at e4
    simp only [List.map_cons, List.map_nil, List.sum_cons, List.sum_nil, weight] at e2 e3 e4
    have := hb p
    rw [← hc.2.2]
    simp only [outs_enter h t hv, ins_task h t hv, outs_task h t hv, ins_leave h t hv] at e2 e3 e4 ⊢
    omega

theorem run_to_bpmn (h : NetWF N) {M : Flow → Nat} {m m' : Nat → Nat} {w : List String} (hc : Canon N M m) (hr : Run (netStep N) m w m') :
    ∃ M', Run (bpmnStep (toBpmn N)) M w M' ∧ Canon N M' m' := by
  induction hr with
  | nil => exact ⟨M, .nil _, hc⟩
  | snoc _ hs ih =>
    obtain ⟨M1, r1, c1⟩ := ih
    obtain ⟨M2, r2, c2⟩ := net_to_bpmn h c1 hs
    exact ⟨M2, r1.append r2, c2⟩

theorem canon_init (h : NetWF N) : Canon N (fun f => (N.im.map Flow.init).count f) (fun p => if p ∈ N.im then 1 else 0) := by
  refine ⟨?_, ?_, abs_init h⟩
  · intro f hf
    rw [List.count_nil]
    refine List.count_eq_zero.2 fun hm => ?_
    obtain ⟨p, _, rfl⟩ := List.mem_map.1 hm
    exact hf p rfl
  · intro f hf
    refine List.count_eq_zero.2 fun hm => ?_
    obtain ⟨p, hp, rfl⟩ := List.mem_map.1 hm
    exact hf ((mem_flows _).2 hp)

/-- from the final marking of the net the end event is reached -/
theorem finish (h : NetWF N) {M : Flow → Nat} (hc : Canon N M (fun p => if p ∈ N.fm then 1 else 0)) :
    Run (bpmnStep (toBpmn N)) M [] (fun f => (N.fm.map Flow.fin).count f) := by
  have hfin : ∀ p, inner N (.fin p) := fun p q e => by cases e
  obtain ⟨M1, r1, a1, i1⟩ := gather h Flow.fin hfin (fun _ => rfl) N.fm M [] h.fm.1 (fun p hp => ⟨h.fm.2 p hp, hp⟩) hc.1
    (fun p hp => token_at hc (by simp [hp]))
  rw [List.append_nil] at i1
  have hs := supp_run hc.2.1 r1
  have ha : ∀ p, abs N M1 p = if p ∈ N.fm then 1 else 0 := fun p => by rw [a1, hc.2.2]
  have : M1 = fun f => (N.fm.map Flow.fin).count f := by
    funext f
    by_cases hi : inner N f
    · exact i1 f hi
    · unfold inner at hi
      push Not at hi
      obtain ⟨p, hp⟩ := hi
      have hz : (N.fm.map Flow.fin).count f = 0 := by
        refine List.count_eq_zero.2 fun hm => ?_
        obtain ⟨q, _, rfl⟩ := List.mem_map.1 hm
        cases hp
      rw [hz]
      by_cases hf : f ∈ (toBpmn N).flows
      · have hw : weight N p f = 1 := by rw [weight_place_in hp]; simp
        by_cases hpf : p ∈ N.fm
        · have h1 := two_le_wsum (toBpmn N).flows (weight N p) M1 f (.fin p) hf ((mem_flows _).2 hpf) (by rintro rfl; cases hp)
          have h2 : weight N p (.fin p) = 1 := by simp [weight]
          have h3 : M1 (.fin p) = 1 := by
            rw [i1 _ (hfin p)]
            exact List.count_eq_one_of_mem (h.fm.1.map fun a b e => Flow.fin.inj e) (List.mem_map.2 ⟨p, hpf, rfl⟩)
          have h4 := ha p
          rw [if_pos hpf] at h4
          unfold abs at h4
          rw [hw, h2, h3] at h1
          omega
        · have h1 := le_wsum (toBpmn N).flows (weight N p) M1 f hf
          have h4 := ha p
          rw [if_neg hpf] at h4
          unfold abs at h4
          rw [hw] at h1
          omega
      · exact hs f hf
  rw [← this]
  exact r1

end NetBpmn

open NetBpmn

/-- C85: a Petri net and the BPMN diagram made of it have the same complete runs. -/
theorem C85_language (N : Net) (h : NetWF N) (w : List String) : BpmnAccepts (toBpmn N) w ↔ NetAccepts N w := by
  unfold BpmnAccepts NetAccepts
  rw [init_count h, fin_count h]
  constructor
  · intro hr
    have := run_to_net h hr
    rw [abs_init h, abs_fin h] at this
    exact this
  · intro hr
    obtain ⟨M', r, c⟩ := run_to_bpmn h (canon_init h) hr
    have := r.append (finish h c)
    rw [List.append_nil] at this
    exact this

/-- C85: every reachable state of the diagram is a reachable marking of the net, with tokens underway. -/
theorem C85_safe (N : Net) (h : NetWF N) (w : List String) (M : Flow → Nat)
    (hr : Run (bpmnStep (toBpmn N)) (fun f => if f ∈ (toBpmn N).flows ∧ (toBpmn N).src f = (toBpmn N).start then 1 else 0) w M) :
    ∃ m, Run (netStep N) (fun p => if p ∈ N.im then 1 else 0) w m ∧ ∀ f p, tgtOf N f = .place p → f ∈ (toBpmn N).flows → M f ≤ m p := by
  rw [init_count h] at hr
  have := run_to_net h hr
  rw [abs_init h] at this
  refine ⟨_, this, fun f p hf hm => ?_⟩
  have h1 := le_wsum (toBpmn N).flows (weight N p) M f hm
  rw [weight_place_in hf, if_pos rfl, Nat.one_mul] at h1
  exact h1

/-- C85: the diagram has one task for every transition with a label. -/
theorem C85_tasks (N : Net) : ((toBpmn N).nodes.filterMap fun y => labelOf ((toBpmn N).kind y)) = N.trans.filterMap N.label := by
  have hk : (toBpmn N).kind = kindOf N := rfl
  rw [hk]
  unfold toBpmn
  simp only [List.filterMap_append]
  have e1 : (N.places.map Node.place).filterMap (fun y => labelOf (kindOf N y)) = [] := by
    rw [List.filterMap_eq_nil_iff]; intro y hy; obtain ⟨p, _, rfl⟩ := List.mem_map.1 hy; rfl
  have e2 : ((silents N).map Node.silent).filterMap (fun y => labelOf (kindOf N y)) = [] := by
    rw [List.filterMap_eq_nil_iff]; intro y hy; obtain ⟨p, _, rfl⟩ := List.mem_map.1 hy
    unfold kindOf; simp only; split; · rfl
    split <;> rfl
  have e3 : ([Node.start, Node.stop].filterMap fun y => labelOf (kindOf N y)) = [] := rfl
  rw [e1, e2, e3, List.nil_append, List.nil_append, List.append_nil]
  unfold visible
  induction N.trans with
  | nil => rfl
  | cons t ts ih =>
    cases hl : N.label t with
    | none =>
      rw [List.filter_cons_of_neg (by simp [hl]), ih, List.filterMap_cons, hl]
    | some a =>
      rw [List.filter_cons_of_pos (by simp [hl]), List.flatMap_cons, List.filterMap_append, ih]
      have h1 : labelOf (kindOf N (.enter t)) = none := by unfold kindOf; simp only; split <;> rfl
      have h2 : labelOf (kindOf N (.leave t)) = none := by unfold kindOf; simp only; split <;> rfl
      have h3 : labelOf (kindOf N (.task t)) = some a := by unfold kindOf; simp only [hl]; rfl
      simp [List.filterMap_cons, h1, h2, h3, hl]

namespace NetBpmn

/-- two transitions which both need the places 1 and 2 -/
def shared : Net := ⟨[1, 2, 3], [10, 11], fun t => if t = 10 then some "a" else some "b", fun _ => [1, 2], fun _ => [3], [1, 2], [3]⟩

theorem shared_wf : NetWF shared :=
  ⟨by decide, by decide, fun t _ => ⟨by simp [shared], by simp [shared], by simp [shared]⟩,
    fun t _ => ⟨by simp [shared], by simp [shared], by simp [shared]⟩, ⟨by decide, by decide⟩, ⟨by decide, by decide⟩⟩

/-- the gateway of place 1 has decided for the first transition, the gateway of place 2 for the second one -/
def stuck : Flow → Nat := fun f => [Flow.arcIn 1 10, Flow.arcIn 2 11].count f

theorem stuck_reached : Run (bpmnStep (toBpmn shared)) (fun f => if f ∈ (toBpmn shared).flows ∧ (toBpmn shared).src f = (toBpmn shared).start then 1 else 0) [] stuck := by
  rw [init_count shared_wf]
  have s1 : bpmnStep (toBpmn shared) (fun f => (shared.im.map Flow.init).count f) none
      (fun f => (shared.im.map Flow.init).count f - [Flow.init 1].count f + [Flow.arcIn 1 10].count f) := by
    refine ⟨.place 1, by decide, [.init 1], [.arcIn 1 10], ⟨.init 1, by decide, .arcIn 1 10, by decide, rfl, rfl⟩, fun f => ?_, rfl, rfl⟩
    rw [show shared.im.map Flow.init = [.init 1, .init 2] from rfl]
    simp only [List.count_cons, List.count_nil]; omega
  have s2 : bpmnStep (toBpmn shared) (fun f => (shared.im.map Flow.init).count f - [Flow.init 1].count f + [Flow.arcIn 1 10].count f) none
      (fun f => (shared.im.map Flow.init).count f - [Flow.init 1].count f + [Flow.arcIn 1 10].count f - [Flow.init 2].count f + [Flow.arcIn 2 11].count f) := by
    refine ⟨.place 2, by decide, [.init 2], [.arcIn 2 11], ⟨.init 2, by decide, .arcIn 2 11, by decide, rfl, rfl⟩, fun f => ?_, rfl, rfl⟩
    rw [show shared.im.map Flow.init = [.init 1, .init 2] from rfl]
    simp only [List.count_cons, List.count_nil]; omega
  have r := ((Run.nil (step := bpmnStep (toBpmn shared)) _).snoc s1).snoc s2
  have e : (fun f => (shared.im.map Flow.init).count f - [Flow.init 1].count f + [Flow.arcIn 1 10].count f - [Flow.init 2].count f + [Flow.arcIn 2 11].count f) = stuck := by
    funext f
    rw [show shared.im.map Flow.init = [.init 1, .init 2] from rfl]
    unfold stuck
    simp only [List.count_cons, List.count_nil]; omega
  rw [e] at r
  exact r

end NetBpmn

/-- C85: the diagram can deadlock where the net cannot: the gateways of two places choose different transitions. -/
theorem C85_deadlock_refuted :
    Run (bpmnStep (toBpmn shared)) (fun f => if f ∈ (toBpmn shared).flows ∧ (toBpmn shared).src f = (toBpmn shared).start then 1 else 0) [] stuck ∧
    (∀ l M', ¬ bpmnStep (toBpmn shared) stuck l M') ∧ stuck ≠ (fun f => if f ∈ (toBpmn shared).flows ∧ (toBpmn shared).tgt f = (toBpmn shared).stop then 1 else 0) ∧
    netStep shared (fun p => if p ∈ shared.im then 1 else 0) (some "a") (fun p => if p ∈ shared.fm then 1 else 0) ∧
    netStep shared (fun p => if p ∈ shared.im then 1 else 0) (some "b") (fun p => if p ∈ shared.fm then 1 else 0) := by
  refine ⟨stuck_reached, ?_, ?_, ?_, ?_⟩
  · rintro l M' ⟨y, hy, c, d, hf, hM, -, -⟩
    have hin : ∀ f ∈ c, f = .arcIn 1 10 ∨ f = .arcIn 2 11 := by
      intro f hfc
      have h1 := hM f
      have h2 := List.count_pos_iff.2 hfc
      have : f ∈ [Flow.arcIn 1 10, Flow.arcIn 2 11] := List.count_pos_iff.1 (by unfold stuck at h1; omega)
      simpa using this
    rw [mem_nodes] at hy
    have hv : ∀ t, t ∈ visible shared → t = 10 ∨ t = 11 := by
      intro t ht
      have := ((mem_visible t).1 ht).1
      simpa [shared] using this
    cases y with
    | place q =>
      obtain ⟨a, ha, b, hb, rfl, rfl⟩ := hf
      have ht := ((mem_ins _ _).1 ha).2
      rcases hin a (by simp) with rfl | rfl
      · exact absurd ht (entering_ne_place _ _)
      · exact absurd ht (entering_ne_place _ _)
    | silent t =>
      have := ((mem_silents t).1 hy).2
      simp only [shared] at this
      split at this <;> cases this
    | enter t =>
      obtain ⟨rfl, rfl⟩ := (fires_enter shared_wf t hy _ _).1 hf
      rcases hv t hy with rfl | rfl
      · rcases hin (.arcIn 2 10) (by decide) with e | e <;> cases e
      · rcases hin (.arcIn 1 11) (by decide) with e | e <;> cases e
    | task t =>
      obtain ⟨rfl, rfl⟩ := (fires_task shared_wf t hy _ _).1 hf
      rcases hin (.toTask t) (by rw [ins_task shared_wf t hy]; simp) with e | e <;> cases e
    | leave t =>
      obtain ⟨rfl, rfl⟩ := (fires_leave shared_wf t hy _ _).1 hf
      rcases hin (.fromTask t) (by rw [ins_leave shared_wf t hy]; simp) with e | e <;> cases e
    | start => exact hf
    | stop => exact hf
  · intro e
    have := congrFun e (.arcIn 1 10)
    revert this
    decide
  · refine ⟨10, by decide, by decide, by decide, ?_⟩
    funext p
    simp only [shared, List.mem_cons, List.not_mem_nil, or_false]
    split <;> split <;> omega
  · refine ⟨11, by decide, by decide, by decide, ?_⟩
    funext p
    simp only [shared, List.mem_cons, List.not_mem_nil, or_false]
    split <;> split <;> omega

/-- the net with the shared places accepts `a`, so its diagram does -/
example : BpmnAccepts (toBpmn shared) ["a"] := by
  rw [C85_language shared shared_wf]
  have := (Run.nil (step := netStep shared) (fun p => if p ∈ shared.im then 1 else 0)).snoc C85_deadlock_refuted.2.2.2.1
  exact this

end Verif
