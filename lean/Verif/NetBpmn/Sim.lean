import Verif.NetBpmn.Spec
import Mathlib.Data.List.Perm.Basic
import Mathlib.Data.List.Count
import Mathlib.Tactic.Ring
import Mathlib.Algebra.BigOperators.Group.List.Basic
set_option linter.unusedSectionVars false
/-
C85: tokens of the diagram as tokens of the net.
-/
namespace Verif
namespace NetBpmn

variable {N : Net}

/-! ### Sums -/

def wsum (l : List Flow) (w M : Flow → Nat) : Nat := (l.map fun f => w f * M f).sum

theorem wsum_add (l : List Flow) (w M M' : Flow → Nat) : wsum l w (fun f => M f + M' f) = wsum l w M + wsum l w M' := by
  unfold wsum
  induction l with
  | nil => rfl
  | cons a l ih => simp only [List.map_cons, List.sum_cons, ih]; ring

theorem wsum_single (l : List Flow) (hl : l.Nodup) (w : Flow → Nat) (c : Flow) (hc : c ∈ l) : wsum l w (fun f => if c = f then 1 else 0) = w c := by
  unfold wsum
  induction l with
  | nil => simp at hc
  | cons a l ih =>
    have hn := List.nodup_cons.1 hl
    rw [List.map_cons, List.sum_cons]
    by_cases h : c = a
    · subst h
      have : (l.map fun f => w f * if c = f then 1 else 0).sum = 0 := by
        apply List.sum_eq_zero
        intro x hx
        obtain ⟨f, hf, rfl⟩ := List.mem_map.1 hx
        have : c ≠ f := fun e => hn.1 (e ▸ hf)
        simp [this]
      rw [this]; simp
    · rw [ih hn.2 ((List.mem_cons.1 hc).resolve_left h)]; simp [h]

theorem wsum_count (l : List Flow) (hl : l.Nodup) (w : Flow → Nat) (c : List Flow) (hc : ∀ f ∈ c, f ∈ l) : wsum l w (fun f => c.count f) = (c.map w).sum := by
  induction c with
  | nil => unfold wsum; simp
  | cons a c ih =>
    have : (fun f => (a :: c).count f) = fun f => c.count f + if a = f then 1 else 0 := by
      funext f; rw [List.count_cons]; by_cases h : a = f <;> simp [h]
    rw [this, wsum_add, ih fun f hf => hc f (List.mem_cons_of_mem _ hf), wsum_single l hl w a (hc a List.mem_cons_self), List.map_cons, List.sum_cons]
    omega

/-- the effect of a step on a weighted sum -/
theorem wsum_step (l : List Flow) (hl : l.Nodup) (w : Flow → Nat) (M : Flow → Nat) (c d : List Flow) (hc : ∀ f ∈ c, f ∈ l) (hd : ∀ f ∈ d, f ∈ l)
    (hM : ∀ f, c.count f ≤ M f) : wsum l w (fun f => M f - c.count f + d.count f) + (c.map w).sum = wsum l w M + (d.map w).sum := by
  rw [← wsum_count l hl w c hc, ← wsum_count l hl w d hd, ← wsum_add, ← wsum_add]
  congr 1; funext f
  have := hM f; omega

theorem le_wsum (l : List Flow) (w M : Flow → Nat) (f : Flow) (hf : f ∈ l) : w f * M f ≤ wsum l w M := by
  unfold wsum
  induction l with
  | nil => simp at hf
  | cons a l ih =>
    rw [List.map_cons, List.sum_cons]
    rcases List.mem_cons.1 hf with rfl | hf'
    · omega
    · have := ih hf'; omega

theorem wsum_pos (l : List Flow) (w M : Flow → Nat) (h : 1 ≤ wsum l w M) : ∃ f ∈ l, 1 ≤ w f ∧ 1 ≤ M f := by
  by_contra hn
  have : wsum l w M = 0 := by
    unfold wsum
    apply List.sum_eq_zero
    intro x hx
    obtain ⟨f, hf, rfl⟩ := List.mem_map.1 hx
    by_contra h0
    have h1 : w f ≠ 0 := fun e => h0 (by rw [e, Nat.zero_mul])
    have h2 : M f ≠ 0 := fun e => h0 (by rw [e, Nat.mul_zero])
    exact hn ⟨f, hf, by omega, by omega⟩
  omega

theorem two_le_wsum (l : List Flow) (w M : Flow → Nat) (f g : Flow) (hf : f ∈ l) (hg : g ∈ l) (hfg : f ≠ g) : w f * M f + w g * M g ≤ wsum l w M := by
  unfold wsum
  induction l with
  | nil => simp at hf
  | cons a l ih =>
    rw [List.map_cons, List.sum_cons]
    rcases List.mem_cons.1 hf with rfl | hf'
    · have hg' := (List.mem_cons.1 hg).resolve_left (Ne.symm hfg)
      have := le_wsum l w M g hg'
      unfold wsum at this; omega
    · rcases List.mem_cons.1 hg with rfl | hg'
      · have := le_wsum l w M f hf'
        unfold wsum at this; omega
      · have := ih hf' hg'; omega

/-! ### The flows -/

theorem mem_visible (t : Nat) : t ∈ visible N ↔ t ∈ N.trans ∧ N.label t ≠ none := by unfold visible; rw [List.mem_filter, decide_eq_true_eq]
theorem mem_silents (t : Nat) : t ∈ silents N ↔ t ∈ N.trans ∧ N.label t = none := by unfold silents; rw [List.mem_filter, decide_eq_true_eq]

def IsFlow (N : Net) : Flow → Prop
  | .arcIn p t => t ∈ N.trans ∧ p ∈ N.pre t
  | .arcOut t p => t ∈ N.trans ∧ p ∈ N.post t
  | .toTask t => t ∈ visible N
  | .fromTask t => t ∈ visible N
  | .init p => p ∈ N.im
  | .fin p => p ∈ N.fm

theorem mem_flows (f : Flow) : f ∈ (toBpmn N).flows ↔ IsFlow N f := by
  unfold toBpmn IsFlow
  cases f <;> simp

theorem nodup_flows (h : NetWF N) : (toBpmn N).flows.Nodup := by
  unfold toBpmn
  have hv : (visible N).Nodup := h.trans.filter _
  have h1 : (N.trans.flatMap (fun t => (N.pre t).map fun p => Flow.arcIn p t)).Nodup := by
    rw [List.nodup_flatMap]
    refine ⟨fun t ht => (h.pre t ht).1.map fun a b e => (Flow.arcIn.inj e).1, h.trans.imp fun {a b} hab => ?_⟩
    intro f h1 h2
    obtain ⟨p, _, rfl⟩ := List.mem_map.1 h1
    obtain ⟨q, _, e⟩ := List.mem_map.1 h2
    exact hab (Flow.arcIn.inj e).2.symm
  have h2 : (N.trans.flatMap (fun t => (N.post t).map fun p => Flow.arcOut t p)).Nodup := by
    rw [List.nodup_flatMap]
    refine ⟨fun t ht => (h.post t ht).1.map fun a b e => (Flow.arcOut.inj e).2, h.trans.imp fun {a b} hab => ?_⟩
    intro f h1 h2
    obtain ⟨p, _, rfl⟩ := List.mem_map.1 h1
    obtain ⟨q, _, e⟩ := List.mem_map.1 h2
    exact hab (Flow.arcOut.inj e).1.symm
  have h3 : ((visible N).flatMap (fun t => [Flow.toTask t, Flow.fromTask t])).Nodup := by
    rw [List.nodup_flatMap]
    refine ⟨fun t ht => by simp, hv.imp fun {a b} hab => ?_⟩
    intro f h1 h2
    simp only [List.mem_cons, List.not_mem_nil, or_false] at h1 h2
    rcases h1 with rfl | rfl <;> rcases h2 with e | e <;> first | exact hab (Flow.toTask.inj e) | exact hab (Flow.fromTask.inj e) | cases e
  have h4 : (N.im.map Flow.init).Nodup := h.im.1.map fun a b e => Flow.init.inj e
  have h5 : (N.fm.map Flow.fin).Nodup := h.fm.1.map fun a b e => Flow.fin.inj e
  refine List.Nodup.append (List.Nodup.append (List.Nodup.append (List.Nodup.append h1 h2 ?_) h3 ?_) h4 ?_) h5 ?_ <;>
    (intro f hf hg; cases f <;> simp at hf hg)

theorem mem_ins (y : Node) (f : Flow) : f ∈ ins (toBpmn N) y ↔ IsFlow N f ∧ tgtOf N f = y := by
  unfold ins; rw [List.mem_filter, mem_flows, decide_eq_true_eq]; rfl
theorem mem_outs (y : Node) (f : Flow) : f ∈ outs (toBpmn N) y ↔ IsFlow N f ∧ srcOf N f = y := by
  unfold outs; rw [List.mem_filter, mem_flows, decide_eq_true_eq]; rfl

theorem entering_ne_place (t p : Nat) : entering N t ≠ .place p := by unfold entering; split <;> simp
theorem exiting_ne_place (t p : Nat) : exiting N t ≠ .place p := by unfold exiting; split <;> simp
theorem entering_inj {t u : Nat} (h : entering N t = entering N u) : t = u := by
  unfold entering at h
  split at h <;> split at h <;> first | exact Node.silent.inj h | exact Node.enter.inj h | cases h
theorem exiting_inj {t u : Nat} (h : exiting N t = exiting N u) : t = u := by
  unfold exiting at h
  split at h <;> split at h <;> first | exact Node.silent.inj h | exact Node.leave.inj h | cases h

theorem ins_entering (h : NetWF N) (t : Nat) (ht : t ∈ N.trans) : (ins (toBpmn N) (entering N t)).Perm ((N.pre t).map fun p => .arcIn p t) := by
  refine (List.perm_ext_iff_of_nodup ((nodup_flows h).filter _) ((h.pre t ht).1.map fun a b e => (Flow.arcIn.inj e).1)).2 fun f => ?_
  change f ∈ ins (toBpmn N) (entering N t) ↔ _
  rw [mem_ins]
  constructor
  · rintro ⟨h1, h2⟩
    cases f with
    | arcIn p u => have := entering_inj (N := N) h2; subst this; exact List.mem_map.2 ⟨p, h1.2, rfl⟩
    | arcOut u p => exact absurd h2.symm (entering_ne_place t p)
    | toTask u => simp only [tgtOf, entering] at h2; split at h2 <;> cases h2
    | fromTask u => simp only [tgtOf, entering] at h2; split at h2 <;> cases h2
    | init p => exact absurd h2.symm (entering_ne_place t p)
    | fin p => simp only [tgtOf, entering] at h2; split at h2 <;> cases h2
  · intro hf
    obtain ⟨p, hp, rfl⟩ := List.mem_map.1 hf
    exact ⟨⟨ht, hp⟩, rfl⟩

theorem outs_exiting (h : NetWF N) (t : Nat) (ht : t ∈ N.trans) : (outs (toBpmn N) (exiting N t)).Perm ((N.post t).map fun p => .arcOut t p) := by
  refine (List.perm_ext_iff_of_nodup ((nodup_flows h).filter _) ((h.post t ht).1.map fun a b e => (Flow.arcOut.inj e).2)).2 fun f => ?_
  change f ∈ outs (toBpmn N) (exiting N t) ↔ _
  rw [mem_outs]
  constructor
  · rintro ⟨h1, h2⟩
    cases f with
    | arcOut u p => have := exiting_inj (N := N) h2; subst this; exact List.mem_map.2 ⟨p, h1.2, rfl⟩
    | arcIn p u => exact absurd h2.symm (exiting_ne_place t p)
    | toTask u => simp only [srcOf, exiting] at h2; split at h2 <;> cases h2
    | fromTask u => simp only [srcOf, exiting] at h2; split at h2 <;> cases h2
    | fin p => exact absurd h2.symm (exiting_ne_place t p)
    | init p => simp only [srcOf, exiting] at h2; split at h2 <;> cases h2
  · intro hf
    obtain ⟨p, hp, rfl⟩ := List.mem_map.1 hf
    exact ⟨⟨ht, hp⟩, rfl⟩

theorem eq_single {l : List Flow} {a : Flow} (hn : l.Nodup) (h : ∀ f, f ∈ l ↔ f = a) : l = [a] :=
  List.perm_singleton.1 ((List.perm_ext_iff_of_nodup hn (List.nodup_singleton a)).2 (by simpa using h))

theorem outs_enter (h : NetWF N) (t : Nat) (ht : t ∈ visible N) : outs (toBpmn N) (.enter t) = [.toTask t] := by
  refine eq_single ((nodup_flows h).filter _) fun f => ?_
  change f ∈ outs (toBpmn N) (.enter t) ↔ _
  rw [mem_outs]
  constructor
  · rintro ⟨h1, h2⟩
    cases f with
    | arcOut u p => simp only [srcOf, exiting] at h2; split at h2 <;> cases h2
    | toTask u => rw [Node.enter.inj h2]
    | _ => cases h2
  · rintro rfl; exact ⟨ht, rfl⟩

theorem ins_task (h : NetWF N) (t : Nat) (ht : t ∈ visible N) : ins (toBpmn N) (.task t) = [.toTask t] := by
  refine eq_single ((nodup_flows h).filter _) fun f => ?_
  change f ∈ ins (toBpmn N) (.task t) ↔ _
  rw [mem_ins]
  constructor
  · rintro ⟨h1, h2⟩
    cases f with
    | arcIn u p => simp only [tgtOf, entering] at h2; split at h2 <;> cases h2
    | toTask u => rw [Node.task.inj h2]
    | _ => cases h2
  · rintro rfl; exact ⟨ht, rfl⟩

theorem outs_task (h : NetWF N) (t : Nat) (ht : t ∈ visible N) : outs (toBpmn N) (.task t) = [.fromTask t] := by
  refine eq_single ((nodup_flows h).filter _) fun f => ?_
  change f ∈ outs (toBpmn N) (.task t) ↔ _
  rw [mem_outs]
  constructor
  · rintro ⟨h1, h2⟩
    cases f with
    | arcOut u p => simp only [srcOf, exiting] at h2; split at h2 <;> cases h2
    | fromTask u => rw [Node.task.inj h2]
    | _ => cases h2
  · rintro rfl; exact ⟨ht, rfl⟩

theorem ins_leave (h : NetWF N) (t : Nat) (ht : t ∈ visible N) : ins (toBpmn N) (.leave t) = [.fromTask t] := by
  refine eq_single ((nodup_flows h).filter _) fun f => ?_
  change f ∈ ins (toBpmn N) (.leave t) ↔ _
  rw [mem_ins]
  constructor
  · rintro ⟨h1, h2⟩
    cases f with
    | arcIn u p => simp only [tgtOf, entering] at h2; split at h2 <;> cases h2
    | fromTask u => rw [Node.leave.inj h2]
    | _ => cases h2
  · rintro rfl; exact ⟨ht, rfl⟩

/-! ### Firing of the nodes of transitions -/

theorem one_mem {l : List Flow} (hl : l.length = 1) {a : Flow} (ha : a ∈ l) : [a] = l := by
  obtain ⟨b, rfl⟩ := List.length_eq_one_iff.1 hl
  rw [List.mem_singleton.1 ha]

theorem fires_all {D : Diagram Node Flow} {y : Node} (he : D.kind y ≠ .event) (hx : D.kind y = .exclusive → (ins D y).length = 1 ∧ (outs D y).length = 1)
    (ha : ∀ a, D.kind y = .activity a → (ins D y).length = 1) (c d : List Flow) : Fires D y c d ↔ c = ins D y ∧ d = outs D y := by
  unfold Fires
  cases hk : D.kind y with
  | exclusive =>
    obtain ⟨h1, h2⟩ := hx hk
    simp only
    constructor
    · rintro ⟨a, ha, b, hb, rfl, rfl⟩; exact ⟨one_mem h1 ha, one_mem h2 hb⟩
    · rintro ⟨rfl, rfl⟩
      obtain ⟨a, ha⟩ := List.length_eq_one_iff.1 h1
      obtain ⟨b, hb⟩ := List.length_eq_one_iff.1 h2
      exact ⟨a, by rw [ha]; simp, b, by rw [hb]; simp, ha, hb⟩
  | parallel => exact Iff.rfl
  | activity s =>
    have h1 := ha s hk
    simp only
    constructor
    · rintro ⟨a, ha, rfl, rfl⟩; exact ⟨one_mem h1 ha, rfl⟩
    · rintro ⟨rfl, rfl⟩
      obtain ⟨a, ha⟩ := List.length_eq_one_iff.1 h1
      exact ⟨a, by rw [ha]; simp, ha, rfl⟩
  | event => exact absurd hk he

theorem len_one {l : List Nat} (h1 : l ≠ []) (h2 : ¬ l.length > 1) : l.length = 1 := by
  have := List.length_pos_iff.2 h1; omega

theorem fires_silent (h : NetWF N) (t : Nat) (ht : t ∈ silents N) (c d : List Flow) :
    Fires (toBpmn N) (.silent t) c d ↔ c = ins (toBpmn N) (.silent t) ∧ d = outs (toBpmn N) (.silent t) := by
  obtain ⟨h1, h2⟩ := (mem_silents t).1 ht
  have ei : entering N t = .silent t := by unfold entering; rw [if_pos h2]
  have eo : exiting N t = .silent t := by unfold exiting; rw [if_pos h2]
  have pi := (ins_entering h t h1).length_eq
  have po := (outs_exiting h t h1).length_eq
  rw [ei, List.length_map] at pi
  rw [eo, List.length_map] at po
  have hk : (toBpmn N).kind (.silent t) = if (N.pre t).length > 1 then .parallel else if (N.post t).length > 1 then .parallel else .exclusive := rfl
  refine fires_all ?_ ?_ ?_ c d
  · rw [hk]; split; · simp
    split <;> simp
  · rw [hk]
    split; · simp
    split; · simp
    intro _
    rw [pi, po]
    exact ⟨len_one (h.pre t h1).2.1 (by assumption), len_one (h.post t h1).2.1 (by assumption)⟩
  · intro a
    rw [hk]; split; · simp
    split <;> simp

theorem fires_enter (h : NetWF N) (t : Nat) (ht : t ∈ visible N) (c d : List Flow) :
    Fires (toBpmn N) (.enter t) c d ↔ c = ins (toBpmn N) (.enter t) ∧ d = outs (toBpmn N) (.enter t) := by
  obtain ⟨h1, h2⟩ := (mem_visible t).1 ht
  have ei : entering N t = .enter t := by unfold entering; rw [if_neg h2]
  have pi := (ins_entering h t h1).length_eq
  rw [ei, List.length_map] at pi
  have hk : (toBpmn N).kind (.enter t) = if (N.pre t).length > 1 then .parallel else .exclusive := rfl
  refine fires_all ?_ ?_ ?_ c d
  · rw [hk]; split <;> simp
  · rw [hk]
    split; · simp
    intro _
    rw [pi, outs_enter h t ht]
    exact ⟨len_one (h.pre t h1).2.1 (by assumption), rfl⟩
  · intro a
    rw [hk]; split <;> simp

theorem fires_leave (h : NetWF N) (t : Nat) (ht : t ∈ visible N) (c d : List Flow) :
    Fires (toBpmn N) (.leave t) c d ↔ c = ins (toBpmn N) (.leave t) ∧ d = outs (toBpmn N) (.leave t) := by
  obtain ⟨h1, h2⟩ := (mem_visible t).1 ht
  have eo : exiting N t = .leave t := by unfold exiting; rw [if_neg h2]
  have po := (outs_exiting h t h1).length_eq
  rw [eo, List.length_map] at po
  have hk : (toBpmn N).kind (.leave t) = if (N.post t).length > 1 then .parallel else .exclusive := rfl
  refine fires_all ?_ ?_ ?_ c d
  · rw [hk]; split <;> simp
  · rw [hk]
    split; · simp
    intro _
    rw [po, ins_leave h t ht]
    exact ⟨rfl, len_one (h.post t h1).2.1 (by assumption)⟩
  · intro a
    rw [hk]; split <;> simp

theorem fires_task (h : NetWF N) (t : Nat) (ht : t ∈ visible N) (c d : List Flow) :
    Fires (toBpmn N) (.task t) c d ↔ c = ins (toBpmn N) (.task t) ∧ d = outs (toBpmn N) (.task t) := by
  have hk : (toBpmn N).kind (.task t) = .activity ((N.label t).getD "") := rfl
  refine fires_all (by rw [hk]; simp) (by rw [hk]; simp) (fun a _ => ?_) c d
  rw [ins_task h t ht]; rfl

/-! ### The net marking of a token distribution -/

/-- how many tokens of place `p` a token on the flow stands for -/
def weight (N : Net) (p : Nat) : Flow → Nat
  | .arcIn q _ => if q = p then 1 else 0
  | .arcOut _ q => if q = p then 1 else 0
  | .toTask t => if p ∈ N.pre t then 1 else 0
  | .fromTask t => if p ∈ N.post t then 1 else 0
  | .init q => if q = p then 1 else 0
  | .fin q => if q = p then 1 else 0

def abs (N : Net) (M : Flow → Nat) (p : Nat) : Nat := wsum (toBpmn N).flows (weight N p) M

theorem sum_ind (l : List Nat) (hl : l.Nodup) (p : Nat) : (l.map fun q => if q = p then 1 else 0).sum = if p ∈ l then 1 else 0 := by
  induction l with
  | nil => simp
  | cons a l ih =>
    have hn := List.nodup_cons.1 hl
    rw [List.map_cons, List.sum_cons, ih hn.2]
    by_cases h : a = p
    · subst h; simp [hn.1]
    · have : p ≠ a := fun e => h e.symm
      simp [h, this]

theorem weight_pre (h : NetWF N) (t : Nat) (ht : t ∈ N.trans) (p : Nat) : ((ins (toBpmn N) (entering N t)).map (weight N p)).sum = if p ∈ N.pre t then 1 else 0 := by
  rw [((ins_entering h t ht).map (weight N p)).sum_eq, List.map_map]
  exact sum_ind _ (h.pre t ht).1 p

theorem weight_post (h : NetWF N) (t : Nat) (ht : t ∈ N.trans) (p : Nat) : ((outs (toBpmn N) (exiting N t)).map (weight N p)).sum = if p ∈ N.post t then 1 else 0 := by
  rw [((outs_exiting h t ht).map (weight N p)).sum_eq, List.map_map]
  exact sum_ind _ (h.post t ht).1 p

theorem fires_sub {y : Node} {c d : List Flow} (h : Fires (toBpmn N) y c d) : (∀ f ∈ c, f ∈ (toBpmn N).flows) ∧ ∀ f ∈ d, f ∈ (toBpmn N).flows := by
  have hi : ∀ f ∈ ins (toBpmn N) y, f ∈ (toBpmn N).flows := fun f hf => (List.mem_filter.1 hf).1
  have ho : ∀ f ∈ outs (toBpmn N) y, f ∈ (toBpmn N).flows := fun f hf => (List.mem_filter.1 hf).1
  unfold Fires at h
  split at h
  · obtain ⟨a, ha, b, hb, rfl, rfl⟩ := h
    exact ⟨by simpa using hi a ha, by simpa using ho b hb⟩
  · obtain ⟨rfl, rfl⟩ := h; exact ⟨hi, ho⟩
  · obtain ⟨a, ha, rfl, rfl⟩ := h
    exact ⟨by simpa using hi a ha, ho⟩
  · exact h.elim

theorem weight_place_in {p q : Nat} {f : Flow} (hf : tgtOf N f = .place q) : weight N p f = if q = p then 1 else 0 := by
  cases f with
  | arcIn a t => exact absurd hf (entering_ne_place t q)
  | arcOut t a => rw [Node.place.inj hf.symm]; rfl
  | init a => rw [Node.place.inj hf.symm]; rfl
  | _ => cases hf

theorem weight_place_out {p q : Nat} {f : Flow} (hf : srcOf N f = .place q) : weight N p f = if q = p then 1 else 0 := by
  cases f with
  | arcOut t a => exact absurd hf (exiting_ne_place t q)
  | arcIn a t => rw [Node.place.inj hf.symm]; rfl
  | fin a => rw [Node.place.inj hf.symm]; rfl
  | _ => cases hf

theorem abs_step (h : NetWF N) {y : Node} {c d : List Flow} (hf : Fires (toBpmn N) y c d) {M : Flow → Nat} (hM : ∀ f, c.count f ≤ M f) (p : Nat) :
    abs N (fun f => M f - c.count f + d.count f) p + (c.map (weight N p)).sum = abs N M p + (d.map (weight N p)).sum :=
  wsum_step _ (nodup_flows h) _ _ _ _ (fires_sub hf).1 (fires_sub hf).2 hM

theorem mem_nodes (y : Node) : y ∈ (toBpmn N).nodes ↔ match y with
    | .place p => p ∈ N.places
    | .silent t => t ∈ silents N
    | .enter t => t ∈ visible N
    | .task t => t ∈ visible N
    | .leave t => t ∈ visible N
    | .start => True
    | .stop => True := by
  unfold toBpmn
  cases y <;> simp

theorem abs_place (h : NetWF N) {q : Nat} {c d : List Flow} (hf : Fires (toBpmn N) (.place q) c d) {M : Flow → Nat} (hM : ∀ f, c.count f ≤ M f) :
    abs N (fun f => M f - c.count f + d.count f) = abs N M := by
  funext p
  have h1 := abs_step h hf hM p
  have hk : (toBpmn N).kind (.place q) = .exclusive := rfl
  unfold Fires at hf
  rw [hk] at hf
  obtain ⟨a, ha, b, hb, rfl, rfl⟩ := hf
  simp only [List.map_cons, List.map_nil, List.sum_cons, List.sum_nil, weight_place_in ((mem_ins _ _).1 ha).2, weight_place_out ((mem_outs _ _).1 hb).2] at h1
  omega

/-- a step of the diagram is a step of the net, or does not change the net marking -/
theorem bpmn_to_net (h : NetWF N) {M M' : Flow → Nat} {l : Option String} (hs : bpmnStep (toBpmn N) M l M') :
    (abs N M' = abs N M ∧ l = none) ∨ netStep N (abs N M) l (abs N M') := by
  obtain ⟨y, hy, c, d, hf, hM, rfl, rfl⟩ := hs
  rw [mem_nodes] at hy
  have hst := fun p => abs_step h hf hM p
  cases y with
  | place q => exact .inl ⟨abs_place h hf hM, rfl⟩
  | silent t =>
    obtain ⟨h1, h2⟩ := (mem_silents t).1 hy
    have ei : entering N t = .silent t := by unfold entering; rw [if_pos h2]
    have eo : exiting N t = .silent t := by unfold exiting; rw [if_pos h2]
    obtain ⟨rfl, rfl⟩ := (fires_silent h t hy _ _).1 hf
    right
    have wi := weight_pre h t h1
    have wo := weight_post h t h1
    rw [ei] at wi
    rw [eo] at wo
    have hle : ∀ p, (if p ∈ N.pre t then 1 else 0) ≤ abs N M p := by
      intro p
      by_cases hp : p ∈ N.pre t
      · rw [if_pos hp]
        have hmem : Flow.arcIn p t ∈ ins (toBpmn N) (.silent t) := by rw [mem_ins]; exact ⟨⟨h1, hp⟩, ei⟩
        have h3 := hM (.arcIn p t)
        have h4 := List.count_pos_iff.2 hmem
        have h5 := le_wsum (toBpmn N).flows (weight N p) M (.arcIn p t) ((mem_flows _).2 ⟨h1, hp⟩)
        have h6 : weight N p (.arcIn p t) = 1 := by simp [weight]
        rw [h6] at h5
        unfold abs; omega
      · rw [if_neg hp]; omega
    refine ⟨t, h1, fun p hp => by have := hle p; rw [if_pos hp] at this; exact this, ?_, ?_⟩
    · rw [h2]
      have hk : (toBpmn N).kind (.silent t) = if (N.pre t).length > 1 then .parallel else if (N.post t).length > 1 then .parallel else .exclusive := rfl
      rw [hk]; split; · rfl
      split <;> rfl
    · funext p
      have h3 := hst p
      rw [wi, wo] at h3
      have := hle p
      omega
  | enter t =>
    obtain ⟨h1, h2⟩ := (mem_visible t).1 hy
    have ei : entering N t = .enter t := by unfold entering; rw [if_neg h2]
    obtain ⟨rfl, rfl⟩ := (fires_enter h t hy _ _).1 hf
    left
    have wi := weight_pre h t h1
    rw [ei] at wi
    refine ⟨?_, ?_⟩
    · funext p
      have h3 := hst p
      rw [wi] at h3
      have e : ((outs (toBpmn N) (.enter t)).map (weight N p)).sum = if p ∈ N.pre t then 1 else 0 := by rw [outs_enter h t hy]; simp [weight]
      rw [e] at h3
      omega
    · have hk : (toBpmn N).kind (.enter t) = if (N.pre t).length > 1 then .parallel else .exclusive := rfl
      rw [hk]; split <;> rfl
  | task t =>
    obtain ⟨h1, h2⟩ := (mem_visible t).1 hy
    obtain ⟨rfl, rfl⟩ := (fires_task h t hy _ _).1 hf
    right
    have wi : ∀ p, ((ins (toBpmn N) (.task t)).map (weight N p)).sum = if p ∈ N.pre t then 1 else 0 := fun p => by rw [ins_task h t hy]; simp [weight]
    have wo : ∀ p, ((outs (toBpmn N) (.task t)).map (weight N p)).sum = if p ∈ N.post t then 1 else 0 := fun p => by rw [outs_task h t hy]; simp [weight]
    have hle : ∀ p, (if p ∈ N.pre t then 1 else 0) ≤ abs N M p := by
      intro p
      have h3 := hM (.toTask t)
      rw [ins_task h t hy] at h3
      simp only [List.count_singleton_self] at h3
      have h5 := le_wsum (toBpmn N).flows (weight N p) M (.toTask t) ((mem_flows _).2 hy)
      have h6 : weight N p (.toTask t) = if p ∈ N.pre t then 1 else 0 := rfl
      rw [h6] at h5
      unfold abs
      by_cases hp : p ∈ N.pre t
      · simp only [if_pos hp] at *; omega
      · simp only [if_neg hp]; omega
    refine ⟨t, h1, fun p hp => by have := hle p; rw [if_pos hp] at this; exact this, ?_, ?_⟩
    · have hk : (toBpmn N).kind (.task t) = .activity ((N.label t).getD "") := rfl
      rw [hk]
      cases hl : N.label t with
      | none => exact absurd hl h2
      | some a => rfl
    · funext p
      have h3 := hst p
      rw [wi, wo] at h3
      have := hle p
      omega
  | leave t =>
    obtain ⟨h1, h2⟩ := (mem_visible t).1 hy
    have eo : exiting N t = .leave t := by unfold exiting; rw [if_neg h2]
    obtain ⟨rfl, rfl⟩ := (fires_leave h t hy _ _).1 hf
    left
    have wo := weight_post h t h1
    rw [eo] at wo
    refine ⟨?_, ?_⟩
    · funext p
      have h3 := hst p
      rw [wo] at h3
      have e : ((ins (toBpmn N) (.leave t)).map (weight N p)).sum = if p ∈ N.post t then 1 else 0 := by rw [ins_leave h t hy]; simp [weight]
      rw [e] at h3
      omega
    · have hk : (toBpmn N).kind (.leave t) = if (N.post t).length > 1 then .parallel else .exclusive := rfl
      rw [hk]; split <;> rfl
  | start => exact absurd hf (by unfold Fires; exact id)
  | stop => exact absurd hf (by unfold Fires; exact id)

theorem init_count (h : NetWF N) : (fun f => if f ∈ (toBpmn N).flows ∧ (toBpmn N).src f = (toBpmn N).start then 1 else 0) = fun f => (N.im.map Flow.init).count f := by
  funext f
  have hn : (N.im.map Flow.init).Nodup := h.im.1.map fun a b e => Flow.init.inj e
  by_cases hA : f ∈ (toBpmn N).flows ∧ (toBpmn N).src f = (toBpmn N).start
  · rw [if_pos hA]
    have h1 := (mem_flows f).1 hA.1
    have h2 : srcOf N f = .start := hA.2
    cases f with
    | init p => exact (List.count_eq_one_of_mem hn (List.mem_map.2 ⟨p, h1, rfl⟩)).symm
    | arcOut t p => simp only [srcOf, exiting] at h2; split at h2 <;> cases h2
    | _ => cases h2
  · rw [if_neg hA, eq_comm, List.count_eq_zero]
    intro hm
    obtain ⟨p, hp, rfl⟩ := List.mem_map.1 hm
    exact hA ⟨(mem_flows _).2 hp, rfl⟩

theorem fin_count (h : NetWF N) : (fun f => if f ∈ (toBpmn N).flows ∧ (toBpmn N).tgt f = (toBpmn N).stop then 1 else 0) = fun f => (N.fm.map Flow.fin).count f := by
  funext f
  have hn : (N.fm.map Flow.fin).Nodup := h.fm.1.map fun a b e => Flow.fin.inj e
  by_cases hA : f ∈ (toBpmn N).flows ∧ (toBpmn N).tgt f = (toBpmn N).stop
  · rw [if_pos hA]
    have h1 := (mem_flows f).1 hA.1
    have h2 : tgtOf N f = .stop := hA.2
    cases f with
    | fin p => exact (List.count_eq_one_of_mem hn (List.mem_map.2 ⟨p, h1, rfl⟩)).symm
    | arcIn p t => simp only [tgtOf, entering] at h2; split at h2 <;> cases h2
    | _ => cases h2
  · rw [if_neg hA, eq_comm, List.count_eq_zero]
    intro hm
    obtain ⟨p, hp, rfl⟩ := List.mem_map.1 hm
    exact hA ⟨(mem_flows _).2 hp, rfl⟩

theorem abs_init (h : NetWF N) : abs N (fun f => (N.im.map Flow.init).count f) = fun p => if p ∈ N.im then 1 else 0 := by
  funext p
  unfold abs
  rw [wsum_count _ (nodup_flows h) _ _ (fun f hf => by obtain ⟨q, hq, rfl⟩ := List.mem_map.1 hf; exact (mem_flows _).2 hq), List.map_map]
  exact sum_ind _ h.im.1 p

theorem abs_fin (h : NetWF N) : abs N (fun f => (N.fm.map Flow.fin).count f) = fun p => if p ∈ N.fm then 1 else 0 := by
  funext p
  unfold abs
  rw [wsum_count _ (nodup_flows h) _ _ (fun f hf => by obtain ⟨q, hq, rfl⟩ := List.mem_map.1 hf; exact (mem_flows _).2 hq), List.map_map]
  exact sum_ind _ h.fm.1 p

theorem run_to_net (h : NetWF N) {M M' : Flow → Nat} {w : List String} (hr : Run (bpmnStep (toBpmn N)) M w M') : Run (netStep N) (abs N M) w (abs N M') := by
  induction hr with
  | nil => exact .nil _
  | snoc _ hs ih =>
    rcases bpmn_to_net h hs with ⟨h1, h2⟩ | h1
    · rw [h1, h2]; simpa using ih
    · exact ih.snoc h1

end NetBpmn
end Verif
