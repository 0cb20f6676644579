import Verif.Bpmn.Spec
import Verif.Bpmn.Hub
import Verif.Convert.Apply
/-
The net of a BPMN graph consists of the three-step nodes (C65).
-/
set_option linter.unusedSectionVars false
set_option linter.unusedSimpArgs false
namespace Verif
namespace Bpmn
open Conv Sys

@[simp] theorem nodeT_inj (a b : Nat) : nodeT a = nodeT b ↔ a = b := by unfold nodeT; omega
@[simp] theorem nodeT_exitT (a b : Nat) : nodeT a = exitT b ↔ False := iff_false_intro (by unfold nodeT exitT; omega)
@[simp] theorem nodeT_enterT (a b : Nat) : nodeT a = enterT b ↔ False := iff_false_intro (by unfold nodeT enterT; omega)
@[simp] theorem nodeT_startT (a b : Nat) : nodeT a = startT b ↔ False := iff_false_intro (by unfold nodeT startT; omega)
@[simp] theorem nodeT_endT (a b : Nat) : nodeT a = endT b ↔ False := iff_false_intro (by unfold nodeT endT; omega)
@[simp] theorem nodeT_sflT (a b : Nat) : nodeT a = sflT b ↔ False := iff_false_intro (by unfold nodeT sflT; omega)
@[simp] theorem nodeT_tflT (a b : Nat) : nodeT a = tflT b ↔ False := iff_false_intro (by unfold nodeT tflT; omega)
@[simp] theorem exitT_nodeT (a b : Nat) : exitT a = nodeT b ↔ False := iff_false_intro (by unfold exitT nodeT; omega)
@[simp] theorem exitT_inj (a b : Nat) : exitT a = exitT b ↔ a = b := by unfold exitT; omega
@[simp] theorem exitT_enterT (a b : Nat) : exitT a = enterT b ↔ False := iff_false_intro (by unfold exitT enterT; omega)
@[simp] theorem exitT_startT (a b : Nat) : exitT a = startT b ↔ False := iff_false_intro (by unfold exitT startT; omega)
@[simp] theorem exitT_endT (a b : Nat) : exitT a = endT b ↔ False := iff_false_intro (by unfold exitT endT; omega)
@[simp] theorem exitT_sflT (a b : Nat) : exitT a = sflT b ↔ False := iff_false_intro (by unfold exitT sflT; omega)
@[simp] theorem exitT_tflT (a b : Nat) : exitT a = tflT b ↔ False := iff_false_intro (by unfold exitT tflT; omega)
@[simp] theorem enterT_nodeT (a b : Nat) : enterT a = nodeT b ↔ False := iff_false_intro (by unfold enterT nodeT; omega)
@[simp] theorem enterT_exitT (a b : Nat) : enterT a = exitT b ↔ False := iff_false_intro (by unfold enterT exitT; omega)
@[simp] theorem enterT_inj (a b : Nat) : enterT a = enterT b ↔ a = b := by unfold enterT; omega
@[simp] theorem enterT_startT (a b : Nat) : enterT a = startT b ↔ False := iff_false_intro (by unfold enterT startT; omega)
@[simp] theorem enterT_endT (a b : Nat) : enterT a = endT b ↔ False := iff_false_intro (by unfold enterT endT; omega)
@[simp] theorem enterT_sflT (a b : Nat) : enterT a = sflT b ↔ False := iff_false_intro (by unfold enterT sflT; omega)
@[simp] theorem enterT_tflT (a b : Nat) : enterT a = tflT b ↔ False := iff_false_intro (by unfold enterT tflT; omega)
@[simp] theorem startT_nodeT (a b : Nat) : startT a = nodeT b ↔ False := iff_false_intro (by unfold startT nodeT; omega)
@[simp] theorem startT_exitT (a b : Nat) : startT a = exitT b ↔ False := iff_false_intro (by unfold startT exitT; omega)
@[simp] theorem startT_enterT (a b : Nat) : startT a = enterT b ↔ False := iff_false_intro (by unfold startT enterT; omega)
@[simp] theorem startT_inj (a b : Nat) : startT a = startT b ↔ a = b := by unfold startT; omega
@[simp] theorem startT_endT (a b : Nat) : startT a = endT b ↔ False := iff_false_intro (by unfold startT endT; omega)
@[simp] theorem startT_sflT (a b : Nat) : startT a = sflT b ↔ False := iff_false_intro (by unfold startT sflT; omega)
@[simp] theorem startT_tflT (a b : Nat) : startT a = tflT b ↔ False := iff_false_intro (by unfold startT tflT; omega)
@[simp] theorem endT_nodeT (a b : Nat) : endT a = nodeT b ↔ False := iff_false_intro (by unfold endT nodeT; omega)
@[simp] theorem endT_exitT (a b : Nat) : endT a = exitT b ↔ False := iff_false_intro (by unfold endT exitT; omega)
@[simp] theorem endT_enterT (a b : Nat) : endT a = enterT b ↔ False := iff_false_intro (by unfold endT enterT; omega)
@[simp] theorem endT_startT (a b : Nat) : endT a = startT b ↔ False := iff_false_intro (by unfold endT startT; omega)
@[simp] theorem endT_inj (a b : Nat) : endT a = endT b ↔ a = b := by unfold endT; omega
@[simp] theorem endT_sflT (a b : Nat) : endT a = sflT b ↔ False := iff_false_intro (by unfold endT sflT; omega)
@[simp] theorem endT_tflT (a b : Nat) : endT a = tflT b ↔ False := iff_false_intro (by unfold endT tflT; omega)
@[simp] theorem sflT_nodeT (a b : Nat) : sflT a = nodeT b ↔ False := iff_false_intro (by unfold sflT nodeT; omega)
@[simp] theorem sflT_exitT (a b : Nat) : sflT a = exitT b ↔ False := iff_false_intro (by unfold sflT exitT; omega)
@[simp] theorem sflT_enterT (a b : Nat) : sflT a = enterT b ↔ False := iff_false_intro (by unfold sflT enterT; omega)
@[simp] theorem sflT_startT (a b : Nat) : sflT a = startT b ↔ False := iff_false_intro (by unfold sflT startT; omega)
@[simp] theorem sflT_endT (a b : Nat) : sflT a = endT b ↔ False := iff_false_intro (by unfold sflT endT; omega)
@[simp] theorem sflT_inj (a b : Nat) : sflT a = sflT b ↔ a = b := by unfold sflT; omega
@[simp] theorem sflT_tflT (a b : Nat) : sflT a = tflT b ↔ False := iff_false_intro (by unfold sflT tflT; omega)
@[simp] theorem tflT_nodeT (a b : Nat) : tflT a = nodeT b ↔ False := iff_false_intro (by unfold tflT nodeT; omega)
@[simp] theorem tflT_exitT (a b : Nat) : tflT a = exitT b ↔ False := iff_false_intro (by unfold tflT exitT; omega)
@[simp] theorem tflT_enterT (a b : Nat) : tflT a = enterT b ↔ False := iff_false_intro (by unfold tflT enterT; omega)
@[simp] theorem tflT_startT (a b : Nat) : tflT a = startT b ↔ False := iff_false_intro (by unfold tflT startT; omega)
@[simp] theorem tflT_endT (a b : Nat) : tflT a = endT b ↔ False := iff_false_intro (by unfold tflT endT; omega)
@[simp] theorem tflT_sflT (a b : Nat) : tflT a = sflT b ↔ False := iff_false_intro (by unfold tflT sflT; omega)
@[simp] theorem tflT_inj (a b : Nat) : tflT a = tflT b ↔ a = b := by unfold tflT; omega

/-! ### pieces of a net -/

theorem flat_trans {β : Type} (k : β → Gr String) (l : List β) : (flat k l).trans = l.flatMap fun x => (k x).trans := by
  induction l with
  | nil => rfl
  | cons x xs ih => simp [flat, ih]

theorem flat_places {β : Type} (k : β → Gr String) (l : List β) : (flat k l).places = l.flatMap fun x => (k x).places := by
  induction l with
  | nil => rfl
  | cons x xs ih => simp [flat, ih]

theorem flat_pt {β : Type} (k : β → Gr String) (l : List β) : (flat k l).pt = l.flatMap fun x => (k x).pt := by
  induction l with
  | nil => rfl
  | cons x xs ih => simp [flat, ih]

theorem flat_tp {β : Type} (k : β → Gr String) (l : List β) : (flat k l).tp = l.flatMap fun x => (k x).tp := by
  induction l with
  | nil => rfl
  | cons x xs ih => simp [flat, ih]

theorem flat_pre {β : Type} (k : β → Gr String) (l : List β) (t : Nat) : (flat k l).pre t = l.flatMap fun x => (k x).pre t := by
  induction l with
  | nil => rfl
  | cons x xs ih => simp [flat, ih]

theorem flat_post {β : Type} (k : β → Gr String) (l : List β) (t : Nat) : (flat k l).post t = l.flatMap fun x => (k x).post t := by
  induction l with
  | nil => rfl
  | cons x xs ih => simp [flat, ih]

theorem build_pre (g : Graph) (t : Nat) : g.build.pre t =
    (g.nodes.flatMap fun n => (g.nodeNet n).pre t) ++ g.flows.flatMap fun f => (g.flowNet f).pre t := by
  simp [Graph.build, flat_pre]

theorem build_post (g : Graph) (t : Nat) : g.build.post t =
    (g.nodes.flatMap fun n => (g.nodeNet n).post t) ++ g.flows.flatMap fun f => (g.flowNet f).post t := by
  simp [Graph.build, flat_post]

theorem build_trans (g : Graph) : g.build.trans =
    (g.nodes.flatMap fun n => (g.nodeNet n).trans) ++ g.flows.flatMap fun f => (g.flowNet f).trans := by
  simp [Graph.build, flat_trans]

@[simp] theorem empty_pre (t : Nat) : ({} : Gr String).pre t = [] := rfl
@[simp] theorem empty_post (t : Nat) : ({} : Gr String).post t = [] := rfl
@[simp] theorem empty_trans : ({} : Gr String).trans = [] := rfl

section nodeNet
variable (g : Graph) (m : Node) (k : Nat)

local macro "nn" : tactic => `(tactic| (
  unfold Graph.nodeNet
  (repeat' split) <;> simp_all [List.filter_cons] <;> (first | done | (split <;> simp_all))))

local macro "nx" : tactic => `(tactic| (
  unfold Graph.nodeNet
  by_cases hk : m.id = k <;> by_cases ho : (g.outFlows m.id).length > 1 <;> by_cases hi : (g.inFlows m.id).length > 1 <;>
    cases hm : m.kind <;> simp [hk, ho, hi, hm, Kind.sync, List.filter_cons] <;> simp_all <;> (first | done | (split <;> (first | omega | simp_all) <;> (first | done | (split <;> first | omega | simp_all))))))

theorem nodeNet_pre_node : (g.nodeNet m).pre (nodeT k) = if m.id = k ∧ m.kind ≠ .other then [g.entP m.id] else [] := by nn
theorem nodeNet_post_node : (g.nodeNet m).post (nodeT k) = if m.id = k ∧ m.kind ≠ .other then [g.exiP m.id] else [] := by nn
theorem nodeNet_pre_exit : (g.nodeNet m).pre (exitT k) =
    if m.id = k ∧ m.kind.sync = true ∧ (g.outFlows m.id).length > 1 ∧ m.kind ≠ .other then [g.exiP m.id] else [] := by nx
theorem nodeNet_post_exit : (g.nodeNet m).post (exitT k) = [] := by nn
theorem nodeNet_pre_enter : (g.nodeNet m).pre (enterT k) = [] := by nn
theorem nodeNet_post_enter : (g.nodeNet m).post (enterT k) =
    if m.id = k ∧ m.kind.sync = true ∧ (g.inFlows m.id).length > 1 ∧ m.kind ≠ .other then [g.entP m.id] else [] := by nx
theorem nodeNet_pre_start : (g.nodeNet m).pre (startT k) = if m.id = k ∧ m.kind = .start then [0] else [] := by nn
theorem nodeNet_post_start : (g.nodeNet m).post (startT k) = if m.id = k ∧ m.kind = .start then [g.entP m.id] else [] := by nn
theorem nodeNet_pre_end : (g.nodeNet m).pre (endT k) = if m.id = k ∧ m.kind = .fin then [g.exiP m.id] else [] := by nn
theorem nodeNet_post_end : (g.nodeNet m).post (endT k) = if m.id = k ∧ m.kind = .fin then [1] else [] := by nn
theorem nodeNet_pre_sfl : (g.nodeNet m).pre (sflT k) = [] := by nn
theorem nodeNet_post_sfl : (g.nodeNet m).post (sflT k) = [] := by nn
theorem nodeNet_pre_tfl : (g.nodeNet m).pre (tflT k) = [] := by nn
theorem nodeNet_post_tfl : (g.nodeNet m).post (tflT k) = [] := by nn

end nodeNet

/-- `nodes_exiting` is a transition -/
def Graph.splits (g : Graph) (n : Nat) : Prop := (g.kindOf n).sync = true ∧ (g.outFlows n).length > 1
/-- `nodes_entering` is a transition -/
def Graph.joins (g : Graph) (n : Nat) : Prop := (g.kindOf n).sync = true ∧ (g.inFlows n).length > 1
instance (g : Graph) (n : Nat) : Decidable (g.splits n) := by unfold Graph.splits; infer_instance
instance (g : Graph) (n : Nat) : Decidable (g.joins n) := by unfold Graph.joins; infer_instance

theorem exiting_eq (g : Graph) (n : Nat) : g.exiting n = if g.splits n then .trans (exitT n) else .place (g.exiP n) := by
  unfold Graph.exiting
  by_cases h : g.splits n
  · rw [if_pos h, if_pos (by simpa [Graph.splits] using h)]
  · rw [if_neg h, if_neg (by simpa [Graph.splits] using h)]

theorem entering_eq (g : Graph) (n : Nat) : g.entering n = if g.joins n then .trans (enterT n) else .place (g.entP n) := by
  unfold Graph.entering
  by_cases h : g.joins n
  · rw [if_pos h, if_pos (by simpa [Graph.joins] using h)]
  · rw [if_neg h, if_neg (by simpa [Graph.joins] using h)]

section flowNet
variable (g : Graph) (f : Flow) (k : Nat) (h1 : g.kindOf f.src ≠ .other) (h2 : g.kindOf f.tgt ≠ .other)
include h1 h2

local macro "ff" : tactic => `(tactic| (
  unfold Graph.flowNet
  rw [if_pos ⟨‹_›, ‹_›⟩, exiting_eq, entering_eq]
  by_cases hs : g.splits f.src <;> by_cases hj : g.joins f.tgt <;> simp [hs, hj, List.filter_cons] <;>
    (first | done | (split <;> simp_all))))

theorem flowNet_pre_node : (g.flowNet f).pre (nodeT k) = [] := by ff
theorem flowNet_post_node : (g.flowNet f).post (nodeT k) = [] := by ff
theorem flowNet_pre_exit : (g.flowNet f).pre (exitT k) = [] := by ff
theorem flowNet_post_exit : (g.flowNet f).post (exitT k) = if f.src = k ∧ g.splits f.src then [flowPlace f] else [] := by ff
theorem flowNet_pre_enter : (g.flowNet f).pre (enterT k) = if f.tgt = k ∧ g.joins f.tgt then [flowPlace f] else [] := by ff
theorem flowNet_post_enter : (g.flowNet f).post (enterT k) = [] := by ff
theorem flowNet_pre_start : (g.flowNet f).pre (startT k) = [] := by ff
theorem flowNet_post_start : (g.flowNet f).post (startT k) = [] := by ff
theorem flowNet_pre_end : (g.flowNet f).pre (endT k) = [] := by ff
theorem flowNet_post_end : (g.flowNet f).post (endT k) = [] := by ff
theorem flowNet_pre_sfl : (g.flowNet f).pre (sflT k) = if f.id = k ∧ ¬ g.splits f.src then [g.exiP f.src] else [] := by ff
theorem flowNet_post_sfl : (g.flowNet f).post (sflT k) = if f.id = k ∧ ¬ g.splits f.src then [flowPlace f] else [] := by ff
theorem flowNet_pre_tfl : (g.flowNet f).pre (tflT k) = if f.id = k ∧ ¬ g.joins f.tgt then [flowPlace f] else [] := by ff
theorem flowNet_post_tfl : (g.flowNet f).post (tflT k) = if f.id = k ∧ ¬ g.joins f.tgt then [g.entP f.tgt] else [] := by ff
theorem flowNet_trans : (g.flowNet f).trans = (if g.splits f.src then [] else [(sflT f.id, none)]) ++
    if g.joins f.tgt then [] else [(tflT f.id, none)] := by ff

end flowNet

/-! ### the transitions -/

theorem flatMap_none {β γ : Type} {l : List β} {F : β → List γ} (h : ∀ x ∈ l, F x = []) : l.flatMap F = [] := by
  induction l with
  | nil => rfl
  | cons x xs ih => rw [List.flatMap_cons, h x (by simp), ih fun y hy => h y (by simp [hy])]; rfl

theorem flatMap_congr' {β γ : Type} {l : List β} {F G : β → List γ} (h : ∀ x ∈ l, F x = G x) : l.flatMap F = l.flatMap G := by
  induction l with
  | nil => rfl
  | cons x xs ih => rw [List.flatMap_cons, List.flatMap_cons, h x (by simp), ih fun y hy => h y (by simp [hy])]

theorem flatMap_one {β γ : Type} {key : β → Nat} {l : List β} (hn : (l.map key).Nodup) {x : β} (hx : x ∈ l) {F : β → List γ}
    (h : ∀ y ∈ l, key y ≠ key x → F y = []) : l.flatMap F = F x := by
  induction l with
  | nil => simp at hx
  | cons y ys ih =>
    simp only [List.map_cons, List.nodup_cons, List.mem_map, not_exists, not_and] at hn
    rw [List.flatMap_cons]
    rcases List.mem_cons.1 hx with rfl | hx
    · rw [flatMap_none fun y hy => h y (by simp [hy]) (hn.1 y hy), List.append_nil]
    · rw [h y (by simp) (fun e => hn.1 x hx e.symm), ih hn.2 hx fun z hz => h z (by simp [hz]), List.nil_append]

theorem flatMap_filter {β γ : Type} (l : List β) (P : β → Prop) [DecidablePred P] (F : β → γ) :
    (l.flatMap fun x => if P x then [F x] else []) = (l.filter fun x => decide (P x)).map F := by
  induction l with
  | nil => rfl
  | cons x xs ih => rw [List.flatMap_cons, ih]; by_cases h : P x <;> simp [h]

theorem kindOf_node {g : Graph} (hn : (g.nodes.map Node.id).Nodup) {n : Node} (h : n ∈ g.nodes) : g.kindOf n.id = n.kind := by
  have : g.nodes.find? (fun x => x.id == n.id) = some n := by
    revert hn h
    generalize g.nodes = l
    intro hn h
    induction l with
    | nil => simp at h
    | cons y ys ih =>
      simp only [List.map_cons, List.nodup_cons, List.mem_map, not_exists, not_and] at hn
      rw [List.find?_cons]
      rcases List.mem_cons.1 h with rfl | h
      · simp
      · have : (y.id == n.id) = false := by
          simp only [beq_eq_false_iff_ne, ne_eq]; exact fun e => hn.1 n h e.symm
        rw [this]; exact ih hn.2 h
  rw [Graph.kindOf, this]; rfl

namespace Graph.OK
variable {g : Graph}

theorem ksrc (ok : g.OK) {f : Flow} (hf : f ∈ g.flows) : g.kindOf f.src ≠ .other := by
  obtain ⟨n, hn, e, hk⟩ := ok.src f hf
  rw [← e, kindOf_node ok.nodes hn]; exact hk

theorem ktgt (ok : g.OK) {f : Flow} (hf : f ∈ g.flows) : g.kindOf f.tgt ≠ .other := by
  obtain ⟨n, hn, e, hk⟩ := ok.tgt f hf
  rw [← e, kindOf_node ok.nodes hn]; exact hk

theorem splits_iff (ok : g.OK) {n : Node} (h : n ∈ g.nodes) : g.splits n.id ↔ n.kind.sync = true ∧ (g.outFlows n.id).length > 1 := by
  rw [Graph.splits, kindOf_node ok.nodes h]

theorem joins_iff (ok : g.OK) {n : Node} (h : n ∈ g.nodes) : g.joins n.id ↔ n.kind.sync = true ∧ (g.inFlows n.id).length > 1 := by
  rw [Graph.joins, kindOf_node ok.nodes h]

variable (ok : g.OK)
include ok

theorem node_tr {n : Node} (h : n ∈ g.nodes) (hk : n.kind ≠ .other) :
    g.build.pre (nodeT n.id) = [g.entP n.id] ∧ g.build.post (nodeT n.id) = [g.exiP n.id] := by
  rw [build_pre, build_post]
  constructor
  · rw [flatMap_one ok.nodes h (fun m _ hm => by rw [nodeNet_pre_node, if_neg fun e => hm e.1]), nodeNet_pre_node, if_pos ⟨rfl, hk⟩,
      flatMap_none fun f hf => flowNet_pre_node g f _ (ok.ksrc hf) (ok.ktgt hf)]; rfl
  · rw [flatMap_one ok.nodes h (fun m _ hm => by rw [nodeNet_post_node, if_neg fun e => hm e.1]), nodeNet_post_node, if_pos ⟨rfl, hk⟩,
      flatMap_none fun f hf => flowNet_post_node g f _ (ok.ksrc hf) (ok.ktgt hf)]; rfl

theorem start_tr {n : Node} (h : n ∈ g.nodes) (hk : n.kind = .start) :
    g.build.pre (startT n.id) = [0] ∧ g.build.post (startT n.id) = [g.entP n.id] := by
  rw [build_pre, build_post]
  constructor
  · rw [flatMap_one ok.nodes h (fun m _ hm => by rw [nodeNet_pre_start, if_neg fun e => hm e.1]), nodeNet_pre_start, if_pos ⟨rfl, hk⟩,
      flatMap_none fun f hf => flowNet_pre_start g f _ (ok.ksrc hf) (ok.ktgt hf)]; rfl
  · rw [flatMap_one ok.nodes h (fun m _ hm => by rw [nodeNet_post_start, if_neg fun e => hm e.1]), nodeNet_post_start, if_pos ⟨rfl, hk⟩,
      flatMap_none fun f hf => flowNet_post_start g f _ (ok.ksrc hf) (ok.ktgt hf)]; rfl

theorem end_tr {n : Node} (h : n ∈ g.nodes) (hk : n.kind = .fin) :
    g.build.pre (endT n.id) = [g.exiP n.id] ∧ g.build.post (endT n.id) = [1] := by
  rw [build_pre, build_post]
  constructor
  · rw [flatMap_one ok.nodes h (fun m _ hm => by rw [nodeNet_pre_end, if_neg fun e => hm e.1]), nodeNet_pre_end, if_pos ⟨rfl, hk⟩,
      flatMap_none fun f hf => flowNet_pre_end g f _ (ok.ksrc hf) (ok.ktgt hf)]; rfl
  · rw [flatMap_one ok.nodes h (fun m _ hm => by rw [nodeNet_post_end, if_neg fun e => hm e.1]), nodeNet_post_end, if_pos ⟨rfl, hk⟩,
      flatMap_none fun f hf => flowNet_post_end g f _ (ok.ksrc hf) (ok.ktgt hf)]; rfl

theorem exit_tr {n : Node} (h : n ∈ g.nodes) (hk : n.kind ≠ .other) (hs : g.splits n.id) :
    g.build.pre (exitT n.id) = [g.exiP n.id] ∧ g.build.post (exitT n.id) = (g.outFlows n.id).map flowPlace := by
  have hs' := (ok.splits_iff h).1 hs
  rw [build_pre, build_post]
  constructor
  · rw [flatMap_one ok.nodes h (fun m _ hm => by rw [nodeNet_pre_exit, if_neg fun e => hm e.1]), nodeNet_pre_exit,
      if_pos ⟨rfl, hs'.1, hs'.2, hk⟩, flatMap_none fun f hf => flowNet_pre_exit g f _ (ok.ksrc hf) (ok.ktgt hf)]; rfl
  · rw [flatMap_none fun m _ => nodeNet_post_exit g m _, List.nil_append, Graph.outFlows]
    have : ∀ f ∈ g.flows, (g.flowNet f).post (exitT n.id) = if f.src = n.id then [flowPlace f] else [] := by
      intro f hf
      rw [flowNet_post_exit g f _ (ok.ksrc hf) (ok.ktgt hf)]
      by_cases e : f.src = n.id
      · rw [if_pos ⟨e, e ▸ hs⟩, if_pos e]
      · rw [if_neg fun c => e c.1, if_neg e]
    rw [flatMap_congr' this, flatMap_filter]
    congr 2

theorem enter_tr {n : Node} (h : n ∈ g.nodes) (hk : n.kind ≠ .other) (hs : g.joins n.id) :
    g.build.pre (enterT n.id) = (g.inFlows n.id).map flowPlace ∧ g.build.post (enterT n.id) = [g.entP n.id] := by
  have hs' := (ok.joins_iff h).1 hs
  rw [build_pre, build_post]
  constructor
  · rw [flatMap_none fun m _ => nodeNet_pre_enter g m _, List.nil_append, Graph.inFlows]
    have : ∀ f ∈ g.flows, (g.flowNet f).pre (enterT n.id) = if f.tgt = n.id then [flowPlace f] else [] := by
      intro f hf
      rw [flowNet_pre_enter g f _ (ok.ksrc hf) (ok.ktgt hf)]
      by_cases e : f.tgt = n.id
      · rw [if_pos ⟨e, e ▸ hs⟩, if_pos e]
      · rw [if_neg fun c => e c.1, if_neg e]
    rw [flatMap_congr' this, flatMap_filter]
    congr 2
  · rw [flatMap_one ok.nodes h (fun m _ hm => by rw [nodeNet_post_enter, if_neg fun e => hm e.1]), nodeNet_post_enter,
      if_pos ⟨rfl, hs'.1, hs'.2, hk⟩, flatMap_none fun f hf => flowNet_post_enter g f _ (ok.ksrc hf) (ok.ktgt hf)]; rfl

theorem sfl_tr {f : Flow} (h : f ∈ g.flows) (hs : ¬ g.splits f.src) :
    g.build.pre (sflT f.id) = [g.exiP f.src] ∧ g.build.post (sflT f.id) = [flowPlace f] := by
  rw [build_pre, build_post]
  constructor
  · rw [flatMap_none fun m _ => nodeNet_pre_sfl g m _, List.nil_append, flatMap_one ok.flows h (fun m hm' hm => by
      rw [flowNet_pre_sfl g m _ (ok.ksrc hm') (ok.ktgt hm'), if_neg fun e => hm e.1]),
      flowNet_pre_sfl g f _ (ok.ksrc h) (ok.ktgt h), if_pos ⟨rfl, hs⟩]
  · rw [flatMap_none fun m _ => nodeNet_post_sfl g m _, List.nil_append, flatMap_one ok.flows h (fun m hm' hm => by
      rw [flowNet_post_sfl g m _ (ok.ksrc hm') (ok.ktgt hm'), if_neg fun e => hm e.1]),
      flowNet_post_sfl g f _ (ok.ksrc h) (ok.ktgt h), if_pos ⟨rfl, hs⟩]

theorem tfl_tr {f : Flow} (h : f ∈ g.flows) (hs : ¬ g.joins f.tgt) :
    g.build.pre (tflT f.id) = [flowPlace f] ∧ g.build.post (tflT f.id) = [g.entP f.tgt] := by
  rw [build_pre, build_post]
  constructor
  · rw [flatMap_none fun m _ => nodeNet_pre_tfl g m _, List.nil_append, flatMap_one ok.flows h (fun m hm' hm => by
      rw [flowNet_pre_tfl g m _ (ok.ksrc hm') (ok.ktgt hm'), if_neg fun e => hm e.1]),
      flowNet_pre_tfl g f _ (ok.ksrc h) (ok.ktgt h), if_pos ⟨rfl, hs⟩]
  · rw [flatMap_none fun m _ => nodeNet_post_tfl g m _, List.nil_append, flatMap_one ok.flows h (fun m hm' hm => by
      rw [flowNet_post_tfl g m _ (ok.ksrc hm') (ok.ktgt hm'), if_neg fun e => hm e.1]),
      flowNet_post_tfl g f _ (ok.ksrc h) (ok.ktgt h), if_pos ⟨rfl, hs⟩]

end Graph.OK

/-- the transitions that belong to a node -/
theorem mem_nodeNet {g : Graph} {n : Node} {a : Nat × Option String} : a ∈ (g.nodeNet n).trans ↔ n.kind ≠ .other ∧
    (a = (nodeT n.id, n.label) ∨ (n.kind.sync = true ∧ (g.outFlows n.id).length > 1 ∧ a = (exitT n.id, none)) ∨
      (n.kind.sync = true ∧ (g.inFlows n.id).length > 1 ∧ a = (enterT n.id, none)) ∨
      (n.kind = .start ∧ a = (startT n.id, none)) ∨ (n.kind = .fin ∧ a = (endT n.id, none))) := by
  unfold Graph.nodeNet
  by_cases ho : (g.outFlows n.id).length > 1 <;> by_cases hi : (g.inFlows n.id).length > 1 <;>
    cases hm : n.kind <;> simp [ho, hi, hm, Kind.sync]

/-- the nodes of the graph as nodes with entry and exit place -/
def Graph.hubs (g : Graph) : List (Hub String) :=
  (g.nodes.filter fun n => n.kind ≠ .other).map fun n => ⟨g.entP n.id, g.exiP n.id, g.takes n, g.gives n, n.label⟩

theorem hubs_coarse (g : Graph) : g.hubs.flatMap Hub.coarse = g.moves := by
  rw [Graph.hubs, List.flatMap_map]; rfl

theorem mem_takes {g : Graph} (ok : g.OK) {n : Node} (hn : n ∈ g.nodes) {I : List Nat} : I ∈ g.takes n ↔
    (n.kind = .start ∧ I = [0]) ∨ (g.joins n.id ∧ I = (g.inFlows n.id).map flowPlace) ∨
    (¬ g.joins n.id ∧ ∃ f ∈ g.flows, f.tgt = n.id ∧ I = [flowPlace f]) := by
  unfold Graph.takes
  have hj := ok.joins_iff hn
  rw [List.mem_append]
  refine or_congr ?_ ?_
  · by_cases h : n.kind = .start <;> simp [h]
  · by_cases h : g.joins n.id
    · rw [if_pos (hj.1 h)]; simp [h]
    · rw [if_neg fun c => h (hj.2 c)]
      simp only [h, false_and, not_false_eq_true, true_and, false_or, Graph.inFlows, List.mem_map, List.mem_filter, beq_iff_eq]
      exact ⟨fun ⟨f, hf, e⟩ => ⟨f, hf.1, hf.2, e.symm⟩, fun ⟨f, hf, h1, e⟩ => ⟨f, ⟨hf, h1⟩, e.symm⟩⟩

theorem mem_gives {g : Graph} (ok : g.OK) {n : Node} (hn : n ∈ g.nodes) {I : List Nat} : I ∈ g.gives n ↔
    (n.kind = .fin ∧ I = [1]) ∨ (g.splits n.id ∧ I = (g.outFlows n.id).map flowPlace) ∨
    (¬ g.splits n.id ∧ ∃ f ∈ g.flows, f.src = n.id ∧ I = [flowPlace f]) := by
  unfold Graph.gives
  have hj := ok.splits_iff hn
  rw [List.mem_append]
  refine or_congr ?_ ?_
  · by_cases h : n.kind = .fin <;> simp [h]
  · by_cases h : g.splits n.id
    · rw [if_pos (hj.1 h)]; simp [h]
    · rw [if_neg fun c => h (hj.2 c)]
      simp only [h, false_and, not_false_eq_true, true_and, false_or, Graph.outFlows, List.mem_map, List.mem_filter, beq_iff_eq]
      exact ⟨fun ⟨f, hf, e⟩ => ⟨f, hf.1, hf.2, e.symm⟩, fun ⟨f, hf, h1, e⟩ => ⟨f, ⟨hf, h1⟩, e.symm⟩⟩

/-- the net consists of the nodes with entry and exit places -/
theorem mem_build {g : Graph} (ok : g.OK) (t : Tr String) : t ∈ g.build.trs ↔ t ∈ g.hubs.flatMap Hub.fine := by
  have hubs : ∀ t, t ∈ g.hubs.flatMap Hub.fine ↔ ∃ n ∈ g.nodes, n.kind ≠ .other ∧
      ((∃ I ∈ g.takes n, t = ⟨I, [g.entP n.id], none⟩) ∨ t = ⟨[g.entP n.id], [g.exiP n.id], n.label⟩ ∨
        ∃ O ∈ g.gives n, t = ⟨[g.exiP n.id], O, none⟩) := by
    intro t
    rw [Graph.hubs, List.flatMap_map, List.mem_flatMap]
    constructor
    · rintro ⟨n, hn, ht⟩
      rw [List.mem_filter] at hn
      exact ⟨n, hn.1, by simpa using hn.2, mem_fine.1 ht⟩
    · rintro ⟨n, hn, hk, ht⟩
      exact ⟨n, List.mem_filter.2 ⟨hn, by simpa using hk⟩, mem_fine.2 ht⟩
  rw [hubs, mem_trs]
  constructor
  · rintro ⟨a, ha, rfl⟩
    rw [build_trans, List.mem_append] at ha
    rcases ha with ha | ha
    · obtain ⟨n, hn, ha⟩ := List.mem_flatMap.1 ha
      obtain ⟨hk, ha⟩ := mem_nodeNet.1 ha
      refine ⟨n, hn, hk, ?_⟩
      rcases ha with rfl | ⟨h1, h2, rfl⟩ | ⟨h1, h2, rfl⟩ | ⟨h1, rfl⟩ | ⟨h1, rfl⟩
      · right; left
        rw [(ok.node_tr hn hk).1, (ok.node_tr hn hk).2]
      · right; right
        have hs := (ok.splits_iff hn).2 ⟨h1, h2⟩
        rw [(ok.exit_tr hn hk hs).1, (ok.exit_tr hn hk hs).2]
        exact ⟨_, (mem_gives ok hn).2 (.inr (.inl ⟨hs, rfl⟩)), rfl⟩
      · left
        have hs := (ok.joins_iff hn).2 ⟨h1, h2⟩
        rw [(ok.enter_tr hn hk hs).1, (ok.enter_tr hn hk hs).2]
        exact ⟨_, (mem_takes ok hn).2 (.inr (.inl ⟨hs, rfl⟩)), rfl⟩
      · left
        rw [(ok.start_tr hn h1).1, (ok.start_tr hn h1).2]
        exact ⟨_, (mem_takes ok hn).2 (.inl ⟨h1, rfl⟩), rfl⟩
      · right; right
        rw [(ok.end_tr hn h1).1, (ok.end_tr hn h1).2]
        exact ⟨_, (mem_gives ok hn).2 (.inl ⟨h1, rfl⟩), rfl⟩
    · obtain ⟨f, hf, ha⟩ := List.mem_flatMap.1 ha
      rw [flowNet_trans g f (ok.ksrc hf) (ok.ktgt hf), List.mem_append] at ha
      rcases ha with ha | ha
      · split at ha
        · simp at ha
        · next hs =>
          rw [List.mem_singleton] at ha; subst ha
          obtain ⟨n, hn, e, hk⟩ := ok.src f hf
          refine ⟨n, hn, hk, .inr (.inr ⟨_, (mem_gives ok hn).2 (.inr (.inr ⟨e ▸ hs, f, hf, e.symm, rfl⟩)), ?_⟩)⟩
          rw [(ok.sfl_tr hf hs).1, (ok.sfl_tr hf hs).2, e]
      · split at ha
        · simp at ha
        · next hs =>
          rw [List.mem_singleton] at ha; subst ha
          obtain ⟨n, hn, e, hk⟩ := ok.tgt f hf
          refine ⟨n, hn, hk, .inl ⟨_, (mem_takes ok hn).2 (.inr (.inr ⟨e ▸ hs, f, hf, e.symm, rfl⟩)), ?_⟩⟩
          rw [(ok.tfl_tr hf hs).1, (ok.tfl_tr hf hs).2, e]
  · have inN : ∀ {n : Node} {a : Nat × Option String}, n ∈ g.nodes → a ∈ (g.nodeNet n).trans → a ∈ g.build.trans := by
      intro n a hn ha
      rw [build_trans]; exact List.mem_append.2 (.inl (List.mem_flatMap.2 ⟨n, hn, ha⟩))
    have inF : ∀ {f : Flow} {a : Nat × Option String}, f ∈ g.flows → a ∈ (g.flowNet f).trans → a ∈ g.build.trans := by
      intro n a hn ha
      rw [build_trans]; exact List.mem_append.2 (.inr (List.mem_flatMap.2 ⟨n, hn, ha⟩))
    rintro ⟨n, hn, hk, ⟨I, hI, rfl⟩ | rfl | ⟨O, hO, rfl⟩⟩
    · rcases (mem_takes ok hn).1 hI with ⟨h1, rfl⟩ | ⟨hs, rfl⟩ | ⟨hs, f, hf, e, rfl⟩
      · refine ⟨(startT n.id, none), inN hn (mem_nodeNet.2 ⟨hk, .inr (.inr (.inr (.inl ⟨h1, rfl⟩)))⟩), ?_⟩
        rw [(ok.start_tr hn h1).1, (ok.start_tr hn h1).2]
      · have hs' := (ok.joins_iff hn).1 hs
        refine ⟨(enterT n.id, none), inN hn (mem_nodeNet.2 ⟨hk, .inr (.inr (.inl ⟨hs'.1, hs'.2, rfl⟩))⟩), ?_⟩
        rw [(ok.enter_tr hn hk hs).1, (ok.enter_tr hn hk hs).2]
      · rw [← e] at hs ⊢
        refine ⟨(tflT f.id, none), inF hf ?_, ?_⟩
        · rw [flowNet_trans g f (ok.ksrc hf) (ok.ktgt hf), if_neg hs]; simp
        · rw [(ok.tfl_tr hf hs).1, (ok.tfl_tr hf hs).2]
    · refine ⟨(nodeT n.id, n.label), inN hn (mem_nodeNet.2 ⟨hk, .inl rfl⟩), ?_⟩
      rw [(ok.node_tr hn hk).1, (ok.node_tr hn hk).2]
    · rcases (mem_gives ok hn).1 hO with ⟨h1, rfl⟩ | ⟨hs, rfl⟩ | ⟨hs, f, hf, e, rfl⟩
      · refine ⟨(endT n.id, none), inN hn (mem_nodeNet.2 ⟨hk, .inr (.inr (.inr (.inr ⟨h1, rfl⟩)))⟩), ?_⟩
        rw [(ok.end_tr hn h1).1, (ok.end_tr hn h1).2]
      · have hs' := (ok.splits_iff hn).1 hs
        refine ⟨(exitT n.id, none), inN hn (mem_nodeNet.2 ⟨hk, .inr (.inl ⟨hs'.1, hs'.2, rfl⟩)⟩), ?_⟩
        rw [(ok.exit_tr hn hk hs).1, (ok.exit_tr hn hk hs).2]
      · rw [← e] at hs ⊢
        refine ⟨(sflT f.id, none), inF hf ?_, ?_⟩
        · rw [flowNet_trans g f (ok.ksrc hf) (ok.ktgt hf), if_neg hs]; simp
        · rw [(ok.sfl_tr hf hs).1, (ok.sfl_tr hf hs).2]

end Bpmn
end Verif
