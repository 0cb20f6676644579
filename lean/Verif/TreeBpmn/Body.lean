import Verif.TreeBpmn.Model
import Verif.TreeBpmn.Spec
import Verif.TreeBpmn.LoopBlock
import Verif.Bpmn.Spec
/-
The graph without the auxiliary tasks, defined recursively without its context (C72; proof device).
-/
set_option linter.unusedSectionVars false
namespace Verif
namespace TreeBpmn
open Bpmn Sys Lang

/-- a piece of a graph with the nodes where it is entered and left, and the next free numbers -/
structure Bd where
  nodes : List Node
  flows : List Flow
  first : Nat
  last : Nat
  k : Nat
  j : Nat

/-- the pieces of several children between two gateways -/
structure Kd where
  nodes : List Node
  flows : List Flow
  ins : List Nat
  outs : List Nat
  k : Nat
  j : Nat

mutual
def body : PT String → Nat → Nat → Bd
  | .leaf none, k, j => ⟨[⟨3 * k + 1, .task, ""⟩], [], 3 * k + 1, 3 * k + 1, k + 1, j⟩
  | .leaf (some a), k, j => ⟨[⟨3 * k + 2, .task, a⟩], [], 3 * k + 2, 3 * k + 2, k + 1, j⟩
  | .node .xor cs, k, j =>
    let r := bodyKids cs (3 * k + 2) (3 * (k + 1) + 2) (k + 2) j
    ⟨[⟨3 * k + 2, .xor, ""⟩, ⟨3 * (k + 1) + 2, .xor, ""⟩] ++ r.nodes, r.flows, 3 * k + 2, 3 * (k + 1) + 2, r.k, r.j⟩
  | .node .par cs, k, j =>
    let r := bodyKids cs (3 * k + 2) (3 * (k + 1) + 2) (k + 2) j
    ⟨[⟨3 * k + 2, .par, ""⟩, ⟨3 * (k + 1) + 2, .par, ""⟩] ++ r.nodes, r.flows, 3 * k + 2, 3 * (k + 1) + 2, r.k, r.j⟩
  | .node .seq cs, k, j => bodySeq cs (k + 1) j
  | .node .loop (t :: ts), k, j =>
    let b := body t (k + 2) (j + 2)
    let r := bodyKids ts (3 * k + 2) (3 * (k + 1) + 2) b.k b.j
    ⟨[⟨3 * k + 2, .xor, ""⟩, ⟨3 * (k + 1) + 2, .xor, ""⟩] ++ b.nodes ++ r.nodes,
      b.flows ++ [⟨j, 3 * (k + 1) + 2, b.first⟩, ⟨j + 1, b.last, 3 * k + 2⟩] ++ r.flows, 3 * (k + 1) + 2, 3 * k + 2, r.k, r.j⟩
  | .node .loop [], k, j => ⟨[], [], 0, 0, k, j⟩
  | .node .or _, k, j => ⟨[], [], 0, 0, k, j⟩
  | .node .inter _, k, j => ⟨[], [], 0, 0, k, j⟩
def bodyKids : List (PT String) → Nat → Nat → Nat → Nat → Kd
  | [], _, _, k, j => ⟨[], [], [], [], k, j⟩
  | t :: ts, s, e, k, j =>
    let b := body t k (j + 2)
    let r := bodyKids ts s e b.k b.j
    ⟨b.nodes ++ r.nodes, b.flows ++ [⟨j + 1, s, b.first⟩, ⟨j, b.last, e⟩] ++ r.flows, (j + 1) :: r.ins, j :: r.outs, r.k, r.j⟩
def bodySeq : List (PT String) → Nat → Nat → Bd
  | [], k, j => ⟨[], [], 0, 0, k, j⟩
  | t :: ts, k, j =>
    let b := body t k (if ts.isEmpty then j else j + 1)
    let r := bodySeq ts (if ts.length = 1 then b.k else b.k + 1) b.j
    if ts.isEmpty then { b with k := b.k + 1 }
    else ⟨b.nodes ++ r.nodes, b.flows ++ r.flows ++ [⟨j, b.last, r.first⟩], b.first, r.last, r.k, r.j⟩
end

/-- what every node of a piece satisfies -/
def NodeOK (lo hi : Nat) (n : Node) : Prop :=
  3 * lo ≤ n.id ∧ n.id < 3 * hi ∧ n.id % 3 ≠ 0 ∧ (n.id % 3 = 1 → n.kind = .task) ∧ n.kind ≠ .start ∧ n.kind ≠ .fin ∧ n.kind ≠ .other ∧ n.kind ≠ .incl

theorem NodeOK.mono {lo hi lo' hi' : Nat} {n : Node} (h : NodeOK lo hi n) (h1 : lo' ≤ lo) (h2 : hi ≤ hi') : NodeOK lo' hi' n := by
  obtain ⟨a, b, c⟩ := h
  exact ⟨by omega, by omega, c⟩

structure Good (b : Bd) (k j : Nat) : Prop where
  kle : k ≤ b.k
  jle : j ≤ b.j
  ids : ∀ n ∈ b.nodes, NodeOK k b.k n
  sorted : (b.nodes.map Node.id).Pairwise (· < ·)
  fid : ∀ f ∈ b.flows, j ≤ f.id ∧ f.id < b.j
  fend : ∀ f ∈ b.flows, f.src ∈ b.nodes.map Node.id ∧ f.tgt ∈ b.nodes.map Node.id
  nod : (b.flows.map Flow.id).Nodup
  first : b.first ∈ b.nodes.map Node.id
  last : b.last ∈ b.nodes.map Node.id
  one : ∀ n ∈ b.nodes, n.kind = .task → (b.flows.map Flow.tgt ++ [b.first]).count n.id = 1 ∧ (b.flows.map Flow.src ++ [b.last]).count n.id = 1

structure KGood (b : Kd) (s e k j : Nat) : Prop where
  kle : k ≤ b.k
  jle : j ≤ b.j
  ids : ∀ n ∈ b.nodes, NodeOK k b.k n
  sorted : (b.nodes.map Node.id).Pairwise (· < ·)
  fid : ∀ f ∈ b.flows, j ≤ f.id ∧ f.id < b.j
  fend : ∀ f ∈ b.flows, (f.src = s ∨ f.src ∈ b.nodes.map Node.id) ∧ (f.tgt = e ∨ f.tgt ∈ b.nodes.map Node.id)
  nod : (b.flows.map Flow.id).Nodup
  one : ∀ n ∈ b.nodes, n.kind = .task → (b.flows.map Flow.tgt).count n.id = 1 ∧ (b.flows.map Flow.src).count n.id = 1
  outS : (b.flows.filter fun f => f.src == s).map Flow.id = b.ins
  inE : (b.flows.filter fun f => f.tgt == e).map Flow.id = b.outs

theorem Good.rng {b : Bd} {k j x : Nat} (h : Good b k j) (hx : x ∈ b.nodes.map Node.id) : 3 * k ≤ x ∧ x < 3 * b.k ∧ x % 3 ≠ 0 := by
  obtain ⟨n, hn, rfl⟩ := List.mem_map.1 hx
  exact ⟨(h.ids n hn).1, (h.ids n hn).2.1, (h.ids n hn).2.2.1⟩

theorem KGood.rng {b : Kd} {s e k j x : Nat} (h : KGood b s e k j) (hx : x ∈ b.nodes.map Node.id) : 3 * k ≤ x ∧ x < 3 * b.k ∧ x % 3 ≠ 0 := by
  obtain ⟨n, hn, rfl⟩ := List.mem_map.1 hx
  exact ⟨(h.ids n hn).1, (h.ids n hn).2.1, (h.ids n hn).2.2.1⟩

theorem Good.noT {b : Bd} {k j x : Nat} (h : Good b k j) (hx : x < 3 * k ∨ 3 * b.k ≤ x) : (b.flows.map Flow.tgt).count x = 0 ∧
    (b.flows.map Flow.src).count x = 0 := by
  refine ⟨List.count_eq_zero.2 fun hm => ?_, List.count_eq_zero.2 fun hm => ?_⟩
  · obtain ⟨f, hf, rfl⟩ := List.mem_map.1 hm
    have := h.rng (h.fend f hf).2; omega
  · obtain ⟨f, hf, rfl⟩ := List.mem_map.1 hm
    have := h.rng (h.fend f hf).1; omega

theorem KGood.noT {b : Kd} {s e k j x : Nat} (h : KGood b s e k j) (hx : x < 3 * k ∨ 3 * b.k ≤ x) (hs : x ≠ s) (he : x ≠ e) :
    (b.flows.map Flow.tgt).count x = 0 ∧ (b.flows.map Flow.src).count x = 0 := by
  refine ⟨List.count_eq_zero.2 fun hm => ?_, List.count_eq_zero.2 fun hm => ?_⟩
  · obtain ⟨f, hf, rfl⟩ := List.mem_map.1 hm
    rcases (h.fend f hf).2 with h1 | h1
    · exact he h1
    · have := h.rng h1; omega
  · obtain ⟨f, hf, rfl⟩ := List.mem_map.1 hm
    rcases (h.fend f hf).1 with h1 | h1
    · exact hs h1
    · have := h.rng h1; omega

theorem count_one (x y : Nat) : [x].count y = if x = y then 1 else 0 := by
  by_cases h : x = y
  · subst h; simp
  · simp [h]

theorem kgood_nil (s e k j : Nat) : KGood (bodyKids [] s e k j) s e k j := by
  simp only [bodyKids]
  exact ⟨Nat.le_refl _, Nat.le_refl _, by simp, by simp, by simp, by simp, by simp, by simp, by simp, by simp⟩

theorem sorted_append {l m : List Nat} {x : Nat} (hl : l.Pairwise (· < ·)) (hm : m.Pairwise (· < ·)) (h1 : ∀ a ∈ l, a < x) (h2 : ∀ a ∈ m, x ≤ a) :
    (l ++ m).Pairwise (· < ·) :=
  List.pairwise_append.2 ⟨hl, hm, fun a ha b hb => Nat.lt_of_lt_of_le (h1 a ha) (h2 b hb)⟩

theorem kgood_cons {t : PT String} {ts : List (PT String)} {s e k j : Nat} (hs : s < 3 * k) (he : e < 3 * k)
    (hb : Good (body t k (j + 2)) k (j + 2))
    (hr : KGood (bodyKids ts s e (body t k (j + 2)).k (body t k (j + 2)).j) s e (body t k (j + 2)).k (body t k (j + 2)).j) :
    KGood (bodyKids (t :: ts) s e k j) s e k j := by
  simp only [bodyKids]
  generalize body t k (j + 2) = b at *
  generalize bodyKids ts s e b.k b.j = r at *
  have h1 := hb.kle; have h2 := hr.kle; have h3 := hb.jle; have h4 := hr.jle
  have hf := hb.rng hb.first
  have hl := hb.rng hb.last
  refine ⟨by simp only; omega, by simp only; omega, ?_, ?_, ?_, ?_, ?_, ?_, ?_, ?_⟩
  · intro n hn
    rcases List.mem_append.1 hn with hn | hn
    · exact (hb.ids n hn).mono (Nat.le_refl _) h2
    · exact (hr.ids n hn).mono h1 (Nat.le_refl _)
  · rw [List.map_append]
    exact sorted_append (x := 3 * b.k) hb.sorted hr.sorted (fun a ha => (hb.rng ha).2.1) fun a ha => (hr.rng ha).1
  · intro f hf'
    simp only [List.mem_append, List.mem_cons, List.not_mem_nil, or_false] at hf'
    rcases hf' with (hf' | rfl | rfl) | hf'
    · have := hb.fid f hf'; simp only; omega
    · simp only; omega
    · simp only; omega
    · have := hr.fid f hf'; simp only; omega
  · intro f hf'
    simp only [List.mem_append, List.mem_cons, List.not_mem_nil, or_false] at hf'
    simp only [List.map_append, List.mem_append]
    rcases hf' with (hf' | rfl | rfl) | hf'
    · exact ⟨.inr (.inl (hb.fend f hf').1), .inr (.inl (hb.fend f hf').2)⟩
    · exact ⟨.inl rfl, .inr (.inl hb.first)⟩
    · exact ⟨.inr (.inl hb.last), .inl rfl⟩
    · obtain ⟨h5, h6⟩ := hr.fend f hf'
      exact ⟨h5.imp id .inr, h6.imp id .inr⟩
  · simp only [List.map_append, List.map_cons, List.map_nil]
    refine List.nodup_append.2 ⟨List.nodup_append.2 ⟨hb.nod, by simp, ?_⟩, hr.nod, ?_⟩
    · intro a ha c hc
      obtain ⟨f, hf', rfl⟩ := List.mem_map.1 ha
      have := hb.fid f hf'
      simp only [List.mem_cons, List.not_mem_nil, or_false] at hc
      omega
    · intro a ha c hc
      obtain ⟨f, hf', rfl⟩ := List.mem_map.1 hc
      have h5 := hr.fid f hf'
      rcases List.mem_append.1 ha with ha | ha
      · obtain ⟨f, hf', rfl⟩ := List.mem_map.1 ha
        have := hb.fid f hf'; omega
      · simp only [List.mem_cons, List.not_mem_nil, or_false] at ha
        omega
  · intro n hn hk
    simp only [List.map_append, List.map_cons, List.map_nil, List.count_append, List.count_cons, List.count_nil, beq_iff_eq]
    rcases List.mem_append.1 hn with hn | hn
    · have h5 := hb.one n hn hk
      have h6 := hb.ids n hn
      have h7 := hr.noT (x := n.id) (by have := h6.2.1; omega) (by have := h6.1; omega) (by have := h6.1; omega)
      simp only [List.count_append, count_one] at h5
      have h8 : e ≠ n.id := by have := h6.1; omega
      have h9 : s ≠ n.id := by have := h6.1; omega
      rw [if_neg h8, if_neg h9]
      omega
    · have h5 := hr.one n hn hk
      have h6 := hr.ids n hn
      have h7 := hb.noT (x := n.id) (by have := h6.1; omega)
      have e1 : e ≠ n.id := by have := h6.1; omega
      have e2 : s ≠ n.id := by have := h6.1; omega
      have e3 : b.first ≠ n.id := by have := h6.1; omega
      have e4 : b.last ≠ n.id := by have := h6.1; omega
      rw [if_neg e1, if_neg e2, if_neg e3, if_neg e4]
      omega
  · simp only [List.filter_append, List.map_append, List.filter_cons, List.filter_nil]
    have : b.flows.filter (fun f => f.src == s) = [] := by
      rw [List.filter_eq_nil_iff]
      intro f hf'
      have := hb.rng (hb.fend f hf').1
      simp only [beq_iff_eq]; omega
    have e4 : b.last ≠ s := by omega
    rw [this, hr.outS]
    simp [e4]
  · simp only [List.filter_append, List.map_append, List.filter_cons, List.filter_nil]
    have : b.flows.filter (fun f => f.tgt == e) = [] := by
      rw [List.filter_eq_nil_iff]
      intro f hf'
      have := hb.rng (hb.fend f hf').2
      simp only [beq_iff_eq]; omega
    have e4 : b.first ≠ e := by omega
    rw [this, hr.inE]
    simp [e4]

theorem kgood {cs : List (PT String)} (h : ∀ c ∈ cs, ∀ k j, Good (body c k j) k j) {s e : Nat} :
    ∀ {k j : Nat}, s < 3 * k → e < 3 * k → KGood (bodyKids cs s e k j) s e k j := by
  induction cs with
  | nil => intro k j _ _; exact kgood_nil s e k j
  | cons t ts ih =>
    intro k j hs he
    have hb := h t (by simp) k (j + 2)
    have := hb.kle
    exact kgood_cons hs he hb (ih (fun c hc => h c (by simp [hc])) (by omega) (by omega))

/-- two gateways around children -/
theorem good_gate (kd : Kind) (hkd : kd = .xor ∨ kd = .par) {r : Kd} {k j : Nat} (hr : KGood r (3 * k + 2) (3 * (k + 1) + 2) (k + 2) j) :
    Good ⟨[⟨3 * k + 2, kd, ""⟩, ⟨3 * (k + 1) + 2, kd, ""⟩] ++ r.nodes, r.flows, 3 * k + 2, 3 * (k + 1) + 2, r.k, r.j⟩ k j := by
  have h1 := hr.kle
  have hk : kd ≠ .task ∧ kd ≠ .start ∧ kd ≠ .fin ∧ kd ≠ .other ∧ kd ≠ .incl := by rcases hkd with rfl | rfl <;> decide
  refine ⟨by simp only; omega, hr.jle, ?_, ?_, hr.fid, ?_, hr.nod, by simp, by simp, ?_⟩
  · intro n hn
    simp only [List.cons_append, List.nil_append, List.mem_cons] at hn
    rcases hn with rfl | rfl | hn
    · exact ⟨by simp only; omega, by simp only; omega, by simp only; omega, fun h => by simp only at h; omega, hk.2⟩
    · exact ⟨by simp only; omega, by simp only; omega, by simp only; omega, fun h => by simp only at h; omega, hk.2⟩
    · exact (hr.ids n hn).mono (by omega) (Nat.le_refl _)
  · rw [List.map_append]
    refine sorted_append (x := 3 * (k + 2)) (by simp) hr.sorted ?_ fun a ha => (hr.rng ha).1
    intro a ha
    simp only [List.map_cons, List.map_nil, List.mem_cons, List.not_mem_nil, or_false] at ha
    omega
  · intro f hf
    simp only [List.map_append, List.mem_append, List.map_cons, List.map_nil, List.mem_cons, List.not_mem_nil, or_false]
    obtain ⟨h5, h6⟩ := hr.fend f hf
    exact ⟨h5.imp .inl id, h6.imp .inr id⟩
  · intro n hn hk'
    simp only [List.cons_append, List.nil_append, List.mem_cons] at hn
    rcases hn with rfl | rfl | hn
    · exact absurd hk' hk.1
    · exact absurd hk' hk.1
    · have h5 := hr.one n hn hk'
      have h6 := (hr.ids n hn).1
      simp only [List.count_append, count_one]
      rw [if_neg (by omega), if_neg (by omega)]
      exact h5

/-- one child before the rest of a sequence -/
theorem good_link {b r : Bd} {k j k1 : Nat} (hb : Good b k (j + 1)) (hr : Good r k1 b.j) (h : b.k ≤ k1) :
    Good ⟨b.nodes ++ r.nodes, b.flows ++ r.flows ++ [⟨j, b.last, r.first⟩], b.first, r.last, r.k, r.j⟩ k j := by
  have h1 := hb.kle; have h2 := hr.kle; have h3 := hb.jle; have h4 := hr.jle
  have f1 := hb.rng hb.first; have f2 := hb.rng hb.last; have f3 := hr.rng hr.first; have f4 := hr.rng hr.last
  refine ⟨by simp only; omega, by simp only; omega, ?_, ?_, ?_, ?_, ?_, ?_, ?_, ?_⟩
  · intro n hn
    rcases List.mem_append.1 hn with hn | hn
    · exact (hb.ids n hn).mono (Nat.le_refl _) (by simp only; omega)
    · exact (hr.ids n hn).mono (by omega) (Nat.le_refl _)
  · rw [List.map_append]
    exact sorted_append (x := 3 * b.k) hb.sorted hr.sorted (fun a ha => (hb.rng ha).2.1) fun a ha => by have := (hr.rng ha).1; omega
  · intro f hf'
    simp only [List.mem_append, List.mem_cons, List.not_mem_nil, or_false] at hf'
    rcases hf' with (hf' | hf') | rfl
    · have := hb.fid f hf'; simp only; omega
    · have := hr.fid f hf'; simp only; omega
    · simp only; omega
  · intro f hf'
    simp only [List.mem_append, List.mem_cons, List.not_mem_nil, or_false] at hf'
    simp only [List.map_append, List.mem_append]
    rcases hf' with (hf' | hf') | rfl
    · exact ⟨.inl (hb.fend f hf').1, .inl (hb.fend f hf').2⟩
    · exact ⟨.inr (hr.fend f hf').1, .inr (hr.fend f hf').2⟩
    · exact ⟨.inl hb.last, .inr hr.first⟩
  · simp only [List.map_append, List.map_cons, List.map_nil]
    refine List.nodup_append.2 ⟨List.nodup_append.2 ⟨hb.nod, hr.nod, ?_⟩, by simp, ?_⟩
    · intro a ha c hc
      obtain ⟨f, hf', rfl⟩ := List.mem_map.1 ha
      obtain ⟨g, hg', rfl⟩ := List.mem_map.1 hc
      have := hb.fid f hf'; have := hr.fid g hg'; omega
    · intro a ha c hc
      simp only [List.mem_cons, List.not_mem_nil, or_false] at hc
      rcases List.mem_append.1 ha with ha | ha
      · obtain ⟨f, hf', rfl⟩ := List.mem_map.1 ha
        have := hb.fid f hf'; omega
      · obtain ⟨f, hf', rfl⟩ := List.mem_map.1 ha
        have := hr.fid f hf'; omega
  · simp only [List.map_append, List.mem_append]; exact .inl hb.first
  · simp only [List.map_append, List.mem_append]; exact .inr hr.last
  · intro n hn hk
    simp only [List.map_append, List.map_cons, List.map_nil, List.count_append, count_one]
    rcases List.mem_append.1 hn with hn | hn
    · have h5 := hb.one n hn hk
      have h6 := hb.ids n hn
      have h7 := hr.noT (x := n.id) (by have := h6.2.1; omega)
      simp only [List.count_append, count_one] at h5
      have e1 : r.first ≠ n.id := by have := h6.2.1; omega
      have e2 : r.last ≠ n.id := by have := h6.2.1; omega
      rw [if_neg e1, if_neg e2]
      omega
    · have h5 := hr.one n hn hk
      have h6 := hr.ids n hn
      have h7 := hb.noT (x := n.id) (by have := h6.1; omega)
      simp only [List.count_append, count_one] at h5
      have e1 : b.first ≠ n.id := by have := h6.1; omega
      have e2 : b.last ≠ n.id := by have := h6.1; omega
      rw [if_neg e1, if_neg e2]
      omega

theorem Good.weakk {b : Bd} {k j k' : Nat} (h : Good b k j) (hk : b.k ≤ k') : Good { b with k := k' } k j :=
  ⟨Nat.le_trans h.kle hk, h.jle, fun n hn => (h.ids n hn).mono (Nat.le_refl _) hk, h.sorted, h.fid, h.fend, h.nod, h.first, h.last, h.one⟩

theorem Good.lowk {b : Bd} {k j k' : Nat} (h : Good b k j) (hk : k' ≤ k) : Good b k' j :=
  ⟨Nat.le_trans hk h.kle, h.jle, fun n hn => (h.ids n hn).mono hk (Nat.le_refl _), h.sorted, h.fid, h.fend, h.nod, h.first, h.last, h.one⟩

theorem good_seq {cs : List (PT String)} (h : ∀ c ∈ cs, ∀ k j, Good (body c k j) k j) (hne : cs ≠ []) :
    ∀ k j, Good (bodySeq cs k j) k j := by
  induction cs with
  | nil => exact absurd rfl hne
  | cons t ts ih =>
    intro k j
    simp only [bodySeq]
    cases ts with
    | nil =>
      simp only [List.isEmpty_nil, if_pos]
      exact (h t (by simp) k j).weakk (by omega)
    | cons u us =>
      simp only [List.isEmpty_cons, Bool.false_eq_true, if_false]
      refine good_link (h t (by simp) k (j + 1)) (ih (fun c hc => h c (by simp [hc])) (by simp) _ _) ?_
      split <;> omega

theorem good_loop {b : Bd} {r : Kd} {k j : Nat} (hb : Good b (k + 2) (j + 2)) (hr : KGood r (3 * k + 2) (3 * (k + 1) + 2) b.k b.j) :
    Good ⟨[⟨3 * k + 2, .xor, ""⟩, ⟨3 * (k + 1) + 2, .xor, ""⟩] ++ b.nodes ++ r.nodes,
      b.flows ++ [⟨j, 3 * (k + 1) + 2, b.first⟩, ⟨j + 1, b.last, 3 * k + 2⟩] ++ r.flows, 3 * (k + 1) + 2, 3 * k + 2, r.k, r.j⟩ k j := by
  have h1 := hb.kle; have h2 := hr.kle; have h3 := hb.jle; have h4 := hr.jle
  have f1 := hb.rng hb.first; have f2 := hb.rng hb.last
  refine ⟨by simp only; omega, by simp only; omega, ?_, ?_, ?_, ?_, ?_, by simp, by simp, ?_⟩
  · intro n hn
    simp only [List.cons_append, List.nil_append, List.mem_cons, List.mem_append] at hn
    rcases hn with rfl | rfl | hn | hn
    · exact ⟨by simp only; omega, by simp only; omega, by simp only; omega, fun h => by simp only at h; omega, by simp⟩
    · exact ⟨by simp only; omega, by simp only; omega, by simp only; omega, fun h => by simp only at h; omega, by simp⟩
    · exact (hb.ids n hn).mono (by omega) (by simp only; omega)
    · exact (hr.ids n hn).mono (by omega) (Nat.le_refl _)
  · rw [List.map_append, List.map_append]
    refine sorted_append (x := 3 * b.k) (sorted_append (x := 3 * (k + 2)) (by simp) hb.sorted ?_ fun a ha => (hb.rng ha).1) hr.sorted ?_
      fun a ha => (hr.rng ha).1
    · intro a ha
      simp only [List.map_cons, List.map_nil, List.mem_cons, List.not_mem_nil, or_false] at ha
      omega
    · intro a ha
      rcases List.mem_append.1 ha with ha | ha
      · simp only [List.map_cons, List.map_nil, List.mem_cons, List.not_mem_nil, or_false] at ha
        omega
      · exact (hb.rng ha).2.1
  · intro f hf'
    simp only [List.mem_append, List.mem_cons, List.not_mem_nil, or_false] at hf'
    rcases hf' with (hf' | rfl | rfl) | hf'
    · have := hb.fid f hf'; simp only; omega
    · simp only; omega
    · simp only; omega
    · have := hr.fid f hf'; simp only; omega
  · intro f hf'
    simp only [List.mem_append, List.mem_cons, List.not_mem_nil, or_false] at hf'
    simp only [List.map_append, List.mem_append, List.map_cons, List.map_nil, List.mem_cons, List.not_mem_nil, or_false]
    rcases hf' with (hf' | rfl | rfl) | hf'
    · exact ⟨.inl (.inr (hb.fend f hf').1), .inl (.inr (hb.fend f hf').2)⟩
    · exact ⟨.inl (.inl (.inr rfl)), .inl (.inr hb.first)⟩
    · exact ⟨.inl (.inr hb.last), .inl (.inl (.inl rfl))⟩
    · obtain ⟨h5, h6⟩ := hr.fend f hf'
      exact ⟨h5.elim (fun h => .inl (.inl (.inl h))) .inr, h6.elim (fun h => .inl (.inl (.inr h))) .inr⟩
  · simp only [List.map_append, List.map_cons, List.map_nil]
    refine List.nodup_append.2 ⟨List.nodup_append.2 ⟨hb.nod, by simp, ?_⟩, hr.nod, ?_⟩
    · intro a ha c hc
      obtain ⟨f, hf', rfl⟩ := List.mem_map.1 ha
      have := hb.fid f hf'
      simp only [List.mem_cons, List.not_mem_nil, or_false] at hc
      omega
    · intro a ha c hc
      obtain ⟨f, hf', rfl⟩ := List.mem_map.1 hc
      have h5 := hr.fid f hf'
      rcases List.mem_append.1 ha with ha | ha
      · obtain ⟨f, hf', rfl⟩ := List.mem_map.1 ha
        have := hb.fid f hf'; omega
      · simp only [List.mem_cons, List.not_mem_nil, or_false] at ha
        omega
  · intro n hn hk
    simp only [List.map_append, List.map_cons, List.map_nil, List.count_append, List.count_cons, List.count_nil, beq_iff_eq]
    simp only [List.cons_append, List.nil_append, List.mem_cons, List.mem_append] at hn
    rcases hn with rfl | rfl | hn | hn
    · cases hk
    · cases hk
    · have h5 := hb.one n hn hk
      have h6 := hb.ids n hn
      have h7 := hr.noT (x := n.id) (by have := h6.2.1; omega) (by have := h6.1; omega) (by have := h6.1; omega)
      simp only [List.count_append, count_one] at h5
      have e1 : 3 * k + 2 ≠ n.id := by have := h6.1; omega
      have e2 : 3 * (k + 1) + 2 ≠ n.id := by have := h6.1; omega
      rw [if_neg e1, if_neg e2]
      omega
    · have h5 := hr.one n hn hk
      have h6 := hr.ids n hn
      have h7 := hb.noT (x := n.id) (by have := h6.1; omega)
      have e1 : 3 * k + 2 ≠ n.id := by have := h6.1; omega
      have e2 : 3 * (k + 1) + 2 ≠ n.id := by have := h6.1; omega
      have e3 : b.first ≠ n.id := by have := h6.1; omega
      have e4 : b.last ≠ n.id := by have := h6.1; omega
      rw [if_neg e1, if_neg e2, if_neg e3, if_neg e4]
      omega

theorem good_body {t : PT String} (h : Convertible t) : ∀ k j, Good (body t k j) k j := by
  induction h with
  | tau =>
    intro k j
    simp only [body]
    exact ⟨by simp, Nat.le_refl _, by simp [NodeOK]; omega, by simp, by simp, by simp, by simp, by simp, by simp, by simp⟩
  | act ha =>
    intro k j
    simp only [body]
    exact ⟨by simp, Nat.le_refl _, by simp [NodeOK]; omega, by simp, by simp, by simp, by simp, by simp, by simp, by simp⟩
  | xor _ _ ih => intro k j; simp only [body]; exact good_gate .xor (.inl rfl) (kgood ih (by omega) (by omega))
  | par _ _ ih => intro k j; simp only [body]; exact good_gate .par (.inr rfl) (kgood ih (by omega) (by omega))
  | @seq cs hl _ ih =>
    intro k j; simp only [body]
    exact (good_seq ih (by intro e; rw [e] at hl; simp at hl) (k + 1) j).lowk (by omega)
  | loop _ _ ih1 ih2 =>
    intro k j; simp only [body]
    have hb := ih1 (k + 2) (j + 2)
    have := hb.kle
    exact good_loop hb (kgood ih2 (by omega) (by omega))

end TreeBpmn
end Verif
