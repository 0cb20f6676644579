import Verif.TreeBpmn.Body
import Mathlib.Tactic.Tauto
/-
The token game of the graph without auxiliary tasks has the language of the tree (C72).
-/
set_option linter.unusedSectionVars false
namespace Verif
namespace TreeBpmn
open Bpmn Sys Lang

/-- the moves of one node, given the flows of the graph -/
def nm (F : List Flow) (n : Node) : List (Tr String) :=
  (Graph.takes ⟨[], F⟩ n).flatMap fun I => (Graph.gives ⟨[], F⟩ n).map fun O =>
    ⟨I, O, if n.kind = .task ∧ n.name ≠ "" then some n.name else none⟩

def inF (F : List Flow) (x : Nat) : List Flow := F.filter fun f => f.tgt == x
def outF (F : List Flow) (x : Nat) : List Flow := F.filter fun f => f.src == x

theorem nm_congr {F F' : List Flow} {n : Node} (h1 : inF F n.id = inF F' n.id) (h2 : outF F n.id = outF F' n.id) : nm F n = nm F' n := by
  unfold inF at h1; unfold outF at h2
  have e1 : Graph.takes ⟨[], F⟩ n = Graph.takes ⟨[], F'⟩ n := by
    have h : (⟨[], F⟩ : Graph).inFlows n.id = (⟨[], F'⟩ : Graph).inFlows n.id := h1
    unfold Graph.takes; rw [h]
  have e2 : Graph.gives ⟨[], F⟩ n = Graph.gives ⟨[], F'⟩ n := by
    have h : (⟨[], F⟩ : Graph).outFlows n.id = (⟨[], F'⟩ : Graph).outFlows n.id := h2
    unfold Graph.gives; rw [h]
  rw [nm, nm, e1, e2]

theorem inF_append (A B : List Flow) (x : Nat) : inF (A ++ B) x = inF A x ++ inF B x := by simp [inF]
theorem outF_append (A B : List Flow) (x : Nat) : outF (A ++ B) x = outF A x ++ outF B x := by simp [outF]
theorem inF_nil {A : List Flow} {x : Nat} (h : ∀ f ∈ A, f.tgt ≠ x) : inF A x = [] := by
  unfold inF; rw [List.filter_eq_nil_iff]; intro f hf; simpa using h f hf
theorem outF_nil {A : List Flow} {x : Nat} (h : ∀ f ∈ A, f.src ≠ x) : outF A x = [] := by
  unfold outF; rw [List.filter_eq_nil_iff]; intro f hf; simpa using h f hf

/-- flows that do not touch the nodes of a piece do not matter -/
theorem nm_apart {F X A C : List Flow} {n : Node} (hF : F = A ++ X ++ C) (hA : ∀ f ∈ A, f.src ≠ n.id ∧ f.tgt ≠ n.id)
    (hC : ∀ f ∈ C, f.src ≠ n.id ∧ f.tgt ≠ n.id) : nm F n = nm X n := by
  subst hF
  apply nm_congr
  · rw [inF_append, inF_append, inF_nil fun f hf => (hA f hf).2, inF_nil fun f hf => (hC f hf).2]; simp
  · rw [outF_append, outF_append, outF_nil fun f hf => (hA f hf).1, outF_nil fun f hf => (hC f hf).1]; simp

theorem nm_task {F : List Flow} {n : Node} {f e : Flow} (hk : n.kind = .task) (h1 : inF F n.id = [f]) (h2 : outF F n.id = [e]) :
    nm F n = [⟨[f.id + 2], [e.id + 2], if n.name ≠ "" then some n.name else none⟩] := by
  unfold inF at h1; unfold outF at h2
  simp [nm, Graph.takes, Graph.gives, Graph.inFlows, Graph.outFlows, h1, h2, hk, Kind.sync, flowPlace]

theorem mem_nm_xor {F : List Flow} {n : Node} (hk : n.kind = .xor) {t : Tr String} : t ∈ nm F n ↔
    ∃ f ∈ inF F n.id, ∃ e ∈ outF F n.id, t = ⟨[f.id + 2], [e.id + 2], none⟩ := by
  have e1 : Graph.takes ⟨[], F⟩ n = (inF F n.id).map fun f => [f.id + 2] := by simp [Graph.takes, hk, Kind.sync, inF, Graph.inFlows, flowPlace]
  have e2 : Graph.gives ⟨[], F⟩ n = (outF F n.id).map fun f => [f.id + 2] := by simp [Graph.gives, hk, Kind.sync, outF, Graph.outFlows, flowPlace]
  simp only [nm, e1, e2, hk, reduceCtorEq, false_and, if_false, List.mem_flatMap, List.mem_map]
  constructor
  · rintro ⟨I, ⟨f, hf, rfl⟩, O, ⟨e, he, rfl⟩, rfl⟩
    exact ⟨f, hf, e, he, rfl⟩
  · rintro ⟨f, hf, e, he, rfl⟩
    exact ⟨_, ⟨f, hf, rfl⟩, _, ⟨e, he, rfl⟩, rfl⟩

theorem sync_takes {l : List Flow} (h : l ≠ []) : (if l.length > 1 then [l.map flowPlace] else l.map fun f => [flowPlace f]) = [l.map flowPlace] := by
  match l, h with
  | [f], _ => simp
  | f :: g :: l, _ => simp

theorem nm_par {F : List Flow} {n : Node} (hk : n.kind = .par) (h1 : inF F n.id ≠ []) (h2 : outF F n.id ≠ []) :
    nm F n = [⟨(inF F n.id).map flowPlace, (outF F n.id).map flowPlace, none⟩] := by
  have e1 := sync_takes h1
  have e2 := sync_takes h2
  unfold inF outF at *
  simp only [nm, Graph.takes, Graph.gives, hk, Kind.sync, reduceCtorEq, if_false, List.nil_append, Graph.inFlows, Graph.outFlows, false_and]
  simp only [BEq.rfl, Bool.true_or, true_and, e1, e2]
  simp

/-- the moves of a piece between the places of the flows `fi` and `fo` -/
def bdT (b : Bd) (src tgt fi fo : Nat) : List (Tr String) := b.nodes.flatMap (nm (b.flows ++ [⟨fi, src, b.first⟩, ⟨fo, b.last, tgt⟩]))

def IsBlock (b : Bd) (k j : Nat) (L : Lang String) : Prop :=
  ∀ src tgt fi fo, (src < 3 * k ∨ 3 * b.k ≤ src) → (tgt < 3 * k ∨ 3 * b.k ≤ tgt) → fi < j → fo < j → fi ≠ fo →
    Block (bdT b src tgt fi fo) (fi + 2) (fo + 2) (j + 2) (b.j + 2) L

/-- the moves of the nodes of the children between two gateways -/
def kdT (r : Kd) : List (Tr String) := r.nodes.flatMap (nm r.flows)

theorem multi_flip {α : Type} {T : List (Tr α)} {i o lo hi a : Nat} {L : Lang α} (h : Block T i o lo hi L) (hi' : i = a + 1) (ho : o = a)
    (hlo : lo = a + 2) :
    Multi T [i] [o] a hi L := by
  have a1 := h.ilo; have a2 := h.olo; have a3 := h.le
  refine ⟨by omega, ?_, ?_, ?_, fun t ht => (h.pre t ht).1, ?_, h.safe, h.complete, h.live, ?_, h.lang⟩
  · intro p hp
    have : p = i := by simpa using hp
    unfold Inner; omega
  · intro p hp
    have : p = o := by simpa using hp
    unfold Inner; omega
  · intro t ht
    refine ⟨fun p hp => ?_, fun p hp => ?_⟩
    · have := (h.within t ht).1 p hp
      unfold Inner at *; omega
    · have := (h.within t ht).2 p hp
      unfold Inner at *; omega
  · intro w M hr hM
    exact h.proper w M hr (hM o (by simp))
  · intro q hq
    have hq' : q = i ∨ q = o ∨ Inner lo hi q := by unfold Inner at *; omega
    rcases hq' with rfl | rfl | hq
    · exact ⟨.inl h.uses_i, .inr (by simp)⟩
    · exact ⟨.inr (by simp), .inl h.uses_o⟩
    · exact ⟨.inl (h.used q hq).1, .inl (h.used q hq).2⟩

theorem flatMap_congr' {β γ : Type} {l : List β} {f g : β → List γ} (h : ∀ x ∈ l, f x = g x) : l.flatMap f = l.flatMap g := by
  induction l with
  | nil => rfl
  | cons x l ih => simp only [List.flatMap_cons]; rw [h x (by simp), ih fun y hy => h y (by simp [hy])]

/-- the moves of the children: those of the first child and those of the others -/
theorem kdT_cons {t : PT String} {ts : List (PT String)} {s e k j : Nat} (hs : s < 3 * k) (he : e < 3 * k)
    (hb : Good (body t k (j + 2)) k (j + 2))
    (hr : KGood (bodyKids ts s e (body t k (j + 2)).k (body t k (j + 2)).j) s e (body t k (j + 2)).k (body t k (j + 2)).j) :
    kdT (bodyKids (t :: ts) s e k j) =
      bdT (body t k (j + 2)) s e (j + 1) j ++ kdT (bodyKids ts s e (body t k (j + 2)).k (body t k (j + 2)).j) := by
  simp only [bodyKids, kdT, bdT]
  generalize body t k (j + 2) = b at *
  generalize bodyKids ts s e b.k b.j = r at *
  have h1 := hb.kle; have f1 := hb.rng hb.first; have f2 := hb.rng hb.last
  rw [List.flatMap_append]
  congr 1
  · refine flatMap_congr' fun n hn => nm_apart (A := []) (C := r.flows) (by simp) (by simp) fun f hf => ?_
    have h6 := hb.ids n hn
    obtain ⟨h7, h8⟩ := hr.fend f hf
    have a1 := h6.1; have a2 := h6.2.1
    constructor
    · rcases h7 with h7 | h7
      · omega
      · have := hr.rng h7; omega
    · rcases h8 with h7 | h7
      · omega
      · have := hr.rng h7; omega
  · refine flatMap_congr' fun n hn => nm_apart (C := []) (A := b.flows ++ [⟨j + 1, s, b.first⟩, ⟨j, b.last, e⟩]) (by simp) (fun f hf => ?_) (by simp)
    have h6 := (hr.ids n hn).1
    simp only [List.mem_append, List.mem_cons, List.not_mem_nil, or_false] at hf
    rcases hf with hf | rfl | rfl
    · have a1 := hb.rng (hb.fend f hf).1
      have a2 := hb.rng (hb.fend f hf).2
      omega
    · simp only; omega
    · simp only; omega

theorem kids_multi {cs : List (PT String)} {s e : Nat} (hg : ∀ c ∈ cs, ∀ k j, Good (body c k j) k j)
    (h : ∀ c ∈ cs, ∀ k j, IsBlock (body c k j) k j c.lang) : ∀ {k j : Nat}, s < 3 * k → e < 3 * k →
    Multi (kdT (bodyKids cs s e k j)) ((bodyKids cs s e k j).ins.map (· + 2)) ((bodyKids cs s e k j).outs.map (· + 2)) (j + 2)
      ((bodyKids cs s e k j).j + 2) (parL (cs.map PT.lang)) := by
  induction cs with
  | nil =>
    intro k j _ _
    simp only [bodyKids, kdT]
    exact multi_nil _
  | cons t ts ih =>
    intro k j hs he
    have hb := hg t (by simp) k (j + 2)
    have hk := hb.kle
    have hr := kgood (s := s) (e := e) (fun c hc => hg c (by simp [hc] : c ∈ t :: ts)) (k := (body t k (j + 2)).k) (j := (body t k (j + 2)).j)
      (cs := ts) (by omega) (by omega)
    rw [kdT_cons hs he hb hr]
    have h1 := h t (by simp) k (j + 2) s e (j + 1) j (.inl hs) (.inl he) (by omega) (by omega) (by omega)
    have h2 := ih (fun c hc => hg c (by simp [hc])) (fun c hc => h c (by simp [hc])) (k := (body t k (j + 2)).k) (j := (body t k (j + 2)).j)
      (by omega) (by omega)
    have h3 := multi_append (multi_flip h1 (a := j + 2) (by omega) (by omega) (by omega)) h2
    simpa [bodyKids, parL] using h3

/-- the moves of the gateways of an exclusive choice -/
def gateTr (ins outs : List Nat) (i o : Nat) : List (Tr String) := ins.map (fun p => ⟨[i], [p], none⟩) ++ outs.map fun p => ⟨[p], [o], none⟩

theorem kids_xor {cs : List (PT String)} {s e : Nat} (hg : ∀ c ∈ cs, ∀ k j, Good (body c k j) k j)
    (h : ∀ c ∈ cs, ∀ k j, IsBlock (body c k j) k j c.lang) (hne : cs ≠ []) : ∀ {k j : Nat}, s < 3 * k → e < 3 * k → ∀ {i o : Nat}, i < j + 2 → o < j + 2 →
    i ≠ o → Block (gateTr ((bodyKids cs s e k j).ins.map (· + 2)) ((bodyKids cs s e k j).outs.map (· + 2)) i o ++ kdT (bodyKids cs s e k j)) i o (j + 2)
      ((bodyKids cs s e k j).j + 2) (xorL (cs.map PT.lang)) := by
  induction cs with
  | nil => exact absurd rfl hne
  | cons t ts ih =>
    intro k j hs he i o hi ho hio
    have hb := hg t (by simp) k (j + 2)
    have hk := hb.kle
    have hj := hb.jle
    have hr := kgood (s := s) (e := e) (fun c hc => hg c (by simp [hc] : c ∈ t :: ts)) (k := (body t k (j + 2)).k) (j := (body t k (j + 2)).j)
      (cs := ts) (by omega) (by omega)
    rw [kdT_cons hs he hb hr]
    have h1 := h t (by simp) k (j + 2) s e (j + 1) j (.inl hs) (.inl he) (by omega) (by omega) (by omega)
    have h2 := block_seq (block_leaf (α := String) none i (j + 1 + 2) (j + 1 + 2 + 1) (by omega) (by omega) (by omega)) h1 (by omega) (by omega) (by omega)
      rfl (by omega)
    have h3 := block_seq h2 (block_leaf (α := String) none (j + 2) o ((body t k (j + 2)).j + 2) (by omega) (by omega) (by omega)) hio (by omega) (by omega)
      (by omega) rfl
    have h4 : Block (([⟨[i], [j + 1 + 2], none⟩] ++ bdT (body t k (j + 2)) s e (j + 1) j) ++ [⟨[j + 2], [o], none⟩]) i o (j + 2)
        ((body t k (j + 2)).j + 2) t.lang := h3.congr fun w => by
      simp [cat, Option.toList]
    cases ts with
    | nil =>
      refine (h4.mono ?_).congr ?_
      · intro x
        simp only [bodyKids, kdT, gateTr, List.map_cons, List.map_nil, List.flatMap_nil, List.append_nil, List.mem_append, List.mem_cons,
          List.not_mem_nil, or_false]
        constructor
        · rintro ((h | h) | h)
          · exact .inl (.inl h)
          · exact .inr h
          · exact .inl (.inr h)
        · rintro ((h | h) | h)
          · exact .inl (.inl h)
          · exact .inr h
          · exact .inl (.inr h)
      · intro w; simp [xorL]
    | cons u us =>
      have h5 := ih (fun c hc => hg c (by simp [hc])) (fun c hc => h c (by simp [hc])) (by simp) (k := (body t k (j + 2)).k)
        (j := (body t k (j + 2)).j) (by omega) (by omega) (i := i) (o := o) (by omega) (by omega) hio
      have h6 := block_xor h4 h5 rfl
      have e1 : bodyKids (t :: u :: us) s e k j = ⟨(body t k (j + 2)).nodes ++ (bodyKids (u :: us) s e (body t k (j + 2)).k (body t k (j + 2)).j).nodes,
        (body t k (j + 2)).flows ++ [⟨j + 1, s, (body t k (j + 2)).first⟩, ⟨j, (body t k (j + 2)).last, e⟩] ++
          (bodyKids (u :: us) s e (body t k (j + 2)).k (body t k (j + 2)).j).flows,
        (j + 1) :: (bodyKids (u :: us) s e (body t k (j + 2)).k (body t k (j + 2)).j).ins,
        j :: (bodyKids (u :: us) s e (body t k (j + 2)).k (body t k (j + 2)).j).outs,
        (bodyKids (u :: us) s e (body t k (j + 2)).k (body t k (j + 2)).j).k, (bodyKids (u :: us) s e (body t k (j + 2)).k (body t k (j + 2)).j).j⟩ := by
        rw [bodyKids]
      rw [e1]
      refine (h6.mono ?_).congr ?_
      · intro x
        simp only [gateTr, List.map_cons, List.mem_append, List.mem_cons, List.not_mem_nil, or_false, kdT]
        tauto
      · intro w; simp [xorL]

/-- the flows at the two gateways -/
theorem gate_flows {r : Kd} {k s e j : Nat} (hr : KGood r s e k j) (hs : s < 3 * k) (he : e < 3 * k) (hse : s ≠ e) :
    inF r.flows s = [] ∧ outF r.flows e = [] ∧ (outF r.flows s).map Flow.id = r.ins ∧ (inF r.flows e).map Flow.id = r.outs := by
  refine ⟨inF_nil fun f hf => ?_, outF_nil fun f hf => ?_, hr.outS, hr.inE⟩
  · rcases (hr.fend f hf).2 with h | h
    · omega
    · have := hr.rng h; omega
  · rcases (hr.fend f hf).1 with h | h
    · omega
    · have := hr.rng h; omega

/-- the moves of the children do not see the flows of the gateways to the outside -/
theorem kdT_gate {r : Kd} {s e k j src tgt fi fo x y : Nat} (hr : KGood r s e k j) (hsrc : src < 3 * k ∨ 3 * r.k ≤ src) (htgt : tgt < 3 * k ∨ 3 * r.k ≤ tgt)
    (hx : x < 3 * k) (hy : y < 3 * k) : r.nodes.flatMap (nm (r.flows ++ [⟨fi, src, x⟩, ⟨fo, y, tgt⟩])) = kdT r := by
  refine flatMap_congr' fun n hn => nm_apart (A := []) (C := [⟨fi, src, x⟩, ⟨fo, y, tgt⟩]) (by simp) (by simp) fun f hf => ?_
  have h6 := hr.ids n hn
  have a1 := h6.1; have a2 := h6.2.1
  simp only [List.mem_cons, List.not_mem_nil, or_false] at hf
  rcases hf with rfl | rfl <;> simp only <;> omega

theorem inF_two (a b c d e f x : Nat) : inF [⟨a, b, c⟩, ⟨d, e, f⟩] x = (if c = x then [⟨a, b, c⟩] else []) ++ (if f = x then [⟨d, e, f⟩] else []) := by
  unfold inF
  by_cases h1 : c = x <;> by_cases h2 : f = x <;> simp [h1, h2]
theorem outF_two (a b c d e f x : Nat) : outF [⟨a, b, c⟩, ⟨d, e, f⟩] x = (if b = x then [⟨a, b, c⟩] else []) ++ (if e = x then [⟨d, e, f⟩] else []) := by
  unfold outF
  by_cases h1 : b = x <;> by_cases h2 : e = x <;> simp [h1, h2]

theorem block_xorBody {cs : List (PT String)} (hg : ∀ c ∈ cs, ∀ k j, Good (body c k j) k j)
    (h : ∀ c ∈ cs, ∀ k j, IsBlock (body c k j) k j c.lang) (hne : cs ≠ []) (k j : Nat) :
    IsBlock (body (.node .xor cs) k j) k j (PT.lang (.node .xor cs)) := by
  intro src tgt fi fo hsrc htgt hfi hfo hio
  have hr := kgood (s := 3 * k + 2) (e := 3 * (k + 1) + 2) hg (k := k + 2) (j := j) (by omega) (by omega)
  have hB := kids_xor (s := 3 * k + 2) (e := 3 * (k + 1) + 2) hg h hne (k := k + 2) (j := j) (by omega) (by omega) (i := fi + 2) (o := fo + 2) (by omega)
    (by omega) (by omega)
  simp only [body] at hsrc htgt
  simp only [body, bdT, List.cons_append, List.nil_append, List.flatMap_cons, PT.lang_node, PT.opLang]
  generalize bodyKids cs (3 * k + 2) (3 * (k + 1) + 2) (k + 2) j = r at *
  have hk := hr.kle
  obtain ⟨g1, g2, g3, g4⟩ := gate_flows hr (by omega) (by omega) (by omega)
  rw [kdT_gate hr (by omega) (by omega) (by omega) (by omega)]
  refine hB.mono fun t => ?_
  have i1 : inF (r.flows ++ [⟨fi, src, 3 * k + 2⟩, ⟨fo, 3 * (k + 1) + 2, tgt⟩]) (3 * k + 2) = [⟨fi, src, 3 * k + 2⟩] := by
    rw [inF_append, g1, inF_two, if_pos rfl, if_neg (by omega)]; rfl
  have i2 : outF (r.flows ++ [⟨fi, src, 3 * k + 2⟩, ⟨fo, 3 * (k + 1) + 2, tgt⟩]) (3 * k + 2) = outF r.flows (3 * k + 2) := by
    rw [outF_append, outF_two, if_neg (by omega), if_neg (by omega)]; simp
  have i3 : inF (r.flows ++ [⟨fi, src, 3 * k + 2⟩, ⟨fo, 3 * (k + 1) + 2, tgt⟩]) (3 * (k + 1) + 2) = inF r.flows (3 * (k + 1) + 2) := by
    rw [inF_append, inF_two, if_neg (by omega), if_neg (by omega)]; simp
  have i4 : outF (r.flows ++ [⟨fi, src, 3 * k + 2⟩, ⟨fo, 3 * (k + 1) + 2, tgt⟩]) (3 * (k + 1) + 2) = [⟨fo, 3 * (k + 1) + 2, tgt⟩] := by
    rw [outF_append, g2, outF_two, if_neg (by omega), if_pos rfl]; rfl
  simp only [gateTr, List.mem_append, List.mem_map]
  rw [mem_nm_xor rfl, mem_nm_xor rfl, i1, i2, i3, i4, ← g3, ← g4, ← or_assoc]
  refine or_congr (or_congr ?_ ?_) Iff.rfl
  · simp only [List.mem_map, List.mem_cons, List.not_mem_nil, or_false]
    constructor
    · rintro ⟨_, ⟨_, ⟨f, hf, rfl⟩, rfl⟩, rfl⟩; exact ⟨_, rfl, f, hf, rfl⟩
    · rintro ⟨_, rfl, f, hf, rfl⟩; exact ⟨_, ⟨_, ⟨f, hf, rfl⟩, rfl⟩, rfl⟩
  · simp only [List.mem_map, List.mem_cons, List.not_mem_nil, or_false]
    constructor
    · rintro ⟨_, ⟨_, ⟨f, hf, rfl⟩, rfl⟩, rfl⟩; exact ⟨f, hf, _, rfl, rfl⟩
    · rintro ⟨f, hf, _, rfl, rfl⟩; exact ⟨_, ⟨_, ⟨f, hf, rfl⟩, rfl⟩, rfl⟩

theorem ins_ne {cs : List (PT String)} (hne : cs ≠ []) (s e k j : Nat) : (bodyKids cs s e k j).ins ≠ [] ∧ (bodyKids cs s e k j).outs ≠ [] := by
  cases cs with
  | nil => exact absurd rfl hne
  | cons t ts => simp [bodyKids]

theorem block_parBody {cs : List (PT String)} (hg : ∀ c ∈ cs, ∀ k j, Good (body c k j) k j)
    (h : ∀ c ∈ cs, ∀ k j, IsBlock (body c k j) k j c.lang) (hne : cs ≠ []) (k j : Nat) :
    IsBlock (body (.node .par cs) k j) k j (PT.lang (.node .par cs)) := by
  intro src tgt fi fo hsrc htgt hfi hfo hio
  have hr := kgood (s := 3 * k + 2) (e := 3 * (k + 1) + 2) hg (k := k + 2) (j := j) (by omega) (by omega)
  have hB := kids_multi (s := 3 * k + 2) (e := 3 * (k + 1) + 2) hg h (k := k + 2) (j := j) (by omega) (by omega)
  have hn := ins_ne hne (3 * k + 2) (3 * (k + 1) + 2) (k + 2) j
  simp only [body] at hsrc htgt
  simp only [body, bdT, List.cons_append, List.nil_append, List.flatMap_cons, PT.lang_node, PT.opLang]
  generalize bodyKids cs (3 * k + 2) (3 * (k + 1) + 2) (k + 2) j = r at *
  have hk := hr.kle
  obtain ⟨g1, g2, g3, g4⟩ := gate_flows hr (by omega) (by omega) (by omega)
  rw [kdT_gate hr (by omega) (by omega) (by omega) (by omega)]
  have i1 : inF (r.flows ++ [⟨fi, src, 3 * k + 2⟩, ⟨fo, 3 * (k + 1) + 2, tgt⟩]) (3 * k + 2) = [⟨fi, src, 3 * k + 2⟩] := by
    rw [inF_append, g1, inF_two, if_pos rfl, if_neg (by omega)]; rfl
  have i2 : outF (r.flows ++ [⟨fi, src, 3 * k + 2⟩, ⟨fo, 3 * (k + 1) + 2, tgt⟩]) (3 * k + 2) = outF r.flows (3 * k + 2) := by
    rw [outF_append, outF_two, if_neg (by omega), if_neg (by omega)]; simp
  have i3 : inF (r.flows ++ [⟨fi, src, 3 * k + 2⟩, ⟨fo, 3 * (k + 1) + 2, tgt⟩]) (3 * (k + 1) + 2) = inF r.flows (3 * (k + 1) + 2) := by
    rw [inF_append, inF_two, if_neg (by omega), if_neg (by omega)]; simp
  have i4 : outF (r.flows ++ [⟨fi, src, 3 * k + 2⟩, ⟨fo, 3 * (k + 1) + 2, tgt⟩]) (3 * (k + 1) + 2) = [⟨fo, 3 * (k + 1) + 2, tgt⟩] := by
    rw [outF_append, g2, outF_two, if_neg (by omega), if_pos rfl]; rfl
  have n1 : outF r.flows (3 * k + 2) ≠ [] := by intro e; rw [e] at g3; exact hn.1 g3.symm
  have n2 : inF r.flows (3 * (k + 1) + 2) ≠ [] := by intro e; rw [e] at g4; exact hn.2 g4.symm
  have p1 : nm (r.flows ++ [⟨fi, src, 3 * k + 2⟩, ⟨fo, 3 * (k + 1) + 2, tgt⟩]) ⟨3 * k + 2, .par, ""⟩ = [⟨[fi + 2], r.ins.map (· + 2), none⟩] := by
    rw [nm_par rfl (by rw [i1]; simp) (by rw [i2]; exact n1), i1, i2, ← g3]
    simp [flowPlace, Function.comp_def]
  have p2 : nm (r.flows ++ [⟨fi, src, 3 * k + 2⟩, ⟨fo, 3 * (k + 1) + 2, tgt⟩]) ⟨3 * (k + 1) + 2, .par, ""⟩ = [⟨r.outs.map (· + 2), [fo + 2], none⟩] := by
    rw [nm_par rfl (by rw [i3]; exact n2) (by rw [i4]; simp), i3, i4, ← g4]
    simp [flowPlace, Function.comp_def]
  rw [p1, p2]
  exact block_par hB (by omega) (by omega) (by omega) (by simpa using hn.2)

theorem block_link {b r : Bd} {k j k1 : Nat} {L1 L2 : Lang String} (hb : Good b k (j + 1)) (hr : Good r k1 b.j) (h : b.k ≤ k1)
    (B1 : IsBlock b k (j + 1) L1) (B2 : IsBlock r k1 b.j L2) :
    IsBlock ⟨b.nodes ++ r.nodes, b.flows ++ r.flows ++ [⟨j, b.last, r.first⟩], b.first, r.last, r.k, r.j⟩ k j (cat L1 L2) := by
  intro src tgt fi fo hsrc htgt hfi hfo hio
  simp only at hsrc htgt
  have h1 := hb.kle; have h2 := hr.kle; have h3 := hb.jle; have h4 := hr.jle
  have f1 := hb.rng hb.first; have f2 := hb.rng hb.last; have f3 := hr.rng hr.first; have f4 := hr.rng hr.last
  have c1 := B1 src r.first fi j (by omega) (by omega) (by omega) (by omega) (by omega)
  have c2 := B2 b.last tgt j fo (by omega) (by omega) (by omega) (by omega) (by omega)
  have c3 := block_seq c1 c2 (by omega) (by omega) (by omega) (by omega) rfl
  have e1 : bdT b src r.first fi j = b.nodes.flatMap (nm (b.flows ++ r.flows ++ [⟨j, b.last, r.first⟩] ++ [⟨fi, src, b.first⟩, ⟨fo, r.last, tgt⟩])) := by
    refine flatMap_congr' fun n hn => ?_
    have h6 := hb.ids n hn
    have a1 := h6.1; have a2 := h6.2.1
    apply nm_congr
    · rw [inF_append, inF_append, inF_append, inF_append, inF_two, inF_two, inF_nil (A := r.flows) (fun f hf => by
        have := hr.rng (hr.fend f hf).2; omega), inF_nil (A := [⟨j, b.last, r.first⟩]) (by simp; omega), if_neg (by omega : r.first ≠ n.id), if_neg (by omega : tgt ≠ n.id)]
      simp
    · rw [outF_append, outF_append, outF_append, outF_append, outF_two, outF_two, outF_nil (A := r.flows) (fun f hf => by
        have := hr.rng (hr.fend f hf).1; omega), if_neg (by omega : src ≠ n.id), if_neg (by omega : r.last ≠ n.id)]
      by_cases e : b.last = n.id <;> simp [e, outF]
  have e2 : bdT r b.last tgt j fo = r.nodes.flatMap (nm (b.flows ++ r.flows ++ [⟨j, b.last, r.first⟩] ++ [⟨fi, src, b.first⟩, ⟨fo, r.last, tgt⟩])) := by
    refine flatMap_congr' fun n hn => ?_
    have h6 := hr.ids n hn
    have a1 := h6.1; have a2 := h6.2.1
    apply nm_congr
    · rw [inF_append, inF_append, inF_append, inF_append, inF_two, inF_two, inF_nil (A := b.flows) (fun f hf => by
        have := hb.rng (hb.fend f hf).2; omega), if_neg (by omega : tgt ≠ n.id), if_neg (by omega : b.first ≠ n.id)]
      by_cases e : r.first = n.id <;> simp [e, inF]
    · rw [outF_append, outF_append, outF_append, outF_append, outF_two, outF_two, outF_nil (A := b.flows) (fun f hf => by
        have := hb.rng (hb.fend f hf).1; omega), outF_nil (A := [⟨j, b.last, r.first⟩]) (by simp; omega), if_neg (by omega : b.last ≠ n.id),
        if_neg (by omega : src ≠ n.id)]
      simp
  simp only [bdT, List.flatMap_append]
  rw [← e1, ← e2]
  exact c3

theorem IsBlock.weakk {b : Bd} {k j k' : Nat} {L : Lang String} (h : IsBlock b k j L) (hk : b.k ≤ k') : IsBlock { b with k := k' } k j L := by
  intro src tgt fi fo h1 h2 h3 h4 h5
  simp only at h1 h2
  exact h src tgt fi fo (by omega) (by omega) h3 h4 h5

theorem IsBlock.lowk {b : Bd} {k j k' : Nat} {L : Lang String} (h : IsBlock b k j L) (hk : k' ≤ k) : IsBlock b k' j L := by
  intro src tgt fi fo h1 h2 h3 h4 h5
  exact h src tgt fi fo (by omega) (by omega) h3 h4 h5

theorem block_seqBody {cs : List (PT String)} (hg : ∀ c ∈ cs, ∀ k j, Good (body c k j) k j)
    (h : ∀ c ∈ cs, ∀ k j, IsBlock (body c k j) k j c.lang) (hne : cs ≠ []) : ∀ k j, IsBlock (bodySeq cs k j) k j (seqL (cs.map PT.lang)) := by
  induction cs with
  | nil => exact absurd rfl hne
  | cons t ts ih =>
    intro k j
    simp only [bodySeq]
    cases ts with
    | nil =>
      simp only [List.isEmpty_nil, if_pos]
      intro src tgt fi fo h1 h2 h3 h4 h5
      exact ((h t (by simp) k j).weakk (by omega) src tgt fi fo h1 h2 h3 h4 h5).congr fun w => by simp [seqL, cat, eps]
    | cons u us =>
      simp only [List.isEmpty_cons, Bool.false_eq_true, if_false]
      have hg' : ∀ c ∈ u :: us, ∀ k j, Good (body c k j) k j := fun c hc => hg c (List.mem_cons_of_mem _ hc)
      refine block_link (k1 := if (u :: us).length = 1 then (body t k (j + 1)).k else (body t k (j + 1)).k + 1) (hg t (by simp) k (j + 1)) (good_seq hg' (by simp) _ _) ?_ (h t (by simp) k (j + 1))
        (ih hg' (fun c hc => h c (List.mem_cons_of_mem _ hc)) (by simp) _ _)
      split <;> omega

theorem block_loopBody {c : PT String} {cs : List (PT String)} (hgc : ∀ k j, Good (body c k j) k j) (hc : ∀ k j, IsBlock (body c k j) k j c.lang)
    (hg : ∀ c ∈ cs, ∀ k j, Good (body c k j) k j) (h : ∀ c ∈ cs, ∀ k j, IsBlock (body c k j) k j c.lang) (k j : Nat) :
    IsBlock (body (.node .loop (c :: cs)) k j) k j (PT.lang (.node .loop (c :: cs))) := by
  intro src tgt fi fo hsrc htgt hfi hfo hio
  have hb := hgc (k + 2) (j + 2)
  have hbk := hb.kle; have hbj := hb.jle
  have hr := kgood (s := 3 * k + 2) (e := 3 * (k + 1) + 2) hg (k := (body c (k + 2) (j + 2)).k) (j := (body c (k + 2) (j + 2)).j) (by omega) (by omega)
  have B0 := hc (k + 2) (j + 2) (3 * (k + 1) + 2) (3 * k + 2) j (j + 1) (by omega) (by omega) (by omega) (by omega) (by omega)
  have BR := fun hne => kids_xor (s := 3 * k + 2) (e := 3 * (k + 1) + 2) hg h hne (k := (body c (k + 2) (j + 2)).k)
    (j := (body c (k + 2) (j + 2)).j) (by omega) (by omega) (i := j + 1 + 2) (o := j + 2) (by omega) (by omega) (by omega)
  have hnil : cs = [] → (bodyKids cs (3 * k + 2) (3 * (k + 1) + 2) (body c (k + 2) (j + 2)).k (body c (k + 2) (j + 2)).j) =
      ⟨[], [], [], [], (body c (k + 2) (j + 2)).k, (body c (k + 2) (j + 2)).j⟩ := by
    rintro rfl; simp [bodyKids]
  simp only [body] at hsrc htgt
  simp only [body, bdT, List.cons_append, List.nil_append, List.flatMap_cons, List.flatMap_append, PT.lang_node, PT.opLang, List.map_cons]
  generalize body c (k + 2) (j + 2) = b at *
  generalize bodyKids cs (3 * k + 2) (3 * (k + 1) + 2) b.k b.j = r at *
  have hrk := hr.kle
  have f1 := hb.rng hb.first; have f2 := hb.rng hb.last
  obtain ⟨g1, g2, g3, g4⟩ := gate_flows hr (by omega) (by omega) (by omega)
  have e1 : b.nodes.flatMap (nm (b.flows ++ [⟨j, 3 * (k + 1) + 2, b.first⟩, ⟨j + 1, b.last, 3 * k + 2⟩] ++ r.flows ++
      [⟨fi, src, 3 * (k + 1) + 2⟩, ⟨fo, 3 * k + 2, tgt⟩])) = bdT b (3 * (k + 1) + 2) (3 * k + 2) j (j + 1) := by
    refine flatMap_congr' fun n hn => nm_apart (A := []) (C := r.flows ++ [⟨fi, src, 3 * (k + 1) + 2⟩, ⟨fo, 3 * k + 2, tgt⟩]) (by simp) (by simp)
      fun f hf => ?_
    have h6 := hb.ids n hn
    have a1 := h6.1; have a2 := h6.2.1
    simp only [List.mem_append, List.mem_cons, List.not_mem_nil, or_false] at hf
    rcases hf with hf | rfl | rfl
    · obtain ⟨h7, h8⟩ := hr.fend f hf
      constructor
      · rcases h7 with h7 | h7
        · omega
        · have := hr.rng h7; omega
      · rcases h8 with h7 | h7
        · omega
        · have := hr.rng h7; omega
    · simp only; omega
    · simp only; omega
  have e2 : r.nodes.flatMap (nm (b.flows ++ [⟨j, 3 * (k + 1) + 2, b.first⟩, ⟨j + 1, b.last, 3 * k + 2⟩] ++ r.flows ++
      [⟨fi, src, 3 * (k + 1) + 2⟩, ⟨fo, 3 * k + 2, tgt⟩])) = kdT r := by
    refine flatMap_congr' fun n hn => nm_apart (A := b.flows ++ [⟨j, 3 * (k + 1) + 2, b.first⟩, ⟨j + 1, b.last, 3 * k + 2⟩])
      (C := [⟨fi, src, 3 * (k + 1) + 2⟩, ⟨fo, 3 * k + 2, tgt⟩]) (by simp) (fun f hf => ?_) (fun f hf => ?_)
    · have h6 := (hr.ids n hn).1
      simp only [List.mem_append, List.mem_cons, List.not_mem_nil, or_false] at hf
      rcases hf with hf | rfl | rfl
      · have a1 := hb.rng (hb.fend f hf).1
        have a2 := hb.rng (hb.fend f hf).2
        omega
      · simp only; omega
      · simp only; omega
    · have h6 := hr.ids n hn
      have a1 := h6.1; have a2 := h6.2.1
      simp only [List.mem_cons, List.not_mem_nil, or_false] at hf
      rcases hf with rfl | rfl <;> simp only <;> omega
  rw [e1, e2]
  -- the flows at the gateways
  have z1 : ∀ x, x < 3 * (k + 2) → inF b.flows x = [] ∧ outF b.flows x = [] := fun x hx =>
    ⟨inF_nil fun f hf => by have := hb.rng (hb.fend f hf).2; omega, outF_nil fun f hf => by have := hb.rng (hb.fend f hf).1; omega⟩
  have i1 : inF (b.flows ++ [⟨j, 3 * (k + 1) + 2, b.first⟩, ⟨j + 1, b.last, 3 * k + 2⟩] ++ r.flows ++
      [⟨fi, src, 3 * (k + 1) + 2⟩, ⟨fo, 3 * k + 2, tgt⟩]) (3 * k + 2) = [⟨j + 1, b.last, 3 * k + 2⟩] := by
    rw [inF_append, inF_append, inF_append, g1, (z1 _ (by omega)).1, inF_two, inF_two, if_neg (by omega), if_pos rfl, if_neg (by omega),
      if_neg (by omega)]; rfl
  have i2 : outF (b.flows ++ [⟨j, 3 * (k + 1) + 2, b.first⟩, ⟨j + 1, b.last, 3 * k + 2⟩] ++ r.flows ++
      [⟨fi, src, 3 * (k + 1) + 2⟩, ⟨fo, 3 * k + 2, tgt⟩]) (3 * k + 2) = outF r.flows (3 * k + 2) ++ [⟨fo, 3 * k + 2, tgt⟩] := by
    rw [outF_append, outF_append, outF_append, (z1 _ (by omega)).2, outF_two, outF_two, if_neg (by omega), if_neg (by omega), if_neg (by omega),
      if_pos rfl]; simp
  have i3 : inF (b.flows ++ [⟨j, 3 * (k + 1) + 2, b.first⟩, ⟨j + 1, b.last, 3 * k + 2⟩] ++ r.flows ++
      [⟨fi, src, 3 * (k + 1) + 2⟩, ⟨fo, 3 * k + 2, tgt⟩]) (3 * (k + 1) + 2) = inF r.flows (3 * (k + 1) + 2) ++ [⟨fi, src, 3 * (k + 1) + 2⟩] := by
    rw [inF_append, inF_append, inF_append, (z1 _ (by omega)).1, inF_two, inF_two, if_neg (by omega), if_neg (by omega), if_pos rfl,
      if_neg (by omega)]; simp
  have i4 : outF (b.flows ++ [⟨j, 3 * (k + 1) + 2, b.first⟩, ⟨j + 1, b.last, 3 * k + 2⟩] ++ r.flows ++
      [⟨fi, src, 3 * (k + 1) + 2⟩, ⟨fo, 3 * k + 2, tgt⟩]) (3 * (k + 1) + 2) = [⟨j, 3 * (k + 1) + 2, b.first⟩] := by
    rw [outF_append, outF_append, outF_append, g2, (z1 _ (by omega)).2, outF_two, outF_two, if_pos rfl, if_neg (by omega), if_neg (by omega),
      if_neg (by omega)]; rfl
  have mS : ∀ t, t ∈ nm (b.flows ++ [⟨j, 3 * (k + 1) + 2, b.first⟩, ⟨j + 1, b.last, 3 * k + 2⟩] ++ r.flows ++
      [⟨fi, src, 3 * (k + 1) + 2⟩, ⟨fo, 3 * k + 2, tgt⟩]) ⟨3 * k + 2, .xor, ""⟩ ↔ t = ⟨[j + 1 + 2], [fo + 2], none⟩ ∨
      t ∈ (r.ins.map (· + 2)).map (fun p => (⟨[j + 1 + 2], [p], none⟩ : Tr String)) := by
    intro t
    rw [mem_nm_xor rfl, i1, i2, ← g3]
    simp only [List.mem_map, List.mem_cons, List.not_mem_nil, or_false, List.mem_append]
    constructor
    · rintro ⟨f, rfl, e, he | rfl, rfl⟩
      · exact .inr ⟨_, ⟨_, ⟨e, he, rfl⟩, rfl⟩, rfl⟩
      · exact .inl rfl
    · rintro (rfl | ⟨_, ⟨_, ⟨e, he, rfl⟩, rfl⟩, rfl⟩)
      · exact ⟨_, rfl, _, .inr rfl, rfl⟩
      · exact ⟨_, rfl, e, .inl he, rfl⟩
  have mJ : ∀ t, t ∈ nm (b.flows ++ [⟨j, 3 * (k + 1) + 2, b.first⟩, ⟨j + 1, b.last, 3 * k + 2⟩] ++ r.flows ++
      [⟨fi, src, 3 * (k + 1) + 2⟩, ⟨fo, 3 * k + 2, tgt⟩]) ⟨3 * (k + 1) + 2, .xor, ""⟩ ↔ t = ⟨[fi + 2], [j + 2], none⟩ ∨
      t ∈ (r.outs.map (· + 2)).map (fun p => (⟨[p], [j + 2], none⟩ : Tr String)) := by
    intro t
    rw [mem_nm_xor rfl, i3, i4, ← g4]
    simp only [List.mem_map, List.mem_cons, List.not_mem_nil, or_false, List.mem_append]
    constructor
    · rintro ⟨f, hf | rfl, e, rfl, rfl⟩
      · exact .inr ⟨_, ⟨_, ⟨f, hf, rfl⟩, rfl⟩, rfl⟩
      · exact .inl rfl
    · rintro (rfl | ⟨_, ⟨_, ⟨f, hf, rfl⟩, rfl⟩, rfl⟩)
      · exact ⟨_, .inr rfl, _, rfl, rfl⟩
      · exact ⟨f, .inl hf, _, rfl, rfl⟩
  by_cases hne : cs = []
  · rw [hnil hne] at mS mJ ⊢
    subst hne
    have c1 := block_seq B0 (block_leaf (α := String) none (j + 1 + 2) (fo + 2) (b.j + 2) (by omega) (by omega) (by omega)) (by omega) (by omega) (by omega)
      (by omega) rfl
    have c2 := block_seq (block_leaf (α := String) none (fi + 2) (j + 2) (j + 3) (by omega) (by omega) (by omega)) c1 (by omega) (by omega) (by omega) rfl
      (by omega)
    refine (c2.mono fun t => ?_).congr fun w => ?_
    · simp only [List.mem_append, List.mem_cons, List.not_mem_nil, or_false, mS, mJ, List.map_nil, kdT, List.flatMap_nil]
      tauto
    · simp only [cat, Option.toList, List.map_nil]
      constructor
      · rintro ⟨_, _, rfl, ⟨u, _, hu, rfl, rfl⟩, rfl⟩
        simpa using loopL.exit hu
      · intro hl
        cases hl with
        | exit hd => exact ⟨[], w, rfl, ⟨w, [], hd, rfl, by simp⟩, rfl⟩
        | again R _ hR => simp at hR
  · have c1 := block_loop2 B0 (BR hne) (i := fi + 2) (o := fo + 2) (by omega) (by omega) (by omega) (by omega) (by omega) rfl
    refine (c1.mono fun t => ?_).congr fun w => loopL_xor _ _ w
    simp only [loopTr2, gateTr, List.mem_cons, List.mem_append, mS, mJ]
    constructor
    · rintro (h | h | h | (h | h) | h)
      · exact .inr (.inl (.inl h))
      · exact .inl (.inl h)
      · exact .inr (.inr (.inl h))
      · exact .inl (.inr h)
      · exact .inr (.inl (.inr h))
      · exact .inr (.inr (.inr h))
    · rintro ((h | h) | (h | h) | h | h)
      · exact .inr (.inl h)
      · exact .inr (.inr (.inr (.inl (.inl h))))
      · exact .inl h
      · exact .inr (.inr (.inr (.inl (.inr h))))
      · exact .inr (.inr (.inl h))
      · exact .inr (.inr (.inr (.inr h)))

/-- the moves of the graph of a convertible tree realise the language of the tree -/
theorem block_body {t : PT String} (h : Convertible t) : ∀ k j, IsBlock (body t k j) k j t.lang := by
  induction h with
  | tau =>
    intro k j src tgt fi fo hs ht h1 h2 h3
    simp only [body] at hs ht
    have : bdT (body (.leaf none) k j) src tgt fi fo = [⟨[fi + 2], [fo + 2], none⟩] := by
      simp only [body, bdT, List.nil_append, List.flatMap_cons, List.flatMap_nil, List.append_nil]
      rw [nm_task rfl (f := ⟨fi, src, 3 * k + 1⟩) (e := ⟨fo, 3 * k + 1, tgt⟩)]
      · simp
      · rw [inF_two, if_pos rfl, if_neg (by simp only; omega)]; rfl
      · rw [outF_two, if_neg (by simp only; omega), if_pos rfl]; rfl
    rw [this]
    simp only [body]
    exact (block_leaf none (fi + 2) (fo + 2) (j + 2) (by omega) (by omega) (by omega)).congr fun w => by simp [eps]
  | @act a ha =>
    intro k j src tgt fi fo hs ht h1 h2 h3
    simp only [body] at hs ht
    have : bdT (body (.leaf (some a)) k j) src tgt fi fo = [⟨[fi + 2], [fo + 2], some a⟩] := by
      simp only [body, bdT, List.nil_append, List.flatMap_cons, List.flatMap_nil, List.append_nil]
      rw [nm_task rfl (f := ⟨fi, src, 3 * k + 2⟩) (e := ⟨fo, 3 * k + 2, tgt⟩)]
      · simp [ha]
      · rw [inF_two, if_pos rfl, if_neg (by simp only; omega)]; rfl
      · rw [outF_two, if_neg (by simp only; omega), if_pos rfl]; rfl
    rw [this]
    simp only [body]
    exact (block_leaf (some a) (fi + 2) (fo + 2) (j + 2) (by omega) (by omega) (by omega)).congr fun w => by simp
  | xor hne hc ih => exact block_xorBody (fun c hc' => good_body (hc c hc')) ih hne
  | par hne hc ih => exact block_parBody (fun c hc' => good_body (hc c hc')) ih hne
  | @seq cs hl hc ih =>
    intro k j
    have := (block_seqBody (fun c hc' => good_body (hc c hc')) ih (by intro e; rw [e] at hl; simp at hl) (k + 1) j).lowk (k' := k) (by omega)
    simpa [body, PT.lang_node, PT.opLang] using this
  | loop hc hcs ih1 ih2 => exact block_loopBody (good_body hc) ih1 (fun c hc' => good_body (hcs c hc')) ih2

end TreeBpmn
end Verif
